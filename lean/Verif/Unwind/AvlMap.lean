import Verif.Unwind.AvlSpec
import Verif.Avl.Reach
/-!
# `AvlMap` when `Clone` panics: the map
-/
set_option linter.unusedVariables false
namespace Verif.Avl
open Verif.Wild Verif.Unwind Std
universe w
variable {σ : Type w} {K V : Type}

/-- avl.rs:110-113 `AvlMap`, the nodes marked. -/
structure SMap (K V : Type) where
  len : Nat
  root : STree K V
  deriving DecidableEq, Repr

namespace SMap

/-- The map without the marks. -/
def erase (m : SMap K V) : AvlMap K V := ⟨m.len, m.root.erase⟩

/-- The entries. -/
def ents (m : SMap K V) : List (K × V) := m.root.ents

/-- A map that shares nothing. -/
def ofMap (m : AvlMap K V) : SMap K V := ⟨m.len, .ofTree m.root⟩

/-- `Clone` of the map (derived, avl.rs:110) copies the link to the root. -/
def share (m : SMap K V) : SMap K V := ⟨m.len, m.root.shareIf true⟩

/-- avl.rs:1359-1361 `new`, 1009-1012 `clear`. -/
def new : SMap K V := ⟨0, .nil⟩

/-- avl.rs:1145-1153 `insert`. -/
def insertC [Ord K] (c : Cl σ K V) (k : K) (v : V) (m : SMap K V) (s : σ) :
    Option (Ends (SMap K V) (SMap K V × Option V) × σ) :=
  match m.root.insC c k v false s with
  | none => none
  | some (.unwound t, s) => some (.unwound ⟨m.len, t⟩, s)
  | some (.done (t, old, _), s) =>
    some (.done (⟨m.len + (if old.isNone then 1 else 0), t⟩, old), s)

/-- avl.rs:1116-1133 `get_mut` and a write. -/
def getMutC (c : Cl σ K V) (p : K → Ordering) (g : V → V) (m : SMap K V) (s : σ) :
    Option (Ends (SMap K V) (SMap K V × Bool) × σ) :=
  match m.root.getMutC c p g false s with
  | (.unwound t, s) => some (.unwound ⟨m.len, t⟩, s)
  | (.done (t, b), s) => some (.done (⟨m.len, t⟩, b), s)

/-- `self.len -= 1` and return; reached only if nothing was unwound. -/
def popWithC (len : Nat) :
    Option (Ends (STree K V) (STree K V × Option (K × V) × Bool) × σ) →
    Option (Ends (SMap K V) (SMap K V × Option (K × V)) × σ)
  | none => none
  | some (.unwound t, s) => some (.unwound ⟨len, t⟩, s)
  | some (.done (t, none, _), s) => some (.done (⟨len, t⟩, none), s)
  | some (.done (t, some kv, _), s) =>
    if len = 0 then none else some (.done (⟨len - 1, t⟩, some kv), s)

/-- avl.rs:1732-1742 `remove_entry`, 1503-1511 `pop_first`, 1523-1531 `pop_last`. -/
def takeC (c : Cl σ K V) (w : Which K) (m : SMap K V) (s : σ) :
    Option (Ends (SMap K V) (SMap K V × Option (K × V)) × σ) :=
  popWithC m.len (match w with
    | .key p => m.root.rmC c p false s
    | .first => m.root.rmLeftmostC c false s
    | .last => m.root.rmRightmostC c false s)

/-- The operations of `AvlMap`. -/
def kit [Ord K] : Kit σ K V (SMap K V) (Which K) := ⟨new, share, insertC, getMutC, takeC⟩

/-- What the removal does when nothing panics. -/
def _root_.Verif.Avl.AvlMap.take (w : Which K) (m : AvlMap K V) :
    Option (AvlMap K V × Option (K × V)) :=
  match w with
  | .key p => m.removeEntry p
  | .first => m.popFirst
  | .last => m.popLast

@[simp] theorem erase_share (m : SMap K V) : m.share.erase = m.erase := by
  simp [share, erase]

@[simp] theorem erase_ofMap (m : AvlMap K V) : (ofMap m).erase = m := by
  simp [ofMap, erase]

theorem ents_erase (m : SMap K V) : m.ents = m.erase.abs := rfl

variable [Ord K] [TransOrd K]

theorem insertC_spec {m : SMap K V} (hm : m.erase.WF) (c : Cl σ K V) (k : K) (v : V) (s : σ) :
    ∃ q s', m.insertC c k v s = some (q, s') ∧ match q with
      | .unwound m' => m'.erase = m.erase ∧ Bad c
      | .done (m', o) => m.erase.insert k v = some (m'.erase, o) := by
  obtain ⟨m1, e1, -⟩ := AvlMap.insert_spec hm k v
  simp only [AvlMap.insert] at e1
  cases hx : Tree.ins k v m.root.erase with
  | none => simp only [erase, hx] at e1; cases e1
  | some x =>
    obtain ⟨q, s', e, hq⟩ := STree.insC_spec c k v m.root false s hx
    simp only [insertC, e]
    rcases q with t | ⟨t, o, tl⟩
    · exact ⟨_, _, rfl, by simp only [erase]; rw [hq.1], hq.2⟩
    · refine ⟨_, _, rfl, ?_⟩
      obtain ⟨rfl, -⟩ := hq
      simp only [AvlMap.insert, erase, hx]

theorem getMutC_spec (m : SMap K V) (c : Cl σ K V) (p : K → Ordering) (g : V → V) (s : σ) :
    ∃ q s', m.getMutC c p g s = some (q, s') ∧ match q with
      | .unwound m' => m'.erase = m.erase ∧ Bad c
      | .done (m', b) => m.erase.getMut p g = (m'.erase, b) := by
  have h := STree.getMutC_spec c p g m.root false s
  simp only [getMutC]
  generalize m.root.getMutC c p g false s = x at h
  rcases x with ⟨t | ⟨t, b⟩, s'⟩
  · exact ⟨_, _, rfl, by simp only [erase]; rw [h.1], h.2⟩
  · refine ⟨_, _, rfl, ?_⟩
    dsimp only at h
    simp only [AvlMap.getMut, erase]
    rw [← h]

theorem popWithC_spec {c : Cl σ K V} {m : SMap K V}
    {y : Option (Ends (STree K V) (STree K V × Option (K × V) × Bool) × σ)}
    {x : Option (Tree K V × Option (K × V) × Bool)} {z : AvlMap K V × Option (K × V)}
    (hz : AvlMap.popWith m.len x = some z)
    (h : ∀ x', x = some x' → ∃ q s', y = some (q, s') ∧ STree.RmEnd c m.root x' q) :
    ∃ q s', popWithC m.len y = some (q, s') ∧ match q with
      | .unwound m' => m'.ents.Sublist m.ents ∧ m'.len = m.len ∧ Bad c
      | .done (m', o) => (m'.erase, o) = z := by
  cases x with
  | none => cases hz
  | some x =>
    obtain ⟨q, s', rfl, hq⟩ := h x rfl
    rcases q with t | ⟨t, kv, b⟩
    · exact ⟨_, _, rfl, hq.1, rfl, hq.2⟩
    · cases hq
      cases kv with
      | none =>
        cases hz
        exact ⟨_, _, rfl, rfl⟩
      | some kv =>
        simp only [AvlMap.popWith] at hz
        split at hz
        · cases hz
        · cases hz
          rename_i h0
          exact ⟨.done (⟨m.len - 1, t⟩, some kv), s', by simp only [popWithC, if_neg h0], rfl⟩

theorem takeC_spec {m : SMap K V} (hm : m.erase.WF) (c : Cl σ K V) {w : Which K} (hw : w.Ok) (s : σ) :
    ∃ q s', m.takeC c w s = some (q, s') ∧ match q with
      | .unwound m' => m'.ents.Sublist m.ents ∧ m'.len = m.len ∧ Bad c
      | .done (m', o) => m.erase.take w = some (m'.erase, o) := by
  have key : ∀ {x : Option (Tree K V × Option (K × V) × Bool)} {y}, m.erase.take w = AvlMap.popWith m.len x →
      (∃ z, m.erase.take w = some z) → m.takeC c w s = popWithC m.len y →
      (∀ x', x = some x' → ∃ q s', y = some (q, s') ∧ STree.RmEnd c m.root x' q) →
      ∃ q s', m.takeC c w s = some (q, s') ∧ match q with
      | .unwound m' => m'.ents.Sublist m.ents ∧ m'.len = m.len ∧ Bad c
      | .done (m', o) => m.erase.take w = some (m'.erase, o) := by
    intro x y h1 h2 h3 h4
    obtain ⟨z, hz⟩ := h2
    obtain ⟨q, s', e, hq⟩ := popWithC_spec (h1.symm.trans hz) h4
    refine ⟨q, s', h3.trans e, ?_⟩
    rcases q with m' | ⟨m', o⟩
    · exact hq
    · rw [hz]; exact congrArg some hq.symm
  cases w with
  | key p =>
    obtain ⟨m1, e1, -⟩ := AvlMap.removeEntry_spec hm hw
    exact key rfl ⟨_, e1⟩ rfl (fun x' hx => STree.rmC_spec c p m.root false s hx)
  | first =>
    obtain ⟨m1, e1, -⟩ := AvlMap.popFirst_spec hm
    exact key rfl ⟨_, e1⟩ rfl (fun x' hx => STree.rmLeftmostC_spec c m.root false s hx)
  | last =>
    obtain ⟨m1, e1, -⟩ := AvlMap.popLast_spec hm
    exact key rfl ⟨_, e1⟩ rfl (fun x' hx => STree.rmRightmostC_spec c m.root false s hx)

theorem kit_keeps : (kit (σ := σ) (K := K) (V := V)).Keeps Which.Ok (fun m => Reachable m.erase) where
  new := .new
  share h := by rw [show (kit (σ := σ) (K := K) (V := V)).share = share from rfl, erase_share]; exact h
  insert c a b m s h := by
    obtain ⟨q, s', e, hq⟩ := insertC_spec h.wf c a b s
    refine ⟨q, s', e, ?_⟩
    rcases q with m' | ⟨m', o⟩
    · dsimp only; rw [hq.1]; exact h
    · exact h.insert hq
  getMut c p g m s hp h := by
    obtain ⟨q, s', e, hq⟩ := getMutC_spec m c p g s
    refine ⟨q, s', e, ?_⟩
    rcases q with m' | ⟨m', o⟩
    · dsimp only; rw [hq.1]; exact h
    · have := h.getMut hp (g := g)
      rw [hq] at this
      exact this
  take {c w m} s hc hw h := by
    obtain ⟨q, s', e, hq⟩ := takeC_spec h.wf c hw s
    refine ⟨q, s', e, ?_⟩
    rcases q with m' | ⟨m', o⟩
    · exact absurd hq.2.2 hc
    · cases w with
      | key p => exact h.removeEntry hw hq
      | first => exact h.popFirst hq
      | last => exact h.popLast hq

end SMap
end Verif.Avl
