import Verif.Drop.Core
import Verif.Fixed.Reach
/-!
# The fixed-layout B-tree (src/btree/core.rs, src/btree/fixed.rs) when `Drop` panics
-/
set_option linter.unusedVariables false
namespace Verif.Fixed.FMap
open Std Verif.BTree Verif.BTree.Node Verif.Wild Verif.Unwind Verif.Drop
universe w
variable {σ : Type w} {K V : Type}

/-- The key that comes back in `Replaced(old_k, old_v)` (core.rs:400-403): `insert` and `get`
(core.rs:369-377) search alike. -/
def oldKey [Ord K] (lin : Bool) (m : FMap K V) (k : K) : Option K :=
  match m.root with
  | none => none
  | some n =>
    match Fixed.get lin (compare k) n with
    | some (some e) => some e.1
    | _ => none

/-- fixed.rs:42-73 `insert`: key and value are both exchanged (core.rs:400-403) before the old key
is destroyed (fixed.rs:55). -/
def insertD [Ord K] (lin : Bool) (d : Dr σ K) (k : K) (v : V) (m : FMap K V) (s : σ) :
    Option (Ends (FMap K V) (FMap K V × Option V) × σ) :=
  match m.insert lin k v with
  | none => none
  | some (m', o) =>
    match dropOpt d (m.oldKey lin k) s with
    | (true, s) => some (.unwound m', s)
    | (false, s) => some (.done (m', o), s)

/-- fixed.rs:17-20 `clear`: the root first, and `len` only if no destructor panics. -/
def clearD (p : Bool) (m : FMap K V) : Ends (FMap K V) (FMap K V) :=
  match m.root with
  | none => .done ⟨none, 0⟩
  | some _ => if p then .unwound ⟨none, m.len⟩ else .done ⟨none, 0⟩

/-- The entry that `remove` (fixed.rs:121-134) has when it destroys the key. -/
def takeD (lin : Bool) (p : K → Ordering) (m : FMap K V) : Option (FMap K V × Option (K × V)) :=
  match m.root with
  | none => some (m, none)
  | some n => m.rmAndRebal (Fixed.remove lin p n)

/-- `fixed::BTreeMap` as programs see it. -/
def dropKit [Ord K] (lin : Bool) : Drop.Kit σ K V (FMap K V) (K → Ordering) where
  new := new
  insert := insertD lin
  getMut p g m := m.getMut lin p g
  take := takeD lin
  clear := clearD

theorem remove_eq_take (lin : Bool) (m : FMap K V) (p : K → Ordering) :
    m.remove lin p = (m.takeD lin p).map (fun x => (x.1, x.2.map (·.2))) := by
  obtain ⟨_ | n, len⟩ := m <;> rfl

variable [Ord K]

theorem insertD_spec (lin : Bool) (d : Dr σ K) (k : K) (v : V) (m : FMap K V) (s : σ) :
    match insertD lin d k v m s with
    | none => m.insert lin k v = none
    | some (.unwound m', _) => (∃ o, m.insert lin k v = some (m', o)) ∧ Rude d
    | some (.done r, _) => m.insert lin k v = some r := by
  simp only [insertD]
  rcases e : m.insert lin k v with _ | ⟨m', o⟩ <;> dsimp only
  rcases hd : dropOpt d (m.oldKey lin k) s with ⟨_ | _, s1⟩
  · rfl
  · exact ⟨⟨o, rfl⟩, rude_of_dropOpt hd⟩

/-- An empty map of which only `len` may be wrong. -/
def Stale (m : FMap K V) : Prop := m.root = none

theorem insert_stale (lin : Bool) {m : FMap K V} (h : m.Stale) (k : K) (v : V) :
    m.insert lin k v = new.insert lin k v := by
  obtain ⟨root, len⟩ := m
  cases h
  rfl

variable [TransOrd K] {lin : Bool}

/-- With no panic in `clear`, maps stay reachable. -/
theorem dropKit_keeps : (dropKit (σ := σ) (K := K) (V := V) lin).Keeps IsProbe (· = false)
    (Reachable lin) where
  insert d a b m s hm := by
    have h := insertD_spec lin d a b m s
    simp only [dropKit]
    rcases e : insertD lin d a b m s with _ | ⟨m' | r, s1⟩ <;> rw [e] at h <;> dsimp only at h
    · obtain ⟨m2, e2, -⟩ := insert_spec (lin := lin) hm.wf a b
      rw [h] at e2; cases e2
    · obtain ⟨⟨o, h⟩, -⟩ := h
      exact ⟨_, _, rfl, hm.insert h⟩
    · exact ⟨_, _, rfl, hm.insert h⟩
  getMut {p} g {m} hp hm := by
    obtain ⟨m2, e2, -⟩ := getMut_spec (lin := lin) hm.wf hp g
    exact ⟨_, _, e2, hm.getMut hp e2⟩
  take {p m} hp hm := by
    obtain ⟨m2, e2, -⟩ := remove_spec (lin := lin) hm.wf hp
    have h := remove_eq_take lin m p
    simp only [dropKit]
    rcases e : m.takeD lin p with _ | ⟨m', o⟩
    · rw [e, e2] at h; cases h
    · rw [e] at h
      exact ⟨m', o, rfl, hm.remove hp h⟩
  clear {p m} hp hm := by
    subst hp
    simp only [dropKit, clearD]
    cases m.root with
    | none => exact .new
    | some n => exact .new

/-- In any case they are reachable, or empty with a wrong `len`. -/
theorem dropKit_keeps' : (dropKit (σ := σ) (K := K) (V := V) lin).Keeps IsProbe (fun _ => True)
    (fun m => Reachable lin m ∨ m.Stale) where
  insert d a b m s hm := by
    rcases hm with hm | hm
    · obtain ⟨q, s', e, h⟩ := dropKit_keeps.insert d a b s hm
      refine ⟨q, s', e, ?_⟩
      rcases q with m' | y
      · exact .inl h
      · exact .inl h
    · have h := insertD_spec lin d a b m s
      rw [insert_stale lin hm] at h
      obtain ⟨m2, e2, -⟩ := insert_spec (lin := lin) (wf_new (K := K) (V := V)) a b
      simp only [dropKit]
      rcases e : insertD lin d a b m s with _ | ⟨m' | r, s1⟩ <;> rw [e] at h <;> dsimp only at h
      · rw [h] at e2; cases e2
      · obtain ⟨⟨o, h⟩, -⟩ := h
        exact ⟨_, _, rfl, .inl (Reachable.new.insert h)⟩
      · exact ⟨_, _, rfl, .inl (Reachable.new.insert h)⟩
  getMut {p} g {m} hp hm := by
    rcases hm with hm | hm
    · obtain ⟨m', b, e, h⟩ := (dropKit_keeps (σ := σ) (lin := lin)).getMut g hp hm
      exact ⟨m', b, e, .inl h⟩
    · obtain ⟨root, len⟩ := m
      cases hm
      exact ⟨_, _, rfl, .inr rfl⟩
  take {p m} hp hm := by
    rcases hm with hm | hm
    · obtain ⟨m', b, e, h⟩ := (dropKit_keeps (σ := σ) (lin := lin)).take hp hm
      exact ⟨m', b, e, .inl h⟩
    · obtain ⟨root, len⟩ := m
      cases hm
      exact ⟨_, _, rfl, .inr rfl⟩
  clear {p m} _ hm := by
    simp only [dropKit, clearD]
    cases m.root with
    | none => exact .inr rfl
    | some n => cases p <;> exact .inr rfl

end Verif.Fixed.FMap
