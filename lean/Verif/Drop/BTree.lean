import Verif.Drop.Core
import Verif.BTree.Reach
/-!
# The B-tree (src/btree.rs) when `Drop` panics
-/
set_option linter.unusedVariables false
namespace Verif.BTree
open Std Verif.Wild Verif.Unwind Verif.Drop
universe w
variable {σ : Type w} {K V : Type}

namespace Node
variable [Ord K] (N : Nat)

mutual
/-- btree.rs:131-178 `Node::insert`.  Line 143, `*self.key_mut(ub_x) = key`, destroys the old key; if
that panics, the new key is in the node and line 144 does not happen. -/
def insD (d : Dr σ K) (k : K) (v : V) : Node K V → σ →
    Option (Ends (Node K V) (InsRes K V) × σ)
  | mk es ks, s =>
    if (locate (compare k) es).2 then
      match es[(locate (compare k) es).1]? with
      | none => none
      | some e =>
        match d e.1 s with
        | (true, s) => some (.unwound (mk (es.set (locate (compare k) es).1 (k, e.2)) ks), s)
        | (false, s) =>
          some (.done (.replaced e.2 (mk (es.set (locate (compare k) es).1 (k, v)) ks)), s)
    else
      match insAtD d k v (locate (compare k) es).1 ks s with
      | none => (absorb N (locate (compare k) es).1 none (k, v) es ks).map (fun r => (.done r, s))
      | some none => none
      | some (some (.unwound c, s)) =>
        some (.unwound (mk es (ks.set (locate (compare k) es).1 c)), s)
      | some (some (.done (.split lhs kv c), s)) =>
        (absorb N (locate (compare k) es).1 (some lhs) kv es
          (ks.set (locate (compare k) es).1 c)).map (fun r => (.done r, s))
      | some (some (.done (.replaced o c), s)) =>
        some (.done (.replaced o (mk es (ks.set (locate (compare k) es).1 c))), s)
      | some (some (.done (.absorbed c), s)) =>
        some (.done (.absorbed (mk es (ks.set (locate (compare k) es).1 c))), s)
/-- `insert` on child `i`; outer `none` if there is none. -/
def insAtD (d : Dr σ K) (k : K) (v : V) : Nat → List (Node K V) → σ →
    Option (Option (Ends (Node K V) (InsRes K V) × σ))
  | _, [], _ => none
  | 0, c :: _, s => some (insD d k v c s)
  | i + 1, _ :: ks, s => insAtD d k v i ks s
end

/-- What becomes of a node is what plain insertion makes of it, of the old value if `Drop`
panicked. -/
def InsDOk (d : Dr σ K) (k : K) (v : V) (n : Node K V) :
    Option (Ends (Node K V) (InsRes K V) × σ) → Prop
  | none => ins N k v n = none
  | some (.unwound n', _) => (∃ o, ins N k o n = some (.replaced o n')) ∧ Rude d
  | some (.done r, _) => ins N k v n = some r

mutual
theorem insD_spec (d : Dr σ K) (k : K) (v : V) : ∀ (n : Node K V) (s : σ),
    InsDOk N d k v n (insD N d k v n s)
  | mk es ks, s => by
    by_cases hl : (locate (compare k) es).2 = true
    · simp only [insD, if_pos hl]
      rcases he : es[(locate (compare k) es).1]? with _ | e <;> dsimp only
      · simp only [InsDOk, ins, if_pos hl, he]
      · rcases hd : d e.1 s with ⟨_ | _, s1⟩
        · simp only [InsDOk, ins, if_pos hl, he]
        · exact ⟨⟨e.2, by simp only [ins, if_pos hl, he]⟩, rude_of_eq hd⟩
    · have ih := insAtD_spec d k v (locate (compare k) es).1 ks s
      simp only [insD, if_neg hl]
      rcases e : insAtD N d k v (locate (compare k) es).1 ks s with
        _ | _ | ⟨c | ⟨o, c⟩ | ⟨lhs, kv, c⟩ | c, s1⟩ <;> rw [e] at ih <;> dsimp only at ih ⊢
      · have : ∀ x : Option (InsRes K V), x = ins N k v (mk es ks) →
            InsDOk N d k v (mk es ks) (x.map (fun r => (.done r, s))) := by
          intro x hx
          cases x <;> exact hx.symm
        exact this _ (by simp only [ins, if_neg hl, ih])
      · simp only [InsDOk, ins, if_neg hl, ih]
      · obtain ⟨⟨o, h⟩, hb⟩ := ih
        exact ⟨⟨o, by simp only [ins, if_neg hl, h]⟩, hb⟩
      · simp only [InsDOk, ins, if_neg hl, ih]
      · have : ∀ x : Option (InsRes K V), x = ins N k v (mk es ks) →
            InsDOk N d k v (mk es ks) (x.map (fun r => (.done r, s1))) := by
          intro x hx
          cases x <;> exact hx.symm
        exact this _ (by simp only [ins, if_neg hl, ih])
      · simp only [InsDOk, ins, if_neg hl, ih]
theorem insAtD_spec (d : Dr σ K) (k : K) (v : V) : ∀ (i : Nat) (ks : List (Node K V)) (s : σ),
    match insAtD N d k v i ks s with
    | none => insAt N k v i ks = none
    | some none => insAt N k v i ks = some none
    | some (some (.unwound n', _)) =>
      (∃ o, insAt N k o i ks = some (some (.replaced o n'))) ∧ Rude d
    | some (some (.done r, _)) => insAt N k v i ks = some (some r)
  | _, [], s => by simp only [insAtD, insAt]
  | 0, c :: ks, s => by
    have h := insD_spec d k v c s
    simp only [insAtD, insAt]
    rcases e : insD N d k v c s with _ | ⟨n' | r, s1⟩ <;> rw [e] at h <;>
      simp only [InsDOk] at h ⊢
    · rw [h]
    · obtain ⟨⟨o, h⟩, hb⟩ := h
      exact ⟨⟨o, by rw [h]⟩, hb⟩
    · rw [h]
  | i + 1, c :: ks, s => by
    simp only [insAtD, insAt]
    exact insAtD_spec d k v i ks s
end

end Node

namespace BTreeMap
open Node
variable [Ord K] (N : Nat)

/-- btree.rs:683-714 `insert`. -/
def insertD (d : Dr σ K) (k : K) (v : V) (m : BTreeMap K V) (s : σ) :
    Option (Ends (BTreeMap K V) (BTreeMap K V × Option V) × σ) :=
  match m.root with
  | none => some (.done (⟨1, some (.mk [(k, v)] [])⟩, none), s)
  | some n =>
    match n.insD N d k v s with
    | none => none
    | some (.unwound n', s) => some (.unwound ⟨m.len, some n'⟩, s)
    | some (.done (.replaced o n'), s) => some (.done (⟨m.len, some n'⟩, some o), s)
    | some (.done (.split lhs kv n'), s) =>
      some (.done (⟨m.len + 1, some (.mk [kv] [lhs, n'])⟩, none), s)
    | some (.done (.absorbed n'), s) => some (.done (⟨m.len + 1, some n'⟩, none), s)

/-- btree.rs:561-564 `clear`: `len` first, then the root. -/
def clearD (p : Bool) (m : BTreeMap K V) : Ends (BTreeMap K V) (BTreeMap K V) :=
  match m.root with
  | none => .done ⟨0, none⟩
  | some _ => if p then .unwound ⟨0, none⟩ else .done ⟨0, none⟩

/-- The entry that `remove` (btree.rs:888-900) has when it destroys the key, `pop_first`,
`pop_last`. -/
def takeD (w : Which K) (m : BTreeMap K V) : Option (BTreeMap K V × Option (K × V)) :=
  match w with
  | .key p =>
    if m.containsKey p then m.rmAndRebal (Node.remove N p) else some (m, none)
  | .first => m.popFirst N
  | .last => m.popLast N

/-- `BTreeMap` as programs see it. -/
def dropKit : Drop.Kit σ K V (BTreeMap K V) (Which K) where
  new := new
  insert := insertD N
  getMut p g m := some (m.getMut p g)
  take := takeD N
  clear := clearD

theorem insertD_spec (d : Dr σ K) (k : K) (v : V) (m : BTreeMap K V) (s : σ) :
    match insertD N d k v m s with
    | none => m.insert N k v = none
    | some (.unwound m', _) => (∃ o, m.insert N k o = some (m', some o)) ∧ Rude d
    | some (.done r, _) => m.insert N k v = some r := by
  obtain ⟨len, root⟩ := m
  cases root with
  | none => rfl
  | some n =>
    have h := insD_spec N d k v n s
    simp only [insertD, insert]
    rcases e : n.insD N d k v s with _ | ⟨t | ⟨o, c⟩ | ⟨lhs, kv, c⟩ | c, s1⟩ <;> rw [e] at h <;>
      simp only [InsDOk] at h ⊢
    · rw [h]
    · obtain ⟨⟨o, h⟩, hb⟩ := h
      exact ⟨⟨o, by simp [h]⟩, hb⟩
    · rw [h]
    · rw [h]
    · rw [h]

omit [Ord K] in
theorem remove_eq_take (m : BTreeMap K V) (p : K → Ordering) :
    m.remove N p = (m.takeD N (.key p)).map (fun x => (x.1, x.2.map (·.2))) := by
  simp only [remove, takeD]
  split <;> rfl

variable [TransOrd K] {N}

theorem takeD_good (hN : 1 ≤ N) {m : BTreeMap K V} (hm : Reachable N m) {w : Which K} (hw : w.Ok) :
    ∃ m' o, m.takeD N w = some (m', o) ∧ Reachable N m' := by
  cases w with
  | key p =>
    obtain ⟨m2, e2, -⟩ := remove_spec hN (hm.wf hN) hw
    have h := remove_eq_take N m p
    rcases e : m.takeD N (.key p) with _ | ⟨m', o⟩
    · rw [e, e2] at h; cases h
    · rw [e] at h
      exact ⟨m', o, rfl, hm.remove hw h⟩
  | first =>
    obtain ⟨m2, e2, -⟩ := popFirst_spec hN (hm.wf hN)
    exact ⟨_, _, e2, hm.popFirst e2⟩
  | last =>
    obtain ⟨m2, e2, -⟩ := popLast_spec hN (hm.wf hN)
    exact ⟨_, _, e2, hm.popLast e2⟩

theorem dropKit_keeps (hN : 1 ≤ N) : (dropKit (σ := σ) (K := K) (V := V) N).Keeps Which.Ok
    (fun _ => True) (Reachable N) where
  insert d a b m s hm := by
    have h := insertD_spec N d a b m s
    simp only [dropKit]
    rcases e : insertD N d a b m s with _ | ⟨m' | r, s1⟩ <;> rw [e] at h <;> dsimp only at h
    · obtain ⟨m2, e2, -⟩ := insert_spec (hm.wf hN) a b
      rw [h] at e2; cases e2
    · obtain ⟨⟨o, h⟩, -⟩ := h
      exact ⟨_, _, rfl, hm.insert h⟩
    · exact ⟨_, _, rfl, hm.insert h⟩
  getMut {p} g {m} hp hm := ⟨_, _, rfl, hm.getMut hp⟩
  take {w m} hw hm := takeD_good hN hm hw
  clear {p m} _ hm := by
    simp only [dropKit, clearD]
    cases m.root with
    | none => exact .new
    | some n => cases p <;> exact .new

end BTreeMap
end Verif.BTree
