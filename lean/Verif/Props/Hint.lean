import Verif.Lib.Hint
import Verif.Props.AvlMap
import Verif.Props.BTreeMap
import Verif.Props.Fixed
/-!
# `size_hint` and `ExactSizeIterator` (C69)
-/
set_option linter.unusedSectionVars false
namespace Verif.Props
open Std Verif.Lib Verif.Demo

/-- The contract of `ExactSizeIterator`: `size_hint` is exact. -/
def ExactHint (h : Hint) (left : Nat) : Prop := h = (left, some left)

/-- The contract of `Iterator`: the number of items left is within `size_hint`. -/
def Brackets (h : Hint) (left : Nat) : Prop := h.1 ≤ left ∧ ∀ u, h.2 = some u → left ≤ u

/-- The `len` of adaptors whose `len` is the provided one panics. -/
def AdaptorsPanic (h : Hint) : Prop :=
  (∀ n, 1 ≤ n → (h.take n).len = none) ∧ (∀ n, (h.skip n).len = none) ∧ h.peekable.len = none ∧
    ∀ n, 1 ≤ n → (h.zip (n, some n)).len = none ∧ (Hint.zip (n, some n) h).len = none

theorem provided_panics : AdaptorsPanic .provided := by
  refine ⟨fun n hn => ?_, fun n => ?_, ?_, fun n hn => ⟨?_, ?_⟩⟩
  · have : n ≠ 0 := by omega
    simp [Hint.take, Hint.provided, Hint.len, this]
  · simp [Hint.skip, Hint.provided, Hint.len]
  · simp [Hint.peekable, Hint.provided, Hint.len]
  · have : n ≠ 0 := by omega
    simp [Hint.zip, Hint.provided, Hint.len, this]
  · have : n ≠ 0 := by omega
    simp [Hint.zip, Hint.provided, Hint.len, this]

/-- An exact hint does not make them panic. -/
theorem exact_adaptors {h : Hint} {left : Nat} (e : ExactHint h left) (n : Nat) :
    (h.take n).len = some (min left n) ∧ (h.skip n).len = some (left - n) ∧
      h.peekable.len = some left ∧ (h.zip (n, some n)).len = some (min left n) := by
  subst e
  refine ⟨?_, by simp [Hint.skip, Hint.len], by simp [Hint.peekable, Hint.len],
    by simp [Hint.zip, Hint.len]⟩
  by_cases hn : n = 0
  · subst hn; simp [Hint.take, Hint.len]
  · simp only [Hint.take, hn, if_false, Hint.len]
    by_cases hl : left < n
    · simp [hl, Nat.min_eq_left (Nat.le_of_lt hl)]
    · simp [hl, Nat.min_eq_right (Nat.not_lt.1 hl)]

/-- C69 is **false**: at no time is `size_hint` of an iterator of the maps and sets exact, though
they are `ExactSizeIterator`s; so `len` of `take(n)`, `skip(n)`, `peekable()` and `zip` with a
slice on them panics. -/
theorem C69_exact_false :
    (∀ (K V : Type) (it : Avl.Iter K V), (∀ left, ¬ ExactHint (avlHint it) left) ∧
      AdaptorsPanic (avlHint it)) ∧
    (∀ (I : Type) (it : BTree.InnerIter I), (∀ left, ¬ ExactHint (btreeHint it) left) ∧
      AdaptorsPanic (btreeHint it)) ∧
    (∀ (I : Type) (it : Fixed.Inner I), (∀ left, ¬ ExactHint (fixedHint it) left) ∧
      AdaptorsPanic (fixedHint it)) := by
  refine ⟨fun K V it => ⟨fun left h => ?_, provided_panics⟩,
    fun I it => ⟨fun left h => ?_, provided_panics⟩, fun I it => ⟨fun left h => ?_, provided_panics⟩⟩
  · simp [ExactHint, avlHint, Hint.provided] at h
  · simp [ExactHint, btreeHint, Hint.provided] at h
  · simp [ExactHint, fixedHint, Hint.provided] at h

section
variable {K V : Type} [Ord K] [TransOrd K]

/-- C69, what holds of `AvlMap::iter` after any schedule: `len` (second component of each
result) is exact, and `size_hint` a correct, if useless, bound.

Missing: `size_hint` is not exact (`C69_exact_false`). -/
theorem C69_avl_partial {m : Avl.AvlMap K V} (h : Avl.Reachable m) (ds : List Bool)
    (it : Avl.Iter K V) (left : Nat) :
    (m.iter.run ds).map (·.map (·.2)) = some ((Spec.dequeRun ds m.abs).map (·.2)) ∧
      Brackets (avlHint it) left := by
  rw [(C11_avl_iter h ds).1]
  exact ⟨rfl, Nat.zero_le _, by simp [avlHint, Hint.provided]⟩

/-- C69, `AvlMap::range`: after each call of any schedule (`len` is what the call leaves in the
iterator, and all that `size_hint` reads) the number of entries left is within `size_hint`. -/
theorem C69_avl_range {m : Avl.AvlMap K V} (h : Avl.Reachable m) {lo hi : Bnd K}
    (hlo : lo.Lawful) (hhi : hi.Lawful) (ds : List Bool) :
    ∃ out, (m.range lo hi).run ds = some out ∧ ∀ (i : Nat) (it : Avl.Iter K V) x y,
      out[i]? = some x → it.len = x.2 →
      (Spec.dequeRun ds (m.abs.filter (fun e => lo.okLo e.1 && hi.okHi e.1)))[i]? = some y →
      x.1 = y.1 ∧ Brackets (avlRangeHint it) y.2 := by
  obtain ⟨slack, e, -⟩ := C12_avl_range h hlo hhi ds
  refine ⟨_, e, fun i it x y hx hl hy => ?_⟩
  rw [List.getElem?_map, hy] at hx
  cases hx
  refine ⟨rfl, Nat.zero_le _, fun u hu => ?_⟩
  simp only [avlRangeHint, Option.some.injEq] at hu
  simp only at hl
  omega

/-- C69, the same for `BTreeMap::iter` and `into_iter`. -/
theorem C69_btree_partial {N : Nat} (hN : 1 ≤ N) {m : BTree.BTreeMap K V}
    (h : BTree.Reachable N m) (o : BTree.Sharing K V) (ds : List Bool) {I : Type}
    (it : BTree.InnerIter I) (left : Nat) :
    (BTree.nodeOps.run ds m.iter).map (·.map (·.2)) = some ((Spec.dequeRun ds m.abs).map (·.2)) ∧
    (BTree.intoOps.run ds (m.intoIter o)).map (·.map (·.2)) =
      some ((Spec.dequeRun ds m.abs).map (·.2)) ∧
    Brackets (btreeHint it) left := by
  obtain ⟨h1, h2, -⟩ := C22_btree_iter hN h o ds
  rw [h1, h2]
  exact ⟨rfl, rfl, Nat.zero_le _, by simp [btreeHint, Hint.provided]⟩

/-- C69, `BTreeMap::range_mut` (on the map with its slots labelled, see `rangeMutRun`): after any
schedule the number of entries left is within `size_hint`.  `C23_btree_range` has `range`. -/
theorem C69_btree_range_mut {Q : Type} [Ord Q] [TransOrd Q] {N : Nat} (hN : 1 ≤ N)
    {m : BTree.BTreeMap K V} (h : BTree.Reachable N m) {f : K → Q}
    (hf : ∀ a b, compare (f a) (f b) = compare a b) (lo hi : BTree.QBnd Q)
    {it : BTree.InnerIter (BTree.NIter (K × (Nat × V)) (BTree.Node K (Nat × V)))}
    (he : m.label.range f lo hi = some it) (ds : List Bool) :
    ∃ it', BTree.nodeOps.after ds it = some it' ∧
      Brackets (btreeRangeHint N it') (BTree.Spec.dequeRest ds (m.abs.filter
        (fun e => (lo.bnd f).okLo e.1 && (hi.bnd f).okHi e.1))).length := by
  have w := h.wf hN
  have wl := w.label
  obtain ⟨r1, r2⟩ := BTree.BTreeMap.range_spec hN wl hf lo hi
  have hb : lo.bad hi = false := by
    by_contra hc
    rw [r1 (Or.inl (by simpa using hc))] at he
    cases he
  have hx : ¬ BTree.BTreeMap.BothExclude f lo hi m.label.abs := by
    intro hc
    rw [r1 (Or.inr hc)] at he
    cases he
  obtain ⟨it2, e, e1, e2, e3⟩ := r2 hb hx
  rw [e] at he
  cases he
  obtain ⟨slack, -, s2, it', s3, s4, s5⟩ := BTree.BTreeMap.range_run_spec hN wl e1 e2 e3 ds
  refine ⟨it', s3, ?_⟩
  have hr : ∀ (ds : List Bool) (A : List (K × (Nat × V))) (B : List (K × V)),
      A.length = B.length → (BTree.Spec.dequeRest ds A).length = (BTree.Spec.dequeRest ds B).length := by
    intro ds
    induction ds with
    | nil => intro A B h; exact h
    | cons d ds ih =>
      intro A B h
      refine ih _ _ ?_
      cases d <;> simp [Spec.dequeStep, h]
  have hl : (Spec.range (lo.bnd f) (hi.bnd f) m.label.abs).length =
      (m.abs.filter (fun e => (lo.bnd f).okLo e.1 && (hi.bnd f).okHi e.1)).length := by
    rw [BTree.BTreeMap.label_abs, Spec.range, List.filter_map, List.length_map]
    have : m.abs.filter (fun e => (lo.bnd f).okLo e.1 && (hi.bnd f).okHi e.1) =
        (m.abs.zipIdx.filter
          (fun x => (lo.bnd f).okLo x.1.1 && (hi.bnd f).okHi x.1.1)).map (·.1) := by
      have e : m.abs = m.abs.zipIdx.map (·.1) := by simp
      conv => lhs; rw [e]
      rw [List.filter_map]
      rfl
    rw [this, List.length_map]
    rfl
  rw [hr ds _ _ hl] at s4 s5
  refine ⟨s4, fun u hu => ?_⟩
  simp only [btreeRangeHint, Option.some.injEq] at hu
  have : (BTree.sizeHint N it').2 = it'.len := rfl
  rw [this] at s5
  omega

end

example := C69_avl_partial avl5_reachable [true, false] avl5.iter 3
example := C69_avl_range avl5_reachable
  (lo := .included (compare ⟨2, 0⟩)) (hi := .excluded (compare ⟨5, 0⟩))
  (isProbe_compare _) (isProbe_compare _) [true, false, true, true]
example := C69_btree_partial (Nat.le_refl 1) bt_reachable BTree.Sharing.unique [true, false] bt.iter 9
-- `map.iter().take(3).len()` panics on a map of five entries, where 3 is right
example : ((avlHint avl5.iter).take 3).len = none ∧ (Hint.take 3 (5, some 5)).len = some 3 := by
  decide
example := C69_btree_range_mut (Nat.le_refl 1) bt_reachable (f := CKey.id) (fun _ _ => rfl)
  (.included 2) (.excluded 9)
  (getD_of_isSome ⟨[], 0⟩ (by decide +kernel)) [true, false, false]
-- four are left
example : ((bt.label.range CKey.id (.included 2) (.excluded 9)).bind
    (BTree.nodeOps.after [true, false, false])).map (btreeRangeHint 1) = some (3, some 8) := by
  decide +kernel

end Verif.Props
