import Verif.Props.Sets
import Verif.Props.Stack
/-!
# C16 and C43: `partial_cmp` for elements that need not be comparable

The other theorems on C16 and C43 take the comparison of the elements to be total.  Here it is
any function into `Option Ordering`, such as that of `f64`.
-/
set_option linter.unusedSectionVars false
namespace Verif

/-- `o` compares the sequences lexicographically: they have a common part, compared as equal
element by element; after it, both end and `o` is `Equal`, or the first to end is the less one, or
`o` is the result for the next two elements, not `Equal`. -/
def Spec.LexPartial {α : Type _} (cmp : α → α → Option Ordering) (a b : List α)
    (o : Option Ordering) : Prop :=
  ∃ a1 b1 a2 b2, a = a1 ++ a2 ∧ b = b1 ++ b2 ∧ a1.length = b1.length ∧
    (∀ x ∈ a1.zip b1, cmp x.1 x.2 = some .eq) ∧
    ((a2 = [] ∧ b2 = [] ∧ o = some .eq) ∨ (a2 = [] ∧ b2 ≠ [] ∧ o = some .lt) ∨
      (a2 ≠ [] ∧ b2 = [] ∧ o = some .gt) ∨
      ∃ x y a3 b3, a2 = x :: a3 ∧ b2 = y :: b3 ∧ cmp x y = o ∧ o ≠ some .eq)

theorem Spec.lexPartialCmp_spec {α : Type _} (cmp : α → α → Option Ordering) :
    ∀ a b : List α, Spec.LexPartial cmp a b (Spec.lexPartialCmp cmp a b)
  | [], [] => ⟨[], [], [], [], by simp [Spec.lexPartialCmp]⟩
  | [], y :: b => ⟨[], [], [], y :: b, by simp [Spec.lexPartialCmp]⟩
  | x :: a, [] => ⟨[], [], x :: a, [], by simp [Spec.lexPartialCmp]⟩
  | x :: a, y :: b => by
    by_cases h : cmp x y = some .eq
    · obtain ⟨a1, b1, a2, b2, h1, h2, h3, h4, h5⟩ := Spec.lexPartialCmp_spec cmp a b
      refine ⟨x :: a1, y :: b1, a2, b2, by simp [h1], by simp [h2], by simp [h3], ?_, ?_⟩
      · intro z hz
        rcases List.mem_cons.1 hz with rfl | hz
        · exact h
        · exact h4 z hz
      · have e : Spec.lexPartialCmp cmp (x :: a) (y :: b) = Spec.lexPartialCmp cmp a b := by
          simp only [Spec.lexPartialCmp, h]
        rw [e]; exact h5
    · have e : Spec.lexPartialCmp cmp (x :: a) (y :: b) = cmp x y := by
        simp [Spec.lexPartialCmp, h]
      exact ⟨[], [], x :: a, y :: b, rfl, rfl, rfl, by simp,
        .inr (.inr (.inr ⟨x, y, a, b, rfl, rfl, e.symm, by rw [e]; exact h⟩))⟩

namespace Props
open Std Verif.Demo

section
variable {K V : Type} [Ord K] [TransOrd K]

/-- C16 for AvlMap, `partial_cmp`: lexicographic, with `None` when the first entries that do not
compare as equal are not comparable. -/
theorem C16_avl_partialCmp (cmpE : K × V → K × V → Option Ordering) {a b : Avl.AvlMap K V}
    (ha : Avl.Reachable a) (hb : Avl.Reachable b) :
    ∃ o, Avl.AvlMap.partialCmpMap cmpE a b = some o ∧ Spec.LexPartial cmpE a.abs b.abs o := by
  rw [Avl.AvlMap.partialCmpMap, Avl.AvlMap.iterList_spec ha.wf, Avl.AvlMap.iterList_spec hb.wf]
  exact ⟨_, rfl, Spec.lexPartialCmp_spec _ _ _⟩

/-- C16 for BTreeMap, `partial_cmp`. -/
theorem C16_btree_partialCmp {N : Nat} (hN : 1 ≤ N) (cmpE : K × V → K × V → Option Ordering)
    {a b : BTree.BTreeMap K V} (ha : BTree.Reachable N a) (hb : BTree.Reachable N b) :
    ∃ o, BTree.BTreeMap.partialCmpMap cmpE a b = some o ∧
      Spec.LexPartial cmpE a.abs b.abs o := by
  rw [BTree.BTreeMap.partialCmpMap, BTree.BTreeMap.iterList_spec hN (ha.wf hN),
    BTree.BTreeMap.iterList_spec hN (hb.wf hN)]
  exact ⟨_, rfl, Spec.lexPartialCmp_spec _ _ _⟩
end

section
variable {T : Type} [Ord T] [TransOrd T]

/-- C16 for AvlSet, `partial_cmp`. -/
theorem C16_avlset_partialCmp (cmpT : T → T → Option Ordering) {a b : Avl.AvlSet T}
    (ha : Avl.SetReachable a) (hb : Avl.SetReachable b) :
    ∃ o, a.partialCmpSet cmpT b = some o ∧ Spec.LexPartial cmpT a.elems b.elems o := by
  rw [Avl.AvlSet.partialCmpSet, Avl.AvlMap.partialCmpMap, Avl.AvlMap.iterList_spec ha.map.wf,
    Avl.AvlMap.iterList_spec hb.map.wf]
  dsimp only
  rw [Spec.lexPartialCmp_map (fun e : T × Unit => e.1) cmpT]
  exact ⟨_, rfl, Spec.lexPartialCmp_spec _ _ _⟩

/-- C16 for BTreeSet, `partial_cmp`. -/
theorem C16_btreeset_partialCmp {N : Nat} (hN : 1 ≤ N) (cmpT : T → T → Option Ordering)
    {a b : BTree.BTreeSet T} (ha : BTree.SetReachable N a) (hb : BTree.SetReachable N b) :
    ∃ o, a.partialCmpSet cmpT b = some o ∧ Spec.LexPartial cmpT a.elems b.elems o := by
  rw [BTree.BTreeSet.partialCmpSet, BTree.BTreeMap.partialCmpMap,
    BTree.BTreeMap.iterList_spec hN (ha.wf hN), BTree.BTreeMap.iterList_spec hN (hb.wf hN)]
  dsimp only
  rw [Spec.lexPartialCmp_map (fun e : T × Unit => e.1) cmpT]
  exact ⟨_, rfl, Spec.lexPartialCmp_spec _ _ _⟩
end

/-- C43: `partial_cmp` of stacks is lexicographic from the top, with `None` when the first elements
that do not compare as equal are not comparable. -/
theorem C43_stack_partial_cmp_any {T : Type} {c : Stack.Cmps T} {st : Stack.State T}
    (hr : Reached c st) {i j : Nat} {l r : List T} (hi : Shows c st i l)
    (hj : Shows c st j r) :
    ∃ st' o, Stack.hstep c (.partialCmp i j) st = some (st', .ord o) ∧
      Spec.LexPartial c.pcmp l r o := by
  obtain ⟨st', e, -⟩ := stack_op2 hr hi hj (.partialCmp i j) rfl
  exact ⟨st', _, e, Spec.lexPartialCmp_spec _ _ _⟩

/-! ### Examples: numbers are comparable unless they are far apart -/

/-- A comparison that does not know about numbers far apart. -/
def near (x y : Nat) : Option Ordering :=
  if x < y + 10 ∧ y < x + 10 then some (compare x y) else none

/-- The same for keys, by their names. -/
def nearKey (x y : CKey) : Option Ordering := near x.id y.id

-- keys `1, …` and `2, …`
example : BTree.BTreeMap.partialCmpMap (fun x y => nearKey x.1 y.1) bt bt3 = some (some .lt) := by
  decide +kernel
-- values `10, …` and `200, …`
example : BTree.BTreeMap.partialCmpMap (fun x y => near x.2 y.2) bt bt3 = some none := by
  decide +kernel
example := C16_btree_partialCmp (Nat.le_refl 1) (fun x y => near x.2 y.2) bt_reachable bt3_reachable
example := C16_avl_partialCmp (fun x y => nearKey x.1 y.1) avl5_reachable avl3_reachable
example := C16_avlset_partialCmp nearKey sa5_reachable sa7_reachable
example := C16_btreeset_partialCmp (Nat.le_refl 1) nearKey sb_reachable sb7_reachable

def nearCmps : Stack.Cmps Nat := ⟨(· == ·), compare, near⟩
def nearSt : Stack.State Nat := ((Stack.hrun nearCmps demoOps .init).map (·.1)).getD .init

theorem near_reached : Reached nearCmps nearSt := by
  obtain ⟨st, e⟩ := C44_stack_isolated nearCmps demoOps
  exact ⟨demoOps, _, by rw [nearSt, e]; rfl⟩

theorem near_shows : Shows nearCmps nearSt 1 [14, 3, 2, 1] ∧ Shows nearCmps nearSt 0 [2] := by
  obtain ⟨st, e, hs⟩ := Stack.hrun_sim nearCmps demoOps Stack.Sim.init
  have : nearSt = st := by rw [nearSt, e]; rfl
  rw [this]
  exact ⟨hs.shows nearCmps rfl, hs.shows nearCmps rfl⟩

example := C43_stack_partial_cmp_any near_reached near_shows.1 near_shows.2
example : near 14 2 = none := by decide

end Props
end Verif
