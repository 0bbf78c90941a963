import Verif.Avl.Subset
/-!
# Refinement lemmas for `AvlSet`
-/
set_option linter.unusedSectionVars false
namespace Verif.Avl.AvlSet
open Std Tree Lib
variable {T : Type} [Ord T] [TransOrd T] {s a b : AvlSet T}

theorem insert_spec (h : s.map.WF) (x : T) :
    ∃ s', s.insert x = some (s', !Spec.hasKey x s.map.abs) ∧ s'.map.WF ∧
      s'.map.abs = Spec.insert x () s.map.abs := by
  obtain ⟨m', e, w, a⟩ := AvlMap.insert_spec h x ()
  refine ⟨⟨m'⟩, ?_, w, a⟩
  rw [insert, e, hasKey_eq_isSome]
  cases Spec.find (compare x) s.map.abs <;> rfl

theorem take_spec (h : s.map.WF) {p : T → Ordering} (hp : IsProbe p) :
    ∃ s', s.take p = some (s', (Spec.find p s.map.abs).map (·.1)) ∧ s'.map.WF ∧
      s'.map.abs = Spec.erase p s.map.abs := by
  obtain ⟨m', e, w, a⟩ := AvlMap.removeEntry_spec h hp
  exact ⟨⟨m'⟩, by rw [take_eq, e]; rfl, w, a⟩

theorem replace_spec (h : s.map.WF) (x : T) :
    ∃ s', s.replace x = some (s', (Spec.find (compare x) s.map.abs).map (·.1)) ∧ s'.map.WF ∧
      s'.map.abs = Spec.insert x () s.map.abs := by
  obtain ⟨s1, e1, w1, a1⟩ := take_spec h (isProbe_compare x)
  obtain ⟨s2, e2, w2, a2⟩ := insert_spec w1 x
  refine ⟨s2, by rw [replace, e1]; dsimp only; rw [e2]; rfl, w2, ?_⟩
  rw [a2, a1]
  simp only [Spec.insert, Spec.erase, List.filter_filter]
  congr 1
  · apply List.filter_congr; intro e _; cases compare x e.1 <;> rfl
  · congr 1; apply List.filter_congr; intro e _; cases compare x e.1 <;> rfl

theorem elems_map (s : AvlSet T) : s.elems.map (fun x => (x, ())) = s.map.abs := by
  simp [elems, Function.comp_def]

theorem asc_elems (h : s.map.WF) : s.elems.Pairwise (fun x y => compare x y = .lt) := by
  rw [elems, List.pairwise_map]; exact h.sorted

theorem iter_yields (h : s.map.WF) : Yields iterNext s.map.iter s.elems := by
  refine ⟨fun it l => (items it.work).length ≤ it.len ∧ l = (items it.work).map (·.1), ?_, ?_⟩
  · rintro it l ⟨h1, rfl⟩
    obtain ⟨it', e, h2, h3⟩ := Iter.step_spec true it h1
    simp only [Spec.dequeStep, if_true] at e h2
    refine ⟨it', by rw [iterNext, e]; simp, ?_, by rw [h2]; simp⟩
    rw [h2] at h3 ⊢; simp only [List.length_tail] at h3 ⊢; omega
  · have hi : items s.map.iter.work = s.map.abs := items_iterOf _ _
    dsimp only
    rw [hi]
    exact ⟨Nat.le_of_eq h.len_eq.symm, rfl⟩

theorem setOp_fuel (ha : a.map.WF) (hb : b.map.WF) :
    (mergeList a.elems b.elems).length < a.len + b.len + 1 := by
  have := mergeList_length a.elems b.elems
  have h1 := ha.len_eq
  have h2 := hb.len_eq
  simp only [elems, List.length_map, len] at *
  omega

theorem setOpRun_spec (ha : a.map.WF) (hb : b.map.WF) (P n : Nat) :
    setOpRun P a b n = some ((List.range n).map (fun i => (setOpList P a.elems b.elems)[i]?)) :=
  Lib.setOpRun_spec P _ n (s := setOp a b) (iter_yields ha) (iter_yields hb) (setOp_fuel ha hb)

theorem isDisjoint_spec (ha : a.map.WF) (hb : b.map.WF) :
    isDisjoint a b = some (setOpList 2 a.elems b.elems).isEmpty := by
  obtain ⟨s', _, _, e, -⟩ := setOpNext_spec 2 _ (s := setOp a b) (iter_yields ha)
    (iter_yields hb) (setOp_fuel ha hb)
  rw [isDisjoint, e]
  cases setOpList 2 a.elems b.elems <;> rfl

end Verif.Avl.AvlSet
