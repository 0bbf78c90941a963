import Verif.Props.DemoSets
import Verif.Spec.SetMem
/-!
# Properties of `AvlSet` and `BTreeSet`

C34–C40 and the set parts of C14, C15, C16, C33.  Both set types are quantified over every
reachable set (any history of public operations, including binary ones) and, for BTreeSet, over
every `N ≥ 1` and every pattern of node sharing.  `elems` is the sequence `iter` yields; that is
proved here, too (`C34_*_iter`).
-/
set_option linter.unusedSectionVars false
namespace Verif.Props
open Std Verif.Demo Lib
variable {T : Type} [Ord T] [TransOrd T]

/-- Strictly ascending. -/
abbrev Ascending (l : List T) : Prop := l.Pairwise (fun x y => compare x y = .lt)

theorem keep_iff_4 {l r : List T} (hl : Asc l) (hr : Asc r) (u : T) :
    u ∈ setOpList 4 l r ↔ u ∈ l ∧ ∀ y ∈ r, compare u y ≠ .eq := by
  rw [mem_setOpList 4 hl hr]; simp
theorem keep_iff_2 {l r : List T} (hl : Asc l) (hr : Asc r) (u : T) :
    u ∈ setOpList 2 l r ↔ u ∈ r ∧ ∃ x ∈ l, compare x u = .eq := by
  rw [mem_setOpList 2 hl hr]; simp
theorem keep_iff_5 {l r : List T} (hl : Asc l) (hr : Asc r) (u : T) :
    u ∈ setOpList 5 l r ↔ (u ∈ l ∧ ∀ y ∈ r, compare u y ≠ .eq) ∨
      (u ∈ r ∧ ∀ x ∈ l, compare x u ≠ .eq) := by
  rw [mem_setOpList 5 hl hr]; simp
theorem keep_iff_7 {l r : List T} (hl : Asc l) (hr : Asc r) (u : T) :
    u ∈ setOpList 7 l r ↔ (u ∈ l ∧ ∀ y ∈ r, compare u y ≠ .eq) ∨ u ∈ r := by
  rw [mem_setOpList 7 hl hr]
  by_cases h : ∃ x ∈ l, compare x u = .eq
  · simp [h]
    constructor
    · rintro (h | h | h)
      · exact Or.inl h
      · exact Or.inr h.1
      · exact Or.inr h
    · rintro (h | h)
      · exact Or.inl h
      · exact Or.inr (Or.inr h)
  · have h' : ∀ x ∈ l, compare x u ≠ .eq := fun x hx hc => h ⟨x, hx, hc⟩
    simp [h]
    constructor
    · rintro (h | h)
      · exact Or.inl h
      · exact Or.inr h.1
    · rintro (h | h)
      · exact Or.inl h
      · exact Or.inr ⟨h, h'⟩

/-! # AvlSet -/

/-! ## C14 for AvlSet -/

/-- C14 for AvlSet: `len` is the number of elements; they are strictly ascending. -/
theorem C14_avlset_len {s : Avl.AvlSet T} (h : Avl.SetReachable s) :
    s.len = s.elems.length ∧ (s.isEmpty = true ↔ s.elems = []) ∧ Ascending s.elems := by
  have hl : s.map.len = s.map.abs.length := h.map.wf.len_eq
  have hl' : s.len = s.elems.length := by
    simp only [Avl.AvlSet.len, Avl.AvlSet.elems, List.length_map, hl]
  refine ⟨hl', ?_, (Avl.AvlSet.asc_elems h.map.wf)⟩
  simp only [Avl.AvlSet.isEmpty, Avl.AvlMap.isEmpty, Avl.AvlSet.elems, hl, beq_iff_eq, List.length_eq_zero_iff,
    List.map_eq_nil_iff]

/-! ## C34 lazy set operations -/

/-- C34 for AvlSet.  The iterators of the four lazy operations yield one element after the
other of the sequence `l` named, then `None` forever, and never panic; `l` is strictly ascending
and has exactly the elements named; an element in both sets is represented by the right
operand's. -/
theorem C34_avlset_lazy {a b : Avl.AvlSet T} (ha : Avl.SetReachable a) (hb : Avl.SetReachable b) :
    (∃ l, (∀ n, a.difference b n = some ((List.range n).map (fun i => l[i]?))) ∧ Ascending l ∧
      ∀ u, u ∈ l ↔ u ∈ a.elems ∧ ∀ y ∈ b.elems, compare u y ≠ .eq) ∧
    (∃ l, (∀ n, a.intersection b n = some ((List.range n).map (fun i => l[i]?))) ∧ Ascending l ∧
      ∀ u, u ∈ l ↔ u ∈ b.elems ∧ ∃ x ∈ a.elems, compare x u = .eq) ∧
    (∃ l, (∀ n, a.union b n = some ((List.range n).map (fun i => l[i]?))) ∧ Ascending l ∧
      ∀ u, u ∈ l ↔ (u ∈ a.elems ∧ ∀ y ∈ b.elems, compare u y ≠ .eq) ∨ u ∈ b.elems) ∧
    (∃ l, (∀ n, a.symmetricDifference b n = some ((List.range n).map (fun i => l[i]?))) ∧
      Ascending l ∧
      ∀ u, u ∈ l ↔ (u ∈ a.elems ∧ ∀ y ∈ b.elems, compare u y ≠ .eq) ∨
        (u ∈ b.elems ∧ ∀ x ∈ a.elems, compare x u ≠ .eq)) := by
  have wa := ha.map.wf
  have wb := hb.map.wf
  have la : Asc a.elems := Avl.AvlSet.asc_elems wa
  have lb : Asc b.elems := Avl.AvlSet.asc_elems wb
  refine ⟨⟨_, Avl.AvlSet.setOpRun_spec wa wb 4, setOpList_asc 4 la lb, keep_iff_4 la lb⟩,
    ⟨_, Avl.AvlSet.setOpRun_spec wa wb 2, setOpList_asc 2 la lb, keep_iff_2 la lb⟩,
    ⟨_, Avl.AvlSet.setOpRun_spec wa wb 7, setOpList_asc 7 la lb, keep_iff_7 la lb⟩,
    ⟨_, Avl.AvlSet.setOpRun_spec wa wb 5, setOpList_asc 5 la lb, keep_iff_5 la lb⟩⟩

/-- `is_disjoint` holds exactly if there is no common element. -/
theorem C35_avlset_disjoint {a b : Avl.AvlSet T} (ha : Avl.SetReachable a) (hb : Avl.SetReachable b) :
    ∃ r, a.isDisjoint b = some r ∧
      (r = true ↔ ¬ ∃ x ∈ a.elems, ∃ y ∈ b.elems, compare x y = .eq) := by
  have wa := ha.map.wf
  have wb := hb.map.wf
  refine ⟨_, Avl.AvlSet.isDisjoint_spec wa wb, ?_⟩
  rw [List.isEmpty_iff]
  constructor
  · rintro h ⟨x, hx, y, hy, hc⟩
    have := (keep_iff_2 (Avl.AvlSet.asc_elems wa) (Avl.AvlSet.asc_elems wb) y).2 ⟨hy, x, hx, hc⟩
    rw [h] at this; simp at this
  · intro h
    rw [List.eq_nil_iff_forall_not_mem]
    intro u hu
    obtain ⟨hu, x, hx, hc⟩ := (keep_iff_2 (Avl.AvlSet.asc_elems wa) (Avl.AvlSet.asc_elems wb) u).1 hu
    exact h ⟨x, hx, u, hu, hc⟩

/-- C35.  `is_subset` and `is_superset` are exact, whatever sharing there is between the two
sets: `Arc::ptr_eq` may answer each question as it likes, as long as it says "same" only of
equal nodes. -/
theorem C35_avlset_subset {a b : Avl.AvlSet T} (ha : Avl.SetReachable a) (hb : Avl.SetReachable b)
    (ptrEq : Nat → Avl.Tree T Unit → Avl.Tree T Unit → Bool)
    (hp : ∀ n x y, ptrEq n x y = true → x = y) :
    (∃ r, a.isSubset ptrEq b = some r ∧
      (r = true ↔ ∀ x ∈ a.elems, ∃ y ∈ b.elems, compare x y = .eq)) ∧
    (∃ r, a.isSuperset ptrEq b = some r ∧
      (r = true ↔ ∀ x ∈ b.elems, ∃ y ∈ a.elems, compare x y = .eq)) :=
  ⟨Avl.AvlSet.isSubset_spec hp ha.map.wf hb.map.wf, Avl.AvlSet.isSubset_spec hp hb.map.wf ha.map.wf⟩

-- with no sharing known, and with all that there can be
example : (Avl.AvlSet.isSubset (fun _ _ _ => false) sa3 sa5, Avl.AvlSet.isSubset (fun _ x y => x = y) sa5 sa5,
    Avl.AvlSet.isSubset (fun _ _ _ => false) sa5 sa3, Avl.AvlSet.isSubset (fun _ x y => x = y) sa7 sa5) =
    (some true, some true, some false, some false) := by decide
example := C35_avlset_subset sa3_reachable sa5_reachable (fun _ x y => x = y) (by simp)
example := C35_avlset_disjoint sa3_reachable sa5_reachable
example : (sa5.difference sa7 4, sa5.intersection sa7 4, sa5.union sa7 9, sa5.symmetricDifference sa7 6) =
    (some [some ⟨1, 0⟩, some ⟨3, 0⟩, some ⟨5, 0⟩, none], some [some ⟨2, 7⟩, some ⟨4, 7⟩, none, none],
     some [some ⟨1, 0⟩, some ⟨2, 7⟩, some ⟨3, 0⟩, some ⟨4, 7⟩, some ⟨5, 0⟩, some ⟨6, 7⟩, none, none, none],
     some [some ⟨1, 0⟩, some ⟨3, 0⟩, some ⟨5, 0⟩, some ⟨6, 7⟩, none, none]) := by decide +kernel
example := C34_avlset_lazy sa5_reachable sa7_reachable
example := C14_avlset_len sa5_reachable

/-! ## C38 set algebra -/

theorem avlset_mem_elems {s : Avl.AvlSet T} {u : T} : u ∈ s.elems ↔ (u, ()) ∈ s.map.abs := by
  constructor
  · intro h
    obtain ⟨⟨k, ⟨⟩⟩, hk, rfl⟩ := List.mem_map.1 h
    exact hk
  · intro h; exact List.mem_map.2 ⟨_, h, rfl⟩

/-- C38, union: the elements of both, the right operand's where both have one. -/
theorem C38_avlset_union {a b : Avl.AvlSet T} (ha : Avl.SetReachable a) (hb : Avl.SetReachable b) :
    ∃ s, Avl.AvlSet.newUnion a b = some s ∧ Avl.SetReachable s ∧ Ascending s.elems ∧
      s.len = s.elems.length ∧
      ∀ u, u ∈ s.elems ↔ u ∈ b.elems ∨ (u ∈ a.elems ∧ ∀ y ∈ b.elems, compare u y ≠ .eq) := by
  have hb' : ∀ {P : T → Prop}, (∀ y ∈ b.elems, P y) ↔ ∀ y ∈ b.map.abs, P y.1 := by
    intro P; simp [Avl.AvlSet.elems]
  have ha' : ∀ {P : T → Prop}, (∀ y ∈ a.elems, P y) ↔ ∀ y ∈ a.map.abs, P y.1 := by
    intro P; simp [Avl.AvlSet.elems]
  have hbx : ∀ {P : T → Prop}, (∃ y ∈ b.elems, P y) ↔ ∃ y ∈ b.map.abs, P y.1 := by
    intro P; simp [Avl.AvlSet.elems]
  have hax : ∀ {P : T → Prop}, (∃ y ∈ a.elems, P y) ↔ ∃ y ∈ a.map.abs, P y.1 := by
    intro P; simp [Avl.AvlSet.elems]
  obtain ⟨m, e, w, x⟩ := Avl.AvlMap.newUnion_spec ha.map.wf hb.map.wf
  have e' : Avl.AvlSet.newUnion a b = some ⟨m⟩ := by rw [Avl.AvlSet.newUnion_eq, e]; rfl
  have r : Avl.SetReachable ⟨m⟩ := .union ha hb e'
  refine ⟨⟨m⟩, e', r, Avl.AvlSet.asc_elems w, (C14_avlset_len r).1, ?_⟩
  intro u
  rw [hb', avlset_mem_elems, avlset_mem_elems, avlset_mem_elems, x, mem_union ha.map.wf.sorted hb.map.wf.sorted]

/-- C38, intersection: the left operand's elements that are also in the right one. -/
theorem C38_avlset_intersection {a b : Avl.AvlSet T} (ha : Avl.SetReachable a) (hb : Avl.SetReachable b) :
    ∃ s, Avl.AvlSet.newIntersection a b = some s ∧ Avl.SetReachable s ∧ Ascending s.elems ∧
      s.len = s.elems.length ∧
      ∀ u, u ∈ s.elems ↔ u ∈ a.elems ∧ ∃ y ∈ b.elems, compare u y = .eq := by
  have hb' : ∀ {P : T → Prop}, (∀ y ∈ b.elems, P y) ↔ ∀ y ∈ b.map.abs, P y.1 := by
    intro P; simp [Avl.AvlSet.elems]
  have ha' : ∀ {P : T → Prop}, (∀ y ∈ a.elems, P y) ↔ ∀ y ∈ a.map.abs, P y.1 := by
    intro P; simp [Avl.AvlSet.elems]
  have hbx : ∀ {P : T → Prop}, (∃ y ∈ b.elems, P y) ↔ ∃ y ∈ b.map.abs, P y.1 := by
    intro P; simp [Avl.AvlSet.elems]
  have hax : ∀ {P : T → Prop}, (∃ y ∈ a.elems, P y) ↔ ∃ y ∈ a.map.abs, P y.1 := by
    intro P; simp [Avl.AvlSet.elems]
  obtain ⟨m, e, w, x⟩ := Avl.AvlMap.newIntersect_spec ha.map.wf hb.map.wf
  have e' : Avl.AvlSet.newIntersection a b = some ⟨m⟩ := by rw [Avl.AvlSet.newIntersection_eq, e]; rfl
  have r : Avl.SetReachable ⟨m⟩ := .inter ha hb e'
  refine ⟨⟨m⟩, e', r, Avl.AvlSet.asc_elems w, (C14_avlset_len r).1, ?_⟩
  intro u
  rw [hbx, avlset_mem_elems, avlset_mem_elems, x, mem_inter]

/-- C38, difference. -/
theorem C38_avlset_difference {a b : Avl.AvlSet T} (ha : Avl.SetReachable a) (hb : Avl.SetReachable b) :
    ∃ s, Avl.AvlSet.newDiff a b = some s ∧ Avl.SetReachable s ∧ Ascending s.elems ∧
      s.len = s.elems.length ∧
      ∀ u, u ∈ s.elems ↔ u ∈ a.elems ∧ ∀ y ∈ b.elems, compare u y ≠ .eq := by
  have hb' : ∀ {P : T → Prop}, (∀ y ∈ b.elems, P y) ↔ ∀ y ∈ b.map.abs, P y.1 := by
    intro P; simp [Avl.AvlSet.elems]
  have ha' : ∀ {P : T → Prop}, (∀ y ∈ a.elems, P y) ↔ ∀ y ∈ a.map.abs, P y.1 := by
    intro P; simp [Avl.AvlSet.elems]
  have hbx : ∀ {P : T → Prop}, (∃ y ∈ b.elems, P y) ↔ ∃ y ∈ b.map.abs, P y.1 := by
    intro P; simp [Avl.AvlSet.elems]
  have hax : ∀ {P : T → Prop}, (∃ y ∈ a.elems, P y) ↔ ∃ y ∈ a.map.abs, P y.1 := by
    intro P; simp [Avl.AvlSet.elems]
  obtain ⟨m, e, w, x⟩ := Avl.AvlMap.newDiff_spec ha.map.wf hb.map.wf
  have e' : Avl.AvlSet.newDiff a b = some ⟨m⟩ := by rw [Avl.AvlSet.newDiff_eq, e]; rfl
  have r : Avl.SetReachable ⟨m⟩ := .diff ha hb e'
  refine ⟨⟨m⟩, e', r, Avl.AvlSet.asc_elems w, (C14_avlset_len r).1, ?_⟩
  intro u
  rw [hb', avlset_mem_elems, avlset_mem_elems, x, mem_diff]

/-- C38, symmetric difference. -/
theorem C38_avlset_symDiff {a b : Avl.AvlSet T} (ha : Avl.SetReachable a) (hb : Avl.SetReachable b) :
    ∃ s, Avl.AvlSet.newSymDiff a b = some s ∧ Avl.SetReachable s ∧ Ascending s.elems ∧
      s.len = s.elems.length ∧
      ∀ u, u ∈ s.elems ↔ (u ∈ a.elems ∧ ∀ y ∈ b.elems, compare u y ≠ .eq) ∨
        (u ∈ b.elems ∧ ∀ y ∈ a.elems, compare u y ≠ .eq) := by
  have hb' : ∀ {P : T → Prop}, (∀ y ∈ b.elems, P y) ↔ ∀ y ∈ b.map.abs, P y.1 := by
    intro P; simp [Avl.AvlSet.elems]
  have ha' : ∀ {P : T → Prop}, (∀ y ∈ a.elems, P y) ↔ ∀ y ∈ a.map.abs, P y.1 := by
    intro P; simp [Avl.AvlSet.elems]
  have hbx : ∀ {P : T → Prop}, (∃ y ∈ b.elems, P y) ↔ ∃ y ∈ b.map.abs, P y.1 := by
    intro P; simp [Avl.AvlSet.elems]
  have hax : ∀ {P : T → Prop}, (∃ y ∈ a.elems, P y) ↔ ∃ y ∈ a.map.abs, P y.1 := by
    intro P; simp [Avl.AvlSet.elems]
  obtain ⟨m, e, w, x⟩ := Avl.AvlMap.newSymDiff_spec ha.map.wf hb.map.wf
  have e' : Avl.AvlSet.newSymDiff a b = some ⟨m⟩ := by rw [Avl.AvlSet.newSymDiff_eq, e]; rfl
  have r : Avl.SetReachable ⟨m⟩ := .symDiff ha hb e'
  refine ⟨⟨m⟩, e', r, Avl.AvlSet.asc_elems w, (C14_avlset_len r).1, ?_⟩
  intro u
  rw [hb', ha', avlset_mem_elems, avlset_mem_elems, avlset_mem_elems, x, mem_symDiff ha.map.wf.sorted hb.map.wf.sorted]

example : ((sa5.newUnion sa7).map (·.elems.map (fun k => (k.id, k.tag))), (sa5.newIntersection sa7).map (·.elems.map (fun k => (k.id, k.tag))),
    (sa5.newDiff sa7).map (·.elems.map (·.id)), (sa5.newSymDiff sa7).map (·.elems.map (·.id))) =
    (some [(1, 0), (2, 7), (3, 0), (4, 7), (5, 0), (6, 7)], some [(2, 1), (4, 0)], some [1, 3, 5],
      some [1, 3, 5, 6]) := by decide +kernel
example := C38_avlset_union sa5_reachable sa7_reachable
example := C38_avlset_intersection sa5_reachable sa7_reachable
example := C38_avlset_difference sa5_reachable sa7_reachable
example := C38_avlset_symDiff sa5_reachable sa7_reachable

/-! ## C39 which of two equal elements is stored -/

/-- C39 for AvlSet.  `insert(x)` stores `x`, also if an equal element was there; it returns
whether there was none. -/
theorem C39_avlset_insert {s : Avl.AvlSet T} (h : Avl.SetReachable s) (x : T) :
    ∃ s', s.insert x = some (s', !s.contains (compare x)) ∧ Avl.SetReachable s' ∧
      (∀ u, u ∈ s'.elems ↔ u = x ∨ (u ∈ s.elems ∧ compare x u ≠ .eq)) ∧ Ascending s'.elems ∧
      s'.get (compare x) = some x := by
  have w := h.map.wf
  obtain ⟨s', e, w', a⟩ := Avl.AvlSet.insert_spec w x
  have hc : s.contains (compare x) = Spec.hasKey x s.map.abs := by
    rw [Avl.AvlSet.contains, Avl.AvlMap.containsKey, Avl.AvlMap.get,
      Avl.AvlMap.getKeyValue_spec w (isProbe_compare x), hasKey_eq_isSome]
    simp
  refine ⟨s', by rw [e, hc], .insert h e, ?_, Avl.AvlSet.asc_elems w', ?_⟩
  · intro u
    rw [avlset_mem_elems, avlset_mem_elems, a, mem_insert]
    simp
  · rw [Avl.AvlSet.get, Avl.AvlMap.getKeyValue_spec w' (isProbe_compare x), a,
      find_insert h.map.wf.sorted (isProbe_compare x)]
    simp

/-- C39 for AvlSet.  `replace(x)` stores `x` and returns the element equal to it stored before,
if any. -/
theorem C39_avlset_replace {s : Avl.AvlSet T} (h : Avl.SetReachable s) (x : T) :
    ∃ s', s.replace x = some (s', s.get (compare x)) ∧ Avl.SetReachable s' ∧
      (∀ u, u ∈ s'.elems ↔ u = x ∨ (u ∈ s.elems ∧ compare x u ≠ .eq)) ∧ Ascending s'.elems := by
  have w := h.map.wf
  obtain ⟨s', e, w', a⟩ := Avl.AvlSet.replace_spec w x
  refine ⟨s', ?_, .replace h e, ?_, Avl.AvlSet.asc_elems w'⟩
  · rw [e, Avl.AvlSet.get, Avl.AvlMap.getKeyValue_spec w (isProbe_compare x)]
  · intro u
    rw [avlset_mem_elems, avlset_mem_elems, a, mem_insert]
    simp

/-- C39 for AvlSet.  `get` returns the stored element equal to the probe; `take` removes and
returns it; `remove` removes it and tells whether there was one; `contains` tells, too. -/
theorem C39_avlset_take {s : Avl.AvlSet T} (h : Avl.SetReachable s) {p : T → Ordering} (hp : IsProbe p) :
    (∀ u, s.get p = some u ↔ u ∈ s.elems ∧ p u = .eq) ∧
    (s.contains p = (s.get p).isSome) ∧
    ∃ s', s.take p = some (s', s.get p) ∧ Avl.SetReachable s' ∧
      s'.elems = s.elems.filter (fun u => p u != .eq) ∧
      ∃ s'', s.remove p = some (s'', (s.get p).isSome) ∧ Avl.SetReachable s'' ∧ s''.elems = s'.elems := by
  have w := h.map.wf
  have hs := h.map.wf.sorted
  have hg : s.get p = (Spec.find p s.map.abs).map (·.1) := by
    rw [Avl.AvlSet.get, Avl.AvlMap.getKeyValue_spec w hp]
  obtain ⟨s', e, w', a⟩ := Avl.AvlSet.take_spec w hp
  have fe : ∀ l : List (T × Unit), (Spec.erase p l).map (·.1) = (l.map (·.1)).filter (fun u => p u != .eq) := by
    intro l; rw [List.filter_map]; rfl
  refine ⟨?_, ?_, s', by rw [e, hg], .take h hp e, ?_, ?_⟩
  · intro u
    rw [hg, Option.map_eq_some_iff, avlset_mem_elems]
    constructor
    · rintro ⟨⟨k, ⟨⟩⟩, hf, rfl⟩; exact (find_eq_some hp hs).1 hf
    · intro hu; exact ⟨(u, ()), (find_eq_some hp hs).2 hu, rfl⟩
  · rw [hg, Avl.AvlSet.contains, Avl.AvlMap.containsKey, Avl.AvlMap.get,
      Avl.AvlMap.getKeyValue_spec w hp]
    simp
  · rw [Avl.AvlSet.elems, a, fe]; rfl
  · obtain ⟨m'', e2, w2, a2⟩ := Avl.AvlMap.removeEntry_spec w hp
    have e3 : s.remove p = some (⟨m''⟩, (s.get p).isSome) := by
      rw [Avl.AvlSet.remove, Avl.AvlMap.remove, e2, hg]; simp
    refine ⟨⟨m''⟩, e3, .remove h hp e3, ?_⟩
    rw [Avl.AvlSet.elems, a2, Avl.AvlSet.elems, a]

/-- `first`, `last`, `pop_first`, `pop_last` of AvlSet. -/
theorem C39_avlset_ends {s : Avl.AvlSet T} (h : Avl.SetReachable s) :
    s.first = s.elems.head? ∧ s.last = s.elems.getLast? ∧
    (∃ s', s.popFirst = some (s', s.elems.head?) ∧ Avl.SetReachable s' ∧ s'.elems = s.elems.tail) ∧
    (∃ s', s.popLast = some (s', s.elems.getLast?) ∧ Avl.SetReachable s' ∧ s'.elems = s.elems.dropLast) := by
  have w := h.map.wf
  obtain ⟨m1, e1, w1, a1⟩ := Avl.AvlMap.popFirst_spec w
  obtain ⟨m2, e2, w2, a2⟩ := Avl.AvlMap.popLast_spec w
  have f1 : s.popFirst = some (⟨m1⟩, s.elems.head?) := by
    rw [Avl.AvlSet.popFirst, e1]; simp [Avl.AvlSet.elems]
  have f2 : s.popLast = some (⟨m2⟩, s.elems.getLast?) := by
    rw [Avl.AvlSet.popLast, e2]; simp [Avl.AvlSet.elems]
  refine ⟨?_, ?_, ⟨⟨m1⟩, f1, .popFirst h f1, ?_⟩, ⟨⟨m2⟩, f2, .popLast h f2, ?_⟩⟩
  · rw [Avl.AvlSet.first, Avl.AvlMap.firstKeyValue, Avl.Tree.first_toList]; simp [Avl.AvlSet.elems, Avl.AvlMap.abs]
  · rw [Avl.AvlSet.last, Avl.AvlMap.lastKeyValue, Avl.Tree.last_toList]; simp [Avl.AvlSet.elems, Avl.AvlMap.abs]
  · rw [Avl.AvlSet.elems, a1]; simp [Avl.AvlSet.elems]
  · rw [Avl.AvlSet.elems, a2]; simp [Avl.AvlSet.elems]

-- the element stored becomes the new one
example : (sa5.insert ⟨2, 9⟩).map (fun x => (x.1.get (compare (⟨2, 0⟩ : CKey)), x.2)) =
    some (some ⟨2, 9⟩, false) := by decide +kernel
example : (sa5.replace ⟨2, 9⟩).map (fun x => (x.1.get (compare (⟨2, 0⟩ : CKey)), x.2)) =
    some (some ⟨2, 9⟩, some ⟨2, 1⟩) := by decide +kernel
example : (sa5.take (compare (⟨2, 5⟩ : CKey))).map (fun x => (x.1.len + 1 == sa5.len, x.2)) =
    some (true, some ⟨2, 1⟩) := by decide +kernel
example := C39_avlset_insert sa5_reachable ⟨2, 9⟩
example := C39_avlset_replace sa5_reachable ⟨2, 9⟩
example := C39_avlset_take sa5_reachable (isProbe_compare (⟨2, 9⟩ : CKey))
example := C39_avlset_ends sa5_reachable

/-! ## C40, C15 retain -/

theorem avl_visit_total {σ : Type} (f : σ → T → σ × Bool) (xs : List T) : ∀ s,
    Avl.AvlSet.visit (fun s x => some (f s x)) s xs = some (Spec.keepCalls f s xs) := by
  induction xs with
  | nil => intro s; rfl
  | cons x xs ih => intro s; simp only [Avl.AvlSet.visit, ih]; rfl

theorem keepCalls_sublist {σ : Type} (f : σ → T → σ × Bool) (xs : List T) : ∀ s,
    (Spec.keepCalls f s xs).2.Sublist xs := by
  induction xs with
  | nil => intro s; exact List.Sublist.refl _
  | cons x xs ih =>
    intro s
    simp only [Spec.keepCalls]
    split
    · exact (ih _).cons_cons _
    · exact (ih _).cons _

/-- C40 for AvlSet.  `retain` calls the closure once per element in ascending order, threading
its state, and leaves exactly the accepted elements. -/
theorem C40_avlset_retain {σ : Type} {s : Avl.AvlSet T} (h : Avl.SetReachable s)
    (f : σ → T → σ × Bool) (st : σ) :
    ∃ st' s', s.retain (fun s x => some (f s x)) st = .done st' s' ∧ Avl.SetReachable s' ∧
      (st', s'.elems) = Spec.keepCalls f st s.elems ∧ s'.len = s'.elems.length := by
  have hr := Avl.AvlSet.retain_spec (fun s x => some (f s x)) s st
  rw [avl_visit_total] at hr
  obtain ⟨h1, h2, h3⟩ | ⟨acc, h1, h2⟩ := hr
  · refine ⟨_, s, h2, h, ?_, (C14_avlset_len h).1⟩
    have he : s.elems = [] := by simp [Avl.AvlSet.elems, Avl.AvlMap.abs, h1, Avl.Tree.toList]
    rw [he]; rfl
  · have r : Avl.SetReachable ⟨acc⟩ := .retain h h1
    refine ⟨_, ⟨acc⟩, h1, r, ?_, (C14_avlset_len r).1⟩
    obtain ⟨m', e, -, a⟩ := Avl.AvlMap.extend_spec (K := T) (V := Unit) Avl.AvlMap.wf_new
      ((Spec.keepCalls f st s.elems).2.map (fun x => (x, ())))
    have h2' : Avl.AvlMap.new.extend ((Spec.keepCalls f st s.elems).2.map (fun x => (x, ()))) = some acc := h2
    rw [e] at h2'
    cases h2'
    have hs : Sorted ((Spec.keepCalls f st s.elems).2.map (fun x => (x, ()))) := by
      rw [Sorted, List.pairwise_map]
      exact (Avl.AvlSet.asc_elems h.map.wf).sublist (keepCalls_sublist f s.elems st)
    have a' : acc.abs = (Spec.keepCalls f st s.elems).2.map (fun x => (x, ())) := by
      rw [a]; exact Spec.insertAll_sorted hs
    have he : Avl.AvlSet.elems ⟨acc⟩ = (Spec.keepCalls f st s.elems).2 := by
      show acc.abs.map (·.1) = _
      rw [a']; simp [Function.comp_def]
    rw [he]

/-- C15 is **false** for AvlSet: after a panic of the closure the set is empty but reports its
old length. -/
theorem C15_avlset_retain_panic_fails :
    ∃ s : Avl.AvlSet CKey, Avl.SetReachable s ∧ ∃ s',
      s.retain (σ := Unit) (fun _ _ => none) () = .panicked s' ∧
      s'.elems = [] ∧ s'.len = 5 ∧ s'.isEmpty = false :=
  ⟨sa5, sa5_reachable, _, rfl, by decide, by decide, by decide⟩

/-- C15, in full for what does happen.  Missing: consistency for non-empty sets, which is
false. -/
theorem C15_avlset_retain_panic_partial {σ : Type} {s s' : Avl.AvlSet T} (h : Avl.SetReachable s)
    {f : σ → T → Option (σ × Bool)} {st : σ} (hp : s.retain f st = .panicked s') :
    s'.elems = [] ∧ s'.len = s.len ∧ (s'.len = s'.elems.length ↔ s.elems = []) := by
  have hr := Avl.AvlSet.retain_spec f s st
  split at hr
  · rw [hr] at hp
    cases hp
    refine ⟨rfl, rfl, ?_⟩
    show s.len = 0 ↔ _
    rw [(C14_avlset_len h).1, List.length_eq_zero_iff]
  · obtain ⟨-, h2, -⟩ | ⟨acc, h2, -⟩ := hr
    · rw [h2] at hp; cases hp
    · rw [h2] at hp; cases hp

-- a closure that keeps every other element, and one that panics at its third call
example : (match sa5.retain (σ := List Nat) (fun s k => some (s ++ [k.id], s.length % 2 == 0)) [] with
    | .done s t => some (s, t.elems.map (·.id), t.len)
    | .panicked _ => none) = some ([1, 2, 3, 4, 5], [1, 3, 5], 3) := by decide
example := C40_avlset_retain sa5_reachable (fun s (k : CKey) => (s + 1, k.id % 2 == 0)) 0

/-! ## C16, C33 -/

/-- C16 for AvlSet, equality. -/
theorem C16_avlset_eq (eqT : T → T → Bool) {a b : Avl.AvlSet T} (ha : Avl.SetReachable a) (hb : Avl.SetReachable b) :
    ∃ r, a.eqSet eqT b = some r ∧
      (r = true ↔ a.elems.length = b.elems.length ∧ ∀ x ∈ a.elems.zip b.elems, eqT x.1 x.2 = true) ∧
      (∀ (_ : BEq T) (_ : LawfulBEq T), eqT = (fun x y => x == y) → (r = true ↔ a.elems = b.elems)) := by
  have z : (a.elems.zip b.elems) = (a.map.abs.zip b.map.abs).map (fun z => (z.1.1, z.2.1)) := by
    rw [Avl.AvlSet.elems, Avl.AvlSet.elems, List.zip_map]; rfl
  have l1 : a.elems.length = a.map.abs.length := by simp [Avl.AvlSet.elems]
  have l2 : b.elems.length = b.map.abs.length := by simp [Avl.AvlSet.elems]
  refine ⟨decide (a.elems.length = b.elems.length) && (a.elems.zip b.elems).all (fun z => eqT z.1 z.2),
    ?_, by simp, ?_⟩
  · rw [Avl.AvlSet.eqSet, Avl.AvlMap.eqMap, Avl.AvlMap.iterList_spec ha.map.wf, Avl.AvlMap.iterList_spec hb.map.wf, ha.map.wf.len_eq, hb.map.wf.len_eq, z, l1, l2]
    by_cases h : a.map.abs.length = b.map.abs.length <;> simp [h, List.all_map, Function.comp_def]
  · rintro _ _ rfl
    rw [Bool.and_eq_true, decide_eq_true_iff]
    exact Spec.zip_all_beq

/-- C16 for AvlSet, order: lexicographic. -/
theorem C16_avlset_cmp (cmpT : T → T → Ordering) {a b : Avl.AvlSet T} (ha : Avl.SetReachable a) (hb : Avl.SetReachable b) :
    ∃ o, a.cmpSet cmpT b = some o ∧
    (o = .lt ↔
      ∃ a1 b1 a2 b2, a.elems = a1 ++ a2 ∧ b.elems = b1 ++ b2 ∧
        (a1.length = b1.length ∧ ∀ x ∈ a1.zip b1, cmpT x.1 x.2 = .eq) ∧
        ((a2 = [] ∧ b2 ≠ []) ∨ ∃ x y a3 b3, a2 = x :: a3 ∧ b2 = y :: b3 ∧ cmpT x y = .lt)) ∧
    (o = .eq ↔ a.elems.length = b.elems.length ∧ ∀ x ∈ a.elems.zip b.elems, cmpT x.1 x.2 = .eq) ∧
    a.partialCmpSet (fun x y => some (cmpT x y)) b = some (some o) := by
  rw [Avl.AvlSet.cmpSet, Avl.AvlSet.partialCmpSet, Avl.AvlMap.cmpMap, Avl.AvlMap.partialCmpMap, Avl.AvlMap.iterList_spec ha.map.wf, Avl.AvlMap.iterList_spec hb.map.wf]
  dsimp only
  rw [Spec.lexCmp_map (fun e : T × Unit => e.1) cmpT,
    Spec.lexPartialCmp_map (fun e : T × Unit => e.1) (fun x y => some (cmpT x y))]
  refine ⟨_, rfl, ?_, Spec.lexCmp_eq_iff, congrArg some (Spec.lexPartialCmp_total _ _)⟩
  rw [Spec.lexCmp_lt_iff]
  simp only [Spec.lexCmp_eq_iff]
  rfl

/-- C16 for AvlSet, hash: what is fed to the hasher is the length and the elements in order; so
sets with equal elements hash equally. -/
theorem C16_avlset_hash {σ : Type} (hLen : σ → Nat → σ) (hT : σ → T → σ) {a b : Avl.AvlSet T}
    (ha : Avl.SetReachable a) (hb : Avl.SetReachable b) (s : σ) :
    a.hashSet hLen hT s = some (a.elems.foldl hT (hLen s a.elems.length)) ∧
      (a.elems = b.elems → a.hashSet hLen hT s = b.hashSet hLen hT s) := by
  have key : ∀ {a : Avl.AvlSet T}, Avl.SetReachable a →
      a.hashSet hLen hT s = some (a.elems.foldl hT (hLen s a.elems.length)) := by
    intro a ha
    rw [Avl.AvlSet.hashSet, Avl.AvlMap.iterList_spec ha.map.wf, ha.map.wf.len_eq]
    simp [Avl.AvlSet.elems, List.foldl_map]
  exact ⟨key ha, fun h => by rw [key ha, key hb, h]⟩

/-- C33 for AvlSet: the derived impls (de)serialize the map inside. -/
theorem C33_avlset_round_trip (debug : Bool) {usizeMax : Nat} {s : Avl.AvlSet T} (h : Avl.SetReachable s)
    (hint : Option Nat) (hh : ∀ n, hint = some n → n < usizeMax) :
    ∃ es m', s.map.serialize = some (s.elems.length, es) ∧ es.map (·.1) = s.elems ∧
      Avl.deserialize debug usizeMax hint es false = some (.ok m') ∧
      Avl.SetReachable ⟨m'⟩ ∧ Avl.AvlSet.elems ⟨m'⟩ = s.elems := by
  obtain ⟨e1, m', e2, a⟩ := C33_avl_round_trip debug h.map hint hh
  refine ⟨_, m', ?_, rfl, e2, .deserialize hh e2, ?_⟩
  · rw [e1]; simp [Avl.AvlSet.elems]
  · rw [Avl.AvlSet.elems, Avl.AvlSet.elems, a]

example := C16_avlset_eq (fun x y => x == y) sa5_reachable sa5_reachable
example := C16_avlset_cmp compare sa5_reachable sa7_reachable
example := C16_avlset_hash (σ := List Nat) (fun s n => s ++ [n]) (fun s k => s ++ [k.id]) sa5_reachable
  sa5_reachable []
example := C33_avlset_round_trip true (usizeMax := 2 ^ 64 - 1) sa5_reachable (some 5) (by decide)

/-! # BTreeSet -/

/-! ## C14 for BTreeSet -/

/-- C14 for BTreeSet: `len` is the number of elements; they are strictly ascending. -/
theorem C14_btreeset_len {N : Nat} (hN : 1 ≤ N) {s : BTree.BTreeSet T} (h : BTree.SetReachable N s) :
    s.len = s.elems.length ∧ (s.isEmpty = true ↔ s.elems = []) ∧ Ascending s.elems := by
  have hl : s.map.len = s.map.abs.length := (BTree.BTreeMap.WF.len_eq (h.wf hN))
  have hl' : s.len = s.elems.length := by
    simp only [BTree.BTreeSet.len, BTree.BTreeSet.elems, List.length_map, hl]
  refine ⟨hl', ?_, (BTree.BTreeSet.asc_elems (h.wf hN))⟩
  simp only [BTree.BTreeSet.isEmpty, BTree.BTreeMap.isEmpty, BTree.BTreeSet.elems, hl, beq_iff_eq, List.length_eq_zero_iff,
    List.map_eq_nil_iff]

/-! ## C34 lazy set operations -/

/-- C34 for BTreeSet.  The iterators of the four lazy operations yield one element after the
other of the sequence `l` named, then `None` forever, and never panic; `l` is strictly ascending
and has exactly the elements named; an element in both sets is represented by the right
operand's. -/
theorem C34_btreeset_lazy {N : Nat} (hN : 1 ≤ N) {a b : BTree.BTreeSet T} (ha : BTree.SetReachable N a) (hb : BTree.SetReachable N b) :
    (∃ l, (∀ n, a.difference b n = some ((List.range n).map (fun i => l[i]?))) ∧ Ascending l ∧
      ∀ u, u ∈ l ↔ u ∈ a.elems ∧ ∀ y ∈ b.elems, compare u y ≠ .eq) ∧
    (∃ l, (∀ n, a.intersection b n = some ((List.range n).map (fun i => l[i]?))) ∧ Ascending l ∧
      ∀ u, u ∈ l ↔ u ∈ b.elems ∧ ∃ x ∈ a.elems, compare x u = .eq) ∧
    (∃ l, (∀ n, a.union b n = some ((List.range n).map (fun i => l[i]?))) ∧ Ascending l ∧
      ∀ u, u ∈ l ↔ (u ∈ a.elems ∧ ∀ y ∈ b.elems, compare u y ≠ .eq) ∨ u ∈ b.elems) ∧
    (∃ l, (∀ n, a.symmetricDifference b n = some ((List.range n).map (fun i => l[i]?))) ∧
      Ascending l ∧
      ∀ u, u ∈ l ↔ (u ∈ a.elems ∧ ∀ y ∈ b.elems, compare u y ≠ .eq) ∨
        (u ∈ b.elems ∧ ∀ x ∈ a.elems, compare x u ≠ .eq)) := by
  have wa := (ha.wf hN)
  have wb := (hb.wf hN)
  have la : Asc a.elems := BTree.BTreeSet.asc_elems wa
  have lb : Asc b.elems := BTree.BTreeSet.asc_elems wb
  refine ⟨⟨_, BTree.BTreeSet.setOpRun_spec hN wa wb 4, setOpList_asc 4 la lb, keep_iff_4 la lb⟩,
    ⟨_, BTree.BTreeSet.setOpRun_spec hN wa wb 2, setOpList_asc 2 la lb, keep_iff_2 la lb⟩,
    ⟨_, BTree.BTreeSet.setOpRun_spec hN wa wb 7, setOpList_asc 7 la lb, keep_iff_7 la lb⟩,
    ⟨_, BTree.BTreeSet.setOpRun_spec hN wa wb 5, setOpList_asc 5 la lb, keep_iff_5 la lb⟩⟩

/-- `is_disjoint` holds exactly if there is no common element. -/
theorem C35_btreeset_disjoint {N : Nat} (hN : 1 ≤ N) {a b : BTree.BTreeSet T} (ha : BTree.SetReachable N a) (hb : BTree.SetReachable N b) :
    ∃ r, a.isDisjoint b = some r ∧
      (r = true ↔ ¬ ∃ x ∈ a.elems, ∃ y ∈ b.elems, compare x y = .eq) := by
  have wa := (ha.wf hN)
  have wb := (hb.wf hN)
  refine ⟨_, BTree.BTreeSet.setOpNone_spec hN wa wb 2, ?_⟩
  rw [List.isEmpty_iff]
  constructor
  · rintro h ⟨x, hx, y, hy, hc⟩
    have := (keep_iff_2 (BTree.BTreeSet.asc_elems wa) (BTree.BTreeSet.asc_elems wb) y).2 ⟨hy, x, hx, hc⟩
    rw [h] at this; simp at this
  · intro h
    rw [List.eq_nil_iff_forall_not_mem]
    intro u hu
    obtain ⟨hu, x, hx, hc⟩ := (keep_iff_2 (BTree.BTreeSet.asc_elems wa) (BTree.BTreeSet.asc_elems wb) u).1 hu
    exact h ⟨x, hx, u, hu, hc⟩

/-! ## C36: false -/

/-- C36 is **false** for BTreeSet: a non-empty set is not reported to be a subset (or superset)
of itself. -/
theorem C36_btreeset_subset_fails :
    ∃ s : BTree.BTreeSet CKey, BTree.SetReachable 1 s ∧ s.isSubset s = some false ∧
      s.isSuperset s = some false ∧ ∀ x ∈ s.elems, ∃ y ∈ s.elems, compare x y = .eq :=
  ⟨sb7, sb7_reachable, by decide +kernel, by decide +kernel, fun x hx => ⟨x, hx, cmp_self x⟩⟩

/-- C36, exactly what `is_subset` does: it never panics, and says yes exactly if `a ⊆ b` and
either `a` is empty or the sets differ in size.  Missing: non-empty sets of the same size, where
the answer is wrong if they have the same elements. -/
theorem C36_btreeset_subset_partial {N : Nat} (hN : 1 ≤ N) {a b : BTree.BTreeSet T} (ha : BTree.SetReachable N a) (hb : BTree.SetReachable N b) :
    (∃ r, a.isSubset b = some r ∧
      (r = true ↔ (∀ x ∈ a.elems, ∃ y ∈ b.elems, compare x y = .eq) ∧
        (a.elems = [] ∨ a.elems.length < b.elems.length))) ∧
    (∃ r, b.isSuperset a = some r ∧
      (r = true ↔ (∀ x ∈ a.elems, ∃ y ∈ b.elems, compare x y = .eq) ∧
        (a.elems = [] ∨ a.elems.length < b.elems.length))) := by
  have key : ∃ r, a.isSubset b = some r ∧
      (r = true ↔ (∀ x ∈ a.elems, ∃ y ∈ b.elems, compare x y = .eq) ∧
        (a.elems = [] ∨ a.elems.length < b.elems.length)) := by
    have wa := (ha.wf hN)
    have wb := (hb.wf hN)
    obtain ⟨la, ea, -⟩ := C14_btreeset_len hN ha
    obtain ⟨lb, -, -⟩ := C14_btreeset_len hN hb
    unfold BTree.BTreeSet.isSubset
    by_cases he : a.isEmpty = true
    · refine ⟨true, by simp [he], ?_⟩
      simp [ea.1 he]
    · have hne : a.elems ≠ [] := fun h => he (ea.2 h)
      simp only [he, Bool.false_eq_true, if_false]
      by_cases hl : a.len < b.len
      · simp only [hl, if_true]
        refine ⟨_, BTree.BTreeSet.setOpNone_spec hN wa wb 4, ?_⟩
        rw [la, lb] at hl
        simp only [hl, or_true, and_true, List.isEmpty_iff, List.eq_nil_iff_forall_not_mem,
          keep_iff_4 (BTree.BTreeSet.asc_elems wa) (BTree.BTreeSet.asc_elems wb), not_and]
        constructor
        · intro h x hx
          by_cases hc : ∃ y ∈ b.elems, compare x y = .eq
          · exact hc
          · exact absurd (fun y hy hc' => hc ⟨y, hy, hc'⟩) (h x hx)
        · intro h x hx hn
          obtain ⟨y, hy, hc⟩ := h x hx
          exact hn y hy hc
      · refine ⟨false, by simp [hl], ?_⟩
        rw [la, lb] at hl
        simp [hne, hl]
  exact ⟨key, key⟩

example := C36_btreeset_subset_partial (Nat.le_refl 1) sb3_reachable sb_reachable
example : (sb3.isSubset sb, sb.isSubset sb3, sb7.isSubset sb, sb.isSuperset sb3) =
    (some true, some false, some false, some true) := by decide +kernel
example := C35_btreeset_disjoint (Nat.le_refl 1) sb3_reachable sb_reachable
example : (sb3.difference sb7 3, sb3.intersection sb7 3, sb3.union sb7 6, sb3.symmetricDifference sb7 4) =
    (some [some ⟨3, 0⟩, none, none], some [some ⟨2, 7⟩, some ⟨4, 7⟩, none],
     some [some ⟨2, 7⟩, some ⟨3, 0⟩, some ⟨4, 7⟩, some ⟨12, 7⟩, none, none],
     some [some ⟨3, 0⟩, some ⟨12, 7⟩, none, none]) := by decide +kernel
example := C34_btreeset_lazy (Nat.le_refl 1) sb_reachable sb7_reachable
example := C14_btreeset_len (Nat.le_refl 1) sb_reachable

/-! ## C37 set algebra -/

theorem btreeset_mem_elems {s : BTree.BTreeSet T} {u : T} : u ∈ s.elems ↔ (u, ()) ∈ s.map.abs := by
  constructor
  · intro h
    obtain ⟨⟨k, ⟨⟩⟩, hk, rfl⟩ := List.mem_map.1 h
    exact hk
  · intro h; exact List.mem_map.2 ⟨_, h, rfl⟩

/-- C37, union: the elements of both, the right operand's where both have one. -/
theorem C37_btreeset_union {N : Nat} (hN : 1 ≤ N) {a b : BTree.BTreeSet T} (ha : BTree.SetReachable N a) (hb : BTree.SetReachable N b) (oa ob : BTree.Sharing T Unit) :
    ∃ s, BTree.BTreeSet.newUnion N oa ob a b = some s ∧ BTree.SetReachable N s ∧ Ascending s.elems ∧
      s.len = s.elems.length ∧
      ∀ u, u ∈ s.elems ↔ u ∈ b.elems ∨ (u ∈ a.elems ∧ ∀ y ∈ b.elems, compare u y ≠ .eq) := by
  have hb' : ∀ {P : T → Prop}, (∀ y ∈ b.elems, P y) ↔ ∀ y ∈ b.map.abs, P y.1 := by
    intro P; simp [BTree.BTreeSet.elems]
  have ha' : ∀ {P : T → Prop}, (∀ y ∈ a.elems, P y) ↔ ∀ y ∈ a.map.abs, P y.1 := by
    intro P; simp [BTree.BTreeSet.elems]
  have hbx : ∀ {P : T → Prop}, (∃ y ∈ b.elems, P y) ↔ ∃ y ∈ b.map.abs, P y.1 := by
    intro P; simp [BTree.BTreeSet.elems]
  have hax : ∀ {P : T → Prop}, (∃ y ∈ a.elems, P y) ↔ ∃ y ∈ a.map.abs, P y.1 := by
    intro P; simp [BTree.BTreeSet.elems]
  obtain ⟨s, e, w, x⟩ := BTree.BTreeSet.newUnion_spec hN (ha.wf hN) (hb.wf hN) oa ob
  have r : BTree.SetReachable N s := .union ha hb e
  refine ⟨s, e, r, BTree.BTreeSet.asc_elems w, (C14_btreeset_len hN r).1, ?_⟩
  intro u
  rw [hb', btreeset_mem_elems, btreeset_mem_elems, btreeset_mem_elems, x, mem_union (BTree.BTreeMap.WF.sorted (ha.wf hN)) (BTree.BTreeMap.WF.sorted (hb.wf hN))]

/-- C37, intersection: the elements of the smaller operand (of the right one if they have
the same size) that are also in the other one. -/
theorem C37_btreeset_intersection {N : Nat} (hN : 1 ≤ N) {a b : BTree.BTreeSet T} (ha : BTree.SetReachable N a) (hb : BTree.SetReachable N b) (oa ob : BTree.Sharing T Unit) :
    ∃ s, BTree.BTreeSet.newIntersection N oa ob a b = some s ∧ BTree.SetReachable N s ∧ Ascending s.elems ∧
      s.len = s.elems.length ∧
      ∀ u, u ∈ s.elems ↔
        if a.elems.length < b.elems.length then u ∈ a.elems ∧ ∃ y ∈ b.elems, compare u y = .eq
        else u ∈ b.elems ∧ ∃ x ∈ a.elems, compare u x = .eq := by
  have hb' : ∀ {P : T → Prop}, (∀ y ∈ b.elems, P y) ↔ ∀ y ∈ b.map.abs, P y.1 := by
    intro P; simp [BTree.BTreeSet.elems]
  have ha' : ∀ {P : T → Prop}, (∀ y ∈ a.elems, P y) ↔ ∀ y ∈ a.map.abs, P y.1 := by
    intro P; simp [BTree.BTreeSet.elems]
  have hbx : ∀ {P : T → Prop}, (∃ y ∈ b.elems, P y) ↔ ∃ y ∈ b.map.abs, P y.1 := by
    intro P; simp [BTree.BTreeSet.elems]
  have hax : ∀ {P : T → Prop}, (∃ y ∈ a.elems, P y) ↔ ∃ y ∈ a.map.abs, P y.1 := by
    intro P; simp [BTree.BTreeSet.elems]
  obtain ⟨s, e, w, x⟩ := BTree.BTreeSet.newIntersection_spec hN (ha.wf hN) (hb.wf hN) oa ob
  have r : BTree.SetReachable N s := .inter ha hb e
  refine ⟨s, e, r, BTree.BTreeSet.asc_elems w, (C14_btreeset_len hN r).1, ?_⟩
  intro u
  rw [(C14_btreeset_len hN ha).1, (C14_btreeset_len hN hb).1] at x
  rw [hbx, hax, btreeset_mem_elems, btreeset_mem_elems, btreeset_mem_elems, x]
  split
  · rw [mem_inter]
  · rw [mem_inter]

/-- C37, difference. -/
theorem C37_btreeset_difference {N : Nat} (hN : 1 ≤ N) {a b : BTree.BTreeSet T} (ha : BTree.SetReachable N a) (hb : BTree.SetReachable N b) (oa ob : BTree.Sharing T Unit) :
    ∃ s, BTree.BTreeSet.newDiff N oa ob a b = some s ∧ BTree.SetReachable N s ∧ Ascending s.elems ∧
      s.len = s.elems.length ∧
      ∀ u, u ∈ s.elems ↔ u ∈ a.elems ∧ ∀ y ∈ b.elems, compare u y ≠ .eq := by
  have hb' : ∀ {P : T → Prop}, (∀ y ∈ b.elems, P y) ↔ ∀ y ∈ b.map.abs, P y.1 := by
    intro P; simp [BTree.BTreeSet.elems]
  have ha' : ∀ {P : T → Prop}, (∀ y ∈ a.elems, P y) ↔ ∀ y ∈ a.map.abs, P y.1 := by
    intro P; simp [BTree.BTreeSet.elems]
  have hbx : ∀ {P : T → Prop}, (∃ y ∈ b.elems, P y) ↔ ∃ y ∈ b.map.abs, P y.1 := by
    intro P; simp [BTree.BTreeSet.elems]
  have hax : ∀ {P : T → Prop}, (∃ y ∈ a.elems, P y) ↔ ∃ y ∈ a.map.abs, P y.1 := by
    intro P; simp [BTree.BTreeSet.elems]
  obtain ⟨s, e, w, x⟩ := BTree.BTreeSet.newDiff_spec hN (ha.wf hN) (hb.wf hN) oa ob
  have r : BTree.SetReachable N s := .diff ha hb e
  refine ⟨s, e, r, BTree.BTreeSet.asc_elems w, (C14_btreeset_len hN r).1, ?_⟩
  intro u
  rw [hb', btreeset_mem_elems, btreeset_mem_elems, x, mem_diff]

/-- C37, symmetric difference. -/
theorem C37_btreeset_symDiff {N : Nat} (hN : 1 ≤ N) {a b : BTree.BTreeSet T} (ha : BTree.SetReachable N a) (hb : BTree.SetReachable N b) (oa ob : BTree.Sharing T Unit) :
    ∃ s, BTree.BTreeSet.newSymDiff N oa ob a b = some s ∧ BTree.SetReachable N s ∧ Ascending s.elems ∧
      s.len = s.elems.length ∧
      ∀ u, u ∈ s.elems ↔ (u ∈ a.elems ∧ ∀ y ∈ b.elems, compare u y ≠ .eq) ∨
        (u ∈ b.elems ∧ ∀ y ∈ a.elems, compare u y ≠ .eq) := by
  have hb' : ∀ {P : T → Prop}, (∀ y ∈ b.elems, P y) ↔ ∀ y ∈ b.map.abs, P y.1 := by
    intro P; simp [BTree.BTreeSet.elems]
  have ha' : ∀ {P : T → Prop}, (∀ y ∈ a.elems, P y) ↔ ∀ y ∈ a.map.abs, P y.1 := by
    intro P; simp [BTree.BTreeSet.elems]
  have hbx : ∀ {P : T → Prop}, (∃ y ∈ b.elems, P y) ↔ ∃ y ∈ b.map.abs, P y.1 := by
    intro P; simp [BTree.BTreeSet.elems]
  have hax : ∀ {P : T → Prop}, (∃ y ∈ a.elems, P y) ↔ ∃ y ∈ a.map.abs, P y.1 := by
    intro P; simp [BTree.BTreeSet.elems]
  obtain ⟨s, e, w, x⟩ := BTree.BTreeSet.newSymDiff_spec hN (ha.wf hN) (hb.wf hN) oa ob
  have r : BTree.SetReachable N s := .symDiff ha hb e
  refine ⟨s, e, r, BTree.BTreeSet.asc_elems w, (C14_btreeset_len hN r).1, ?_⟩
  intro u
  rw [hb', ha', btreeset_mem_elems, btreeset_mem_elems, btreeset_mem_elems, x, mem_symDiff (BTree.BTreeMap.WF.sorted (ha.wf hN)) (BTree.BTreeMap.WF.sorted (hb.wf hN))]

-- both strategies of each
example : ((BTree.BTreeSet.newUnion 1 .unique .shared sb sb7).map (·.elems.map (fun k => (k.id, k.tag))),
    (BTree.BTreeSet.newUnion 1 .shared .unique sb1 sb).map (·.elems.map (fun k => (k.id, k.tag)))) =
    (some [(1, 0), (2, 7), (3, 0), (4, 7), (5, 0), (6, 0), (7, 0), (8, 0), (9, 0), (10, 0), (11, 0), (12, 7)],
     some [(1, 0), (2, 1), (3, 0), (4, 0), (5, 0), (6, 0), (7, 0), (8, 0), (9, 0), (10, 0), (11, 0), (12, 3)]) := by
  decide +kernel
example : ((BTree.BTreeSet.newIntersection 1 .unique .shared sb sb7).map (·.elems.map (fun k => (k.id, k.tag))),
    (BTree.BTreeSet.newIntersection 1 .shared .unique sb1 sb).map (·.elems.map (fun k => (k.id, k.tag))),
    (BTree.BTreeSet.newDiff 1 .shared .unique sb1 sb).map (·.elems.map (·.id)),
    (BTree.BTreeSet.newDiff 1 .shared .unique sb sb7).map (·.elems.map (·.id)),
    (BTree.BTreeSet.newSymDiff 1 .shared .unique sb7 sb).map (·.elems.map (·.id))) =
    (some [(2, 7), (4, 7)], some [(2, 3)], some [12], some [1, 3, 5, 6, 7, 8, 9, 10, 11],
     some [1, 3, 5, 6, 7, 8, 9, 10, 11, 12]) := by decide +kernel
example := C37_btreeset_union (Nat.le_refl 1) sb1_reachable sb_reachable .unique .shared
example := C37_btreeset_intersection (Nat.le_refl 1) sb1_reachable sb_reachable .unique .shared
example := C37_btreeset_difference (Nat.le_refl 1) sb1_reachable sb_reachable .unique .shared
example := C37_btreeset_symDiff (Nat.le_refl 1) sb1_reachable sb_reachable .unique .shared

/-! ## C39 which of two equal elements is stored -/

/-- C39 for BTreeSet.  `insert(x)` stores `x`, also if an equal element was there; it returns
whether there was none. -/
theorem C39_btreeset_insert {N : Nat} (hN : 1 ≤ N) {s : BTree.BTreeSet T} (h : BTree.SetReachable N s) (x : T) :
    ∃ s', s.insert N x = some (s', !s.contains (compare x)) ∧ BTree.SetReachable N s' ∧
      (∀ u, u ∈ s'.elems ↔ u = x ∨ (u ∈ s.elems ∧ compare x u ≠ .eq)) ∧ Ascending s'.elems ∧
      s'.get (compare x) = some x := by
  have w := (h.wf hN)
  obtain ⟨s', e, w', a⟩ := BTree.BTreeSet.insert_spec w x
  have hc : s.contains (compare x) = Spec.hasKey x s.map.abs := by
    exact BTree.BTreeSet.contains_spec w x
  refine ⟨s', by rw [e, hc], .insert h e, ?_, BTree.BTreeSet.asc_elems w', ?_⟩
  · intro u
    rw [btreeset_mem_elems, btreeset_mem_elems, a, mem_insert]
    simp
  · rw [BTree.BTreeSet.get, BTree.BTreeMap.getKeyValue_spec w' (isProbe_compare x), a,
      find_insert (BTree.BTreeMap.WF.sorted (h.wf hN)) (isProbe_compare x)]
    simp

/-- C39 for BTreeSet.  `replace(x)` stores `x` and returns the element equal to it stored before,
if any. -/
theorem C39_btreeset_replace {N : Nat} (hN : 1 ≤ N) {s : BTree.BTreeSet T} (h : BTree.SetReachable N s) (x : T) :
    ∃ s', s.replace N x = some (s', s.get (compare x)) ∧ BTree.SetReachable N s' ∧
      (∀ u, u ∈ s'.elems ↔ u = x ∨ (u ∈ s.elems ∧ compare x u ≠ .eq)) ∧ Ascending s'.elems := by
  have w := (h.wf hN)
  obtain ⟨s', e, w', a⟩ := BTree.BTreeSet.replace_spec hN w x
  refine ⟨s', ?_, .replace h e, ?_, BTree.BTreeSet.asc_elems w'⟩
  · rw [e, BTree.BTreeSet.get, BTree.BTreeMap.getKeyValue_spec w (isProbe_compare x)]
  · intro u
    rw [btreeset_mem_elems, btreeset_mem_elems, a, mem_insert]
    simp

/-- C39 for BTreeSet.  `get` returns the stored element equal to the probe; `take` removes and
returns it; `remove` removes it and tells whether there was one; `contains` tells, too. -/
theorem C39_btreeset_take {N : Nat} (hN : 1 ≤ N) {s : BTree.BTreeSet T} (h : BTree.SetReachable N s) {p : T → Ordering} (hp : IsProbe p) :
    (∀ u, s.get p = some u ↔ u ∈ s.elems ∧ p u = .eq) ∧
    (s.contains p = (s.get p).isSome) ∧
    ∃ s', s.take N p = some (s', s.get p) ∧ BTree.SetReachable N s' ∧
      s'.elems = s.elems.filter (fun u => p u != .eq) ∧
      ∃ s'', s.remove N p = some (s'', (s.get p).isSome) ∧ BTree.SetReachable N s'' ∧ s''.elems = s'.elems := by
  have w := (h.wf hN)
  have hs := (BTree.BTreeMap.WF.sorted (h.wf hN))
  have hg : s.get p = (Spec.find p s.map.abs).map (·.1) := by
    rw [BTree.BTreeSet.get, BTree.BTreeMap.getKeyValue_spec w hp]
  obtain ⟨s', e, w', a⟩ := BTree.BTreeSet.take_spec hN w hp
  have fe : ∀ l : List (T × Unit), (Spec.erase p l).map (·.1) = (l.map (·.1)).filter (fun u => p u != .eq) := by
    intro l; rw [List.filter_map]; rfl
  refine ⟨?_, ?_, s', by rw [e, hg], .take h hp e, ?_, ?_⟩
  · intro u
    rw [hg, Option.map_eq_some_iff, btreeset_mem_elems]
    constructor
    · rintro ⟨⟨k, ⟨⟩⟩, hf, rfl⟩; exact (find_eq_some hp hs).1 hf
    · intro hu; exact ⟨(u, ()), (find_eq_some hp hs).2 hu, rfl⟩
  · rw [hg, BTree.BTreeSet.contains, BTree.BTreeMap.containsKey_spec w hp]; simp
  · rw [BTree.BTreeSet.elems, a, fe]; rfl
  · obtain ⟨s'', e2, w2, a2⟩ := BTree.BTreeSet.remove_spec hN w hp
    refine ⟨s'', by rw [e2, hg]; simp, .remove h hp e2, ?_⟩
    rw [BTree.BTreeSet.elems, a2, BTree.BTreeSet.elems, a]

/-- `first`, `last`, `pop_first`, `pop_last` of BTreeSet. -/
theorem C39_btreeset_ends {N : Nat} (hN : 1 ≤ N) {s : BTree.BTreeSet T} (h : BTree.SetReachable N s) :
    s.first = some s.elems.head? ∧ s.last = s.elems.getLast? ∧
    (∃ s', s.popFirst N = some (s', s.elems.head?) ∧ BTree.SetReachable N s' ∧ s'.elems = s.elems.tail) ∧
    (∃ s', s.popLast N = some (s', s.elems.getLast?) ∧ BTree.SetReachable N s' ∧ s'.elems = s.elems.dropLast) := by
  have w := (h.wf hN)
  obtain ⟨m1, e1, w1, a1⟩ := BTree.BTreeMap.popFirst_spec hN w
  obtain ⟨m2, e2, w2, a2⟩ := BTree.BTreeMap.popLast_spec hN w
  have f1 : s.popFirst N = some (⟨m1⟩, s.elems.head?) := by
    rw [BTree.BTreeSet.popFirst, e1]; simp [BTree.BTreeSet.elems]
  have f2 : s.popLast N = some (⟨m2⟩, s.elems.getLast?) := by
    rw [BTree.BTreeSet.popLast, e2]; simp [BTree.BTreeSet.elems]
  refine ⟨?_, ?_, ⟨⟨m1⟩, f1, .popFirst h f1, ?_⟩, ⟨⟨m2⟩, f2, .popLast h f2, ?_⟩⟩
  · rw [BTree.BTreeSet.first, BTree.BTreeMap.firstKeyValue_spec hN w]; simp [BTree.BTreeSet.elems]
  · rw [BTree.BTreeSet.last, BTree.BTreeMap.lastKeyValue_spec hN w]; simp [BTree.BTreeSet.elems]
  · rw [BTree.BTreeSet.elems, a1]; simp [BTree.BTreeSet.elems]
  · rw [BTree.BTreeSet.elems, a2]; simp [BTree.BTreeSet.elems]

-- the element stored becomes the new one
example : (sb.insert 1 ⟨2, 9⟩).map (fun x => (x.1.get (compare (⟨2, 0⟩ : CKey)), x.2)) =
    some (some ⟨2, 9⟩, false) := by decide +kernel
example : (sb.replace 1 ⟨2, 9⟩).map (fun x => (x.1.get (compare (⟨2, 0⟩ : CKey)), x.2)) =
    some (some ⟨2, 9⟩, some ⟨2, 1⟩) := by decide +kernel
example : (sb.take 1 (compare (⟨2, 5⟩ : CKey))).map (fun x => (x.1.len + 1 == sb.len, x.2)) =
    some (true, some ⟨2, 1⟩) := by decide +kernel
example := C39_btreeset_insert (Nat.le_refl 1) sb_reachable ⟨2, 9⟩
example := C39_btreeset_replace (Nat.le_refl 1) sb_reachable ⟨2, 9⟩
example := C39_btreeset_take (Nat.le_refl 1) sb_reachable (isProbe_compare (⟨2, 9⟩ : CKey))
example := C39_btreeset_ends (Nat.le_refl 1) sb_reachable

/-! ## C40, C15 retain -/

theorem bt_visit_total {σ : Type} (f : σ → T → σ × Bool) (xs : List T) : ∀ s,
    BTree.BTreeSet.visit (fun s x => some (f s x)) s xs =
      (some (Spec.keepCalls f s xs).1, (Spec.keepCalls f s xs).2) := by
  induction xs with
  | nil => intro s; rfl
  | cons x xs ih => intro s; simp only [BTree.BTreeSet.visit, ih]; rfl

/-- C40 for BTreeSet.  `retain` calls the closure once per element in ascending order, threading
its state, and leaves exactly the accepted elements. -/
theorem C40_btreeset_retain {σ : Type} {N : Nat} (hN : 1 ≤ N) {s : BTree.BTreeSet T}
    (h : BTree.SetReachable N s) (o : BTree.Sharing T Unit) (f : σ → T → σ × Bool) (st : σ) :
    ∃ st' s', s.retain N o (fun s x => some (f s x)) st = .done st' s' ∧ BTree.SetReachable N s' ∧
      (st', s'.elems) = Spec.keepCalls f st s.elems ∧ s'.len = s'.elems.length := by
  obtain ⟨s', w, a, e⟩ := BTree.BTreeSet.retain_spec hN (h.wf hN) o (fun s x => some (f s x)) st
  rw [bt_visit_total] at a e
  have r : BTree.SetReachable N s' := .retain h e
  exact ⟨_, s', e, r, by rw [a], (C14_btreeset_len hN r).1⟩

/-- The elements `f` accepts before it panics, if it does. -/
def acceptedSoFar {σ : Type} (f : σ → T → Option (σ × Bool)) : σ → List T → List T
  | _, [] => []
  | s, x :: xs =>
    match f s x with
    | none => []
    | some (s', b) => if b then x :: acceptedSoFar f s' xs else acceptedSoFar f s' xs

/-- C15 for BTreeSet: whenever the closure panics, the set left behind is consistent and usable;
it has exactly the elements accepted before the panic. -/
theorem C15_btreeset_retain_panic {σ : Type} {N : Nat} (hN : 1 ≤ N) {s s' : BTree.BTreeSet T}
    (h : BTree.SetReachable N s) {o : BTree.Sharing T Unit} {f : σ → T → Option (σ × Bool)} {st : σ}
    (hp : s.retain N o f st = .panicked s') :
    BTree.SetReachable N s' ∧ s'.len = s'.elems.length ∧ Ascending s'.elems ∧
      s'.elems = acceptedSoFar f st s.elems := by
  have r : BTree.SetReachable N s' := .retainPanic h hp
  obtain ⟨h1, -, h3⟩ := C14_btreeset_len hN r
  refine ⟨r, h1, h3, ?_⟩
  obtain ⟨s1, w, a, e⟩ := BTree.BTreeSet.retain_spec hN (h.wf hN) o f st
  rw [e] at hp
  have hv : ∀ (xs : List T) (st : σ), (BTree.BTreeSet.visit f st xs).2 = acceptedSoFar f st xs := by
    intro xs
    induction xs with
    | nil => intro st; rfl
    | cons x xs ih =>
      intro st
      simp only [BTree.BTreeSet.visit, acceptedSoFar]
      cases f st x with
      | none => rfl
      | some y => dsimp only; rw [ih]
  split at hp
  · cases hp; rw [a, hv]
  · cases hp

-- a closure that keeps every other element, and one that panics at its fourth call
example : (match sb.retain 1 .shared (σ := List Nat) (fun s k => some (s ++ [k.id], s.length % 2 == 0)) [] with
    | .done s t => some (s.length, t.elems.map (·.id), t.len)
    | .panicked _ => none) = some (11, [1, 3, 5, 7, 9, 11], 6) := by decide +kernel
example : (match sb.retain 1 .shared (σ := Nat) (fun s _ => if s = 3 then none else some (s + 1, s != 1)) 0 with
    | .done _ _ => none
    | .panicked t => some (t.elems.map (·.id), t.len)) = some ([1, 3], 2) := by decide +kernel
example := C40_btreeset_retain (Nat.le_refl 1) sb_reachable .shared (fun s (k : CKey) => (s + 1, k.id % 2 == 0)) 0

/-! ## C16, C33 -/

/-- C16 for BTreeSet, equality. -/
theorem C16_btreeset_eq {N : Nat} (hN : 1 ≤ N) (eqT : T → T → Bool) {a b : BTree.BTreeSet T} (ha : BTree.SetReachable N a) (hb : BTree.SetReachable N b) :
    ∃ r, a.eqSet eqT b = some r ∧
      (r = true ↔ a.elems.length = b.elems.length ∧ ∀ x ∈ a.elems.zip b.elems, eqT x.1 x.2 = true) ∧
      (∀ (_ : BEq T) (_ : LawfulBEq T), eqT = (fun x y => x == y) → (r = true ↔ a.elems = b.elems)) := by
  have z : (a.elems.zip b.elems) = (a.map.abs.zip b.map.abs).map (fun z => (z.1.1, z.2.1)) := by
    rw [BTree.BTreeSet.elems, BTree.BTreeSet.elems, List.zip_map]; rfl
  have l1 : a.elems.length = a.map.abs.length := by simp [BTree.BTreeSet.elems]
  have l2 : b.elems.length = b.map.abs.length := by simp [BTree.BTreeSet.elems]
  refine ⟨decide (a.elems.length = b.elems.length) && (a.elems.zip b.elems).all (fun z => eqT z.1 z.2),
    ?_, by simp, ?_⟩
  · rw [BTree.BTreeSet.eqSet, BTree.BTreeMap.eqMap, BTree.BTreeMap.iterList_spec hN (ha.wf hN), BTree.BTreeMap.iterList_spec hN (hb.wf hN), (BTree.BTreeMap.WF.len_eq (ha.wf hN)), (BTree.BTreeMap.WF.len_eq (hb.wf hN)), z, l1, l2]
    by_cases h : a.map.abs.length = b.map.abs.length <;> simp [h, List.all_map, Function.comp_def]
  · rintro _ _ rfl
    rw [Bool.and_eq_true, decide_eq_true_iff]
    exact Spec.zip_all_beq

/-- C16 for BTreeSet, order: lexicographic. -/
theorem C16_btreeset_cmp {N : Nat} (hN : 1 ≤ N) (cmpT : T → T → Ordering) {a b : BTree.BTreeSet T} (ha : BTree.SetReachable N a) (hb : BTree.SetReachable N b) :
    ∃ o, a.cmpSet cmpT b = some o ∧
    (o = .lt ↔
      ∃ a1 b1 a2 b2, a.elems = a1 ++ a2 ∧ b.elems = b1 ++ b2 ∧
        (a1.length = b1.length ∧ ∀ x ∈ a1.zip b1, cmpT x.1 x.2 = .eq) ∧
        ((a2 = [] ∧ b2 ≠ []) ∨ ∃ x y a3 b3, a2 = x :: a3 ∧ b2 = y :: b3 ∧ cmpT x y = .lt)) ∧
    (o = .eq ↔ a.elems.length = b.elems.length ∧ ∀ x ∈ a.elems.zip b.elems, cmpT x.1 x.2 = .eq) ∧
    a.partialCmpSet (fun x y => some (cmpT x y)) b = some (some o) := by
  rw [BTree.BTreeSet.cmpSet, BTree.BTreeSet.partialCmpSet, BTree.BTreeMap.cmpMap, BTree.BTreeMap.partialCmpMap, BTree.BTreeMap.iterList_spec hN (ha.wf hN), BTree.BTreeMap.iterList_spec hN (hb.wf hN)]
  dsimp only
  rw [Spec.lexCmp_map (fun e : T × Unit => e.1) cmpT,
    Spec.lexPartialCmp_map (fun e : T × Unit => e.1) (fun x y => some (cmpT x y))]
  refine ⟨_, rfl, ?_, Spec.lexCmp_eq_iff, congrArg some (Spec.lexPartialCmp_total _ _)⟩
  rw [Spec.lexCmp_lt_iff]
  simp only [Spec.lexCmp_eq_iff]
  rfl

/-- C16 for BTreeSet, hash: what is fed to the hasher is the length and the elements in order; so
sets with equal elements hash equally. -/
theorem C16_btreeset_hash {σ : Type} {N : Nat} (hN : 1 ≤ N) (hLen : σ → Nat → σ) (hT : σ → T → σ) {a b : BTree.BTreeSet T}
    (ha : BTree.SetReachable N a) (hb : BTree.SetReachable N b) (s : σ) :
    a.hashSet hLen hT s = some (a.elems.foldl hT (hLen s a.elems.length)) ∧
      (a.elems = b.elems → a.hashSet hLen hT s = b.hashSet hLen hT s) := by
  have key : ∀ {a : BTree.BTreeSet T}, BTree.SetReachable N a →
      a.hashSet hLen hT s = some (a.elems.foldl hT (hLen s a.elems.length)) := by
    intro a ha
    rw [BTree.BTreeSet.hashSet, BTree.BTreeMap.iterList_spec hN (ha.wf hN), (BTree.BTreeMap.WF.len_eq (ha.wf hN))]
    simp [BTree.BTreeSet.elems, List.foldl_map]
  exact ⟨key ha, fun h => by rw [key ha, key hb, h]⟩

/-- C33 for BTreeSet: the derived impls (de)serialize the map inside. -/
theorem C33_btreeset_round_trip {N : Nat} (hN : 1 ≤ N) (debug : Bool) {usizeMax : Nat} {s : BTree.BTreeSet T} (h : BTree.SetReachable N s)
    (hint : Option Nat) (hh : ∀ n, hint = some n → n < usizeMax) :
    ∃ es m', s.map.serialize = some (s.elems.length, es) ∧ es.map (·.1) = s.elems ∧
      BTree.deserialize N debug usizeMax hint es false = some (.ok m') ∧
      BTree.SetReachable N ⟨m'⟩ ∧ BTree.BTreeSet.elems ⟨m'⟩ = s.elems := by
  have w := h.wf hN
  obtain ⟨m', e1, e2, a⟩ : ∃ m', s.map.serialize = some (s.map.abs.length, s.map.abs) ∧
      BTree.deserialize N debug usizeMax hint s.map.abs false = some (.ok m') ∧
      m'.abs = s.map.abs := by
    obtain ⟨-, m', e, -, a⟩ := C31_btree_deserialize hN debug hint hh s.map.abs
    refine ⟨m', ?_, e, ?_⟩
    · rw [BTree.BTreeMap.serialize, BTree.BTreeMap.iterList_spec hN w, ← BTree.BTreeMap.WF.len_eq w]
      rfl
    · rw [a]; exact Spec.insertAll_sorted (BTree.BTreeMap.WF.sorted w)
  refine ⟨_, m', ?_, rfl, e2, .deserialize hh e2, ?_⟩
  · rw [e1]; simp [BTree.BTreeSet.elems]
  · rw [BTree.BTreeSet.elems, BTree.BTreeSet.elems, a]

example := C16_btreeset_eq (Nat.le_refl 1) (fun x y => x == y) sb_reachable sb_reachable
example := C16_btreeset_cmp (Nat.le_refl 1) compare sb_reachable sb7_reachable
example := C16_btreeset_hash (Nat.le_refl 1) (σ := List Nat) (fun s n => s ++ [n]) (fun s k => s ++ [k.id]) sb_reachable
  sb_reachable []
example := C33_btreeset_round_trip (Nat.le_refl 1) true (usizeMax := 2 ^ 64 - 1) sb_reachable (some 5) (by decide)

/-! ## C39 for the maps -/

/-- C39 for AvlMap: the key stored after `insert(k, v)` is `k`, and it is the only key equal to
`k`. -/
theorem C39_avl_insert {V : Type} {m : Avl.AvlMap T V} (h : Avl.Reachable m) (k : T) (v : V) :
    ∃ m' o, m.insert k v = some (m', o) ∧ m'.getKeyValue (compare k) = some (k, v) ∧
      ∀ e ∈ m'.abs, compare k e.1 = .eq → e = (k, v) := by
  obtain ⟨m', e, r, g, hs, a, -⟩ := C01_avl_insert h k v
  have hk := isProbe_compare k
  have g' := g _ hk
  rw [if_pos (cmp_self k)] at g'
  refine ⟨m', _, e, g', ?_⟩
  intro x hx hc
  rw [Avl.AvlMap.getKeyValue_spec r.wf hk] at g'
  have := (find_eq_some hk hs).2 ⟨hx, hc⟩
  rw [g'] at this; simpa using this.symm

/-- C39 for BTreeMap. -/
theorem C39_btree_insert {V : Type} {N : Nat} (hN : 1 ≤ N) {m : BTree.BTreeMap T V}
    (h : BTree.Reachable N m) (k : T) (v : V) :
    ∃ m' o, m.insert N k v = some (m', o) ∧ m'.getKeyValue (compare k) = some (k, v) ∧
      ∀ e ∈ m'.abs, compare k e.1 = .eq → e = (k, v) := by
  obtain ⟨m', e, w, a⟩ := BTree.BTreeMap.insert_spec (h.wf hN) k v
  have hk := isProbe_compare k
  have hf : Spec.find (compare k) m'.abs = some (k, v) := by
    rw [a, find_insert (h.wf hN).sorted hk, if_pos (cmp_self k)]
  refine ⟨m', _, e, by rw [BTree.BTreeMap.getKeyValue_spec w hk, hf], ?_⟩
  intro x hx hc
  have := (find_eq_some hk w.sorted).2 ⟨hx, hc⟩
  rw [hf] at this; simpa using this.symm

example := C39_avl_insert avl5_reachable ⟨2, 9⟩ 22
example := C39_btree_insert (Nat.le_refl 1) bt_reachable ⟨2, 9⟩ 22

end Verif.Props
