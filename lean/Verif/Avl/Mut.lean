import Verif.Avl.Map
/-!
# Mutable iteration (avl.rs:1281-1298 `iter_mut`, 1616-1697 `range_mut`, values_mut)

`IterMutNode::destruct` (avl.rs:2026-2058) hands out `&mut` references to the values.  A
reference is represented by the *slot* it points to, i.e. the in-order position of its node:
the iterator is run on the tree whose values are paired with their slots, and what the
caller writes through the references it obtained is stored afterwards.
-/
set_option linter.unusedSectionVars false
namespace Verif.Avl
open Tree
variable {K V : Type _}

/-- The tree with every value paired with its slot (in-order position, from `n`). -/
def Tree.label : Nat → Tree K V → Tree K (Nat × V)
  | _, nil => nil
  | n, node k v lh rh l r =>
    node k (n + size l, v) lh rh (label n l) (label (n + size l + 1) r)

/-- Store `w i` into slot `i` for every `i` in `slots`. -/
def Tree.store (slots : List Nat) (w : Nat → V) : Nat → Tree K V → Tree K V
  | _, nil => nil
  | n, node k v lh rh l r =>
    node k (if n + size l ∈ slots then w (n + size l) else v) lh rh
      (store slots w n l) (store slots w (n + size l + 1) r)

/-- The slots handed out in a run. -/
def slotsOf (ys : List (Option (K × (Nat × V)) × Nat)) : List Nat :=
  ys.filterMap (fun y => y.1.map (fun e => e.2.1))

/-- What the caller sees of a run: entries and lengths. -/
def seenOf (ys : List (Option (K × (Nat × V)) × Nat)) : List (Option (K × V) × Nat) :=
  ys.map (fun y => (y.1.map (fun e => (e.1, e.2.2)), y.2))

/-- avl.rs:1281-1298: run `iter_mut` under the schedule `ds`, writing `w i` through the
reference to slot `i` each time one is obtained: results seen, slots, and the map after. -/
def AvlMap.iterMutRun (m : AvlMap K V) (ds : List Bool) (w : Nat → V) :
    Option (List (Option (K × V) × Nat) × List Nat × AvlMap K V) :=
  ((iterOf m.len (m.root.label 0)).run ds).map (fun ys =>
    (seenOf ys, slotsOf ys, ⟨m.len, m.root.store (slotsOf ys) w 0⟩))

/-- avl.rs:1616-1697: the same for `range_mut`. -/
def AvlMap.rangeMutRun (m : AvlMap K V) (lb ub : Bnd K) (ds : List Bool) (w : Nat → V) :
    Option (List (Option (K × V) × Nat) × List Nat × AvlMap K V) :=
  ((rangeOf lb ub m.len (m.root.label 0)).run ds).map (fun ys =>
    (seenOf ys, slotsOf ys, ⟨m.len, m.root.store (slotsOf ys) w 0⟩))

theorem AvlMap.iterMutRun_eq {m : AvlMap K V} {ds : List Bool} {ys} (w : Nat → V)
    (h : (iterOf m.len (m.root.label 0)).run ds = some ys) :
    m.iterMutRun ds w = some (seenOf ys, slotsOf ys, ⟨m.len, m.root.store (slotsOf ys) w 0⟩) := by
  rw [AvlMap.iterMutRun, h]; rfl

theorem AvlMap.rangeMutRun_eq {m : AvlMap K V} {lb ub : Bnd K} {ds : List Bool} {ys} (w : Nat → V)
    (h : (rangeOf lb ub m.len (m.root.label 0)).run ds = some ys) :
    m.rangeMutRun lb ub ds w =
      some (seenOf ys, slotsOf ys, ⟨m.len, m.root.store (slotsOf ys) w 0⟩) := by
  rw [AvlMap.rangeMutRun, h]; rfl

theorem label_toList : ∀ (n : Nat) (t : Tree K V),
    (t.label n).toList = (t.toList.zipIdx n).map (fun x => (x.1.1, (x.2, x.1.2))) := by
  intro n t
  induction t generalizing n with
  | nil => rfl
  | node k v lh rh l r ihl ihr =>
    simp only [Tree.label, toList, ihl, ihr, List.zipIdx_append, List.zipIdx_cons, List.map_append,
      List.map_cons, size_eq, Nat.add_assoc]

theorem store_toList (slots : List Nat) (w : Nat → V) : ∀ (n : Nat) (t : Tree K V),
    (t.store slots w n).toList =
      (t.toList.zipIdx n).map (fun x => if x.2 ∈ slots then (x.1.1, w x.2) else x.1) := by
  intro n t
  induction t generalizing n with
  | nil => rfl
  | node k v lh rh l r ihl ihr =>
    simp only [Tree.store, toList, ihl, ihr, List.zipIdx_append, List.zipIdx_cons, List.map_append,
      List.map_cons, size_eq, Nat.add_assoc]
    congr 2
    split <;> rfl

theorem store_shape (slots : List Nat) (w : Nat → V) : ∀ (n : Nat) (t : Tree K V),
    height (t.store slots w n) = height t ∧ (Bal t → Bal (t.store slots w n)) := by
  intro n t
  induction t generalizing n with
  | nil => exact ⟨rfl, id⟩
  | node k v lh rh l r ihl ihr =>
    refine ⟨by simp [Tree.store], ?_⟩
    rintro ⟨h1, h2, h3, h4, h5, h6⟩
    refine ⟨?_, ?_, h3, h4, (ihl _).2 h5, (ihr _).2 h6⟩
    · rw [(ihl _).1]; exact h1
    · rw [(ihr _).1]; exact h2

theorem store_keys (slots : List Nat) (w : Nat → V) (n : Nat) (t : Tree K V) :
    (t.store slots w n).toList.map (·.1) = t.toList.map (·.1) := by
  rw [store_toList, List.map_map]
  have : ((fun x => x.1) ∘ fun (x : (K × V) × Nat) => if x.2 ∈ slots then (x.1.1, w x.2) else x.1)
      = (fun x => x.1.1) := by
    funext x; simp only [Function.comp]; split <;> rfl
  rw [this]
  have h2 := congrArg (List.map (fun x : K × V => x.1)) (List.zipIdx_map_fst n t.toList)
  rw [List.map_map] at h2
  exact h2

theorem AvlMap.WF.store [Ord K] {m : AvlMap K V} (h : m.WF) (slots : List Nat) (w : Nat → V) :
    (⟨m.len, m.root.store slots w 0⟩ : AvlMap K V).WF where
  bal := (store_shape _ _ _ _).2 h.bal
  sorted := Sorted.of_keys_sublist h.sorted (by
    show ((m.root.store slots w 0).toList.map _).Sublist (m.root.toList.map _)
    rw [store_keys]; exact List.Sublist.refl _)
  len_eq := by
    have := congrArg List.length (store_keys slots w 0 m.root)
    simp only [List.length_map] at this
    show m.len = (m.root.store slots w 0).toList.length
    rw [this]; exact h.len_eq

/-- Mapping commutes with consuming a deque. -/
theorem dequeRun_map {α β : Type _} (f : α → β) (ds : List Bool) (l : List α) :
    Spec.dequeRun ds (l.map f) = (Spec.dequeRun ds l).map (fun x => (x.1.map f, x.2)) := by
  induction ds generalizing l with
  | nil => rfl
  | cons d ds ih =>
    have h2 : (Spec.dequeStep d (l.map f)).2 = (Spec.dequeStep d l).2.map f := by
      cases d <;> simp [Spec.dequeStep, List.map_tail, List.map_dropLast]
    have h1 : (Spec.dequeStep d (l.map f)).1 = (Spec.dequeStep d l).1.map f := by
      cases d <;> simp [Spec.dequeStep]
    simp only [Spec.dequeRun, List.map_cons, h1, h2, List.length_map, ih]

/-- What is yielded from a duplicate-free list is a sub-multiset of it: nothing twice. -/
theorem dequeRun_yields {α : Type _} (ds : List Bool) (l : List α) :
    ∃ rest, ((Spec.dequeRun ds l).filterMap (·.1) ++ rest).Perm l := by
  induction ds generalizing l with
  | nil => exact ⟨l, by simp [Spec.dequeRun]⟩
  | cons d ds ih =>
    obtain ⟨rest, h⟩ := ih (Spec.dequeStep d l).2
    refine ⟨rest, ?_⟩
    simp only [Spec.dequeRun, List.filterMap_cons]
    cases d with
    | true =>
      cases l with
      | nil => simpa [Spec.dequeStep] using h
      | cons a l => simp [Spec.dequeStep] at h ⊢; exact h
    | false =>
      simp only [Spec.dequeStep, Bool.false_eq_true, if_false] at h ⊢
      cases hl : l.getLast? with
      | none =>
        simp at hl; subst hl; simpa using h
      | some a =>
        simp only [List.cons_append]
        refine (List.Perm.cons a h).trans ?_
        have hne : l ≠ [] := by intro hh; simp [hh] at hl
        have := List.dropLast_concat_getLast hne
        rw [List.getLast?_eq_some_getLast hne] at hl
        simp only [Option.some.injEq] at hl
        rw [hl] at this
        conv => rhs; rw [← this]
        exact (List.perm_append_comm (l₁ := [a])).trans (List.Perm.refl _)

end Verif.Avl
