import Verif.BTree.Range
import Verif.Avl.Mut
/-!
# Mutable iteration of `BTreeMap` (btree.rs:762-784, 864-873, 1434-1508, 1940-1996, 2079-2160)

As for `AvlMap` (see `Verif.Avl.Mut`), a `&mut` reference is represented by the slot (in-order
position) it points to: the iterator is run on the tree whose values are paired with their
slots, and what the caller wrote is stored afterwards.
-/
set_option linter.unusedSectionVars false
namespace Verif.BTree
open Std Node
open Verif.Avl (slotsOf seenOf dequeRun_map dequeRun_yields)
universe u v w
variable {K : Type u} {V : Type v} {W : Type w}

mutual
/-- Rewrite every entry, given its slot (in-order position, counted from `n`). -/
def Node.mapIdx (g : Nat → K × V → K × W) : Nat → Node K V → Node K W
  | n, .mk es ks => .mk (Node.mapIdxE g n ks es) (Node.mapIdxK g n ks es)
/-- The children. -/
def Node.mapIdxK (g : Nat → K × V → K × W) : Nat → List (Node K V) → List (K × V) →
    List (Node K W)
  | _, [], _ => []
  | n, c :: ks, [] => Node.mapIdx g n c :: Node.mapIdxK g (n + c.toList.length) ks []
  | n, c :: ks, _ :: es => Node.mapIdx g n c :: Node.mapIdxK g (n + c.toList.length + 1) ks es
/-- The elements. -/
def Node.mapIdxE (g : Nat → K × V → K × W) : Nat → List (Node K V) → List (K × V) →
    List (K × W)
  | n, [], es => (es.zipIdx n).map (fun x => g x.2 x.1)
  | _, _ :: _, [] => []
  | n, c :: ks, e :: es =>
    g (n + c.toList.length) e :: Node.mapIdxE g (n + c.toList.length + 1) ks es
end

/-- The tree with every value paired with its slot. -/
def Node.label (n : Node K V) : Node K (Nat × V) := n.mapIdx (fun i e => (e.1, (i, e.2))) 0

/-- Store `w i` into slot `i` for every `i` in `slots`. -/
def Node.store (slots : List Nat) (w : Nat → V) (n : Node K V) : Node K V :=
  n.mapIdx (fun i e => if i ∈ slots then (e.1, w i) else e) 0

mutual
theorem Node.mapIdx_toList (g : Nat → K × V → K × W) : ∀ (n : Nat) (t : Node K V),
    (t.mapIdx g n).toList = (t.toList.zipIdx n).map (fun x => g x.2 x.1)
  | n, .mk es ks => by
    rw [Node.mapIdx, toList_mk, toList_mk, Node.mapIdx_inter g n ks es]
theorem Node.mapIdx_inter (g : Nat → K × V → K × W) : ∀ (n : Nat) (ks : List (Node K V))
    (es : List (K × V)), inter (Node.mapIdxK g n ks es) (Node.mapIdxE g n ks es) =
      ((inter ks es).zipIdx n).map (fun x => g x.2 x.1)
  | n, [], es => by simp [Node.mapIdxK, Node.mapIdxE]
  | n, c :: ks, [] => by
    have := Node.mapIdx_inter g (n + c.toList.length) ks []
    have hE : Node.mapIdxE g (n + c.toList.length) ks [] = [] := by
      cases ks <;> simp [Node.mapIdxE]
    rw [hE] at this
    simp only [Node.mapIdxK, Node.mapIdxE, inter, List.zipIdx_append, List.map_append,
      Node.mapIdx_toList g n c, this]
  | n, c :: ks, e :: es => by
    simp only [Node.mapIdxK, Node.mapIdxE, inter, List.zipIdx_append, List.map_append,
      List.zipIdx_cons, List.map_cons, Node.mapIdx_toList g n c,
      Node.mapIdx_inter g (n + c.toList.length + 1) ks es]
end

theorem Node.mapIdxE_length (g : Nat → K × V → K × W) : ∀ (n : Nat) (ks : List (Node K V))
    (es : List (K × V)), (Node.mapIdxE g n ks es).length = es.length
  | n, [], es => by simp [Node.mapIdxE]
  | n, c :: ks, [] => by simp [Node.mapIdxE]
  | n, c :: ks, e :: es => by simp [Node.mapIdxE, Node.mapIdxE_length g _ ks es]

theorem Node.mapIdxK_length (g : Nat → K × V → K × W) : ∀ (n : Nat) (ks : List (Node K V))
    (es : List (K × V)), (Node.mapIdxK g n ks es).length = ks.length
  | n, [], es => by simp [Node.mapIdxK]
  | n, c :: ks, [] => by simp [Node.mapIdxK, Node.mapIdxK_length g _ ks []]
  | n, c :: ks, e :: es => by simp [Node.mapIdxK, Node.mapIdxK_length g _ ks es]

theorem Node.mem_mapIdxK (g : Nat → K × V → K × W) : ∀ (n : Nat) (ks : List (Node K V))
    (es : List (K × V)), ∀ d ∈ Node.mapIdxK g n ks es, ∃ c ∈ ks, ∃ i, d = c.mapIdx g i
  | n, [], es => by simp [Node.mapIdxK]
  | n, c :: ks, [] => by
    intro d hd
    simp only [Node.mapIdxK, List.mem_cons] at hd
    rcases hd with rfl | hd
    · exact ⟨c, by simp, n, rfl⟩
    · obtain ⟨c', h1, i, h2⟩ := Node.mem_mapIdxK g _ ks [] d hd
      exact ⟨c', by simp [h1], i, h2⟩
  | n, c :: ks, e :: es => by
    intro d hd
    simp only [Node.mapIdxK, List.mem_cons] at hd
    rcases hd with rfl | hd
    · exact ⟨c, by simp, n, rfl⟩
    · obtain ⟨c', h1, i, h2⟩ := Node.mem_mapIdxK g _ ks es d hd
      exact ⟨c', by simp [h1], i, h2⟩

theorem Node.mapIdx_ok (g : Nat → K × V → K × W) {N : Nat} : ∀ {h lo : Nat} {t : Node K V}
    (n : Nat), Node.Ok N lo h t → Node.Ok N lo h (t.mapIdx g n) := by
  intro h
  induction h with
  | zero =>
    rintro lo ⟨es, ks⟩ n ⟨rfl, h1, h2⟩
    rw [Node.mapIdx]
    exact ⟨by simp [Node.mapIdxK], by rw [Node.mapIdxE_length]; exact h1,
      by rw [Node.mapIdxE_length]; exact h2⟩
  | succ h ih =>
    rintro lo ⟨es, ks⟩ n ⟨h0, h1, h2, h3⟩
    rw [Node.mapIdx]
    refine ⟨by rw [Node.mapIdxE_length, Node.mapIdxK_length]; exact h0,
      by rw [Node.mapIdxE_length]; exact h1, by rw [Node.mapIdxE_length]; exact h2, ?_⟩
    intro d hd
    obtain ⟨c, hc, i, rfl⟩ := Node.mem_mapIdxK g n ks es d hd
    exact ih i (h3 c hc)

theorem Node.mapIdx_keys (g : Nat → K × V → K × W) (hg : ∀ i e, (g i e).1 = e.1) (n : Nat)
    (t : Node K V) : (t.mapIdx g n).toList.map (·.1) = t.toList.map (·.1) := by
  rw [Node.mapIdx_toList, List.map_map]
  have : ((fun x : K × W => x.1) ∘ fun (x : (K × V) × Nat) => g x.2 x.1) =
      ((fun x : K × V => x.1) ∘ Prod.fst) := by
    funext x; simp [hg]
  rw [this, ← List.map_map, List.zipIdx_map_fst]

/-- What a caller of a mutable iterator observes, given what the iterator over labelled entries
yields. -/
theorem mut_facts (sel : List ((K × V) × Nat)) (ds : List Bool) (slack : Nat)
    (hnd : (sel.map (·.2)).Nodup) :
    let ys := (Spec.dequeRun ds (sel.map (fun x => (x.1.1, (x.2, x.1.2))))).map
      (fun r => (r.1, r.2 + slack))
    seenOf ys = (Spec.dequeRun ds (sel.map (·.1))).map (fun r => (r.1, r.2 + slack)) ∧
    slotsOf ys = (Spec.dequeRun ds sel).filterMap (fun y => y.1.map (·.2)) ∧
    (slotsOf ys).Nodup := by
  intro ys
  have h2 : slotsOf ys = (Spec.dequeRun ds sel).filterMap (fun y => y.1.map (·.2)) := by
    simp only [ys]
    rw [dequeRun_map, slotsOf, List.map_map, List.filterMap_map]
    congr 1
    funext y
    simp only [Function.comp, Option.map_map]
    rfl
  refine ⟨?_, h2, ?_⟩
  · simp only [ys]
    rw [dequeRun_map, dequeRun_map, seenOf, List.map_map, List.map_map, List.map_map]
    apply List.map_congr_left
    intro x _
    simp only [Function.comp, Option.map_map]
    congr 1
  · obtain ⟨rest, hperm⟩ := dequeRun_yields ds sel
    have h3 := (hperm.map (·.2)).nodup_iff.2 hnd
    rw [List.map_append] at h3
    have h4 := (List.nodup_append.1 h3).1
    rw [List.map_filterMap] at h4
    rw [h2]; exact h4

namespace BTreeMap
variable {m : BTreeMap K V}

/-- The map whose values are paired with their slots. -/
def label (m : BTreeMap K V) : BTreeMap K (Nat × V) := ⟨m.len, m.root.map Node.label⟩
/-- The map after storing into slots. -/
def store (slots : List Nat) (w : Nat → V) (m : BTreeMap K V) : BTreeMap K V :=
  ⟨m.len, m.root.map (Node.store slots w)⟩

/-- btree.rs:762-784 `iter_mut` (and `values_mut` 949-957), run under the schedule `ds`,
writing `w i` through the reference to slot `i`: results seen, slots, the map after. -/
def iterMutRun (m : BTreeMap K V) (ds : List Bool) (w : Nat → V) :
    Option (List (Option (K × V) × Nat) × List Nat × BTreeMap K V) :=
  (nodeOps.run ds m.label.iter).map (fun ys => (seenOf ys, slotsOf ys, m.store (slotsOf ys) w))

/-- btree.rs:864-873 `range_mut`; `none` is a panic. -/
def rangeMutRun {Q : Type _} [Ord Q] (f : K → Q) (m : BTreeMap K V) (lb ub : QBnd Q)
    (ds : List Bool) (w : Nat → V) :
    Option (List (Option (K × V) × Nat) × List Nat × BTreeMap K V) :=
  match m.label.range f lb ub with
  | none => none
  | some it =>
    (nodeOps.run ds it).map (fun ys => (seenOf ys, slotsOf ys, m.store (slotsOf ys) w))

section
variable [Ord K] [TransOrd K] {N : Nat}

theorem label_abs (m : BTreeMap K V) :
    m.label.abs = m.abs.zipIdx.map (fun x => (x.1.1, (x.2, x.1.2))) := by
  unfold label abs
  cases m.root with
  | none => rfl
  | some n => exact Node.mapIdx_toList _ 0 n

theorem store_abs (m : BTreeMap K V) (slots : List Nat) (w : Nat → V) :
    (m.store slots w).abs =
      m.abs.zipIdx.map (fun x => if x.2 ∈ slots then (x.1.1, w x.2) else x.1) := by
  unfold store abs
  cases m.root with
  | none => rfl
  | some n => exact Node.mapIdx_toList _ 0 n

theorem WF.mapIdx {W : Type _} (h : WF N m) (g : Nat → K × V → K × W)
    (hg : ∀ i e, (g i e).1 = e.1) :
    WF N (⟨m.len, m.root.map (fun n => n.mapIdx g 0)⟩ : BTreeMap K W) := by
  unfold WF at h ⊢
  cases hr : m.root with
  | none => rw [hr] at h; exact h
  | some n =>
    rw [hr] at h
    obtain ⟨⟨ht, h1⟩, h2, h3⟩ := h
    refine ⟨⟨ht, Node.mapIdx_ok g 0 h1⟩, ?_, ?_⟩
    · refine Sorted.of_keys_sublist h2 ?_
      rw [Node.mapIdx_keys g hg]; exact List.Sublist.refl _
    · rw [Node.mapIdx_toList]; simpa using h3

theorem WF.label (h : WF N m) : WF N m.label := h.mapIdx _ (fun _ _ => rfl)
theorem WF.store (h : WF N m) (slots : List Nat) (w : Nat → V) : WF N (m.store slots w) :=
  h.mapIdx _ (fun i e => by split <;> rfl)

theorem nodup_slots (l : List (K × V)) : (l.zipIdx.map (·.2)).Nodup := by
  rw [List.zipIdx_map_snd]; exact List.nodup_range'

theorem iterMutRun_spec (hN : 1 ≤ N) (h : WF N m) (ds : List Bool) (w : Nat → V) :
    ∃ slots m', m.iterMutRun ds w = some (Spec.dequeRun ds m.abs, slots, m') ∧ WF N m' ∧
      slots = (Spec.dequeRun ds m.abs.zipIdx).filterMap (fun y => y.1.map (·.2)) ∧
      slots.Nodup ∧ m'.len = m.len ∧
      m'.abs = m.abs.zipIdx.map (fun x => if x.2 ∈ slots then (x.1.1, w x.2) else x.1) := by
  have h1 := iter_run_spec hN h.label ds
  rw [label_abs] at h1
  have hf := mut_facts m.abs.zipIdx ds 0 (nodup_slots m.abs)
  simp only [Nat.add_zero, List.map_id', List.zipIdx_map_fst] at hf
  obtain ⟨f1, f2, f3⟩ := hf
  refine ⟨_, _, by rw [iterMutRun, h1, Option.map_some, f1, f2], h.store _ _, rfl, ?_, rfl,
    store_abs _ _ _⟩
  rw [← f2]; exact f3

theorem rangeMutRun_spec {Q : Type _} [Ord Q] [TransOrd Q] (hN : 1 ≤ N) (h : WF N m) {f : K → Q}
    (hf : ∀ a b, compare (f a) (f b) = compare a b) (lb ub : QBnd Q) (ds : List Bool)
    (w : Nat → V) :
    ((lb.bad ub = true ∨ BothExclude f lb ub m.abs) → m.rangeMutRun f lb ub ds w = none) ∧
    (lb.bad ub = false → ¬ BothExclude f lb ub m.abs →
      ∃ slack slots m', m.rangeMutRun f lb ub ds w =
        some ((Spec.dequeRun ds (Spec.range (lb.bnd f) (ub.bnd f) m.abs)).map
          (fun r => (r.1, r.2 + slack)), slots, m') ∧
      (Spec.range (lb.bnd f) (ub.bnd f) m.abs).length + slack = m.len ∧
      WF N m' ∧
      slots = (Spec.dequeRun ds (m.abs.zipIdx.filter (fun x =>
        (lb.bnd f).okLo x.1.1 && (ub.bnd f).okHi x.1.1))).filterMap (fun y => y.1.map (·.2)) ∧
      slots.Nodup ∧ m'.len = m.len ∧
      m'.abs = m.abs.zipIdx.map (fun x => if x.2 ∈ slots then (x.1.1, w x.2) else x.1)) := by
  obtain ⟨r1, r2⟩ := range_spec hN h.label hf lb ub
  have hbe : BothExclude f lb ub m.label.abs ↔ BothExclude f lb ub m.abs := by
    have hk : m.label.abs.map (·.1) = m.abs.map (·.1) := by
      rw [label_abs, List.map_map]
      have : ((fun x : K × (Nat × V) => x.1) ∘ fun (x : (K × V) × Nat) => (x.1.1, (x.2, x.1.2))) =
        ((fun x : K × V => x.1) ∘ Prod.fst) := rfl
      rw [this, ← List.map_map, List.zipIdx_map_fst]
    have hm : ∀ (P : K → Prop), (∃ e ∈ m.label.abs, P e.1) ↔ (∃ e ∈ m.abs, P e.1) := by
      intro P
      have e1 : ∀ {W : Type _} (l : List (K × W)), (∃ e ∈ l, P e.1) ↔ ∃ k ∈ l.map (·.1), P k := by
        intro W l; simp
      have e1' := e1 m.label.abs
      rw [e1', hk, ← e1]
    unfold BothExclude
    constructor
    · rintro ⟨q1, q2, a, b, c, d⟩
      exact ⟨q1, q2, a, b, c, (hm (fun k => compare q1 (f k) = .eq)).1 d⟩
    · rintro ⟨q1, q2, a, b, c, d⟩
      exact ⟨q1, q2, a, b, c, (hm (fun k => compare q1 (f k) = .eq)).2 d⟩
  rw [hbe] at r1 r2
  refine ⟨fun hb => by rw [rangeMutRun, r1 hb], fun hb hn => ?_⟩
  obtain ⟨it, i1, i2, i3, i4⟩ := r2 hb hn
  obtain ⟨slack, s1, s2, -⟩ := range_run_spec hN h.label i2 i3 i4 ds
  generalize hsel : m.abs.zipIdx.filter (fun x =>
        (lb.bnd f).okLo x.1.1 && (ub.bnd f).okHi x.1.1) = sel
  have hrange : Spec.range (lb.bnd f) (ub.bnd f) m.label.abs =
      sel.map (fun x => (x.1.1, (x.2, x.1.2))) := by
    rw [label_abs, Spec.range, List.filter_map, ← hsel]; rfl
  have hselr : sel.map (·.1) = Spec.range (lb.bnd f) (ub.bnd f) m.abs := by
    rw [← hsel, Spec.range]
    have := List.filter_map (f := Prod.fst)
      (p := fun e : K × V => (lb.bnd f).okLo e.1 && (ub.bnd f).okHi e.1) (l := m.abs.zipIdx)
    rw [List.zipIdx_map_fst] at this
    rw [this]; rfl
  have hnd : (sel.map (·.2)).Nodup := by
    rw [← hsel]
    exact (nodup_slots m.abs).sublist (List.Sublist.map _ List.filter_sublist)
  rw [hrange] at s1 s2
  have hfa := mut_facts sel ds slack hnd
  obtain ⟨f1, f2, f3⟩ := hfa
  rw [hselr] at f1
  refine ⟨slack, _, _, by rw [rangeMutRun, i1]; simp only [s2, Option.map_some, f1, f2], ?_,
    h.store _ _, rfl, ?_, rfl, store_abs _ _ _⟩
  · rw [← hselr]; simp only [List.length_map] at s1 ⊢; exact s1
  · rw [← f2]; exact f3

end
end BTreeMap
end Verif.BTree
