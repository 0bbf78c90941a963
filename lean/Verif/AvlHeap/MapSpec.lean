import Verif.AvlHeap.Map
import Verif.Heap.Deep
import Verif.AvlHeap.Access
import Verif.Heap.Tac
/-!
# `AvlMap` on reference-counted memory does what it does on values
-/
set_option linter.unusedSectionVars false
namespace Verif.AvlH
open Heap Heap.Machine
open Avl (Tree AvlMap iterOf rangeOf seenOf slotsOf items itemsRev pushDesc Act Iter)

variable {K V S : Type}

/-- What every map satisfies, whatever the key order: the tree is balanced with right heights, and
has no more nodes than the recorded length. -/
structure Ok (m : AvlMap K V) : Prop where
  bal : m.root.Bal
  size : m.root.size ≤ m.len

/-- The map in memory is the value. -/
def R (h : HMap) (m : AvlMap K V) (L : Multiset (Handle (ND K V))) : Prop :=
  ∃ r, h = ⟨m.len, r⟩ ∧ L = own r (vt m.root)

/-! ## Values -/

theorem getMutWith_size (p : K → Ordering) (g : V → V) : ∀ t : Tree K V,
    (t.getMutWith p g).1.size = t.size
  | .nil => rfl
  | .node k v lh rh l r => by
    have h1 := getMutWith_size p g l
    have h2 := getMutWith_size p g r
    unfold Tree.getMutWith
    split <;> simp [Tree.size, h1, h2]

theorem forEachMut_size (f : S → K → V → S × V) : ∀ (s : S) (t : Tree K V),
    (t.forEachMut f s).2.size = t.size
  | s, .nil => rfl
  | s, .node k v lh rh l r => by
    have h1 := forEachMut_size f s l
    unfold Tree.forEachMut
    simp [Tree.size, h1, forEachMut_size f _ r]

theorem unl_label_shape (f : Nat → K → V → V) : ∀ (n : Nat) (t : Tree K V),
    (unl f (t.label n)).height = t.height ∧ (unl f (t.label n)).size = t.size ∧
      (t.Bal → (unl f (t.label n)).Bal)
  | n, .nil => ⟨rfl, rfl, id⟩
  | n, .node k v lh rh l r => by
    obtain ⟨l1, l2, l3⟩ := unl_label_shape f n l
    obtain ⟨r1, r2, r3⟩ := unl_label_shape f (n + l.size + 1) r
    refine ⟨by simp [Tree.label, unl], by simp [Tree.label, unl, Tree.size, l2, r2], ?_⟩
    rintro ⟨h1, h2, h3, h4, h5, h6⟩
    exact ⟨by rw [l1]; exact h1, by rw [r1]; exact h2, h3, h4, l3 h5, r3 h6⟩

theorem label_size : ∀ (n : Nat) (t : Tree K V), (t.label n).size = t.size
  | n, .nil => rfl
  | n, .node k v lh rh l r => by simp [Tree.label, Tree.size, label_size]

theorem length_pruneL {W : Type} (lb ub : Bnd K) : ∀ (n : Nat) (w : List (Act K W)),
    Avl.wsize w ≤ n → (items (Avl.pruneL lb ub w)).length ≤ (items w).length := by
  intro n
  induction n with
  | zero =>
    intro w h
    cases w with
    | nil => simp [Avl.pruneL]
    | cons a w => cases a <;> simp [Avl.wsize] at h
  | succ n ih =>
    intro w h
    match w with
    | [] => simp [Avl.pruneL]
    | .ret e :: w => simp [Avl.pruneL]
    | .desc .nil :: w =>
      rw [Avl.pruneL]
      have := ih w (by simp [Avl.wsize] at h; omega)
      simpa [Act.items, Tree.toList] using this
    | .desc (.node k v lh rh l r) :: w =>
      rw [Avl.pruneL]
      refine (ih _ ?_).trans ?_
      · have := Avl.wsize_pruneStepL lb ub k v l r w
        simp only [Avl.wsize, Tree.size] at h
        omega
      · unfold Avl.pruneStepL
        dsimp only
        split <;> split <;> split <;> simp [Act.items, Tree.toList] <;> omega

theorem length_pruneR {W : Type} (lb ub : Bnd K) : ∀ (n : Nat) (w : List (Act K W)),
    Avl.wsize w ≤ n → (items (Avl.pruneRrev lb ub w)).length ≤ (items w).length := by
  intro n
  induction n with
  | zero =>
    intro w h
    cases w with
    | nil => simp [Avl.pruneRrev]
    | cons a w => cases a <;> simp [Avl.wsize] at h
  | succ n ih =>
    intro w h
    match w with
    | [] => simp [Avl.pruneRrev]
    | .ret e :: w => simp [Avl.pruneRrev]
    | .desc .nil :: w =>
      rw [Avl.pruneRrev]
      have := ih w (by simp [Avl.wsize] at h; omega)
      simpa [Act.items, Tree.toList] using this
    | .desc (.node k v lh rh l r) :: w =>
      rw [Avl.pruneRrev]
      refine (ih _ ?_).trans ?_
      · have := Avl.wsize_pruneStepR lb ub k v l r w
        simp only [Avl.wsize, Tree.size] at h
        omega
      · unfold Avl.pruneStepR
        dsimp only
        split <;> split <;> split <;> simp [Act.items, Tree.toList] <;> omega

theorem length_items_reverse {W : Type} (w : List (Act K W)) :
    (items w.reverse).length = (items w).length := by
  induction w with
  | nil => rfl
  | cons a w ih => simp [ih]; omega

theorem iter_total {W : Type} {t : Tree K W} {len : Nat} (h : t.size ≤ len) (ds : List Bool) :
    ∃ ys, (iterOf len t).run ds = some ys := by
  refine ⟨_, Iter.run_spec ds (iterOf len t) (len - t.size) ?_⟩
  rw [Avl.items_iterOf, ← Tree.size_eq]
  show len = _
  omega

theorem length_range {W : Type} {len : Nat} (lb ub : Bnd K) (t : Tree K W) :
    (items (rangeOf lb ub len t).work).length ≤ t.size := by
  simp only [rangeOf]
  rw [length_items_reverse]
  refine (length_pruneR lb ub _ _ le_rfl).trans ?_
  rw [length_items_reverse]
  refine (length_pruneL lb ub _ _ le_rfl).trans ?_
  simp [Tree.size_eq]

theorem range_total {W : Type} {t : Tree K W} {len : Nat} (h : t.size ≤ len) (lb ub : Bnd K)
    (ds : List Bool) : ∃ ys, (rangeOf lb ub len t).run ds = some ys := by
  have h1 := length_range (len := len) lb ub t
  refine ⟨_, Iter.run_spec ds _ (len - (items (rangeOf lb ub len t).work).length) ?_⟩
  show len = _
  omega

section
variable {m : AvlMap K V}

theorem Ok.new : Ok (AvlMap.new : AvlMap K V) := ⟨trivial, le_rfl⟩

theorem Ok.nil (n : Nat) : Ok (⟨n, .nil⟩ : AvlMap K V) := ⟨trivial, Nat.zero_le _⟩

theorem insert_total [Ord K] (h : Ok m) (k : K) (v : V) :
    ∃ m' old, m.insert k v = some (m', old) ∧ Ok m' := by
  obtain ⟨t', old, b, e, hB, -⟩ := Tree.ins_shape k v m.root h.bal
  refine ⟨⟨m.len + (if old.isNone then 1 else 0), t'⟩, old, by simp only [AvlMap.insert, e], hB, ?_⟩
  have := ins_size_eq e
  have := h.size
  dsimp only
  omega

theorem popWith_total {r : Option (Tree K V × Option (K × V) × Bool)} {t t' : Tree K V} {len : Nat}
    {kv b} (hr : r = some (t', kv, b)) (hB : t'.Bal) (hs : t'.size + kv.toList.length = t.size)
    (hl : t.size ≤ len) : ∃ m', AvlMap.popWith len r = some (m', kv) ∧ Ok m' := by
  subst hr
  cases kv with
  | none => exact ⟨_, rfl, hB, by simp at hs; dsimp only; omega⟩
  | some e =>
    simp at hs
    exact ⟨⟨len - 1, t'⟩, by simp [AvlMap.popWith]; omega, hB, by dsimp only; omega⟩

theorem removeEntry_total (h : Ok m) (p : K → Ordering) :
    ∃ m' e, m.removeEntry p = some (m', e) ∧ Ok m' := by
  obtain ⟨t', kv, b, e, hB, -⟩ := Tree.rm_shape p m.root h.bal
  obtain ⟨m', e1, h1⟩ := popWith_total e hB (rm_size_eq e) h.size
  exact ⟨m', kv, e1, h1⟩

theorem popFirst_total (h : Ok m) : ∃ m' e, m.popFirst = some (m', e) ∧ Ok m' := by
  obtain ⟨t', kv, b, e, hB, -⟩ := Tree.rmLeftmost_shape m.root h.bal
  obtain ⟨m', e1, h1⟩ := popWith_total e hB (rmLeftmost_size' e) h.size
  exact ⟨m', kv, e1, h1⟩

theorem popLast_total (h : Ok m) : ∃ m' e, m.popLast = some (m', e) ∧ Ok m' := by
  obtain ⟨t', kv, b, e, hB, -⟩ := Tree.rmRightmost_shape m.root h.bal
  obtain ⟨m', e1, h1⟩ := popWith_total e hB (rmRightmost_size' e) h.size
  exact ⟨m', kv, e1, h1⟩

theorem Ok.getMut (h : Ok m) (p : K → Ordering) (g : V → V) : Ok (m.getMut p g).1 :=
  ⟨(Tree.getMutWith_shape p g m.root).2 h.bal, by
    simp only [AvlMap.getMut, getMutWith_size]; exact h.size⟩

theorem Ok.forEachMut (h : Ok m) (f : S → K → V → S × V) (s : S) : Ok (m.forEachMut f s).2 :=
  ⟨(Tree.forEachMut_shape f s m.root).2 h.bal, by
    simp only [AvlMap.forEachMut, forEachMut_size]; exact h.size⟩

theorem Ok.unl (h : Ok m) (f : Nat → K → V → V) : Ok (⟨m.len, unl f (m.root.label 0)⟩ : AvlMap K V) :=
  ⟨(unl_label_shape f 0 m.root).2.2 h.bal, by
    rw [(unl_label_shape f 0 m.root).2.1]; exact h.size⟩

theorem extend_total [Ord K] (es : List (K × V)) : ∀ {m : AvlMap K V}, Ok m →
    ∃ m', m.extend es = some m' ∧ Ok m' := by
  induction es with
  | nil => intro m h; exact ⟨m, rfl, h⟩
  | cons e es ih =>
    intro m h
    obtain ⟨m1, old, e1, h1⟩ := insert_total h e.1 e.2
    obtain ⟨m2, e2, h2⟩ := ih h1
    exact ⟨m2, by simp [AvlMap.extend, e1, e2], h2⟩

theorem retain_ok (h : Ok m) (f : S → K → V → Option (S × V × Bool)) (s : S) :
    match m.retain f s with
    | .done _ m' => Ok m'
    | .panicked m' => Ok m' := by
  unfold AvlMap.retain
  cases e : Tree.retain f s m.root with
  | none => exact Ok.nil _
  | some x =>
    obtain ⟨s', t', n⟩ := x
    obtain ⟨h1, h2⟩ := retain_bal e h.bal
    exact ⟨h1, by dsimp only; omega⟩

theorem merge_total [Ord K] {l r : AvlMap K V} (hl : Ok l) (hr : Ok r) (kl kr : Bool)
    (dec : K × V → K × V → Option (K × V)) :
    ∃ t, Tree.merge kl kr dec l.root r.root = some t ∧ Ok (⟨t.size, t⟩ : AvlMap K V) := by
  obtain ⟨t, e, hB⟩ := Tree.merge_shape kl kr dec l.root r.root hl.bal hr.bal
  exact ⟨t, e, hB, le_rfl⟩

theorem splitOff_total [Ord K] (h : Ok m) (p : K → Ordering) :
    ∃ a b, m.splitOff p = some (a, b) ∧ Ok a ∧ Ok b := by
  obtain ⟨lhs, kv, rhs, e, hB1, hB2⟩ := Tree.split_shape p m.root h.bal
  have hs := split_size e
  have hm := h.size
  simp only [AvlMap.splitOff, e]
  rw [if_neg (by omega)]
  cases kv with
  | none => exact ⟨_, _, rfl, ⟨hB1, le_rfl⟩, hB2, by simp at hs; dsimp only; omega⟩
  | some kv =>
    obtain ⟨t', old, b, e', hB, -⟩ := Tree.ins_shape kv.1 kv.2 rhs hB2
    have := ins_size e'
    simp at hs
    exact ⟨_, _, by simp only [e']; rfl, ⟨hB1, le_rfl⟩, hB, by dsimp only; omega⟩

theorem iterList_ok (h : Ok m) : m.iterList = some m.abs := by
  have hi : items m.iter.work = m.abs := Avl.items_iterOf _ _
  have := h.size
  rw [Tree.size_eq] at this
  rw [AvlMap.iterList, Avl.drain_spec, hi]
  · rw [hi]; exact this
  · rw [hi]; show m.root.toList.length < _; omega

theorem serialize_ok (h : Ok m) : m.serialize = some (m.len, m.abs) := by
  have hi : items m.iter.work = m.abs := Avl.items_iterOf _ _
  have := h.size
  rw [Tree.size_eq] at this
  rw [AvlMap.serialize, Avl.drain_spec, hi]
  · rfl
  · rw [hi]; exact this
  · rw [hi, Tree.size_eq]; show m.root.toList.length < _; omega

end

theorem newJoin_ok [Ord K] {l r : AvlMap K V} (hl : Ok l) (hr : Ok r) {debug : Bool} {k : K} {v : V}
    {m : AvlMap K V} (e : AvlMap.newJoin debug l k v r = some m) : Ok m := by
  obtain ⟨t, e1, hB, -⟩ := Tree.join_shape l.root k v r.root hl.bal hr.bal
  have h1 := hl.size
  have h2 := hr.size
  have := join_size e1
  simp only [AvlMap.newJoin, e1, Option.map_some] at e
  split at e
  · cases e
  · split at e
    · cases e
    · cases e; exact ⟨hB, by dsimp only; omega⟩

/-- No operation panics unexpectedly, and all keep `Ok`. -/
theorem avlV_total [Ord K] : Total (avlV K V S) Ok where
  make c := by
    cases c with
    | new => exact ⟨_, rfl, by simp [Ok.new]⟩
    | fromIter es =>
      obtain ⟨m, e, h⟩ := extend_total es (Ok.new (K := K) (V := V))
      exact ⟨([m], .unit), by simp [avlV, AvlMap.fromIter, e], by simp [h]⟩
  one {m} c h := by
    cases c with
    | clone => exact ⟨_, rfl, by simp [h], by simp [h]⟩
    | drop => exact ⟨_, rfl, by simp, by simp⟩
    | clear => exact ⟨_, rfl, by simp [AvlMap.clear, Ok.nil], by simp⟩
    | insert k v =>
      obtain ⟨m', old, e, h'⟩ := insert_total h k v
      exact ⟨_, by simp only [avlV, e]; rfl, by simp [h'], by simp⟩
    | remove p =>
      obtain ⟨m', old, e, h'⟩ := removeEntry_total h p
      exact ⟨_, by simp only [avlV, AvlMap.remove, e]; rfl, by simp [h'], by simp⟩
    | removeEntry p =>
      obtain ⟨m', old, e, h'⟩ := removeEntry_total h p
      exact ⟨_, by simp only [avlV, e]; rfl, by simp [h'], by simp⟩
    | popFirst =>
      obtain ⟨m', old, e, h'⟩ := popFirst_total h
      exact ⟨_, by simp only [avlV, e]; rfl, by simp [h'], by simp⟩
    | popLast =>
      obtain ⟨m', old, e, h'⟩ := popLast_total h
      exact ⟨_, by simp only [avlV, e]; rfl, by simp [h'], by simp⟩
    | getKeyValue p => exact ⟨_, rfl, by simp [h], by simp⟩
    | get p => exact ⟨_, rfl, by simp [h], by simp⟩
    | containsKey p => exact ⟨_, rfl, by simp [h], by simp⟩
    | index p => exact ⟨_, rfl, by simp [h], by simp⟩
    | getMut p g => exact ⟨_, rfl, by simp [h.getMut p g], by simp⟩
    | first => exact ⟨_, rfl, by simp [h], by simp⟩
    | last => exact ⟨_, rfl, by simp [h], by simp⟩
    | len => exact ⟨_, rfl, by simp [h], by simp⟩
    | isEmpty => exact ⟨_, rfl, by simp [h], by simp⟩
    | iter ds =>
      obtain ⟨ys, e⟩ := iter_total h.size ds
      exact ⟨_, by simp only [avlV, AvlMap.iter, e]; rfl, by simp [h], by simp⟩
    | intoIter ds =>
      obtain ⟨ys, e⟩ := iter_total h.size ds
      exact ⟨_, by simp only [avlV, AvlMap.iter, e]; rfl, by simp, by simp⟩
    | iterMut g ds =>
      obtain ⟨ys, e⟩ := iter_total (t := m.root.label 0) (len := m.len)
        (by rw [label_size]; exact h.size) ds
      exact ⟨_, by simp only [avlV, e]; rfl, by simp [h.unl], by simp⟩
    | range lb ub ds =>
      obtain ⟨ys, e⟩ := range_total h.size lb ub ds
      exact ⟨_, by simp only [avlV, AvlMap.range, e]; rfl, by simp [h], by simp⟩
    | rangeMut lb ub g ds =>
      obtain ⟨ys, e⟩ := range_total (t := m.root.label 0) (len := m.len)
        (by rw [label_size]; exact h.size) lb ub ds
      exact ⟨_, by simp only [avlV, e]; rfl, by simp [h.unl], by simp⟩
    | retain f s =>
      have := retain_ok h f s
      refine ⟨_, rfl, ?_, ?_⟩
      · cases e : m.retain f s <;> rw [e] at this <;> simp [e, this]
      · cases e : m.retain f s <;> simp [e]
    | extend es =>
      obtain ⟨m', e, h'⟩ := extend_total es h
      exact ⟨_, by simp only [avlV, e]; rfl, by simp [h'], by simp⟩
    | splitOff p =>
      obtain ⟨a, b, e, h1, h2⟩ := splitOff_total h p
      exact ⟨_, by simp only [avlV, e]; rfl, by simp [h1], by simp [h2]⟩
    | forEach f s => exact ⟨_, rfl, by simp [h], by simp⟩
    | forEachMut f s => exact ⟨_, rfl, by simp [h.forEachMut f s], by simp⟩
    | hash hLen hK hV s => exact ⟨_, rfl, by simp [h], by simp⟩
    | serialize => exact ⟨_, by simp only [avlV, serialize_ok h]; rfl, by simp [h], by simp⟩
    | orInsert k d g =>
      simp only [avlV]
      split
      · exact ⟨_, rfl, by simp [h.getMut], by simp⟩
      · obtain ⟨m', old, e, h'⟩ := insert_total h k (d k)
        exact ⟨_, by simp only [e]; rfl, by simp [h'.getMut], by simp⟩
    | andModify k g => exact ⟨_, rfl, by simp [h.getMut], by simp⟩
  two {l r} c hl hr := by
    cases c with
    | append =>
      obtain ⟨t, e, h⟩ := merge_total hl hr true true (fun _ r => some r)
      exact ⟨_, by simp only [avlV, AvlMap.append, Tree.union, e]; rfl, by simp [h],
        by simp [Ok.nil], by simp⟩
    | union =>
      obtain ⟨t, e, h⟩ := merge_total hl hr true true (fun _ r => some r)
      exact ⟨_, by simp only [avlV, AvlMap.newUnion, Tree.union, e]; rfl, by simp, by simp,
        by simp [h]⟩
    | intersect =>
      obtain ⟨t, e, h⟩ := merge_total hl hr false false (fun l _ => some l)
      exact ⟨_, by simp only [avlV, AvlMap.newIntersect, Tree.intersect, e]; rfl, by simp,
        by simp, by simp [h]⟩
    | diff =>
      obtain ⟨t, e, h⟩ := merge_total hl hr true false (fun _ _ => none)
      exact ⟨_, by simp only [avlV, AvlMap.newDiff, Tree.diff, e]; rfl, by simp, by simp,
        by simp [h]⟩
    | symDiff =>
      obtain ⟨t, e, h⟩ := merge_total hl hr true true (fun _ _ => none)
      exact ⟨_, by simp only [avlV, AvlMap.newSymDiff, Tree.symDiff, e]; rfl, by simp, by simp,
        by simp [h]⟩
    | newJoin debug k v =>
      refine ⟨_, rfl, ?_⟩
      cases e : AvlMap.newJoin debug l k v r with
      | none => simp [e]
      | some m => simp [e, newJoin_ok hl hr e]
  look {l r} c hl hr := by
    cases c with
    | eq eqE =>
      simp only [avlV, AvlMap.eqMap, iterList_ok hl, iterList_ok hr]
      split <;> exact ⟨_, rfl⟩
    | partialCmp cmpE =>
      simp only [avlV, AvlMap.partialCmpMap, iterList_ok hl, iterList_ok hr]
      exact ⟨_, rfl⟩
    | cmp cmpE =>
      simp only [avlV, AvlMap.cmpMap, iterList_ok hl, iterList_ok hr]
      exact ⟨_, rfl⟩

/-! ## Memory -/

section
variable {m : AvlMap K V} {r : Option Nat}

theorem hdrop_spec (h : Ok m) :
    wp (HMap.drop ⟨m.len, r⟩) (own r (vt m.root)) (fun _ L => L = 0) := drop_spec h.size

theorem hclone_spec : wp (HMap.clone ⟨m.len, r⟩) (own r (vt m.root))
    (fun x L => ∃ L', L = own r (vt m.root) + L' ∧ R x m L') := by
  refine wp_bind (wp_conseq wp_cloneRef ?_)
  rintro x L ⟨rfl, rfl⟩
  exact wp_pure ⟨_, rfl, _, rfl, rfl⟩

theorem hinsert_spec [Ord K] (h : Ok m) {k : K} {v : V} {m' old}
    (e : m.insert k v = some (m', old)) : wp (HMap.insert ⟨m.len, r⟩ k v) (own r (vt m.root))
    (fun x L => R x.1 m' L ∧ x.2 = old) := by
  unfold AvlMap.insert at e
  split at e
  · cases e
  · rename_i t o b e1
    cases e
    have := h.size
    refine wp_bind (wp_conseq (ins_spec e1 (by dsimp only; omega) this) ?_)
    rintro x L ⟨r', rfl, rfl⟩
    exact wp_pure ⟨⟨r', rfl, rfl⟩, rfl⟩

theorem hpop_spec {t : Tree K V} {kv : Option (K × V)} {b : Bool} {len : Nat} {m' e}
    (h : AvlMap.popWith len (some (t, kv, b)) = some (m', e)) :
    wp (HMap.popWith len (r, kv, b)) (own r (vt t)) (fun x L => R x.1 m' L ∧ x.2 = e) := by
  unfold AvlMap.popWith at h
  unfold HMap.popWith
  cases kv with
  | none => cases h; exact wp_pure ⟨⟨r, rfl, rfl⟩, rfl⟩
  | some kv =>
    dsimp only at h ⊢
    split at h
    · cases h
    · next hl =>
      cases h
      rw [if_neg hl]
      exact wp_pure ⟨⟨r, rfl, rfl⟩, rfl⟩

theorem hremoveEntry_spec (h : Ok m) {p : K → Ordering} {m' kv}
    (e : m.removeEntry p = some (m', kv)) : wp (HMap.removeEntry ⟨m.len, r⟩ p) (own r (vt m.root))
    (fun x L => R x.1 m' L ∧ x.2 = kv) := by
  obtain ⟨t', kv', b, e1, -⟩ := Tree.rm_shape p m.root h.bal
  rw [AvlMap.removeEntry, e1] at e
  refine wp_bind (wp_conseq (rm_spec e1 h.size h.size) ?_)
  rintro x L ⟨r', rfl, rfl⟩
  exact hpop_spec e

theorem hpopFirst_spec (h : Ok m) {m' kv}
    (e : m.popFirst = some (m', kv)) : wp (HMap.popFirst ⟨m.len, r⟩) (own r (vt m.root))
    (fun x L => R x.1 m' L ∧ x.2 = kv) := by
  obtain ⟨t', kv', b, e1, -⟩ := Tree.rmLeftmost_shape m.root h.bal
  rw [AvlMap.popFirst, e1] at e
  refine wp_bind (wp_conseq (rmLeftmost_spec e1 h.size h.size) ?_)
  rintro x L ⟨r', rfl, rfl⟩
  exact hpop_spec e

theorem hpopLast_spec (h : Ok m) {m' kv}
    (e : m.popLast = some (m', kv)) : wp (HMap.popLast ⟨m.len, r⟩) (own r (vt m.root))
    (fun x L => R x.1 m' L ∧ x.2 = kv) := by
  obtain ⟨t', kv', b, e1, -⟩ := Tree.rmRightmost_shape m.root h.bal
  rw [AvlMap.popLast, e1] at e
  refine wp_bind (wp_conseq (rmRightmost_spec e1 h.size h.size) ?_)
  rintro x L ⟨r', rfl, rfl⟩
  exact hpop_spec e

theorem hget_spec (h : Ok m) {p : K → Ordering} :
    wp (HMap.getKeyValue ⟨m.len, r⟩ p) (own r (vt m.root))
      (fun x L => x = m.getKeyValue p ∧ L = own r (vt m.root)) := getKeyValue_spec h.size

theorem hgetMut_spec (h : Ok m) {p : K → Ordering} {g : V → V} :
    wp (HMap.getMut ⟨m.len, r⟩ p g) (own r (vt m.root))
      (fun x L => R x.1 (m.getMut p g).1 L ∧ x.2 = (m.getMut p g).2) := by
  refine wp_bind (wp_conseq (getMutWith_spec h.size h.size) ?_)
  rintro x L ⟨r', rfl, rfl⟩
  exact wp_pure ⟨⟨r', rfl, rfl⟩, rfl⟩

theorem hmerge_spec [Ord K] {l m : AvlMap K V} {r1 r2 : Option Nat} (hl : Ok l) (hm : Ok m)
    {kl kr : Bool} {dec : K × V → K × V → Option (K × V)} {t : Tree K V}
    (e : Tree.merge kl kr dec l.root m.root = some t) :
    wp (HMap.mergeWith kl kr dec ⟨l.len, r1⟩ ⟨m.len, r2⟩) (own r1 (vt l.root) + own r2 (vt m.root))
      (fun x L => R x (⟨t.size, t⟩ : AvlMap K V) L) := by
  have h1 := hl.size
  have h2 := hm.size
  have h3 := merge_size e
  refine wp_bind (wp_conseq (merge_spec e (by dsimp only; omega) h1) ?_)
  rintro x L rfl
  refine wp_bind (wp_conseq (len_spec (by dsimp only; omega)) ?_)
  rintro n L ⟨rfl, rfl⟩
  exact wp_pure ⟨x, rfl, rfl⟩

theorem hnewJoin_spec [Ord K] {l m : AvlMap K V} {r1 r2 : Option Nat} (hl : Ok l) (hm : Ok m)
    {debug : Bool} {k : K} {v : V} {y}
    (e : AvlMap.newJoin debug l k v m = y) :
    wp (HMap.newJoin debug ⟨l.len, r1⟩ k v ⟨m.len, r2⟩)
      (own r1 (vt l.root) + own r2 (vt m.root))
      (fun x L => HoldsO R x y L) := by
  have h1 := hl.size
  have h2 := hm.size
  unfold AvlMap.newJoin at e
  unfold HMap.newJoin
  wcall last_spec (s := l.root) (r := r1) h1
  rintro x _ ⟨rfl, rfl⟩
  dsimp only [AvlMap.lastKeyValue, AvlMap.firstKeyValue] at e ⊢
  split
  · next hc =>
    replace e := (if_pos hc).symm.trans e
    subst e
    wcall hdrop_spec (m := m) (r := r2) hm
    rintro _ _ rfl
    wcall hdrop_spec (m := l) (r := r1) hl
    rintro _ _ rfl
    exact wp_pure .none
  · next hc =>
    replace e := (if_neg hc).symm.trans e
    wcall first_spec (s := m.root) (r := r2) h2
    rintro x _ ⟨rfl, rfl⟩
    split
    · next hc =>
      replace e := (if_pos hc).symm.trans e
      subst e
      wcall hdrop_spec (m := m) (r := r2) hm
      rintro _ _ rfl
      wcall hdrop_spec (m := l) (r := r1) hl
      rintro _ _ rfl
      exact wp_pure .none
    · next hc =>
      replace e := (if_neg hc).symm.trans e
      obtain ⟨t, e1, -⟩ := Tree.join_shape l.root k v m.root hl.bal hm.bal
      rw [e1] at e
      subst e
      wcall join_spec e1 (by omega) (by omega)
      rintro x _ rfl
      exact wp_pure (.some (R := R) ⟨x, rfl, add_zero _⟩)

theorem hsplitOff_spec [Ord K] (h : Ok m) {p : K → Ordering} {a b : AvlMap K V}
    (e : m.splitOff p = some (a, b)) : wp (HMap.splitOff ⟨m.len, r⟩ p) (own r (vt m.root))
    (fun x L => ∃ L1 L2, L = L1 + L2 ∧ R x.1 a L1 ∧ R x.2 b L2) := by
  have hm := h.size
  unfold AvlMap.splitOff at e
  unfold HMap.splitOff
  split at e
  · cases e
  · rename_i lhs kv rhs e1
    have hs := split_size e1
    wcall split_spec e1 h.size h.size
    rintro x L ⟨l1, r1, rfl, rfl⟩
    dsimp only
    wcall len_spec (s := lhs) (r := l1) (n := m.len) (by omega)
    rintro n _ ⟨rfl, rfl⟩
    split at e
    · cases e
    · next hl =>
      rw [if_neg hl]
      cases kv with
      | none =>
        cases e
        exact wp_pure ⟨_, _, rfl, ⟨l1, rfl, rfl⟩, r1, rfl, rfl⟩
      | some kv =>
        obtain ⟨k, v⟩ := kv
        obtain ⟨t', h1, h2⟩ := Option.map_eq_some_iff.1 e
        cases h2
        simp only [HMap.reinsert]
        simp at hs
        wcall (show wp ((ins (m.len + 1) k v m.len r1).bind fun x => .pure x.1) (own r1 (vt rhs))
            (fun x L => L = own x (vt t'.1)) from by
          refine wp_bind (wp_conseq (ins_spec (t' := t'.1) (old := t'.2.1) (b := t'.2.2) h1
            (by omega) (by omega)) ?_)
          rintro x L ⟨r', rfl, rfl⟩
          exact wp_pure rfl)
        rintro x _ rfl
        exact wp_pure ⟨own l1 (vt lhs), own x (vt t'.1), by ac_rfl, ⟨l1, rfl, rfl⟩, x, rfl, rfl⟩

theorem hretain_spec (h : Ok m) {f : S → K → V → Option (S × V × Bool)} {s : S} :
    wp (HMap.retain ⟨m.len, r⟩ f s) (own r (vt m.root)) (fun x L =>
      match m.retain f s with
      | .done s m' => R x.1 m' L ∧ x.2 = some s
      | .panicked m' => R x.1 m' L ∧ x.2 = none) := by
  refine wp_bind (wp_conseq (retain_spec h.bal h.size h.size) ?_)
  intro x L hp
  unfold AvlMap.retain
  cases e : Tree.retain f s m.root with
  | none =>
    rw [e] at hp
    obtain ⟨rfl, rfl⟩ := hp
    exact wp_pure ⟨⟨none, rfl, by simp [vt]⟩, rfl⟩
  | some y =>
    obtain ⟨s', t', n⟩ := y
    rw [e] at hp
    obtain ⟨r', rfl, rfl⟩ := hp
    exact wp_pure ⟨⟨r', rfl, rfl⟩, rfl⟩

theorem hforEachMut_spec (h : Ok m) {f : S → K → V → S × V} {s : S} :
    wp (HMap.forEachMut ⟨m.len, r⟩ f s) (own r (vt m.root)) (fun x L =>
      R x.2 (m.forEachMut f s).2 L ∧ x.1 = (m.forEachMut f s).1) := by
  refine wp_bind (wp_conseq (forEachMut_spec h.size h.size) ?_)
  rintro x L ⟨r', rfl, rfl⟩
  exact wp_pure ⟨⟨r', rfl, rfl⟩, rfl⟩

theorem hextend_spec [Ord K] (es : List (K × V)) : ∀ {m : AvlMap K V} {r : Option Nat} {m'}, Ok m →
    m.extend es = some m' →
    wp (HMap.extend ⟨m.len, r⟩ es) (own r (vt m.root)) (fun x L => R x m' L) := by
  induction es with
  | nil => intro m r m' h e; cases e; exact wp_pure ⟨r, rfl, rfl⟩
  | cons e es ih =>
    intro m r m' h he
    obtain ⟨m1, old, e1, h1⟩ := insert_total h e.1 e.2
    simp only [AvlMap.extend, e1] at he
    refine wp_bind (wp_conseq (hinsert_spec h e1) ?_)
    rintro x L ⟨⟨r', h2, rfl⟩, -⟩
    rw [h2]
    exact ih h1 he

theorem hiter_spec (h : Ok m) {ds : List Bool} {ys} (e : m.iter.run ds = some ys) :
    wp (HMap.iter ⟨m.len, r⟩ ds) (own r (vt m.root))
      (fun x L => x = ys ∧ L = own r (vt m.root)) :=
  iterRun_spec (by have := h.size; dsimp only; omega) e

theorem dequeRun_all {α : Type} : ∀ (l : List α) (n : Nat), l.length ≤ n →
    (Spec.dequeRun (List.replicate n true) l).filterMap (·.1) = l := by
  intro l
  induction l with
  | nil =>
    intro n _
    induction n with
    | zero => rfl
    | succ n ih =>
      simp only [List.replicate_succ, Spec.dequeRun, Spec.dequeStep]
      simpa using ih
  | cons a l ih =>
    intro n hn
    cases n with
    | zero => simp at hn
    | succ n =>
      simp only [List.replicate_succ, Spec.dequeRun, Spec.dequeStep]
      simpa using ih n (by simpa using hn)

theorem hiterList_spec (h : Ok m) : wp (HMap.iterList ⟨m.len, r⟩) (own r (vt m.root))
    (fun x L => x = m.abs ∧ L = own r (vt m.root)) := by
  have hs := h.size
  have hi : items m.iter.work = m.abs := Avl.items_iterOf _ _
  rw [Tree.size_eq] at hs
  have e := Iter.run_spec (List.replicate (m.len + 1) true) m.iter (m.len - m.abs.length) (by
    rw [hi]
    show m.len = m.root.toList.length + (m.len - m.root.toList.length)
    omega)
  refine wp_bind (wp_conseq (hiter_spec h e) ?_)
  rintro x L ⟨rfl, rfl⟩
  refine wp_pure ⟨?_, rfl⟩
  rw [hi, List.filterMap_map]
  exact dequeRun_all m.abs _ (by show m.root.toList.length ≤ _; omega)

theorem horInsert_spec [Ord K] (h : Ok m) {k : K} {d : K → V} {g : V → V} {y}
    (e : (avlV K V S).one m (.orInsert k d g) = some y) :
    wp (HMap.orInsert ⟨m.len, r⟩ k d g) (own r (vt m.root)) (fun x L =>
      y.2.1 = [] ∧ y.2.2 = (if x.2.2 then .bool x.2.1 else .panicked) ∧
      ∃ m', y.1 = some m' ∧ R x.1 m' L) := by
  unfold HMap.orInsert
  refine wp_bind (wp_conseq (hget_spec h) ?_)
  rintro x L ⟨rfl, rfl⟩
  simp only [avlV, AvlMap.containsKey, AvlMap.get, Option.isSome_map] at e
  split at e
  · next hc =>
    rw [if_pos hc]
    cases e
    refine wp_bind (wp_conseq (hgetMut_spec h) ?_)
    rintro x L ⟨h1, h2⟩
    exact wp_pure ⟨rfl, by rw [h2], _, rfl, h1⟩
  · next hc =>
    rw [if_neg hc]
    obtain ⟨m', old, e1, h'⟩ := insert_total h k (d k)
    rw [e1] at e
    cases e
    refine wp_bind (wp_conseq (hinsert_spec h e1) ?_)
    rintro x L ⟨⟨r', h1, rfl⟩, h2⟩
    rw [h1]
    refine wp_bind (wp_conseq (hgetMut_spec h') ?_)
    rintro x L ⟨h1, h2⟩
    exact wp_pure ⟨rfl, by rw [h2], _, rfl, h1⟩

/-- The end of an operation that returns one map. -/
theorem post1 {h : HMap} {m : AvlMap K V} {L} {o : Res K V S} (hR : R h m L) :
    o = o ∧ ∃ L1 L2, L = L1 + L2 ∧ HoldsO R (some h) (some m) L1 ∧ HoldsL (R (K := K) (V := V)) [] [] L2 :=
  ⟨rfl, L, 0, (add_zero _).symm, .some hR, .nil⟩

end

/-- The operations on memory do what the operations on values do. -/
theorem avlM_sound [Ord K] : Sound (avlM K V S) (avlV K V S) Ok R where
  make {c y} e := by
    cases c with
    | new => cases e; exact wp_pure ⟨rfl, HoldsR.single ⟨none, rfl, by simp [AvlMap.new, vt]⟩⟩
    | fromIter es =>
      simp only [avlV, AvlMap.fromIter, Option.map_eq_some_iff] at e
      obtain ⟨m, e, rfl⟩ := e
      have := hextend_spec es (r := none) Ok.new e
      rw [show own none (vt (AvlMap.new : AvlMap K V).root) = 0 by simp [AvlMap.new, vt]] at this
      refine wp_bind (wp_conseq this ?_)
      rintro x L h
      exact wp_pure ⟨rfl, HoldsR.single h⟩
  one {h m L c y} hI hR e := by
    obtain ⟨r, rfl, rfl⟩ := hR
    cases c with
    | clone =>
      cases e
      refine wp_bind (wp_conseq hclone_spec ?_)
      rintro x L ⟨L', rfl, h⟩
      exact wp_pure ⟨rfl, _, _, rfl, .some ⟨r, rfl, rfl⟩, HoldsR.single h⟩
    | drop =>
      cases e
      refine wp_bind (wp_conseq (hdrop_spec hI) ?_)
      rintro x L rfl
      exact wp_pure ⟨rfl, 0, 0, rfl, .none, .nil⟩
    | clear =>
      cases e
      refine wp_bind (wp_bind (wp_conseq (hdrop_spec hI) ?_))
      rintro x L rfl
      exact wp_pure (wp_pure (post1 ⟨none, rfl, by simp [AvlMap.clear, vt]⟩))
    | insert k v =>
      obtain ⟨z, e1, rfl⟩ := Option.map_eq_some_iff.1 e
      refine wp_bind (wp_conseq (hinsert_spec hI e1) ?_)
      rintro x L ⟨h, h2⟩
      exact wp_pure (by rw [h2]; exact post1 h)
    | remove p =>
      obtain ⟨z, e1, rfl⟩ := Option.map_eq_some_iff.1 e
      obtain ⟨z, e2, rfl⟩ := Option.map_eq_some_iff.1 e1
      refine wp_bind (wp_conseq (hremoveEntry_spec hI e2) ?_)
      rintro x L ⟨h, h2⟩
      exact wp_pure (by rw [h2]; exact post1 h)
    | removeEntry p =>
      obtain ⟨z, e1, rfl⟩ := Option.map_eq_some_iff.1 e
      refine wp_bind (wp_conseq (hremoveEntry_spec hI e1) ?_)
      rintro x L ⟨h, h2⟩
      exact wp_pure (by rw [h2]; exact post1 h)
    | popFirst =>
      obtain ⟨z, e1, rfl⟩ := Option.map_eq_some_iff.1 e
      refine wp_bind (wp_conseq (hpopFirst_spec hI e1) ?_)
      rintro x L ⟨h, h2⟩
      exact wp_pure (by rw [h2]; exact post1 h)
    | popLast =>
      obtain ⟨z, e1, rfl⟩ := Option.map_eq_some_iff.1 e
      refine wp_bind (wp_conseq (hpopLast_spec hI e1) ?_)
      rintro x L ⟨h, h2⟩
      exact wp_pure (by rw [h2]; exact post1 h)
    | getKeyValue p =>
      cases e
      refine wp_bind (wp_conseq (hget_spec hI) ?_)
      rintro x L ⟨rfl, rfl⟩
      exact wp_pure (post1 ⟨r, rfl, rfl⟩)
    | get p =>
      cases e
      refine wp_bind (wp_conseq (hget_spec hI) ?_)
      rintro x L ⟨rfl, rfl⟩
      exact wp_pure (post1 ⟨r, rfl, rfl⟩)
    | containsKey p =>
      cases e
      refine wp_bind (wp_conseq (hget_spec hI) ?_)
      rintro x L ⟨rfl, rfl⟩
      have h : (m.getKeyValue p).isSome = m.containsKey p := by
        simp only [AvlMap.containsKey, AvlMap.get, Option.isSome_map]
      exact wp_pure (by rw [h]; exact post1 ⟨r, rfl, rfl⟩)
    | index p =>
      cases e
      refine wp_bind (wp_conseq (hget_spec hI) ?_)
      rintro x L ⟨rfl, rfl⟩
      refine wp_pure ?_
      cases h : m.getKeyValue p <;> simp only [AvlMap.index, AvlMap.get, h] <;>
        exact post1 ⟨r, rfl, rfl⟩
    | getMut p g =>
      cases e
      refine wp_bind (wp_conseq (hgetMut_spec hI) ?_)
      rintro x L ⟨h, h2⟩
      exact wp_pure (by rw [h2]; exact post1 h)
    | first =>
      cases e
      refine wp_bind (wp_conseq (first_spec hI.size) ?_)
      rintro x L ⟨rfl, rfl⟩
      exact wp_pure (post1 ⟨r, rfl, rfl⟩)
    | last =>
      cases e
      refine wp_bind (wp_conseq (last_spec hI.size) ?_)
      rintro x L ⟨rfl, rfl⟩
      exact wp_pure (post1 ⟨r, rfl, rfl⟩)
    | len => cases e; exact wp_pure (post1 ⟨r, rfl, rfl⟩)
    | isEmpty => cases e; exact wp_pure (post1 ⟨r, rfl, rfl⟩)
    | iter ds =>
      obtain ⟨z, e1, rfl⟩ := Option.map_eq_some_iff.1 e
      refine wp_bind (wp_conseq (hiter_spec hI e1) ?_)
      rintro x L ⟨rfl, rfl⟩
      exact wp_pure (post1 ⟨r, rfl, rfl⟩)
    | intoIter ds =>
      obtain ⟨z, e1, rfl⟩ := Option.map_eq_some_iff.1 e
      refine wp_bind (wp_conseq (intoRun_spec hI.size (by have := hI.size; dsimp only; omega) e1) ?_)
      rintro x L ⟨rfl, rfl⟩
      exact wp_pure ⟨rfl, 0, 0, rfl, .none, .nil⟩
    | iterMut g ds =>
      obtain ⟨z, e1, rfl⟩ := Option.map_eq_some_iff.1 e
      refine wp_bind (wp_bind (wp_conseq
        (iterMutRun_spec hI.size (by have := hI.size; dsimp only; omega) e1) ?_))
      rintro x L ⟨r', rfl, rfl⟩
      exact wp_pure (wp_pure (post1 ⟨r', rfl, rfl⟩))
    | range lb ub ds =>
      obtain ⟨z, e1, rfl⟩ := Option.map_eq_some_iff.1 e
      refine wp_bind (wp_conseq (rangeRun_spec (by have := hI.size; dsimp only; omega) e1) ?_)
      rintro x L ⟨rfl, rfl⟩
      exact wp_pure (post1 ⟨r, rfl, rfl⟩)
    | rangeMut lb ub g ds =>
      obtain ⟨z, e1, rfl⟩ := Option.map_eq_some_iff.1 e
      refine wp_bind (wp_bind (wp_conseq
        (rangeMutRun_spec hI.size (by have := hI.size; dsimp only; omega) e1) ?_))
      rintro x L ⟨r', rfl, rfl⟩
      exact wp_pure (wp_pure (post1 ⟨r', rfl, rfl⟩))
    | retain f s =>
      cases e
      refine wp_bind (wp_conseq (hretain_spec hI) ?_)
      intro x L h
      cases e : m.retain f s with
      | done s' m' =>
        rw [e] at h
        exact wp_pure (by simp only [h.2]; exact post1 h.1)
      | panicked m' =>
        rw [e] at h
        exact wp_pure (by simp only [h.2]; exact post1 h.1)
    | extend es =>
      obtain ⟨z, e1, rfl⟩ := Option.map_eq_some_iff.1 e
      refine wp_bind (wp_conseq (hextend_spec es hI e1) ?_)
      rintro x L h
      exact wp_pure (post1 h)
    | splitOff p =>
      obtain ⟨z, e1, rfl⟩ := Option.map_eq_some_iff.1 e
      refine wp_bind (wp_conseq (hsplitOff_spec hI (a := z.1) (b := z.2) e1) ?_)
      rintro x L ⟨L1, L2, rfl, h1, h2⟩
      exact wp_pure ⟨rfl, L1, L2, rfl, .some h1, HoldsR.single h2⟩
    | forEach f s =>
      cases e
      refine wp_bind (wp_conseq (forEach_spec hI.size) ?_)
      rintro x L ⟨rfl, rfl⟩
      exact wp_pure (post1 ⟨r, rfl, rfl⟩)
    | forEachMut f s =>
      cases e
      refine wp_bind (wp_conseq (hforEachMut_spec hI) ?_)
      rintro x L ⟨h, h2⟩
      exact wp_pure (by rw [h2]; exact post1 h)
    | hash hLen hK hV s =>
      cases e
      refine wp_bind (wp_conseq (forEach_spec hI.size) ?_)
      rintro x L ⟨rfl, rfl⟩
      exact wp_pure (post1 ⟨r, rfl, rfl⟩)
    | serialize =>
      simp only [avlV, serialize_ok hI] at e
      cases e
      refine wp_bind (wp_conseq (hiterList_spec hI) ?_)
      rintro x L ⟨rfl, rfl⟩
      exact wp_pure (post1 ⟨r, rfl, rfl⟩)
    | orInsert k d g =>
      refine wp_bind (wp_conseq (horInsert_spec hI e) ?_)
      rintro x L ⟨h1, h2, m', h3, h4⟩
      exact wp_pure (by rw [h1, h2, h3]; exact post1 h4)
    | andModify k g =>
      cases e
      refine wp_bind (wp_bind (wp_conseq (hgetMut_spec hI) ?_))
      rintro x L ⟨h, h2⟩
      exact wp_pure (wp_pure (post1 h))
  two {h m L k n L' c y} hI hJ hR hR' e := by
    obtain ⟨r, rfl, rfl⟩ := hR
    obtain ⟨r', rfl, rfl⟩ := hR'
    cases c with
    | append =>
      simp only [avlV, AvlMap.append, Option.map_map] at e
      obtain ⟨z, e1, rfl⟩ := Option.map_eq_some_iff.1 e
      refine wp_bind (wp_conseq (hmerge_spec hI hJ e1) ?_)
      intro x L h
      exact wp_pure ⟨rfl, L, 0, 0, by simp, .some h, .some ⟨none, rfl, by simp [vt]⟩, .nil⟩
    | union =>
      simp only [avlV, AvlMap.newUnion, Option.map_map] at e
      obtain ⟨z, e1, rfl⟩ := Option.map_eq_some_iff.1 e
      refine wp_bind (wp_conseq (hmerge_spec hI hJ e1) ?_)
      intro x L h
      exact wp_pure ⟨rfl, 0, 0, L, by simp, .none, .none, HoldsR.single h⟩
    | intersect =>
      simp only [avlV, AvlMap.newIntersect, Option.map_map] at e
      obtain ⟨z, e1, rfl⟩ := Option.map_eq_some_iff.1 e
      refine wp_bind (wp_conseq (hmerge_spec hI hJ e1) ?_)
      intro x L h
      exact wp_pure ⟨rfl, 0, 0, L, by simp, .none, .none, HoldsR.single h⟩
    | diff =>
      simp only [avlV, AvlMap.newDiff, Option.map_map] at e
      obtain ⟨z, e1, rfl⟩ := Option.map_eq_some_iff.1 e
      refine wp_bind (wp_conseq (hmerge_spec hI hJ e1) ?_)
      intro x L h
      exact wp_pure ⟨rfl, 0, 0, L, by simp, .none, .none, HoldsR.single h⟩
    | symDiff =>
      simp only [avlV, AvlMap.newSymDiff, Option.map_map] at e
      obtain ⟨z, e1, rfl⟩ := Option.map_eq_some_iff.1 e
      refine wp_bind (wp_conseq (hmerge_spec hI hJ e1) ?_)
      intro x L h
      exact wp_pure ⟨rfl, 0, 0, L, by simp, .none, .none, HoldsR.single h⟩
    | newJoin debug k v =>
      cases e
      refine wp_bind (wp_conseq (hnewJoin_spec hI hJ rfl) ?_)
      intro x L h
      generalize AvlMap.newJoin debug m k v n = y at h ⊢
      cases h with
      | none => exact wp_pure ⟨rfl, 0, 0, 0, by simp, .none, .none, .nil⟩
      | some h => exact wp_pure ⟨rfl, 0, 0, L, by simp, .none, .none, HoldsR.single h⟩
  look {h m L k n L' c y M G G'} hI hJ hR hR' e1 e2 e := by
    obtain ⟨r, rfl, rfl⟩ := hR
    obtain ⟨r', rfl, rfl⟩ := hR'
    have look1 : ∀ {α : Type} {Q : α → Multiset (Handle (ND K V)) → Prop} (f : List (K × V) → Prog (ND K V) α),
        wp (f m.abs) M Q → wp ((HMap.iterList ⟨m.len, r⟩).bind f) M Q := by
      intro α Q f h
      refine wp_call G (hiterList_spec hI) e1 ?_
      rintro x L ⟨rfl, rfl⟩
      rwa [← e1]
    have look2 : ∀ {α : Type} {Q : α → Multiset (Handle (ND K V)) → Prop} (f : List (K × V) → Prog (ND K V) α),
        wp (f n.abs) M Q → wp ((HMap.iterList ⟨n.len, r'⟩).bind f) M Q := by
      intro α Q f h
      refine wp_call G' (hiterList_spec hJ) e2 ?_
      rintro x L ⟨rfl, rfl⟩
      rwa [← e2]
    cases c with
    | eq eqE =>
      simp only [avlV, AvlMap.eqMap, iterList_ok hI, iterList_ok hJ] at e
      simp only [avlM, HMap.eqMap]
      split at e
      · next hl =>
        cases e
        rw [if_pos hl]
        refine wp_bind (look1 _ (look2 _ ?_))
        exact wp_pure (wp_pure ⟨rfl, rfl⟩)
      · next hl =>
        cases e
        rw [if_neg hl]
        exact wp_pure ⟨rfl, rfl⟩
    | partialCmp cmpE =>
      simp only [avlV, AvlMap.partialCmpMap, iterList_ok hI, iterList_ok hJ] at e
      cases e
      exact look1 _ (look2 _ (wp_pure ⟨rfl, rfl⟩))
    | cmp cmpE =>
      simp only [avlV, AvlMap.cmpMap, iterList_ok hI, iterList_ok hJ] at e
      cases e
      exact look1 _ (look2 _ (wp_pure ⟨rfl, rfl⟩))

/-! ## The same with deep copies -/

/-- The operations on memory with `clone` replaced by a copy of all nodes.  Not code of the crate:
it is what clones are compared with. -/
def avlD (K V S : Type) [Ord K] :
    Machine.Impl (Prog (ND K V)) HMap (Res K V S) (Make K V) (One K V S) (Two K V) (Look K V) where
  make := (avlM K V S).make
  one m
    | .clone => (deepClone m.len m.root).bind fun r => .pure (some m, [⟨m.len, r⟩], .unit)
    | c => (avlM K V S).one m c
  two := (avlM K V S).two
  look := (avlM K V S).look

theorem avlD_sound [Ord K] : Sound (avlD K V S) (avlV K V S) Ok R where
  make := avlM_sound.make
  one {h m L c y} hI hR e := by
    cases c
    case clone =>
      obtain ⟨r, rfl, rfl⟩ := hR
      cases e
      refine wp_bind (wp_conseq (wp_deepClone (vt_dep _ hI.size)) ?_)
      rintro x L rfl
      exact wp_pure ⟨rfl, _, _, rfl, .some ⟨r, rfl, rfl⟩, HoldsR.single ⟨x, rfl, rfl⟩⟩
    all_goals exact avlM_sound.one hI hR e
  two := avlM_sound.two
  look := avlM_sound.look

end Verif.AvlH
