import Verif.AvlHeap.SubsetSpec
import Verif.Avl.SetSpec
import Verif.Avl.Contents
/-!
# `AvlSet` on reference-counted memory does what it does on values
-/
set_option linter.unusedSectionVars false
namespace Verif.AvlH
open Std Heap Heap.Machine
open Avl (Tree AvlMap AvlSet items wsize Iter)
open Avl.AvlSet (iterNext)
open Lib (Yields setOpList mergeList)

variable {T S Q : Type}

/-- What every set satisfies: the tree is a balanced search tree with right heights, and has no
more nodes than the recorded length.  (After a closure passed to `retain` panicked it has fewer.) -/
structure SOk [Ord T] (s : AvlSet T) : Prop where
  ok : Ok s.map
  sorted : Sorted s.map.root.toList

/-- The set in memory is the value. -/
def SR (h : HMap) (s : AvlSet T) (L : Multiset (Handle (ND T Unit))) : Prop := R h s.map L

/-! ## Values -/

section
variable [Ord T] [TransOrd T] {s a b : AvlSet T}

theorem SOk.empty (n : Nat) : SOk (⟨⟨n, .nil⟩⟩ : AvlSet T) := ⟨Ok.nil n, by simp [Tree.toList, Sorted]⟩

theorem SOk.new : SOk (.new : AvlSet T) := SOk.empty 0

theorem sinsert_total (h : SOk s) (x : T) : ∃ s' b, s.insert x = some (s', b) ∧ SOk s' := by
  obtain ⟨t', old, b, e, hB, -⟩ := Tree.ins_shape x () s.map.root h.ok.bal
  have e' : s.map.insert x () = some (⟨s.map.len + (if old.isNone then 1 else 0), t'⟩, old) := by
    simp only [AvlMap.insert, e]
  obtain ⟨m', o, e1, h1⟩ := insert_total h.ok x ()
  rw [e'] at e1
  cases e1
  refine ⟨_, _, by rw [AvlSet.insert, e']; rfl, h1, ?_⟩
  rw [(Tree.ins_toList h.sorted e).1]
  exact sorted_insert h.sorted

theorem sorted_popWith {t : Tree T Unit} {len : Nat} {kv b} {m' : AvlMap T Unit} {e}
    (h : AvlMap.popWith len (some (t, kv, b)) = some (m', e)) (hs : Sorted t.toList) :
    Sorted m'.root.toList := by
  unfold AvlMap.popWith at h
  cases kv with
  | none => cases h; exact hs
  | some kv =>
    dsimp only at h
    split at h
    · cases h
    · cases h; exact hs

theorem sremove_total (h : SOk s) {p : T → Ordering} (hp : IsProbe p) :
    ∃ m' e, s.map.removeEntry p = some (m', e) ∧ SOk ⟨m'⟩ := by
  obtain ⟨m', kv, e, h1⟩ := removeEntry_total h.ok p
  refine ⟨m', kv, e, h1, ?_⟩
  obtain ⟨t', kv', b, e1, -⟩ := Tree.rm_shape p s.map.root h.ok.bal
  rw [AvlMap.removeEntry, e1] at e
  refine sorted_popWith e ?_
  rw [(Tree.rm_toList hp h.sorted e1).1]
  exact sorted_erase h.sorted

theorem stake_total (h : SOk s) {p : T → Ordering} (hp : IsProbe p) :
    ∃ s' e, s.take p = some (s', e) ∧ SOk s' := by
  obtain ⟨m', e, h1, h2⟩ := sremove_total h hp
  exact ⟨⟨m'⟩, _, by rw [AvlSet.take_eq, h1]; rfl, h2⟩

theorem sreplace_total (h : SOk s) (x : T) : ∃ s' e, s.replace x = some (s', e) ∧ SOk s' := by
  obtain ⟨s1, e, h1, h2⟩ := stake_total h (isProbe_compare x)
  obtain ⟨s2, b, h3, h4⟩ := sinsert_total h2 x
  exact ⟨s2, e, by simp only [AvlSet.replace, h1, h3, Option.map_some], h4⟩

theorem spopFirst_total (h : SOk s) : ∃ m' e, s.map.popFirst = some (m', e) ∧ SOk ⟨m'⟩ := by
  obtain ⟨m', kv, e, h1⟩ := popFirst_total h.ok
  refine ⟨m', kv, e, h1, ?_⟩
  obtain ⟨t', kv', b, e1, -⟩ := Tree.rmLeftmost_shape s.map.root h.ok.bal
  rw [AvlMap.popFirst, e1] at e
  refine sorted_popWith e ?_
  rw [(Tree.rmLeftmost_toList e1).1]
  exact h.sorted.sublist (List.tail_sublist _)

theorem spopLast_total (h : SOk s) : ∃ m' e, s.map.popLast = some (m', e) ∧ SOk ⟨m'⟩ := by
  obtain ⟨m', kv, e, h1⟩ := popLast_total h.ok
  refine ⟨m', kv, e, h1, ?_⟩
  obtain ⟨t', kv', b, e1, -⟩ := Tree.rmRightmost_shape s.map.root h.ok.bal
  rw [AvlMap.popLast, e1] at e
  refine sorted_popWith e ?_
  rw [(Tree.rmRightmost_toList e1).1]
  exact h.sorted.sublist (List.dropLast_sublist _)

theorem sextend_total (xs : List T) : ∀ {s : AvlSet T}, SOk s → ∃ s', s.extend xs = some s' ∧ SOk s' := by
  induction xs with
  | nil => intro s h; exact ⟨s, rfl, h⟩
  | cons x xs ih =>
    intro s h
    obtain ⟨s1, b, e1, h1⟩ := sinsert_total h x
    obtain ⟨s2, e2, h2⟩ := ih h1
    exact ⟨s2, by simp [AvlSet.extend, e1, e2], h2⟩

theorem ssplitOff_total (h : SOk s) {p : T → Ordering} (hp : IsProbe p) :
    ∃ x y, s.map.splitOff p = some (x, y) ∧ SOk ⟨x⟩ ∧ SOk ⟨y⟩ := by
  obtain ⟨x, y, e, hx, hy⟩ := splitOff_total h.ok p
  refine ⟨x, y, e, ⟨hx, ?_⟩, hy, ?_⟩ <;>
  · obtain ⟨lhs, kv, rhs, e1, hB1, hB2⟩ := Tree.split_shape p s.map.root h.ok.bal
    obtain ⟨h1, h2, h3⟩ := Tree.split_toList hp h.sorted e1
    have hl : Sorted lhs.toList := by rw [h1]; exact h.sorted.filter _
    have hr : Sorted rhs.toList := by rw [h3]; exact h.sorted.filter _
    simp only [AvlMap.splitOff, e1] at e
    split at e
    · cases e
    · cases kv with
      | none => cases e; assumption
      | some kv =>
        obtain ⟨z, e2, e3⟩ := Option.map_eq_some_iff.1 e
        cases e3
        first
        | exact hl
        | rw [(Tree.ins_toList hr e2).1]; exact sorted_insert hr

theorem smerge_total (ha : SOk a) (hb : SOk b) (kl kr : Bool)
    {dec : T × Unit → T × Unit → Option (T × Unit)} (hdec : Tree.KeyPreserving dec) :
    ∃ t, Tree.merge kl kr dec a.map.root b.map.root = some t ∧ SOk (⟨⟨t.size, t⟩⟩ : AvlSet T) := by
  obtain ⟨t, e, h⟩ := merge_total ha.ok hb.ok kl kr dec
  exact ⟨t, e, h, (Tree.merge_toList hdec ha.sorted hb.sorted e).1⟩

theorem sretain_ok (h : SOk s) (f : S → T → Option (S × Bool)) (st : S) :
    (∃ st' s', s.retain f st = .done st' s' ∧ SOk s') ∨
      s.retain f st = .panicked ⟨⟨s.map.len, .nil⟩⟩ := by
  unfold AvlSet.retain
  split
  · exact .inl ⟨_, _, rfl, h⟩
  · have h1 := AvlSet.dfs_spec f s.map.root st .new AvlMap.wf_new
    split at h1
    · rw [h1]; exact .inr rfl
    · obtain ⟨acc, e, w, -⟩ := h1
      rw [e]
      refine .inl ⟨_, _, rfl, ⟨w.bal, ?_⟩, w.sorted⟩
      have := w.len_eq
      dsimp only
      rw [this, Tree.size_eq]
      exact le_rfl

theorem siter_yields (h : SOk s) : Yields iterNext s.map.iter s.elems := by
  refine ⟨fun it l => (items it.work).length ≤ it.len ∧ l = (items it.work).map (·.1), ?_, ?_⟩
  · rintro it l ⟨h1, rfl⟩
    obtain ⟨it', e, h2, h3⟩ := Iter.step_spec true it h1
    simp only [Spec.dequeStep, if_true] at e h2
    refine ⟨it', by rw [iterNext, e]; simp, ?_, by rw [h2]; simp⟩
    rw [h2] at h3 ⊢; simp only [List.length_tail] at h3 ⊢; omega
  · have hi : items s.map.iter.work = s.map.abs := Avl.items_iterOf _ _
    have hs := h.ok.size
    rw [Tree.size_eq] at hs
    dsimp only
    rw [hi]
    exact ⟨hs, rfl⟩

theorem ssetOp_fuel (ha : SOk a) (hb : SOk b) :
    (mergeList a.elems b.elems).length < a.len + b.len + 1 := by
  have := Lib.mergeList_length a.elems b.elems
  have h1 := ha.ok.size
  have h2 := hb.ok.size
  rw [Tree.size_eq] at h1 h2
  simp only [AvlSet.elems, List.length_map, AvlSet.len, AvlMap.abs] at *
  omega

theorem ssetOpRun_total (ha : SOk a) (hb : SOk b) (P n : Nat) :
    AvlSet.setOpRun P a b n =
      some ((List.range n).map (fun i => (setOpList P a.elems b.elems)[i]?)) :=
  Lib.setOpRun_spec P _ n (s := AvlSet.setOp a b) (siter_yields ha) (siter_yields hb)
    (ssetOp_fuel ha hb)

theorem sisDisjoint_total (ha : SOk a) (hb : SOk b) : ∃ z,
    Lib.setOpNext iterNext 2 (a.len + b.len + 1) (AvlSet.setOp a b) = some z := by
  obtain ⟨s', _, _, e, -⟩ := Lib.setOpNext_spec 2 _ (s := AvlSet.setOp a b) (siter_yields ha)
    (siter_yields hb) (ssetOp_fuel ha hb)
  exact ⟨_, e⟩

variable [Ord Q] [TransOrd Q] {bo : T → Q}

/-- No operation panics unexpectedly, and all keep `SOk`. -/
theorem avlSetV_total (hb : ∀ x y, compare (bo x) (bo y) = compare x y) :
    Total (avlSetV T S Q bo) SOk where
  make c := by
    cases c with
    | new => exact ⟨_, rfl, by simp [SOk.new]⟩
    | fromIter xs =>
      obtain ⟨m, e, h⟩ := sextend_total xs (SOk.new (T := T))
      exact ⟨([m], .unit), by simp [avlSetV, AvlSet.fromIter, e], by simp [h]⟩
  one {m} c h := by
    have hp := fun q => isProbe_borrow bo hb q
    cases c with
    | clone => exact ⟨_, rfl, by simp [h], by simp [h]⟩
    | drop => exact ⟨_, rfl, by simp, by simp⟩
    | clear => exact ⟨_, rfl, by simp [AvlSet.clear, AvlMap.clear, SOk.empty], by simp⟩
    | insert x =>
      obtain ⟨m', b, e, h'⟩ := sinsert_total h x
      exact ⟨_, by simp only [avlSetV, e]; rfl, by simp [h'], by simp⟩
    | remove q =>
      obtain ⟨m', b, e, h'⟩ := sremove_total h (hp q)
      exact ⟨_, by simp only [avlSetV, AvlSet.remove, AvlMap.remove, e]; rfl, by simp [h'], by simp⟩
    | take q =>
      obtain ⟨m', b, e, h'⟩ := stake_total h (hp q)
      exact ⟨_, by simp only [avlSetV, e]; rfl, by simp [h'], by simp⟩
    | replace x =>
      obtain ⟨m', b, e, h'⟩ := sreplace_total h x
      exact ⟨_, by simp only [avlSetV, e]; rfl, by simp [h'], by simp⟩
    | popFirst =>
      obtain ⟨m', b, e, h'⟩ := spopFirst_total h
      exact ⟨_, by simp only [avlSetV, AvlSet.popFirst, e]; rfl, by simp [h'], by simp⟩
    | popLast =>
      obtain ⟨m', b, e, h'⟩ := spopLast_total h
      exact ⟨_, by simp only [avlSetV, AvlSet.popLast, e]; rfl, by simp [h'], by simp⟩
    | get q => exact ⟨_, rfl, by simp [h], by simp⟩
    | contains q => exact ⟨_, rfl, by simp [h], by simp⟩
    | first => exact ⟨_, rfl, by simp [h], by simp⟩
    | last => exact ⟨_, rfl, by simp [h], by simp⟩
    | len => exact ⟨_, rfl, by simp [h], by simp⟩
    | isEmpty => exact ⟨_, rfl, by simp [h], by simp⟩
    | iter n =>
      obtain ⟨ys, e⟩ := iter_total h.ok.size (List.replicate n true)
      exact ⟨_, by simp only [avlSetV, AvlMap.iter, e]; rfl, by simp [h], by simp⟩
    | intoIter n =>
      obtain ⟨ys, e⟩ := iter_total h.ok.size (List.replicate n true)
      exact ⟨_, by simp only [avlSetV, AvlMap.iter, e]; rfl, by simp, by simp⟩
    | range lb ub ds =>
      obtain ⟨ys, e⟩ := range_total h.ok.size lb ub ds
      exact ⟨_, by simp only [avlSetV, AvlMap.range, e]; rfl, by simp [h], by simp⟩
    | retain f st =>
      rcases sretain_ok h f st with ⟨st', s', e, h'⟩ | e
      · exact ⟨_, by simp only [avlSetV, e]; rfl, by simp [h'], by simp⟩
      · exact ⟨_, by simp only [avlSetV, e]; rfl, by simp [SOk.empty], by simp⟩
    | extend xs =>
      obtain ⟨m', e, h'⟩ := sextend_total xs h
      exact ⟨_, by simp only [avlSetV, e]; rfl, by simp [h'], by simp⟩
    | splitOff q =>
      obtain ⟨a, b, e, h1, h2⟩ := ssplitOff_total h (hp q)
      exact ⟨_, by simp only [avlSetV, AvlSet.splitOff, e]; rfl, by simp [h1], by simp [h2]⟩
    | hash hLen hT s =>
      exact ⟨_, by simp only [avlSetV, AvlSet.hashSet, iterList_ok h.ok]; rfl, by simp [h], by simp⟩
    | serialize => exact ⟨_, by simp only [avlSetV, serialize_ok h.ok]; rfl, by simp [h], by simp⟩
  two {l r} c hl hr := by
    have k1 : Tree.KeyPreserving (fun _ r : T × Unit => some r) := by
      rintro a b e h ⟨⟩; exact h
    have k2 : Tree.KeyPreserving (fun l _ : T × Unit => some l) := by
      rintro a b e h ⟨⟩; exact compare_self
    have k3 : Tree.KeyPreserving (fun _ _ : T × Unit => none) := by
      rintro a b e h ⟨⟩
    cases c with
    | append =>
      obtain ⟨t, e, h⟩ := smerge_total hl hr true true k1
      exact ⟨_, by simp only [avlSetV, AvlSet.append, AvlMap.append, Tree.union, e]; rfl, by simp [h],
        by simp [SOk.empty], by simp⟩
    | union =>
      obtain ⟨t, e, h⟩ := smerge_total hl hr true true k1
      exact ⟨_, by simp only [avlSetV, AvlSet.newUnion, Tree.union, e]; rfl, by simp, by simp,
        by simp [h]⟩
    | intersection =>
      obtain ⟨t, e, h⟩ := smerge_total hl hr false false k2
      exact ⟨_, by simp only [avlSetV, AvlSet.newIntersection, Tree.intersect, e]; rfl, by simp,
        by simp, by simp [h]⟩
    | difference =>
      obtain ⟨t, e, h⟩ := smerge_total hl hr true false k3
      exact ⟨_, by simp only [avlSetV, AvlSet.newDiff, Tree.diff, e]; rfl, by simp, by simp,
        by simp [h]⟩
    | symDiff =>
      obtain ⟨t, e, h⟩ := smerge_total hl hr true true k3
      exact ⟨_, by simp only [avlSetV, AvlSet.newSymDiff, Tree.symDiff, e]; rfl, by simp, by simp,
        by simp [h]⟩
  look {l r} c hl hr := by
    cases c with
    | eq eqT =>
      simp only [avlSetV, AvlSet.eqSet, AvlMap.eqMap, iterList_ok hl.ok, iterList_ok hr.ok]
      split <;> exact ⟨_, rfl⟩
    | partialCmp cmpT =>
      simp only [avlSetV, AvlSet.partialCmpSet, AvlMap.partialCmpMap, iterList_ok hl.ok,
        iterList_ok hr.ok]
      exact ⟨_, rfl⟩
    | cmp cmpT =>
      simp only [avlSetV, AvlSet.cmpSet, AvlMap.cmpMap, iterList_ok hl.ok, iterList_ok hr.ok]
      exact ⟨_, rfl⟩
    | setOp F n => simp only [avlSetV, ssetOpRun_total hl hr]; exact ⟨_, rfl⟩
    | isDisjoint =>
      obtain ⟨z, e⟩ := sisDisjoint_total hl hr
      simp only [avlSetV, AvlSet.isDisjoint, e]
      exact ⟨_, rfl⟩
    | isSubset => exact ⟨_, rfl⟩
    | isSuperset => exact ⟨_, rfl⟩

end

/-! ## Memory -/

/-- The iterator of a set in memory is the iterator on values. -/
def IterR (M : Multiset (Handle (ND T Unit))) (n : Nat)
    (i : Option Nat × HIter (List Nat) (T × Unit)) (it : Iter T Unit) : Prop :=
  i.2.len = it.len ∧ wsize it.work ≤ n ∧ ((i.1 = none ∧ i.2.work = [] ∧ it.work = []) ∨
    ∃ a t u G, i.1 = some a ∧ M = {⟨some a, t, u⟩} + G ∧
      List.Forall₂ (NAct t) i.2.work it.work)

theorem setNext_agree (M : Multiset (Handle (ND T Unit))) (n : Nat) :
    Heap.SetOps.Agree M (IterR M n) (HMap.setNext n) iterNext := by
  rintro ⟨o, ⟨w, len⟩⟩ ⟨wt, vlen⟩ y ⟨hl, hn, h⟩ e
  dsimp only at hl hn h
  subst hl
  simp only [iterNext, Option.map_eq_some_iff] at e
  obtain ⟨⟨y, it'⟩, e, rfl⟩ := e
  rcases h with ⟨rfl, rfl, rfl⟩ | ⟨a, t, u, G, rfl, hM, h⟩
  · simp only [Avl.Iter.step, if_true, Avl.nextW, Option.some.injEq, Prod.mk.injEq] at e
    obtain ⟨rfl, rfl⟩ := e
    cases n <;>
      exact wp_pure ⟨rfl, ⟨rfl, by simp [wsize], .inl ⟨rfl, rfl, rfl⟩⟩, rfl⟩
  · unfold HMap.setNext
    simp only [stepG, Option.getD_some]
    refine wp_bind (wp_bind (wp_tail G (nextG_spec (desN_ok (a := a) (t := t) (b := u)
      .unbounded .unbounded) (h := []) (s := ()) ⟨h, rfl⟩ hn) hM ?_))
    rintro x L (⟨h1, h2, -, rfl⟩ | ⟨e1, wt', i, w', h1, h2, h3, h4, rfl⟩)
    · simp only [Avl.Iter.step, if_true, h1, Option.some.injEq, Prod.mk.injEq] at e
      obtain ⟨rfl, rfl⟩ := e
      rw [h2]
      exact wp_pure (wp_pure ⟨rfl, ⟨rfl, by simp [wsize], .inr ⟨a, t, u, G, rfl, hM, .nil⟩⟩,
        hM.symm⟩)
    · simp only [Avl.Iter.step, if_true, h1] at e
      split at e
      · cases e
      · next hz =>
        simp only [Option.some.injEq, Prod.mk.injEq] at e
        obtain ⟨rfl, rfl⟩ := e
        rw [h2]
        dsimp only
        rw [if_neg hz]
        simp only [List.forall₂_cons, NAct] at h4
        obtain ⟨rfl, h4⟩ := h4
        exact wp_pure (wp_pure ⟨rfl, ⟨rfl, Nat.le_trans h3 hn, .inr ⟨a, t, u, G, rfl, hM, h4⟩⟩,
          hM.symm⟩)

section
variable {M G : Multiset (Handle (ND T Unit))} {α : Type}

/-- The iterator at its start. -/
theorem setIter_rel {m : AvlMap T Unit} {r : Option Nat} {n : Nat} (h : Ok m)
    (hn : 3 * m.len + 1 ≤ n) (hM : M = own r (vt m.root) + G)
    {p : Prog (ND T Unit) α} {Q : α → Multiset (Handle (ND T Unit)) → Prop}
    (k : IterR M n (HMap.setIter ⟨m.len, r⟩) m.iter → wp p M Q) : wp p M Q := by
  have hs := h.size
  obtain ⟨len, t⟩ := m
  dsimp only at hs hn hM k ⊢
  refine wp_tree_look hM ?_ ?_
  · rintro rfl rfl
    exact k ⟨rfl, by simp [AvlMap.iter, Avl.iterOf, Avl.pushDesc, wsize], .inl ⟨rfl, rfl, rfl⟩⟩
  · rintro a rfl ht hMa
    cases t with
    | nil => exact absurd rfl ht
    | node k1 v lh rh l r' =>
      refine k ⟨rfl, ?_, .inr ⟨a, _, _, G, rfl, hMa, ?_⟩⟩
      · simp only [AvlMap.iter, Avl.iterOf, Avl.pushDesc, wsize] at hs ⊢
        omega
      · simp [HMap.setIter, AvlMap.iter, Avl.iterOf, Avl.pushDesc, NAct, VT.sub]

variable [Ord T] [TransOrd T] {x y : AvlSet T} {r1 r2 : Option Nat}
  {G' : Multiset (Handle (ND T Unit))}

theorem setOp_rel (hx : Ok x.map) (hy : Ok y.map) (hM : M = own r1 (vt x.map.root) + G)
    (hM' : M = own r2 (vt y.map.root) + G') {n : Nat} (hn : 3 * (x.map.len + y.map.len) + 1 ≤ n)
    {p : Prog (ND T Unit) α} {Q : α → Multiset (Handle (ND T Unit)) → Prop}
    (k : Heap.SetOps.MergeR (IterR M n) (HMap.setOp ⟨x.map.len, r1⟩ ⟨y.map.len, r2⟩)
      (AvlSet.setOp x y) → wp p M Q) : wp p M Q := by
  refine setIter_rel hx (n := n) (by omega) hM fun h1 => ?_
  refine setIter_rel hy (n := n) (by omega) hM' fun h2 => ?_
  exact k ⟨⟨rfl, h1⟩, rfl, h2⟩

theorem hsetOpRun_spec (hx : Ok x.map) (hy : Ok y.map) (hM : M = own r1 (vt x.map.root) + G)
    (hM' : M = own r2 (vt y.map.root) + G') {F n : Nat} {ys : List (Option T)}
    (e : AvlSet.setOpRun F x y n = some ys) :
    wp (HMap.setOpRun (T := T) F ⟨x.map.len, r1⟩ ⟨y.map.len, r2⟩ n) M
      (fun z L => z = ys ∧ L = M) :=
  setOp_rel hx hy hM hM' le_rfl fun h =>
    Heap.SetOps.setOpRun_agree (setNext_agree M _) F _ n h e

theorem hisDisjoint_spec (hx : Ok x.map) (hy : Ok y.map) (hM : M = own r1 (vt x.map.root) + G)
    (hM' : M = own r2 (vt y.map.root) + G') {b : Bool} (e : AvlSet.isDisjoint x y = some b) :
    wp (HMap.isDisjoint (T := T) ⟨x.map.len, r1⟩ ⟨y.map.len, r2⟩) M
      (fun z L => z = b ∧ L = M) := by
  refine setOp_rel hx hy hM hM' le_rfl fun h => ?_
  obtain ⟨z, e1, rfl⟩ := Option.map_eq_some_iff.1 e
  refine wp_bind (wp_conseq (Heap.SetOps.setOpNext_agree (setNext_agree M _) 2 _ h e1) ?_)
  rintro w L ⟨h1, -, rfl⟩
  exact wp_pure ⟨by rw [h1], rfl⟩

end

/-! ### `retain` -/

/-- What `dfs` leaves: what it returns on values, or after a panic some map to be dropped. -/
def DfsPost (o : Option (S × AvlMap T Unit)) (x : HMap × Option S)
    (L : Multiset (Handle (ND T Unit))) : Prop :=
  match o with
  | none => x.2 = none ∧ ∃ m', Ok m' ∧ R x.1 m' L
  | some z => x.2 = some z.1 ∧ Ok z.2 ∧ R x.1 z.2 L

section
variable [Ord T]

theorem dfsKid_spec {D : Nat} {go : ND T Unit × Option Nat × Option Nat → S → HMap →
    Prog (ND T Unit) (HMap × Option S)} {f : S → T → Option (S × Bool)} {t : Tree T Unit}
    {r ra : Option Nat} {s : S} {acc : AvlMap T Unit} (hD : t.size ≤ D) (ha : Ok acc)
    (hgo : ∀ k v lh rh l r' lr rr, t = .node k v lh rh l r' →
      wp (go (⟨k, v, lh, rh⟩, lr, rr) s ⟨acc.len, ra⟩)
        (own lr (vt l) + own rr (vt r') + own ra (vt acc.root)) (DfsPost (AvlSet.dfs f t s acc))) :
    wp (HMap.dfsKid D go r s ⟨acc.len, ra⟩) (own r (vt t) + own ra (vt acc.root))
      (DfsPost (AvlSet.dfs f t s acc)) := by
  refine wp_tree_cases (r := r) (t := t) _ rfl ?_ ?_
  · rintro rfl rfl
    exact wp_pure ⟨rfl, ha, ra, rfl, rfl⟩
  · rintro a k v lh rh l r' rfl rfl
    unfold HMap.dfsKid
    wcall (wp_makeMut (vt_dep (.node k v lh rh l r') hD))
    rintro a' _ rfl
    wcall tryUnwrap_spec
    rintro _ _ ⟨ks, rfl, h, rfl⟩
    obtain ⟨lr, rr, rfl⟩ := two_links h
    dsimp only
    have := hgo k v lh rh l r' lr rr rfl
    simpa [owns, add_assoc] using this

theorem dfsKeep_spec {acc : AvlMap T Unit} {ra : Option Nat} (ha : Ok acc) (k : T) (b : Bool) :
    wp (HMap.dfsKeep ⟨acc.len, ra⟩ k b) (own ra (vt acc.root)) (fun x L => ∃ acc',
      (if b then (acc.insert k ()).map (·.1) else some acc) = some acc' ∧ Ok acc' ∧ R x acc' L) := by
  cases b with
  | false => exact wp_pure ⟨acc, rfl, ha, ra, rfl, rfl⟩
  | true =>
    obtain ⟨m', old, e, h'⟩ := insert_total ha k ()
    refine wp_bind (wp_conseq (hinsert_spec ha e) ?_)
    rintro x L ⟨h1, -⟩
    exact wp_pure ⟨m', by simp [e], h', h1⟩

theorem hdfs_spec {D : Nat} {f : S → T → Option (S × Bool)} : ∀ (n : Nat) (k : T) (v : Unit)
    (lh rh : Int) (l r : Tree T Unit) (lr rr ra : Option Nat) (s : S) (acc : AvlMap T Unit),
    (Tree.node k v lh rh l r).size ≤ D → (Tree.node k v lh rh l r).size ≤ n → Ok acc →
    wp (HMap.dfs D f n (⟨k, v, lh, rh⟩, lr, rr) s ⟨acc.len, ra⟩)
      (own lr (vt l) + own rr (vt r) + own ra (vt acc.root))
      (DfsPost (AvlSet.dfs f (.node k v lh rh l r) s acc)) := by
  intro n
  induction n with
  | zero => intro k v lh rh l r lr rr ra s acc _ h; simp [Tree.size] at h
  | succ n ih =>
    intro k v lh rh l r lr rr ra s acc hD hn ha
    simp only [Tree.size] at hD hn
    have kid : ∀ {t : Tree T Unit} {q ra : Option Nat} {s : S} {acc : AvlMap T Unit},
        t.size ≤ D → t.size ≤ n → Ok acc →
        wp (HMap.dfsKid D (HMap.dfs D f n) q s ⟨acc.len, ra⟩) (own q (vt t) + own ra (vt acc.root))
          (DfsPost (AvlSet.dfs f t s acc)) := by
      intro t q ra s acc h1 h2 h3
      refine dfsKid_spec h1 h3 ?_
      rintro k v lh rh l r' lr rr rfl
      exact ih k v lh rh l r' lr rr ra s acc h1 h2 h3
    rw [HMap.dfs]
    dsimp only
    wcall (kid (t := l) (q := lr) (ra := ra) (s := s) (acc := acc) (by omega) (by omega) ha)
    intro y L hy
    rw [AvlSet.dfs]
    cases e1 : AvlSet.dfs f l s acc with
    | none =>
      rw [e1] at hy
      obtain ⟨h1, m', h2, r', h3, rfl⟩ := hy
      rw [h1]
      dsimp only
      wcall (drop_spec (D := D) (r := rr) (t := r) (by omega))
      rintro _ _ rfl
      exact wp_pure ⟨rfl, m', h2, r', h3, by simp⟩
    | some z =>
      obtain ⟨s1, acc1⟩ := z
      rw [e1] at hy
      obtain ⟨h1, h2, r1, h3, rfl⟩ := hy
      rw [h1]
      dsimp only at h2 h3 ⊢
      cases e2 : f s1 k with
      | none =>
        dsimp only
        wcall (drop_spec (D := D) (r := rr) (t := r) (by omega))
        rintro _ _ rfl
        exact wp_pure ⟨rfl, acc1, h2, r1, h3, by simp⟩
      | some w =>
        obtain ⟨s2, b⟩ := w
        dsimp only
        rw [h3]
        wcall (dfsKeep_spec (ra := r1) h2 k b)
        rintro x _ ⟨acc2, e3, h4, r2, rfl, rfl⟩
        have := kid (t := r) (q := rr) (ra := r2) (s := s2) (acc := acc2) (by omega) (by omega) h4
        have e4 : (match (some (s2, b) : Option (S × Bool)) with
          | none => none
          | some (s2, true) =>
            match acc1.insert k () with
            | none => none
            | some (acc2, _) => AvlSet.dfs f r s2 acc2
          | some (s2, false) => AvlSet.dfs f r s2 acc1) = AvlSet.dfs f r s2 acc2 := by
          cases b with
          | false => simp only [Bool.false_eq_true, if_false, Option.some.injEq] at e3; rw [e3]
          | true =>
            simp only [if_true, Option.map_eq_some_iff] at e3
            obtain ⟨q, e5, rfl⟩ := e3
            simp only [e5]
        rw [add_comm]
        refine wp_conseq this ?_
        intro x L hx
        rw [← e4] at hx
        exact hx

theorem hretainSet_spec {s : AvlSet T} {r : Option Nat} (h : Ok s.map)
    (f : S → T → Option (S × Bool)) (st : S) :
    wp (HMap.retainSet ⟨s.map.len, r⟩ f st) (own r (vt s.map.root)) (fun x L =>
      (∃ st' s', s.retain f st = .done st' s' ∧ x.2 = some st' ∧ SR x.1 s' L) ∨
      (∃ s', s.retain f st = .panicked s' ∧ x.2 = none ∧ SR x.1 s' L)) := by
  obtain ⟨⟨len, t⟩⟩ := s
  have hs := h.size
  dsimp only at hs ⊢
  unfold HMap.retainSet
  refine wp_tree_cases (r := r) (t := t) 0 (add_zero _).symm ?_ ?_
  · rintro rfl rfl
    exact wp_pure (.inl ⟨st, _, rfl, rfl, none, rfl, by simp [vt]⟩)
  · rintro a k v lh rh l r' rfl rfl
    dsimp only
    wcall (wp_makeMut (vt_dep (.node k v lh rh l r') hs))
    rintro a' _ rfl
    wcall tryUnwrap_spec
    rintro _ _ ⟨ks, rfl, hk, rfl⟩
    obtain ⟨lr, rr, rfl⟩ := two_links hk
    dsimp only
    have h1 := hdfs_spec (f := f) len k v lh rh l r' lr rr none st .new hs hs Ok.new
    rw [show own none (vt (AvlMap.new : AvlMap T Unit).root) = 0 by simp [AvlMap.new, vt]] at h1
    simp only [owns, add_zero] at h1 ⊢
    refine wp_bind (wp_conseq h1 ?_)
    intro y L hy
    have er : (⟨⟨len, .node k v lh rh l r'⟩⟩ : AvlSet T).retain f st =
        (match AvlSet.dfs f (.node k v lh rh l r') st .new with
        | none => .panicked ⟨⟨len, .nil⟩⟩
        | some (st', acc) => .done st' ⟨acc⟩) := rfl
    rw [er]
    cases e : AvlSet.dfs f (.node k v lh rh l r') st .new with
    | none =>
      rw [e] at hy
      obtain ⟨h2, m', h3, r2, h4, rfl⟩ := hy
      rw [h2]
      dsimp only
      rw [h4]
      refine wp_bind (wp_conseq (hdrop_spec h3) ?_)
      rintro _ _ rfl
      exact wp_pure (.inr ⟨_, rfl, rfl, none, rfl, by simp [vt]⟩)
    | some z =>
      obtain ⟨st', acc⟩ := z
      rw [e] at hy
      obtain ⟨h2, h3, h4⟩ := hy
      rw [h2]
      exact wp_pure (.inl ⟨st', _, rfl, rfl, h4⟩)

end

/-! ### The machine -/

section
variable {s : AvlSet T} {r : Option Nat}

theorem htake_spec (h : Ok s.map) {p : T → Ordering} {s' o} (e : s.take p = some (s', o)) :
    wp (HMap.take (T := T) ⟨s.map.len, r⟩ p) (own r (vt s.map.root))
      (fun x L => SR x.1 s' L ∧ x.2 = o) := by
  obtain ⟨t', kv, b, e1, -⟩ := Tree.rm_shape p s.map.root h.bal
  unfold AvlSet.take at e
  rw [e1] at e
  refine wp_bind (wp_conseq (rm_spec e1 h.size h.size) ?_)
  rintro x L ⟨r', rfl, rfl⟩
  cases kv with
  | none => cases e; exact wp_pure ⟨⟨r', rfl, rfl⟩, rfl⟩
  | some kv =>
    dsimp only at e ⊢
    split at e
    · cases e
    · next hl =>
      cases e
      rw [if_neg hl]
      exact wp_pure ⟨⟨r', rfl, rfl⟩, rfl⟩

/-- The end of an operation that returns one set. -/
theorem spost1 {h : HMap} {m : AvlSet T} {L} {o : SRes T S} (hR : SR h m L) :
    o = o ∧ ∃ L1 L2, L = L1 + L2 ∧ HoldsO SR (some h) (some m) L1 ∧ HoldsL (SR (T := T)) [] [] L2 :=
  ⟨rfl, L, 0, (add_zero _).symm, .some hR, .nil⟩

variable [Ord T] [TransOrd T] [Ord Q] [TransOrd Q] {bo : T → Q}

theorem hreplace_spec (h : SOk s) {x : T} {s' o} (e : s.replace x = some (s', o)) :
    wp (HMap.replace (T := T) ⟨s.map.len, r⟩ x) (own r (vt s.map.root))
      (fun y L => SR y.1 s' L ∧ y.2 = o) := by
  obtain ⟨s1, o1, e1, h1⟩ := stake_total h (isProbe_compare x)
  obtain ⟨s2, b, e2, h2⟩ := sinsert_total h1 x
  simp only [AvlSet.replace, e1, e2, Option.map_some, Option.some.injEq, Prod.mk.injEq] at e
  obtain ⟨rfl, rfl⟩ := e
  simp only [AvlSet.insert, Option.map_eq_some_iff] at e2
  obtain ⟨z, e3, e4⟩ := e2
  cases e4
  refine wp_bind (wp_conseq (htake_spec h.ok e1) ?_)
  rintro y L ⟨⟨r', h3, rfl⟩, h4⟩
  rw [h3]
  refine wp_bind (wp_conseq (hinsert_spec h1.ok e3) ?_)
  rintro z L ⟨h5, -⟩
  exact wp_pure ⟨h5, h4⟩

/-- The operations on memory do what the operations on values do. -/
theorem avlSetM_sound : Sound (avlSetM T S Q bo) (avlSetV T S Q bo) SOk SR where
  make {c y} e := by
    cases c with
    | new =>
      cases e
      exact wp_pure ⟨rfl, HoldsR.single ⟨none, rfl, by simp [AvlSet.new, AvlMap.new, vt]⟩⟩
    | fromIter xs =>
      simp only [avlSetV, AvlSet.fromIter, AvlSet.extend_eq, Option.map_map,
        Option.map_eq_some_iff] at e
      obtain ⟨m, e, rfl⟩ := e
      have := hextend_spec (xs.map fun x => (x, ())) (r := none) Ok.new e
      rw [show own none (vt (AvlMap.new : AvlMap T Unit).root) = 0 by simp [AvlMap.new, vt]] at this
      refine wp_bind (wp_conseq this ?_)
      rintro x L h
      exact wp_pure ⟨rfl, HoldsR.single h⟩
  one {h m L c y} hI hR e := by
    obtain ⟨r, rfl, rfl⟩ := hR
    have keep : SR ⟨m.map.len, r⟩ m (own r (vt m.map.root)) := ⟨r, rfl, rfl⟩
    cases c with
    | clone =>
      cases e
      refine wp_bind (wp_conseq hclone_spec ?_)
      rintro x L ⟨L', rfl, h⟩
      exact wp_pure ⟨rfl, _, _, rfl, .some keep, HoldsR.single h⟩
    | drop =>
      cases e
      refine wp_bind (wp_conseq (hdrop_spec hI.ok) ?_)
      rintro x L rfl
      exact wp_pure ⟨rfl, 0, 0, rfl, .none, .nil⟩
    | clear =>
      cases e
      refine wp_bind (wp_bind (wp_conseq (hdrop_spec hI.ok) ?_))
      rintro x L rfl
      exact wp_pure (wp_pure (spost1 ⟨none, rfl, by simp [AvlSet.clear, AvlMap.clear, vt]⟩))
    | insert x =>
      obtain ⟨z, e1, rfl⟩ := Option.map_eq_some_iff.1 e
      obtain ⟨z, e2, rfl⟩ := Option.map_eq_some_iff.1 e1
      refine wp_bind (wp_conseq (hinsert_spec hI.ok e2) ?_)
      rintro x L ⟨h, h2⟩
      exact wp_pure (by rw [h2]; exact spost1 h)
    | remove q =>
      obtain ⟨z, e1, rfl⟩ := Option.map_eq_some_iff.1 e
      obtain ⟨z, e2, rfl⟩ := Option.map_eq_some_iff.1 e1
      obtain ⟨z, e3, rfl⟩ := Option.map_eq_some_iff.1 e2
      refine wp_bind (wp_conseq (hremoveEntry_spec hI.ok e3) ?_)
      rintro x L ⟨h, h2⟩
      exact wp_pure (by rw [h2]; exact spost1 h)
    | take q =>
      obtain ⟨z, e1, rfl⟩ := Option.map_eq_some_iff.1 e
      refine wp_bind (wp_conseq (htake_spec hI.ok e1) ?_)
      rintro x L ⟨h, h2⟩
      exact wp_pure (by rw [h2]; exact spost1 h)
    | replace x =>
      obtain ⟨z, e1, rfl⟩ := Option.map_eq_some_iff.1 e
      refine wp_bind (wp_conseq (hreplace_spec hI e1) ?_)
      rintro x L ⟨h, h2⟩
      exact wp_pure (by rw [h2]; exact spost1 h)
    | popFirst =>
      obtain ⟨z, e1, rfl⟩ := Option.map_eq_some_iff.1 e
      obtain ⟨z, e2, rfl⟩ := Option.map_eq_some_iff.1 e1
      refine wp_bind (wp_conseq (hpopFirst_spec hI.ok e2) ?_)
      rintro x L ⟨h, h2⟩
      exact wp_pure (by rw [h2]; exact spost1 h)
    | popLast =>
      obtain ⟨z, e1, rfl⟩ := Option.map_eq_some_iff.1 e
      obtain ⟨z, e2, rfl⟩ := Option.map_eq_some_iff.1 e1
      refine wp_bind (wp_conseq (hpopLast_spec hI.ok e2) ?_)
      rintro x L ⟨h, h2⟩
      exact wp_pure (by rw [h2]; exact spost1 h)
    | get q =>
      cases e
      refine wp_bind (wp_conseq (hget_spec hI.ok) ?_)
      rintro x L ⟨rfl, rfl⟩
      exact wp_pure (spost1 keep)
    | contains q =>
      cases e
      refine wp_bind (wp_conseq (hget_spec hI.ok) ?_)
      rintro x L ⟨rfl, rfl⟩
      exact wp_pure (spost1 keep)
    | first =>
      cases e
      refine wp_bind (wp_conseq (first_spec hI.ok.size) ?_)
      rintro x L ⟨rfl, rfl⟩
      exact wp_pure (spost1 keep)
    | last =>
      cases e
      refine wp_bind (wp_conseq (last_spec hI.ok.size) ?_)
      rintro x L ⟨rfl, rfl⟩
      exact wp_pure (spost1 keep)
    | len => cases e; exact wp_pure (spost1 keep)
    | isEmpty => cases e; exact wp_pure (spost1 keep)
    | iter n =>
      obtain ⟨z, e1, rfl⟩ := Option.map_eq_some_iff.1 e
      refine wp_bind (wp_conseq (hiter_spec hI.ok e1) ?_)
      rintro x L ⟨rfl, rfl⟩
      exact wp_pure (spost1 keep)
    | intoIter n =>
      obtain ⟨z, e1, rfl⟩ := Option.map_eq_some_iff.1 e
      refine wp_bind (wp_conseq (intoRun_spec hI.ok.size
        (by have := hI.ok.size; dsimp only; omega) e1) ?_)
      rintro x L ⟨rfl, rfl⟩
      exact wp_pure ⟨rfl, 0, 0, rfl, .none, .nil⟩
    | range lb ub ds =>
      obtain ⟨z, e1, rfl⟩ := Option.map_eq_some_iff.1 e
      refine wp_bind (wp_conseq (rangeRun_spec (by have := hI.ok.size; dsimp only; omega) e1) ?_)
      rintro x L ⟨rfl, rfl⟩
      exact wp_pure (spost1 keep)
    | retain f st =>
      simp only [avlSetV, Option.some.injEq] at e
      refine wp_bind (wp_conseq (hretainSet_spec hI.ok f st) ?_)
      rintro x L (⟨st', s', h1, h2, h3⟩ | ⟨s', h1, h2, h3⟩)
      · rw [h1] at e; subst e
        rw [h2]; exact wp_pure (spost1 h3)
      · rw [h1] at e; subst e
        rw [h2]; exact wp_pure (spost1 h3)
    | extend xs =>
      simp only [avlSetV, AvlSet.extend_eq, Option.map_map, Option.map_eq_some_iff] at e
      obtain ⟨z, e1, rfl⟩ := e
      refine wp_bind (wp_conseq (hextend_spec _ hI.ok e1) ?_)
      rintro x L h
      exact wp_pure (spost1 h)
    | splitOff q =>
      obtain ⟨z, e1, rfl⟩ := Option.map_eq_some_iff.1 e
      obtain ⟨z, e2, rfl⟩ := Option.map_eq_some_iff.1 e1
      refine wp_bind (wp_conseq (hsplitOff_spec hI.ok (a := z.1) (b := z.2) e2) ?_)
      rintro x L ⟨L1, L2, rfl, h1, h2⟩
      exact wp_pure ⟨rfl, L1, L2, rfl, .some h1, HoldsR.single h2⟩
    | hash hLen hT s =>
      simp only [avlSetV, AvlSet.hashSet, iterList_ok hI.ok] at e
      cases e
      refine wp_bind (wp_conseq (hiterList_spec hI.ok) ?_)
      rintro x L ⟨rfl, rfl⟩
      exact wp_pure (spost1 keep)
    | serialize =>
      simp only [avlSetV, serialize_ok hI.ok] at e
      cases e
      refine wp_bind (wp_conseq (hiterList_spec hI.ok) ?_)
      rintro x L ⟨rfl, rfl⟩
      exact wp_pure (spost1 keep)
  two {h m L k n L' c y} hI hJ hR hR' e := by
    obtain ⟨r, rfl, rfl⟩ := hR
    obtain ⟨r', rfl, rfl⟩ := hR'
    cases c with
    | append =>
      simp only [avlSetV, AvlSet.append, AvlMap.append, Option.map_map] at e
      obtain ⟨z, e1, rfl⟩ := Option.map_eq_some_iff.1 e
      refine wp_bind (wp_conseq (hmerge_spec hI.ok hJ.ok e1) ?_)
      intro x L h
      exact wp_pure ⟨rfl, L, 0, 0, by simp, .some h, .some ⟨none, rfl, by simp [vt]⟩, .nil⟩
    | union =>
      simp only [avlSetV, AvlSet.newUnion, AvlSet.ofRoot, Option.map_map] at e
      obtain ⟨z, e1, rfl⟩ := Option.map_eq_some_iff.1 e
      refine wp_bind (wp_conseq (hmerge_spec hI.ok hJ.ok e1) ?_)
      intro x L h
      exact wp_pure ⟨rfl, 0, 0, L, by simp, .none, .none, HoldsR.single h⟩
    | intersection =>
      simp only [avlSetV, AvlSet.newIntersection, AvlSet.ofRoot, Option.map_map] at e
      obtain ⟨z, e1, rfl⟩ := Option.map_eq_some_iff.1 e
      refine wp_bind (wp_conseq (hmerge_spec hI.ok hJ.ok e1) ?_)
      intro x L h
      exact wp_pure ⟨rfl, 0, 0, L, by simp, .none, .none, HoldsR.single h⟩
    | difference =>
      simp only [avlSetV, AvlSet.newDiff, AvlSet.ofRoot, Option.map_map] at e
      obtain ⟨z, e1, rfl⟩ := Option.map_eq_some_iff.1 e
      refine wp_bind (wp_conseq (hmerge_spec hI.ok hJ.ok e1) ?_)
      intro x L h
      exact wp_pure ⟨rfl, 0, 0, L, by simp, .none, .none, HoldsR.single h⟩
    | symDiff =>
      simp only [avlSetV, AvlSet.newSymDiff, AvlSet.ofRoot, Option.map_map] at e
      obtain ⟨z, e1, rfl⟩ := Option.map_eq_some_iff.1 e
      refine wp_bind (wp_conseq (hmerge_spec hI.ok hJ.ok e1) ?_)
      intro x L h
      exact wp_pure ⟨rfl, 0, 0, L, by simp, .none, .none, HoldsR.single h⟩
  look {h m L k n L' c y M G G'} hI hJ hR hR' e1 e2 e := by
    obtain ⟨r, rfl, rfl⟩ := hR
    obtain ⟨r', rfl, rfl⟩ := hR'
    have look1 : ∀ {α : Type} {Q : α → Multiset (Handle (ND T Unit)) → Prop}
        (f : List (T × Unit) → Prog (ND T Unit) α), wp (f m.map.abs) M Q →
        wp ((HMap.iterList ⟨m.map.len, r⟩).bind f) M Q := by
      intro α Q f h
      refine wp_look e1 (hiterList_spec hI.ok) ?_
      rintro x rfl
      exact h
    have look2 : ∀ {α : Type} {Q : α → Multiset (Handle (ND T Unit)) → Prop}
        (f : List (T × Unit) → Prog (ND T Unit) α), wp (f n.map.abs) M Q →
        wp ((HMap.iterList ⟨n.map.len, r'⟩).bind f) M Q := by
      intro α Q f h
      refine wp_look e2 (hiterList_spec hJ.ok) ?_
      rintro x rfl
      exact h
    cases c with
    | eq eqT =>
      simp only [avlSetV, AvlSet.eqSet, AvlMap.eqMap, iterList_ok hI.ok, iterList_ok hJ.ok] at e
      simp only [avlSetM, HMap.eqMap]
      split at e
      · next hl =>
        cases e
        rw [if_pos hl]
        refine wp_bind (look1 _ (look2 _ ?_))
        exact wp_pure (wp_pure ⟨rfl, rfl⟩)
      · next hl =>
        cases e
        rw [if_neg hl]
        exact wp_pure ⟨rfl, rfl⟩
    | partialCmp cmpT =>
      simp only [avlSetV, AvlSet.partialCmpSet, AvlMap.partialCmpMap, iterList_ok hI.ok,
        iterList_ok hJ.ok] at e
      cases e
      exact look1 _ (look2 _ (wp_pure ⟨rfl, rfl⟩))
    | cmp cmpT =>
      simp only [avlSetV, AvlSet.cmpSet, AvlMap.cmpMap, iterList_ok hI.ok, iterList_ok hJ.ok] at e
      cases e
      exact look1 _ (look2 _ (wp_pure ⟨rfl, rfl⟩))
    | setOp F j =>
      obtain ⟨z, e3, rfl⟩ := Option.map_eq_some_iff.1 e
      refine wp_bind (wp_conseq (hsetOpRun_spec hI.ok hJ.ok e1 e2 e3) ?_)
      rintro x L ⟨rfl, rfl⟩
      exact wp_pure ⟨rfl, rfl⟩
    | isDisjoint =>
      obtain ⟨z, e3, rfl⟩ := Option.map_eq_some_iff.1 e
      refine wp_bind (wp_conseq (hisDisjoint_spec hI.ok hJ.ok e1 e2 e3) ?_)
      rintro x L ⟨rfl, rfl⟩
      exact wp_pure ⟨rfl, rfl⟩
    | isSubset =>
      cases e
      refine wp_bind (wp_conseq (hisSubset_spec hI.ok hJ.ok hI.sorted hJ.sorted e1 e2) ?_)
      rintro x L ⟨rfl, rfl⟩
      exact wp_pure ⟨rfl, rfl⟩
    | isSuperset =>
      cases e
      refine wp_bind (wp_conseq (hisSubset_spec hJ.ok hI.ok hJ.sorted hI.sorted e2 e1) ?_)
      rintro x L ⟨rfl, rfl⟩
      exact wp_pure ⟨rfl, rfl⟩

/-! ## The same with deep copies -/

/-- The operations on memory with `clone` replaced by a copy of all nodes.  Not code of the crate:
it is what clones are compared with. -/
def avlSetD (T S Q : Type) [Ord T] [Ord Q] (bo : T → Q) :
    Machine.Impl (Prog (ND T Unit)) HMap (SRes T S) (SMake T) (SOne T S Q) STwo (SLook T) where
  make := (avlSetM T S Q bo).make
  one m
    | .clone => (deepClone m.len m.root).bind fun r => .pure (some m, [⟨m.len, r⟩], .unit)
    | c => (avlSetM T S Q bo).one m c
  two := (avlSetM T S Q bo).two
  look := (avlSetM T S Q bo).look

theorem avlSetD_sound : Sound (avlSetD T S Q bo) (avlSetV T S Q bo) SOk SR where
  make := avlSetM_sound.make
  one {h m L c y} hI hR e := by
    cases c
    case clone =>
      obtain ⟨r, rfl, rfl⟩ := hR
      cases e
      refine wp_bind (wp_conseq (wp_deepClone (vt_dep _ hI.ok.size)) ?_)
      rintro x L rfl
      exact wp_pure ⟨rfl, _, _, rfl, .some ⟨r, rfl, rfl⟩, HoldsR.single ⟨x, rfl, rfl⟩⟩
    all_goals exact avlSetM_sound.one hI hR e
  two := avlSetM_sound.two
  look := avlSetM_sound.look

end

end Verif.AvlH
