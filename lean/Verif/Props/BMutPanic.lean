import Verif.Unwind.BMutOwn
import Verif.Props.Unwind
/-!
# Mutable iteration over a `BTreeMap` when `Clone` panics (C75)

A `&mut` reference is the slot of its entry, the number of the entries before it; the caller writes
`w i` to slot `i` if it is given the reference, and goes on calling the iterator after a panic.
-/
set_option linter.unusedSectionVars false
namespace Verif.Props
open Std Verif.Unwind Verif.Wild Verif.DemoU Verif.BTree
universe w
variable {σ : Type w} {K V : Type} [Ord K] [TransOrd K] {N : Nat}

/-- The entries of a list, each with its slot. -/
def slotted (l : List (K × V)) : List (K × (Nat × V)) := l.zipIdx.map fun x => (x.1.1, (x.2, x.1.2))

theorem items_perm {α : Type} : ∀ (ds : List Bool) (E : List (Ev α)), E.length ≤ ds.length →
    (E.filterMap Ev.item).Perm (gotten true ds E ++ (gotten false ds E).reverse)
  | ds, [], _ => by cases ds <;> simp [gotten]
  | [], x :: E, h => by simp at h
  | d :: ds, x :: E, h => by
    have ih := items_perm ds E (by simpa using h)
    have e : ((x :: E).filterMap Ev.item) = x.item.toList ++ E.filterMap Ev.item := by
      rw [List.filterMap_cons]
      cases x.item <;> rfl
    rw [e]
    cases d with
    | true =>
      simp only [gotten, if_true, Bool.true_eq_false, if_false, List.nil_append, List.append_assoc]
      exact ih.append_left _
    | false =>
      simp only [gotten, if_true, Bool.false_eq_true, if_false, List.nil_append, List.reverse_append]
      refine (ih.append_left _).trans ?_
      rw [← List.append_assoc, ← List.append_assoc]
      refine (List.perm_append_comm.append_right _).trans ?_
      rw [List.append_assoc, List.append_assoc]
      refine (List.Perm.append_left _ ?_)
      refine List.perm_append_comm.trans (List.Perm.append_left _ ?_)
      cases x.item <;> simp

theorem evs_length {I α : Type} {len : I → Nat}
    {step : Bool → I → σ → Option (Ends I (Option α × I) × σ)} :
    ∀ ds it s, (evs len step ds it s).length ≤ ds.length
  | [], _, _ => by simp [evs]
  | d :: ds, it, s => by
    rw [evs]
    split
    · simp
    · simpa using evs_length ds _ _
    · simpa using evs_length ds _ _

theorem slots_nodup {l : List (K × V)} {E : List (Ev (K × (Nat × V)))} {loss crash n ds sub}
    (h : Follows loss crash sub n ds E) (hs : sub.Sublist (slotted l)) (hl : E.length ≤ ds.length) :
    (BTreeMut.slots E).Nodup := by
  have h1 : (E.filterMap Ev.item).map (·.2.1) = BTreeMut.slots E := by
    rw [List.map_filterMap]; rfl
  rw [← h1]
  refine ((items_perm ds E hl).map _).nodup_iff.2 ?_
  refine List.Nodup.sublist ((h.sublist.trans hs).map _) ?_
  rw [slotted, List.map_map]
  have : ((fun x : K × (Nat × V) => x.2.1) ∘ fun (x : (K × V) × Nat) => (x.1.1, (x.2, x.1.2))) =
    Prod.snd := rfl
  rw [this, List.zipIdx_map_snd]
  exact List.nodup_range'

theorem quiet_or {α : Type} {loss : List α → Prop} {crash l n ds} {E : List (Ev α)}
    (h : Follows loss crash l n ds E) (hq : quiet E = false) : ∃ a, loss a := by
  induction h with
  | nil => cases hq
  | none _ ih => exact ih (by simpa [quiet] using hq)
  | some _ _ ih => exact ih (by simpa [quiet] using hq)
  | lost _ h _ _ => exact ⟨_, h⟩
  | crash _ _ => cases hq

/-- What C75 says of a run over the entries `sub` of a map, `n` being the excess of `len()`. -/
def MutRun (N : Nat) (c : Cl σ K V) (m : BTreeMap K V) (sub : List (K × (Nat × V))) (n : Nat)
    (ds : List Bool) (w : Nat → V) (E : List (Ev (K × (Nat × V)))) : Prop :=
  Follows (BTreeMut.Lost c) False sub n ds E ∧
  (BTreeMut.slots E).Nodup ∧
  BTree.Reachable N (m.store (BTreeMut.slots E) w) ∧
  (m.store (BTreeMut.slots E) w).abs =
    m.abs.zipIdx.map (fun x => if x.2 ∈ BTreeMut.slots E then (x.1.1, w x.2) else x.1) ∧
  (quiet E = true → E = (Spec.dequeRun ds sub).map fun r => Ev.got r.1 (r.2 + n)) ∧
  (quiet E = false → Bad c)

theorem mutRun_of (hN : 1 ≤ N) {m : BTreeMap K V} (h : BTree.Reachable N m) {c : Cl σ K V}
    {it : BTreeMut.MIter K V} {sub n} (ds : List Bool) (w : Nat → V) (s : σ)
    (h1 : ∀ x ∈ it.work, x.Ok true BTreeMut.NOk) (h2 : witems BTreeMut.ncont it.work = sub)
    (h3 : it.len = sub.length + n) (h4 : sub.Sublist (slotted m.abs)) :
    MutRun N c m sub n ds w (evs InnerIter.len (BTreeMut.step c) ds it s) := by
  have hf := (BTreeMut.evs_follows BTreeMut.mutSpec (BTreeMut.mkC (BTreeMut.unl c)) ds it s n h1
    (by rw [h2, h3])).weaken (fun a => BTreeMut.lost_of (K := K))
  rw [h2] at hf
  refine ⟨hf, slots_nodup hf h4 (evs_length ds it s), BTreeMut.reachable_store hN h _ w,
    BTreeMap.store_abs _ _ _, fun hq => hf.quiet hq, fun hq => ?_⟩
  obtain ⟨a, es, s, -, -, h⟩ := quiet_or hf hq
  exact ⟨es, s, h⟩

/-- C75 for `iter_mut` and `values_mut` of `BTreeMap`.  When `iter_mut` is called only `Clone` can
panic.  Afterwards, under any schedule of calls: the crate itself does not panic; the entries are
yielded in order from the two ends, each at most once, except that a panic of `Clone` loses a run of
entries at that end, among them those that were being cloned, and that `len()` counts them still; and
the map has its entries, those yielded with the value written and the others untouched. -/
theorem C75_btree_iter_mut (hN : 1 ≤ N) {m : BTreeMap K V} (h : BTree.Reachable N m)
    (o : Sharing K (Nat × V)) (c : Cl σ K V) (ds : List Bool) (w : Nat → V) (s : σ) :
    match BTreeMut.iterMutC c m o s with
    | (.unwound _, _) => Bad c
    | (.done it, s) => MutRun N c m (slotted m.abs) 0 ds w
        (evs InnerIter.len (BTreeMut.step c) ds it s) := by
  have hs := BTreeMut.iterMutC_spec hN (h.wf hN) c o s
  rcases hx : BTreeMut.iterMutC c m o s with ⟨_ | it, s1⟩ <;> rw [hx] at hs
  · exact hs
  · obtain ⟨h1, h2, h3⟩ := hs
    rw [BTreeMap.label_abs] at h3
    refine mutRun_of hN h ds w s1 h1 h3 ?_ (List.Sublist.refl _)
    rw [h2, (h.wf hN).len_eq]
    simp [slotted]

example : BTree.Reachable 1 (ub 1 (uents 12)) := ub_reach (Nat.le_refl 1) _

/-- The calls on a mutable iterator, and the entries of the map afterwards. -/
def bmutSeen (c : Cl Nat Nat Nat) (m : BTreeMap Nat Nat) (ds : List Bool)
    (r : Ends Unit (BTreeMut.MIter Nat Nat) × Nat) :
    Option (List (Ev (Nat × (Nat × Nat))) × List (Nat × Nat)) :=
  match r with
  | (.unwound _, _) => none
  | (.done it, s) =>
    let E := evs InnerIter.len (BTreeMut.step c) ds it s
    some (E, (m.store (BTreeMut.slots E) (· + 100)).abs)

set_option synthInstance.maxSize 1000 in
/-- A shared map; `Clone` panics at 4, so that the entries below 7 are never yielded, and `len()`
stays too large: after the three entries yielded it is 9, with 6 to come.  28 came from the back. -/
theorem C75_btree_skips : bmutSeen (fussy 4) (ub 1 (uents 12)) [true, false, true, true]
    (BTreeMut.iterMutC (fussy 4) (ub 1 (uents 12)) .shared 0) =
    some ([.unwound 12, .got (some (28, 11, 4)) 11, .got (some (7, 3, 1)) 10,
        .got (some (8, 4, 10)) 9],
      [(0, 0), (1, 9), (4, 5), (7, 103), (8, 104), (11, 6), (14, 2), (15, 11), (18, 7), (21, 3),
        (25, 8), (28, 111)]) := by
  decide +kernel

/-- C75 for `range_mut` of `BTreeMap`, with the entries within the bounds; the crate panics exactly
where `range` does (C10). -/
theorem C75_btree_range_mut {Q : Type} [Ord Q] [TransOrd Q] (hN : 1 ≤ N) {m : BTreeMap K V}
    (h : BTree.Reachable N m) (o : Sharing K (Nat × V)) (c : Cl σ K V) {f : K → Q}
    (hf : ∀ a b, compare (f a) (f b) = compare a b) (lb ub : QBnd Q) (hb : lb.bad ub = false)
    (hx : ¬ BTreeMap.BothExclude f lb ub m.abs) (ds : List Bool) (w : Nat → V) (s : σ) :
    match BTreeMut.rangeMutC c f m o lb ub s with
    | none => False
    | some (.unwound _, _) => Bad c
    | some (.done it, s) =>
      ∃ n, (Spec.range (lb.bnd f) (ub.bnd f) m.abs).length + n = m.len ∧
        MutRun N c m (Spec.range (lb.bnd f) (ub.bnd f) (slotted m.abs)) n ds w
          (evs InnerIter.len (BTreeMut.step c) ds it s) := by
  have hbe : ¬ BTreeMap.BothExclude f lb ub m.label.abs := by
    rintro ⟨q1, q2, a, b, c, e, he, h⟩
    rw [BTreeMap.label_abs] at he
    obtain ⟨⟨x, i⟩, hx1, rfl⟩ := List.mem_map.1 he
    exact hx ⟨q1, q2, a, b, c, x, (List.mem_zipIdx_iff_getElem?.1 hx1) |> List.mem_of_getElem?, h⟩
  have hs := BTreeMut.rangeMutC_spec hN (h.wf hN) c o hf lb ub s hb hbe
  rcases hr : BTreeMut.rangeMutC c f m o lb ub s with _ | ⟨_ | it, s1⟩ <;> rw [hr] at hs
  · exact hs
  · exact hs
  · obtain ⟨h1, h2, h3⟩ := hs
    rw [BTreeMap.label_abs] at h3
    have hlen : (Spec.range (lb.bnd f) (ub.bnd f) (slotted m.abs)).length =
        (Spec.range (lb.bnd f) (ub.bnd f) m.abs).length := by
      have e : ∀ l : List (K × V), ∀ k, (Spec.range (lb.bnd f) (ub.bnd f)
          ((l.zipIdx k).map fun x => (x.1.1, (x.2, x.1.2)))).length =
          (Spec.range (lb.bnd f) (ub.bnd f) l).length := by
        intro l
        unfold Spec.range
        induction l with
        | nil => intro; rfl
        | cons a l ih =>
          intro k
          simp only [List.zipIdx_cons, List.map_cons, List.filter_cons]
          split
          · simpa using ih (k + 1)
          · exact ih (k + 1)
      exact e m.abs 0
    have hle : (Spec.range (lb.bnd f) (ub.bnd f) m.abs).length ≤ m.len := by
      rw [(h.wf hN).len_eq]
      exact List.length_filter_le _ _
    refine ⟨m.len - (Spec.range (lb.bnd f) (ub.bnd f) m.abs).length, by omega, ?_⟩
    refine mutRun_of hN h ds w s1 h1 h3 ?_ List.filter_sublist
    rw [h2, hlen]
    omega

example : BTree.Reachable 1 (ub 1 (uents 12)) ∧ (QBnd.included 5).bad (.excluded 25) = false ∧
    ¬ BTreeMap.BothExclude id (.included 5) (.excluded 25) (ub 1 (uents 12)).abs :=
  ⟨ub_reach (Nat.le_refl 1) _, by decide, by rintro ⟨q1, q2, h, -⟩; cases h⟩

set_option synthInstance.maxSize 1000 in
/-- The clone of 8 panics, and 11 is lost with it. -/
example : (BTreeMut.rangeMutC (fussy 8) id (ub 1 (uents 12)) .shared (.included 5) (.excluded 25)
      0).bind (bmutSeen (fussy 8) (ub 1 (uents 12)) [true, false, true, true, false, true, true]) =
    some ([.got (some (7, 3, 1)) 11, .got (some (21, 9, 3)) 10, .unwound 10,
        .got (some (14, 6, 2)) 9, .got (some (18, 8, 7)) 8, .got (some (15, 7, 11)) 7, .got none 7],
      [(0, 0), (1, 9), (4, 5), (7, 103), (8, 10), (11, 6), (14, 106), (15, 107), (18, 108),
        (21, 109), (25, 8), (28, 4)]) := by
  decide +kernel

/-- `range_mut` itself unwinds when the clone of a node on its way panics. -/
example : (BTreeMut.rangeMutC (fussy 7) id (ub 1 (uents 12)) .shared (.included 5) (.excluded 25)
      0).map (how (fun _ => 0) (fun it => it.len) ·.1) = some (false, 0) := by
  decide +kernel

/-- C75, and where `range` panics (C10), `range_mut` does: by the crate's own panic, or sooner by one of
`Clone`. -/
theorem C75_btree_range_mut_panics {Q : Type} [Ord Q] [TransOrd Q] (hN : 1 ≤ N) {m : BTreeMap K V}
    (h : BTree.Reachable N m) (o : Sharing K (Nat × V)) (c : Cl σ K V) {f : K → Q}
    (hf : ∀ a b, compare (f a) (f b) = compare a b) (lb ub : QBnd Q) (s : σ) :
    (lb.bad ub = true → BTreeMut.rangeMutC c f m o lb ub s = none) ∧
    (BTreeMap.BothExclude f lb ub m.abs → match BTreeMut.rangeMutC c f m o lb ub s with
      | none => True
      | some (.unwound _, _) => Bad c
      | some (.done _, _) => False) := by
  refine ⟨fun hb => by simp [BTreeMut.rangeMutC, hb], fun hx => ?_⟩
  have hbe : BTreeMap.BothExclude f lb ub m.label.abs := by
    obtain ⟨q1, q2, a, b, c, e, he, h⟩ := hx
    obtain ⟨i, hi, rfl⟩ := List.getElem_of_mem he
    refine ⟨q1, q2, a, b, c, (m.abs[i].1, (i, m.abs[i].2)), ?_, h⟩
    rw [BTreeMap.label_abs]
    exact List.mem_map.2 ⟨(m.abs[i], i), List.mem_zipIdx_iff_getElem?.2 (by simp [hi]), rfl⟩
  have h1 := (BTreeMap.range_spec hN (h.wf hN).label hf lb ub).1 (.inr hbe)
  unfold BTreeMut.rangeMutC
  unfold BTreeMap.range at h1
  by_cases hb : lb.bad ub = true
  · simp [hb]
  · simp only [if_neg hb] at h1 ⊢
    cases hr : m.label.root with
    | none => simp [hr] at h1
    | some n =>
      simp only [hr] at h1 ⊢
      have hk := BTreeMut.mkWorkC_spec (BTreeMut.unl c) false (lb.bnd f) (ub.bnd f) (o.annot n) s
      rw [o.forget_annot] at hk
      revert hk
      rcases BTreeMut.mkWorkC (BTreeMut.unl c) false (lb.bnd f) (ub.bnd f) (o.annot n) s with
        _ | ⟨u | w, s'⟩ <;> simp only <;> intro hk
      · trivial
      · obtain ⟨es, s, h⟩ := hk
        exact ⟨_, s, h⟩
      · simp [hk] at h1

example : BTree.Reachable 1 (ub 1 (uents 12)) ∧ (QBnd.included 7).bad (.excluded 4) = true ∧
    BTreeMap.BothExclude id (.excluded 11) (.excluded 11) (ub 1 (uents 12)).abs :=
  ⟨ub_reach (Nat.le_refl 1) _, by decide,
    11, 11, rfl, rfl, by decide, (11, 6), by decide +kernel, by decide⟩

/-- The key is there: the crate panics, unless the clone of a node above it does. -/
example : (BTreeMut.rangeMutC calm id (ub 1 (uents 12)) .shared (.excluded 11) (.excluded 11) 0).map
      (how (fun _ => 0) (fun it => it.len) ·.1) = none ∧
    (BTreeMut.rangeMutC (fussy 7) id (ub 1 (uents 12)) .shared (.excluded 11) (.excluded 11) 0).map
      (how (fun _ => 0) (fun it => it.len) ·.1) = some (false, 0) := by
  decide +kernel

/-- C75, the accounts of C74: the entries that the caller is given (and so writes to) were owned by
the map before, or are clones; each is given once.  `o` says which nodes are shared. -/
theorem C75_btree_own (c : Cl σ K V) (q : K → Bool) (m : BTreeMap K V) (o : Sharing K (Nat × V))
    (ds : List Bool) (s s' : σ) (n : Nat) (it' : BTreeMut.MIter K V) :
    (match BTreeMut.iterMutC (tally q c) m o (0, s) with
    | (.unwound _, n, _) => n = 0
    | (.done it, s) => finish (BTreeMut.step (tally q c)) ds it s = some (it', n, s') →
      (((evs InnerIter.len (BTreeMut.step (tally q c)) ds it s).filterMap Ev.item).map
        (·.1)).countP q ≤ ((m.label.root.map o.annot).elim [] BTreeInto.ownN).countP q + n) ∧
    ∀ {Q : Type} [Ord Q] (f : K → Q) (lb ub : QBnd Q),
      match BTreeMut.rangeMutC (tally q c) f m o lb ub (0, s) with
      | some (.done it, s) => finish (BTreeMut.step (tally q c)) ds it s = some (it', n, s') →
        (((evs InnerIter.len (BTreeMut.step (tally q c)) ds it s).filterMap Ev.item).map
          (·.1)).countP q ≤ ((m.label.root.map o.annot).elim [] BTreeInto.ownN).countP q + n
      | _ => True := by
  have key : ∀ (it : BTreeMut.MIter K V) (s1 : Nat × σ) (a : Nat),
      BTreeMut.ownWk q it.work ≤ a + s1.1 →
      finish (BTreeMut.step (tally q c)) ds it s1 = some (it', n, s') →
      (((evs InnerIter.len (BTreeMut.step (tally q c)) ds it s1).filterMap Ev.item).map
        (·.1)).countP q ≤ a + n := by
    intro it s1 a h hfin
    have := evs_acc (len := InnerIter.len) (fun d it s => BTreeMut.step_acc q c d it s) ds
      _ _ _ _ hfin
    rw [List.countP_map]
    simp only [Function.comp_def] at *
    omega
  constructor
  · rcases hx : BTreeMut.iterMutC (tally q c) m o (0, s) with ⟨_ | it, s1⟩
    · unfold BTreeMut.iterMutC at hx
      split at hx
      · cases hx
      · split at hx
        · rename_i hm
          have := (BTreeMut.fail_own hm).2
          simp only [Prod.mk.injEq] at hx
          rw [← hx.2]
          simpa using this
        · cases hx
    · refine key it s1 _ ?_
      unfold BTreeMut.iterMutC at hx
      split at hx
      · cases hx; simp [BTreeMut.ownWk]
      · rename_i r hr
        split at hx
        · cases hx
        · rename_i hm
          have := BTreeMut.make_own hm
          simp only [Prod.mk.injEq, Ends.done.injEq] at hx
          obtain ⟨rfl, rfl⟩ := hx
          simp only [BTreeMut.ownWk, List.map_cons, List.map_nil, List.sum_cons, List.sum_nil,
            hr, Option.map_some, Option.elim] at *
          omega
  · intro Q _ f lb ub
    rcases hx : BTreeMut.rangeMutC (tally q c) f m o lb ub (0, s) with _ | ⟨_ | it, s1⟩
    · trivial
    · trivial
    · refine key it s1 _ ?_
      unfold BTreeMut.rangeMutC at hx
      split at hx
      · cases hx
      · split at hx
        · cases hx; simp [BTreeMut.ownWk]
        · rename_i r hr
          have h1 := BTreeMut.mkWorkC_acc q c false (lb.bnd f) (ub.bnd f) (o.annot r) (0, s)
          split at hx
          · cases hx
          · cases hx
          · rename_i hm
            rw [hm] at h1
            simp only [Option.some.injEq, Prod.mk.injEq, Ends.done.injEq] at hx
            obtain ⟨rfl, rfl⟩ := hx
            simp only [hr, Option.map_some, Option.elim]
            simpa [BTreeMut.ownU, BTreeInto.ownL] using h1

/-- Three entries are yielded from a shared map; eight were cloned for them.  None from one that is not
shared. -/
def bmutCount (o : Sharing Nat (Nat × Nat)) (ds : List Bool) : Option (Nat × Nat × Nat) :=
  match BTreeMut.iterMutC (tally (fun _ => true) calm) (ub 1 (uents 12)) o (0, 0) with
  | (.unwound _, _) => none
  | (.done it, s) => (finish (BTreeMut.step (tally (fun _ => true) calm)) ds it s).map fun x =>
    (((evs InnerIter.len (BTreeMut.step (tally (fun _ => true) calm)) ds it s).filterMap
      Ev.item).length, BTreeMut.ownWk (fun _ => true) x.1.work, x.2.1)

example : bmutCount .shared [true, false, true] = some (3, 5, 8) ∧
    bmutCount .unique [true, false, true] = some (3, 9, 0) := by
  decide +kernel

end Verif.Props
