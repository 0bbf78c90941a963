import Verif.Unwind.FMutSpec
import Verif.Props.BMutPanic
/-!
# Mutable iteration over a `fixed::BTreeMap` when `Clone` panics (C75)

The conventions are those of `Verif.Props.BMutPanic`.
-/
set_option linter.unusedSectionVars false
namespace Verif.Props
open Std Verif.Unwind Verif.Wild Verif.DemoU Verif.Fixed
open Verif.BTree (Sharing)
universe w
variable {σ : Type w} {K V : Type} [Ord K] [TransOrd K] {lin : Bool}

/-- C75 for `iter_mut` of `fixed::BTreeMap`.  When it is called only `Clone` can panic.  Afterwards,
under any schedule of calls: the crate itself does not panic; the calls yield distinct entries, except
that a panic of `Clone` loses some, among them those that were being cloned, and that `len()` counts
them still; and the map has its entries, those yielded with the value written and the others
untouched. -/
theorem C75_fixed_iter_mut {m : FMap K V} (h : Fixed.Reachable lin m) (o : Sharing K (Nat × V))
    (c : Cl σ K V) (ds : List Bool) (w : Nat → V) (s : σ) :
    match FixedMut.iterMutC c m o s with
    | none => False
    | some (.unwound _, _) => Bad c
    | some (.done it, s) =>
      let E := evs Inner.len (FixedMut.step c) ds it s
      Spends (BTreeMut.Lost c) (slotted m.toList) 0 E ∧ (BTreeMut.slots E).Nodup ∧
      Fixed.Reachable lin (m.store (BTreeMut.slots E) w) ∧
      (m.store (BTreeMut.slots E) w).toList =
        m.toList.zipIdx.map (fun x => if x.2 ∈ BTreeMut.slots E then (x.1.1, w x.2) else x.1) ∧
      (quiet E = true → ∃ ys, Fixed.Spec.Bag (slotted m.toList) ys ∧
        E = ys.map fun r => Ev.got r.1 r.2) ∧
      (quiet E = false → Bad c) := by
  have hs := FixedMut.iterMutC_spec h.wf c o s
  rcases hx : FixedMut.iterMutC c m o s with _ | ⟨_ | it, s1⟩ <;> rw [hx] at hs
  · exact hs
  · exact hs
  · obtain ⟨h1, h2, h3, h4⟩ := hs
    dsimp only
    generalize hE : evs Inner.len (FixedMut.step c) ds it s1 = E
    rw [FMap.label_toList] at h3
    have hl : it.len = (it.work.flatMap fun w => w.vw.rem).length + 0 := by
      rw [h2, h3, h.wf.len]; simp
    have hf := (FixedMut.evs_spends FixedMut.mi_lawful (BTreeMut.mkC (BTreeMut.unl c)) ds it s1 0 h1
      hl).weaken (fun a => FixedMut.lost_of)
    rw [h3] at hf
    have hf : Spends (BTreeMut.Lost c) (slotted m.toList) 0 E := hE ▸ hf
    refine ⟨hf, ?_, FixedMut.reachable_store h _ w, FMap.store_toList _ _ _,
      fun hq => by simpa using hf.quiet hq, fun hq => ?_⟩
    · have h5 : (E.filterMap Ev.item).map (·.2.1) = BTreeMut.slots E := by
        rw [List.map_filterMap]; rfl
      obtain ⟨rest, hp⟩ := hf.yields
      rw [← h5]
      have h6 : ((slotted m.toList).map (·.2.1)).Nodup := by
        rw [slotted, List.map_map]
        exact BTree.BTreeMap.nodup_slots m.toList
      have h7 := (hp.map (·.2.1)).nodup_iff.2 h6
      rw [List.map_append] at h7
      exact (List.nodup_append.1 h7).1
    · obtain ⟨a, es, s, -, -, h⟩ := hf.loud hq
      exact ⟨es, s, h⟩

example : Fixed.Reachable true (uf true (uents 20)) := uf_reach _ _

/-- The calls on a mutable iterator, and the entries of the map afterwards. -/
def fmutSeen (c : Cl Nat Nat Nat) (m : FMap Nat Nat) (ds : List Bool)
    (r : Option (Ends Unit (FixedMut.MIter Nat Nat) × Nat)) :
    Option (List (Ev (Nat × (Nat × Nat))) × List (Nat × Nat)) :=
  match r with
  | some (.done it, s) =>
    let E := evs Inner.len (FixedMut.step c) ds it s
    some (E, (m.store (BTreeMut.slots E) (· + 100)).toList)
  | _ => none

set_option synthInstance.maxSize 1000 in
/-- A shared map with 14 at its root; `Clone` panics at 4, so that the entries below 14 are never yielded,
and `len()` stays too large: after the four entries yielded it is 16, with 6 to come.  The second and the
last call are to `next_back`. -/
theorem C75_fixed_skips : fmutSeen (fussy 4) (uf true (uents 20)) [true, false, true, true, false]
    (FixedMut.iterMutC (fussy 4) (uf true (uents 20)) .shared 0) =
    some ([.unwound 20, .got (some (14, 10, 2)) 19, .got (some (15, 11, 11)) 18,
        .got (some (18, 12, 7)) 17, .got (some (19, 13, 16)) 16],
      [(0, 0), (1, 9), (2, 18), (4, 5), (5, 14), (7, 1), (8, 10), (9, 19), (11, 6), (12, 15),
        (14, 110), (15, 111), (18, 112), (19, 113), (21, 3), (22, 12), (25, 8), (26, 17), (28, 4),
        (29, 13)]) := by
  decide +kernel

/-- `iter_mut` itself unwinds when the clone of the root panics. -/
example : (FixedMut.iterMutC (fussy 14) (uf true (uents 20)) .shared 0).map
    (how (fun _ => 0) (fun it => it.len) ·.1) = some (false, 0) := by
  decide +kernel

/-- C75 for `iter_mut` of `fixed::BTreeMap`, called at one end only (`next_back` has the order of
`next`, see C21): the entries are yielded in ascending order, and a panic of `Clone` loses a run of
them. -/
theorem C75_fixed_iter_mut_order {m : FMap K V} (h : Fixed.Reachable lin m) (o : Sharing K (Nat × V))
    (c : Cl σ K V) (d : Bool) (k : Nat) (s : σ) :
    match FixedMut.iterMutC c m o s with
    | some (.done it, s) => Follows (BTreeMut.Lost c) False (slotted m.toList) 0
        (List.replicate k true) (evs Inner.len (FixedMut.step c) (List.replicate k d) it s)
    | _ => True := by
  have hs := FixedMut.iterMutC_spec h.wf c o s
  rcases hx : FixedMut.iterMutC c m o s with _ | ⟨_ | it, s1⟩ <;> rw [hx] at hs
  · trivial
  · trivial
  · obtain ⟨h1, h2, h3, h4⟩ := hs
    rw [FMap.label_toList] at h3
    have hl : it.len = (it.work.flatMap fun w => w.vw.rem).length + 0 := by
      rw [h2, h3, h.wf.len]; simp
    have hf := (FixedMut.evs_follows FixedMut.mi_lawful (BTreeMut.mkC (BTreeMut.unl c)) d k it s1 0 h1
      hl).weaken (fun a => FixedMut.lost_of)
    rw [h4, ite_self, h3] at hf
    exact hf

example : Fixed.Reachable true (uf true (uents 20)) := uf_reach _ _

/-- C75, the accounts of C74: see `C75_btree_own`. -/
theorem C75_fixed_own (c : Cl σ K V) (q : K → Bool) (m : FMap K V) (o : Sharing K (Nat × V))
    (ds : List Bool) (s s' : σ) (n : Nat) (it' : FixedMut.MIter K V) :
    match FixedMut.iterMutC (tally q c) m o (0, s) with
    | some (.done it, s) => finish (FixedMut.step (tally q c)) ds it s = some (it', n, s') →
      (((evs Inner.len (FixedMut.step (tally q c)) ds it s).filterMap Ev.item).map (·.1)).countP q ≤
        ((m.label.root.map o.annot).elim [] BTreeInto.ownN).countP q + n
    | some (.unwound _, n, _) => n = 0
    | none => True := by
  rcases hx : FixedMut.iterMutC (tally q c) m o (0, s) with _ | ⟨_ | it, s1⟩
  · trivial
  · unfold FixedMut.iterMutC at hx
    split at hx
    · cases hx
    · split at hx
      · rename_i hm
        have := (BTreeMut.fail_own hm).2
        simp only [Option.some.injEq, Prod.mk.injEq] at hx
        rw [← hx.2]
        simpa using this
      · simp only [Option.map_eq_some_iff] at hx
        obtain ⟨i, -, hx⟩ := hx
        cases hx
  · intro hfin
    have hk := FixedMut.evs_acc q c ds it s1 it' (n, s') hfin
    rw [List.countP_map]
    have h0 : FixedMut.ownWk q it.work ≤
        ((m.label.root.map o.annot).elim [] BTreeInto.ownN).countP q + s1.1 := by
      unfold FixedMut.iterMutC at hx
      split at hx
      · cases hx; simp [FixedMut.ownWk]
      · rename_i r hr
        split at hx
        · cases hx
        · rename_i hm
          simp only [Option.map_eq_some_iff] at hx
          obtain ⟨i, hi, hx⟩ := hx
          have := FixedMut.make_own hm hi
          simp only [Prod.mk.injEq, Ends.done.injEq] at hx
          obtain ⟨rfl, rfl⟩ := hx
          simp only [FixedMut.ownWk, List.map_cons, List.map_nil, List.sum_cons, List.sum_nil,
            hr, Option.map_some, Option.elim] at *
          omega
    simp only [Function.comp_def] at *
    omega

/-- Three entries are yielded from a shared map; eleven were cloned for them.  None from one that is not
shared. -/
def fmutCount (o : Sharing Nat (Nat × Nat)) (ds : List Bool) : Option (Nat × Nat × Nat) :=
  match FixedMut.iterMutC (tally (fun _ => true) calm) (uf true (uents 20)) o (0, 0) with
  | some (.done it, s) => (finish (FixedMut.step (tally (fun _ => true) calm)) ds it s).map fun x =>
    (((evs Inner.len (FixedMut.step (tally (fun _ => true) calm)) ds it s).filterMap
      Ev.item).length, FixedMut.ownWk (fun _ => true) x.1.work, x.2.1)
  | _ => none

example : fmutCount .shared [true, false, true] = some (3, 8, 11) ∧
    fmutCount .unique [true, false, true] = some (3, 17, 0) := by
  decide +kernel

end Verif.Props
