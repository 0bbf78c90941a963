import Verif.Unwind.FMut
/-!
# What mutable iteration over a `fixed::BTreeMap` does when `Clone` panics
-/
set_option linter.unusedVariables false
namespace Verif.Unwind
open Verif.Wild
universe w
variable {σ : Type w} {K V : Type}

/-- The calls take the elements of a bag, in some order: each yields one of them, except that a panic of
`Clone` takes away some that are never yielded.  `n` is the number of those lost before; `len()` counts
them still. -/
inductive Spends {α : Type} (loss : List α → Prop) : List α → Nat → List (Ev α) → Prop
  | nil {l n} : Spends loss l n []
  | none {n es} : Spends loss [] n es → Spends loss [] n (.got none n :: es)
  | some {l l' x n es} : l.Perm (x :: l') → Spends loss l' n es →
      Spends loss l n (.got (some x) (l'.length + n) :: es)
  | lost {l l' a n es} : l.Perm (a ++ l') → loss a → Spends loss l' (n + a.length) es →
      Spends loss l n (.unwound (l.length + n) :: es)

theorem Spends.weaken {α : Type} {l1 l2 : List α → Prop} (hl : ∀ a, l1 a → l2 a) {l : List α} {n es}
    (h : Spends l1 l n es) : Spends l2 l n es := by
  induction h with
  | nil => exact .nil
  | none _ ih => exact .none ih
  | some h1 _ ih => exact .some h1 ih
  | lost h1 h2 _ ih => exact .lost h1 (hl _ h2) ih

theorem Spends.perm {α : Type} {loss : List α → Prop} {l l' : List α} {n es} (h : Spends loss l n es)
    (hp : l'.Perm l) : Spends loss l' n es := by
  cases h with
  | nil => exact .nil
  | none h => rw [hp.eq_nil]; exact .none h
  | some h1 h2 => exact .some (hp.trans h1) h2
  | lost h1 h2 h3 => rw [← hp.length_eq]; exact .lost (hp.trans h1) h2 h3

theorem Spends.yields {α : Type} {loss : List α → Prop} {l : List α} {n es} (h : Spends loss l n es) :
    ∃ rest, (es.filterMap Ev.item ++ rest).Perm l := by
  induction h with
  | @nil l => exact ⟨l, by simp⟩
  | none _ ih => obtain ⟨r, h⟩ := ih; exact ⟨r, by simpa [Ev.item] using h⟩
  | some h1 _ ih =>
    obtain ⟨r, h⟩ := ih
    exact ⟨r, by simpa [Ev.item] using (List.Perm.cons _ h).trans h1.symm⟩
  | @lost l l' a n es h1 h2 _ ih =>
    obtain ⟨r, h⟩ := ih
    refine ⟨r ++ a, ?_⟩
    simp only [List.filterMap_cons, Ev.item]
    rw [← List.append_assoc]
    exact (h.append_right a).trans (List.perm_append_comm.trans h1.symm)

/-- Without a panic, nothing is lost. -/
theorem Spends.quiet {α : Type} {loss : List α → Prop} {l : List α} {n es} (h : Spends loss l n es)
    (hq : quiet es = true) : ∃ ys, Fixed.Spec.Bag l ys ∧ es = ys.map fun r => Ev.got r.1 (r.2 + n) := by
  induction h with
  | nil => exact ⟨[], .nil, rfl⟩
  | none _ ih =>
    obtain ⟨ys, h1, h2⟩ := ih (by simpa [Unwind.quiet] using hq)
    exact ⟨(Option.none, 0) :: ys, .none h1, by simp [h2]⟩
  | @some l l' x n es h _ ih =>
    obtain ⟨ys, h1, h2⟩ := ih (by simpa [Unwind.quiet] using hq)
    exact ⟨(Option.some x, l'.length) :: ys, .some h h1, by simp [h2]⟩
  | lost => simp [Unwind.quiet] at hq

theorem Spends.loud {α : Type} {loss : List α → Prop} {l : List α} {n es} (h : Spends loss l n es)
    (hq : Unwind.quiet es = false) : ∃ a, loss a := by
  induction h with
  | nil => cases hq
  | none _ ih => exact ih (by simpa [Unwind.quiet] using hq)
  | some _ _ ih => exact ih (by simpa [Unwind.quiet] using hq)
  | lost _ h _ _ => exact ⟨_, h⟩

namespace FixedMut
open Verif.Fixed
open Verif.BTree (ANode Sharing Node)

section
variable {I E C : Type}

/-- What is lost with a child whose clone panics. -/
def LostK (o : NOps I E C) (rem : I → List E) (mk : C → σ → Bool × σ) (a : List E) : Prop :=
  ∃ kid i, o.make kid = some i ∧ (∃ s, (mk kid s).1 = true) ∧ a = rem i

variable {o : NOps I E C} {good : I → Prop} {rem : I → List E}

theorem loopC_spec (h : Lawful o good rem) (mk : C → σ → Bool × σ) :
    ∀ {f : Nat} {ws : List I} {len : Nat} {s : σ}, (∀ w ∈ ws, good w) →
    (ws.flatMap rem).length ≤ len → (ws.map o.cost).sum < f →
    match loopC o mk f ws len s with
    | none => False
    | some (.unwound (ws', len'), _) => (∀ w ∈ ws', good w) ∧ len' = len ∧
        ∃ a, LostK o rem mk a ∧ ws.flatMap rem = a ++ ws'.flatMap rem
    | some (.done (none, ws', len'), _) => ws' = [] ∧ len' = len ∧ ws.flatMap rem = []
    | some (.done (some x, ws', len'), _) => (∀ w ∈ ws', good w) ∧ len' + 1 = len ∧
        ws.flatMap rem = x :: ws'.flatMap rem
  | 0, _, _, _, _, _, hf => by omega
  | f + 1, [], len, s, hg, hl, hf => by simp [loopC]
  | f + 1, w :: ws, len, s, hg, hl, hf => by
    have hw := h.next w (hg w (by simp))
    have hws : ∀ x ∈ ws, good x := fun x hx => hg x (by simp [hx])
    simp only [List.map_cons, List.sum_cons] at hf
    rw [loopC]
    match e : o.next w with
    | none => rw [e] at hw; exact hw.elim
    | some (w', some (.ret x)) =>
      rw [e] at hw
      obtain ⟨h1, h2⟩ := hw
      have h0 : len ≠ 0 := by intro h0; rw [h0] at hl; simp [h2] at hl
      simp only [if_neg h0]
      refine ⟨?_, by omega, by simp [h2]⟩
      simp only [List.mem_cons]; rintro x (rfl | hx)
      · exact h1
      · exact hws x hx
    | some (w', some (.desc c)) =>
      rw [e] at hw
      obtain ⟨h1, i, h2, h3, h4, h5⟩ := hw
      have hr : (i :: w' :: ws).flatMap rem = (w :: ws).flatMap rem := by simp [h4]
      rcases hm : mk c s with ⟨_ | _, s'⟩
      · have ih := loopC_spec h mk (f := f) (ws := i :: w' :: ws) (len := len) (s := s')
          (by
            simp only [List.mem_cons]; rintro x (rfl | rfl | hx)
            · exact h3
            · exact h1
            · exact hws x hx) (by rw [hr]; exact hl)
          (by simp only [List.map_cons, List.sum_cons]; omega)
        rw [hr] at ih
        simp only [hm, h2]
        exact ih
      · simp only [hm]
        refine ⟨?_, trivial, rem i, ⟨c, i, h2, ⟨s, by rw [hm]⟩, rfl⟩, by simp [h4]⟩
        simp only [List.mem_cons]; rintro x (rfl | hx)
        · exact h1
        · exact hws x hx
    | some (w', none) =>
      rw [e] at hw
      obtain ⟨h1, h2⟩ := hw
      have hr : ws.flatMap rem = (w :: ws).flatMap rem := by simp [h1]
      have ih := loopC_spec h mk (f := f) (ws := ws) (len := len) (s := s) hws
        (by rw [hr]; exact hl) (by omega)
      rw [hr] at ih
      exact ih

theorem stepC_spec (h : Lawful o good rem) (mk : C → σ → Bool × σ) (d : Bool) {it : Inner I} (s : σ)
    (hg : ∀ w ∈ it.work, good w) (hl : (it.work.flatMap rem).length ≤ it.len) :
    let R := fun it : Inner I => (if d then it.work else it.work.reverse).flatMap rem
    match stepC o mk d it s with
    | none => False
    | some (.unwound it', _) => (∀ w ∈ it'.work, good w) ∧ it'.len = it.len ∧
        ∃ a, LostK o rem mk a ∧ R it = a ++ R it'
    | some (.done (none, it'), _) => it'.work = [] ∧ it'.len = it.len ∧ R it = []
    | some (.done (some x, it'), _) => (∀ w ∈ it'.work, good w) ∧ it'.len + 1 = it.len ∧
        R it = x :: R it' := by
  intro R
  have hp : ((if d then it.work else it.work.reverse) : List I).Perm it.work := by
    cases d
    · exact List.reverse_perm _
    · exact List.Perm.refl _
  have hs := loopC_spec h mk (f := (it.work.map o.cost).sum + 1)
    (ws := if d then it.work else it.work.reverse) (len := it.len) (s := s)
    (fun w hw => hg w (hp.mem_iff.1 hw)) (by rw [(hp.flatMap_right rem).length_eq]; exact hl)
    (by rw [(hp.map o.cost).sum_nat]; omega)
  unfold stepC
  revert hs
  dsimp only
  generalize loopC o mk ((it.work.map o.cost).sum + 1) (if d then it.work else it.work.reverse)
    it.len s = x
  intro hs
  have hb : ∀ ws : List I, (if d then (if d then ws else ws.reverse)
      else (if d then ws else ws.reverse).reverse) = ws := by
    intro ws; cases d <;> simp
  have hm : ∀ (ws : List I) w, w ∈ (if d then ws else ws.reverse) ↔ w ∈ ws := by
    intro ws w; cases d <;> simp
  match x, hs with
  | none, hs => exact hs
  | some (.unwound (ws', len'), _), ⟨h1, h2, a, h3, h4⟩ =>
    refine ⟨fun w hw => h1 w ((hm _ _).1 hw), h2, a, h3, ?_⟩
    simp only [R, hb]; exact h4
  | some (.done (none, ws', len'), _), ⟨h1, h2, h3⟩ =>
    subst h1
    exact ⟨by simp, h2, h3⟩
  | some (.done (some y, ws', len'), _), ⟨h1, h2, h3⟩ =>
    refine ⟨fun w hw => h1 w ((hm _ _).1 hw), h2, ?_⟩
    simp only [R, hb]; exact h3

/-- Any schedule. -/
theorem evs_spends (h : Lawful o good rem) (mk : C → σ → Bool × σ) (ds : List Bool) (it : Inner I)
    (s : σ) (n : Nat) (hg : ∀ w ∈ it.work, good w) (hl : it.len = (it.work.flatMap rem).length + n) :
    Spends (LostK o rem mk) (it.work.flatMap rem) n (evs Inner.len (stepC o mk) ds it s) := by
  induction ds generalizing it s n with
  | nil => exact .nil
  | cons d ds ih =>
    have hs := stepC_spec h mk d s hg (by omega)
    have hp : ∀ it : Inner I, ((if d then it.work else it.work.reverse).flatMap rem).Perm
        (it.work.flatMap rem) := by
      intro it
      cases d
      · exact (List.reverse_perm _).flatMap_right rem
      · exact List.Perm.refl _
    rw [evs]
    revert hs
    dsimp only
    generalize stepC o mk d it s = x
    intro hs
    match x, hs with
    | none, hs => exact hs.elim
    | some (.unwound it', s'), ⟨h1, h2, a, h3, h4⟩ =>
      have hper : (it.work.flatMap rem).Perm (a ++ it'.work.flatMap rem) :=
        (hp it).symm.trans (h4 ▸ (hp it').append_left a)
      have hlen := hper.length_eq
      rw [List.length_append] at hlen
      simp only
      rw [show it'.len = (it.work.flatMap rem).length + n by omega]
      exact .lost hper h3 (ih it' s' _ h1 (by omega))
    | some (.done (none, it'), s'), ⟨h1, h2, h3⟩ =>
      have h4 : it.work.flatMap rem = [] := by
        have := (hp it).symm; rw [h3] at this; exact this.eq_nil
      rw [h4] at hl ⊢
      have h5 := ih it' s' n (by simp [h1]) (by simp [h1]; simpa [h2] using hl)
      rw [h1] at h5
      simp only
      rw [show it'.len = n by simpa [h2] using hl]
      exact .none h5
    | some (.done (some y, it'), s'), ⟨h1, h2, h3⟩ =>
      have hper : (it.work.flatMap rem).Perm (y :: it'.work.flatMap rem) :=
        (hp it).symm.trans (h3 ▸ (hp it').cons y)
      have hlen := hper.length_eq
      rw [List.length_cons] at hlen
      simp only
      rw [show it'.len = (it'.work.flatMap rem).length + n by omega]
      exact .some hper (ih it' s' n h1 (by omega))

/-- Calls at one end only, `next_back` having the order of `next`. -/
theorem evs_follows (h : Lawful o good rem) (mk : C → σ → Bool × σ) (d : Bool) (k : Nat) (it : Inner I)
    (s : σ) (n : Nat) (hg : ∀ w ∈ it.work, good w) (hl : it.len = (it.work.flatMap rem).length + n) :
    Follows (LostK o rem mk) False ((if d then it.work else it.work.reverse).flatMap rem) n
      (List.replicate k true) (evs Inner.len (stepC o mk) (List.replicate k d) it s) := by
  induction k generalizing it s n with
  | zero => exact .nil
  | succ k ih =>
    have hs := stepC_spec h mk d s hg (by omega)
    have hp : ∀ it : Inner I, ((if d then it.work else it.work.reverse).flatMap rem).length =
        (it.work.flatMap rem).length := by
      intro it
      cases d
      · exact ((List.reverse_perm _).flatMap_right rem).length_eq
      · rfl
    rw [List.replicate_succ, List.replicate_succ, evs]
    revert hs
    dsimp only
    generalize stepC o mk d it s = x
    intro hs
    match x, hs with
    | none, hs => exact hs.elim
    | some (.unwound it', s'), ⟨h1, h2, a, h3, h4⟩ =>
      have hlen := congrArg List.length h4
      rw [List.length_append, hp, hp] at hlen
      simp only
      rw [show it'.len = ((if d then it.work else it.work.reverse).flatMap rem).length + n by
        rw [hp]; omega]
      exact .lost (by simpa [Off] using h4) h3 (ih it' s' _ h1 (by omega))
    | some (.done (none, it'), s'), ⟨h1, h2, h3⟩ =>
      have h4 := hp it
      rw [h3] at h4 ⊢
      have h5 := ih it' s' n (by simp [h1]) (by simp [h1]; simpa [h2, ← h4] using hl)
      rw [h1] at h5
      simp only
      rw [show it'.len = n by simpa [h2, ← h4] using hl]
      refine .none ?_
      cases d <;> exact h5
    | some (.done (some y, it'), s'), ⟨h1, h2, h3⟩ =>
      have hlen := congrArg List.length h3
      rw [List.length_cons, hp, hp] at hlen
      simp only
      rw [show it'.len = ((if d then it'.work else it'.work.reverse).flatMap rem).length + n by
        rw [hp]; omega]
      exact .some (by simpa [Off] using h3) (ih it' s' n h1 (by omega))
end

/-! ### `NodeIterMut` -/

theorem miOps_make (n : ANode K V) : (miOps.make n).map MI.vw = niOps.make n.forget := by
  simp only [miOps, niOps, BTree.ANode.forget_elems, BTree.ANode.forget_kids]
  split
  · rfl
  · simp only [Option.map_some, MI.vw, BTreeMut.forget_mutKids]
    congr 2
    rw [← BTreeMut.forget_mutKids]; simp

theorem mi_lawful : Lawful (miOps : NOps (MI K V) _ _) (fun w => w.vw.Good) (fun w => w.vw.rem) := by
  constructor
  rintro ⟨es, ks, b⟩ hg
  have h := ni_lawful.next _ hg
  cases b with
  | true =>
    cases es with
    | nil => simpa [miOps, niOps, MI.vw] using h
    | cons e es => simpa [miOps, niOps, MI.vw] using h
  | false =>
    cases ks with
    | nil => simpa [miOps, niOps, MI.vw] using h
    | cons c ks =>
      simp only [MI.vw, niOps, List.map_cons, Bool.false_eq_true, if_false] at h
      obtain ⟨h1, i, h2, h3, h4, h5⟩ := h
      have hm := miOps_make c
      rw [show niOps.make c.forget = some i from h2] at hm
      obtain ⟨j, hj, rfl⟩ := Option.map_eq_some_iff.1 hm
      refine ⟨h1, j, hj, h3, h4, ?_⟩
      exact h5

/-! ### The map -/

theorem sublist_ilv {E C : Type} (f : C → List E) : ∀ (ks : List C) (es : List E),
    es.Sublist (BTree.ilv f ks es)
  | [], es => by simp [BTree.ilv]
  | c :: ks, [] => by simp
  | c :: ks, e :: es => by
    rw [BTree.ilv_cons, BTree.ilvE_cons]
    exact ((sublist_ilv f ks es).cons₂ e).trans (List.sublist_append_right _ _)

theorem lost_of {c : Cl σ K V} {a : List (K × (Nat × V))}
    (h : LostK miOps (fun w => w.vw.rem) (BTreeMut.mkC (BTreeMut.unl c)) a) : BTreeMut.Lost c a := by
  obtain ⟨kid, i, h1, ⟨s, h2⟩, rfl⟩ := h
  simp only [miOps] at h1
  split at h1
  · cases h1
  · rename_i hne
    cases h1
    refine ⟨kid.elems.map BTreeMut.noSlot, s, ?_, ?_, ?_⟩
    · simpa using hne
    · refine List.Sublist.map _ ?_
      simp only [NI.rem, MI.vw]
      by_cases hk : (BTreeMut.mutKids kid).isEmpty = true
      · simp only [hk, if_true]
        cases kid.elems with
        | nil => simp
        | cons e es => rw [BTree.ilvE_cons]; exact (sublist_ilv _ _ es).cons₂ e
      · simp only [hk, Bool.false_eq_true, if_false]
        exact sublist_ilv _ _ _
    · unfold BTreeMut.mkC cloneIf at h2
      split at h2
      · exact h2
      · cases h2

variable [Ord K] [Std.TransOrd K] {lin : Bool}

theorem iterMutC_spec {m : FMap K V} (hm : m.WF) (c : Cl σ K V) (o : Sharing K (Nat × V)) (s : σ) :
    match iterMutC c m o s with
    | none => False
    | some (.unwound _, _) => Bad c
    | some (.done it, _) => (∀ w ∈ it.work, w.vw.Good) ∧ it.len = m.len ∧
        it.work.flatMap (fun w => w.vw.rem) = m.label.toList ∧ it.work.reverse = it.work := by
  have hl := hm.label.inv
  unfold iterMutC
  cases hr : m.label.root with
  | none =>
    refine ⟨by simp, rfl, ?_, rfl⟩
    simp [FMap.toList, hr]
  | some n =>
    simp only
    rcases hc : BTreeMut.mkC (BTreeMut.unl c) (o.annot n) s with ⟨_ | _, s'⟩
    · obtain ⟨ht, hn⟩ := hl.shape n hr
      obtain ⟨i, e1, e2, e3, -⟩ := niOps_make hn (Nat.le_refl 1)
      have hm := miOps_make (o.annot n)
      rw [o.forget_annot, e1] at hm
      obtain ⟨j, hj, rfl⟩ := Option.map_eq_some_iff.1 hm
      simp only [hj, Option.map_some]
      refine ⟨by simpa using e2, trivial, ?_, rfl⟩
      simp [e3, FMap.toList, hr]
    · obtain ⟨es, s, h⟩ := bad_of_cloneIf hc
      exact ⟨_, s, h⟩

/-- A map that differs in its values can be built as well. -/
theorem reachable_store {m : FMap K V} (h : Fixed.Reachable lin m) (sl : List Nat) (w : Nat → V) :
    Fixed.Reachable lin (m.store sl w) := by
  let w' : Nat → V := fun i =>
    if i ∈ sl then w i else match m.toList[i]? with | some e => e.2 | none => w i
  have e := FMap.iterRun_front h.wf.label m.label.toList.length
  have hs : Avl.slotsOf (Spec.dequeRun (List.replicate m.label.toList.length true) m.label.toList) =
      m.toList.zipIdx.map (·.2) := by
    have h1 := BTreeMut.dequeRun_all m.label.toList
    have h2 := congrArg (List.map fun x => x.2.1) h1
    rw [List.map_filterMap] at h2
    refine Eq.trans ?_ (h2.trans ?_)
    · rfl
    · rw [FMap.label_toList, List.map_map]; rfl
  have h1 := h.iterMut (ds := List.replicate m.label.toList.length true) (w := w')
    (by rw [FMap.iterMutRun, e, Option.map_some])
  rw [hs] at h1
  have h5 : m.store (m.toList.zipIdx.map (·.2)) w' = m.store sl w := by
    unfold FMap.store
    congr 1
    cases hr : m.root with
    | none => rfl
    | some n =>
      simp only [Option.map_some, Option.some.injEq]
      have hab : m.toList = n.toList := by simp [FMap.toList, hr]
      refine BTreeMut.mapIdx_congr 0 n ?_
      rintro ⟨e, i⟩ hx
      rw [← hab] at hx
      have hi : i ∈ m.toList.zipIdx.map (·.2) := List.mem_map_of_mem hx
      have he : m.toList[i]? = some e := List.mem_zipIdx_iff_getElem?.1 hx
      simp only [hi, if_true, w', he]
      split <;> rfl
  rw [← h5]
  exact h1

/-! ### What is owned -/

section
open BTreeInto

/-- What a node iterator owns. -/
def ownI (q : K → Bool) (e : MI K V) : Nat := (e.es.map (·.1)).countP q + (ownL e.ks).countP q

/-- What the work list owns. -/
def ownWk (q : K → Bool) (w : List (MI K V)) : Nat := (w.map (ownI q)).sum

theorem make_own {q : K → Bool} {c : Cl σ K V} {n : ANode K (Nat × V)} {i} {s s' : Nat × σ}
    (h : BTreeMut.mkC (BTreeMut.unl (tally q c)) n s = (false, s')) (hi : miOps.make n = some i) :
    ownI q i + s.1 = (ownN n).countP q + s'.1 := by
  have h1 := BTreeMut.make_own h
  simp only [miOps] at hi
  split at hi
  · cases hi
  · cases hi; exact h1

theorem next_own (q : K → Bool) (w : MI K V) : match miOps.next w with
    | none => True
    | some (w', none) => ownI q w' = ownI q w
    | some (w', some (.ret e)) => ownI q w' + one q e.1 = ownI q w
    | some (w', some (.desc n)) => ownI q w' + (ownN n).countP q = ownI q w := by
  obtain ⟨es, ks, b⟩ := w
  cases b with
  | true =>
    cases es with
    | nil => simp [miOps, ownI]
    | cons e es =>
      simp only [miOps, if_true, ownI, List.map_cons, List.countP_cons, one]
      omega
  | false =>
    cases ks with
    | nil => simp [miOps, ownI]
    | cons c ks =>
      simp only [miOps, Bool.false_eq_true, if_false, ownI, ownL, List.countP_append]
      omega

theorem loopC_acc (q : K → Bool) (c : Cl σ K V) : ∀ (f : Nat) (ws : List (MI K (Nat × V))) (len : Nat)
    (s : Nat × σ), match loopC miOps (BTreeMut.mkC (BTreeMut.unl (tally q c))) f ws len s with
    | none => True
    | some (.unwound x, s') => ownWk q x.1 + s.1 ≤ ownWk q ws + s'.1
    | some (.done x, s') => ownWk q x.2.1 + (x.1.elim 0 fun e => one q e.1) + s.1 ≤ ownWk q ws + s'.1
  | 0, _, _, _ => by trivial
  | f + 1, [], len, s => by simp [loopC]
  | f + 1, w :: ws, len, s => by
    have hw := next_own q w
    rw [loopC]
    match e : miOps.next w with
    | none => trivial
    | some (w', some (.ret x)) =>
      rw [e] at hw
      simp only at hw ⊢
      by_cases h0 : len = 0
      · simp only [if_pos h0]
      · simp only [if_neg h0, ownWk, List.map_cons, List.sum_cons, Option.elim]
        omega
    | some (w', some (.desc n)) =>
      rw [e] at hw
      simp only at hw ⊢
      rcases hm : BTreeMut.mkC (BTreeMut.unl (tally q c)) n s with ⟨_ | _, s'⟩
      · simp only
        rcases hi : miOps.make n with _ | i
        · trivial
        · have h1 := make_own hm hi
          have ih := loopC_acc q c f (i :: w' :: ws) len s'
          simp only
          revert ih
          generalize loopC miOps (BTreeMut.mkC (BTreeMut.unl (tally q c))) f (i :: w' :: ws) len s' = x
          intro ih
          match x, ih with
          | none, _ => trivial
          | some (.unwound y, _), ih =>
            simp only [ownWk, List.map_cons, List.sum_cons] at *; omega
          | some (.done y, _), ih =>
            simp only [ownWk, List.map_cons, List.sum_cons] at *; omega
      · have h1 := BTreeMut.fail_own hm
        rw [h1.1] at hw
        simp only [List.countP_nil, Nat.add_zero] at hw
        simp only [ownWk, List.map_cons, List.sum_cons, h1.2, hw, Nat.le_refl]
    | some (w', none) =>
      simp only
      have ih := loopC_acc q c f ws len s
      revert ih
      generalize loopC miOps (BTreeMut.mkC (BTreeMut.unl (tally q c))) f ws len s = x
      intro ih
      match x, ih with
      | none, _ => trivial
      | some (.unwound y, _), ih => simp only [ownWk, List.map_cons, List.sum_cons] at *; omega
      | some (.done y, _), ih => simp only [ownWk, List.map_cons, List.sum_cons] at *; omega

theorem ownWk_reverse (q : K → Bool) (w : List (MI K V)) : ownWk q w.reverse = ownWk q w := by
  simp [ownWk, List.map_reverse, List.sum_reverse]

theorem evs_acc (q : K → Bool) (c : Cl σ K V) : ∀ (ds : List Bool) (it : MIter K V) (s : Nat × σ)
    (it' : MIter K V) (s' : Nat × σ), finish (step (tally q c)) ds it s = some (it', s') →
    ((evs Inner.len (step (tally q c)) ds it s).filterMap Ev.item).countP (fun e => q e.1) +
      ownWk q it'.work + s.1 ≤ ownWk q it.work + s'.1 := by
  intro ds
  induction ds with
  | nil => intro it s it' s' e; cases e; simp [evs]
  | cons d ds ih =>
    intro it s it' s' e
    have hst : step (tally q c) d it s =
        match loopC miOps (BTreeMut.mkC (BTreeMut.unl (tally q c))) ((it.work.map miOps.cost).sum + 1)
          (if d then it.work else it.work.reverse) it.len s with
        | none => none
        | some (.unwound (w, len), s) => some (.unwound ⟨if d then w else w.reverse, len⟩, s)
        | some (.done (r, w, len), s) => some (.done (r, ⟨if d then w else w.reverse, len⟩), s) := by
      unfold step stepC
      dsimp only
      rcases loopC miOps (BTreeMut.mkC (BTreeMut.unl (tally q c))) ((it.work.map miOps.cost).sum + 1)
        (if d then it.work else it.work.reverse) it.len s with _ | ⟨⟨w, l⟩ | ⟨r, w, l⟩, s⟩ <;> rfl
    rw [finish, hst] at e
    rw [evs, hst]
    have hb : ∀ w : List (MI K (Nat × V)), ownWk q (if d then w else w.reverse) = ownWk q w := by
      intro w; cases d
      · exact ownWk_reverse q w
      · rfl
    have h1 := loopC_acc q c ((it.work.map miOps.cost).sum + 1)
      (if d then it.work else it.work.reverse) it.len s
    rw [hb] at h1
    revert e
    revert h1
    generalize loopC miOps (BTreeMut.mkC (BTreeMut.unl (tally q c))) ((it.work.map miOps.cost).sum + 1)
      (if d then it.work else it.work.reverse) it.len s = x
    intro h1 e
    match x, h1, e with
    | none, _, e => cases e
    | some (.unwound (w, len), s1), h1, e =>
      have h2 := ih _ _ _ _ e
      simp only [hb] at h1 h2
      simp only [List.filterMap_cons, Ev.item]
      omega
    | some (.done (none, w, len), s1), h1, e =>
      have h2 := ih _ _ _ _ e
      simp only [hb, Option.elim] at h1 h2
      simp only [List.filterMap_cons, Ev.item]
      omega
    | some (.done (some y, w, len), s1), h1, e =>
      have h2 := ih _ _ _ _ e
      simp only [hb, Option.elim, one] at h1 h2
      simp only [List.filterMap_cons, Ev.item, List.countP_cons]
      omega

end
end FixedMut
end Verif.Unwind
