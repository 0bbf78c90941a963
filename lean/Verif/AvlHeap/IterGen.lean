import Verif.AvlHeap.IterModel
import Verif.AvlHeap.Ops
import Verif.Avl.Mut
/-!
# `InnerIter` on reference-counted memory, against the iterator on values

For any kind of iterator node: if taking one node apart and using one item agree with the
iterator of `Verif.Avl.Iter`, so does every run.
-/
namespace Verif.AvlH
open Heap
open Avl (Tree Act pushDesc wsize nextW nextBackRev nextBackW pruneStepL pruneStepR pruneL pruneRrev)

variable {K V W : Type} {P S N I : Type}

/-- The two worklists have the same shape. -/
def Kind : HAct N I → Act K W → Prop
  | .desc _, .desc t => isNode t = true
  | .ret _, .ret _ => True
  | _, _ => False

/-- A relation between a worklist on memory and one on values, after some entries were
yielded. -/
abbrev Rel (K W P S N I : Type) :=
  List (K × W) → S → List (HAct N I) → List (Act K W) → Multiset (Handle P) → Prop

/-- What taking a node apart leaves. -/
abbrev partsT (lb ub : Bnd K) (k : K) (v : W) (l r : Tree K W) : List (Act K W) :=
  pruneStepL lb ub k v l r []

theorem pushDesc_append (t : Tree K W) (w : List (Act K W)) : pushDesc t w = pushDesc t [] ++ w := by
  cases t <;> rfl

theorem pushDesc_reverse (t : Tree K W) : (pushDesc t []).reverse = pushDesc t [] := by
  cases t <;> rfl

theorem pruneStepL_append (lb ub : Bnd K) (k : K) (v : W) (l r : Tree K W) (w : List (Act K W)) :
    pruneStepL lb ub k v l r w = partsT lb ub k v l r ++ w := by
  simp only [pruneStepL]
  split <;> split <;> split <;>
    simp only [List.cons_append, List.nil_append, pushDesc_append l (_ :: _), pushDesc_append r w,
      pushDesc_append l w, pushDesc_append l (pushDesc _ _), List.append_assoc,
      pushDesc_append l (_ ++ _)]

theorem pruneStepR_append (lb ub : Bnd K) (k : K) (v : W) (l r : Tree K W) (w : List (Act K W)) :
    pruneStepR lb ub k v l r w = (partsT lb ub k v l r).reverse ++ w := by
  simp only [pruneStepL, pruneStepR]
  split <;> split <;> split <;>
    simp only [pushDesc_append _ (_ :: _), pushDesc_append _ (pushDesc _ _), List.reverse_append,
      List.reverse_cons, List.reverse_nil, pushDesc_reverse, List.append_assoc, List.cons_append,
      List.nil_append, pushDesc_append l w, pushDesc_append r w, pushDesc_append r (_ ++ _)]

theorem optD_reverse (n : Option N) : (optD n : List (HAct N I)).reverse = optD n := by
  cases n <;> rfl

theorem optR_reverse (n : Option I) : (optR n : List (HAct N I)).reverse = optR n := by
  cases n <;> rfl

/-- Taking one node apart keeps the relation, wherever in the worklist the node is. -/
structure DesOk (des : Des P S N I) (lb ub : Bnd K) (R : Rel K W P S N I) : Prop where
  kind : ∀ {h s w wt L}, R h s w wt L → List.Forall₂ Kind w wt
  step : ∀ {h s u n w ut k v lh rh l r wt L}, u.length = ut.length →
    R h s (u ++ .desc n :: w) (ut ++ .desc (.node k v lh rh l r) :: wt) L →
    wp (des s n) L (fun x L' =>
      R h x.1 (u ++ (optD x.2.1 ++ (optR x.2.2.1 ++ (optD x.2.2.2 ++ w))))
        (ut ++ (partsT lb ub k v l r ++ wt)) L')

/-- Using an item. -/
def YldOk (yld : S → I → Option (S × (K × V))) (see : K × W → K × V) (R : Rel K W P S N I) : Prop :=
  ∀ {h s u i w ut e wt L}, u.length = ut.length →
    R h s (u ++ .ret i :: w) (ut ++ .ret e :: wt) L →
    ∃ s', yld s i = some (s', see e) ∧ R (h ++ [e]) s' (u ++ w) (ut ++ wt) L

section
variable {des : Des P S N I} {lb ub : Bnd K} {R : Rel K W P S N I}

theorem nextG_spec (hd : DesOk des .unbounded .unbounded R) {h : List (K × W)} : ∀ {n : Nat}
    {s : S} {w : List (HAct N I)} {wt : List (Act K W)} {L : Multiset (Handle P)},
    R h s w wt L → wsize wt ≤ n →
    wp (nextG des n s w) L (fun x L' =>
      (nextW wt = none ∧ x.2 = none ∧ R h x.1 [] [] L') ∨
      ∃ e wt' i w', nextW wt = some (e, wt') ∧ x.2 = some (i, w') ∧ wsize wt' ≤ wsize wt ∧
        R h x.1 (.ret i :: w') (.ret e :: wt') L') := by
  intro n
  induction n with
  | zero =>
    intro s w wt L hR hn
    have hk := hd.kind hR
    cases hk with
    | nil => exact wp_pure (Or.inl ⟨by simp [nextW], rfl, hR⟩)
    | @cons a b w wt ha hw =>
      cases b with
      | desc t => simp only [wsize] at hn; omega
      | ret e => simp only [wsize] at hn; omega
  | succ n ih =>
    intro s w wt L hR hn
    have hk := hd.kind hR
    cases hk with
    | nil => exact wp_pure (Or.inl ⟨by simp [nextW], rfl, hR⟩)
    | @cons a b w wt ha hw =>
      cases b with
      | ret e =>
        cases a with
        | desc m => exact ha.elim
        | ret i =>
          refine wp_pure (Or.inr ⟨e, wt, i, w, by simp [nextW], rfl, ?_, hR⟩)
          simp only [wsize]; omega
      | desc t =>
        cases a with
        | ret i => exact ha.elim
        | desc m =>
          cases t with
          | nil => simp [Kind] at ha
          | node k v lh rh l r =>
            have h1 := hd.step (u := []) (ut := []) rfl hR
            simp only [nextG]
            refine wp_bind (wp_conseq h1 ?_)
            intro x L' hx
            have e1 : pushDesc l (.ret (k, v) :: pushDesc r wt) =
                partsT .unbounded .unbounded k v l r ++ wt := by
              rw [← pruneStepL_append]; rfl
            have h2 := Avl.wsize_pruneStepL .unbounded .unbounded k v l r wt
            rw [pruneStepL_append] at h2
            simp only [List.nil_append] at hx
            simp only [wsize, Tree.size] at hn ⊢
            refine wp_conseq (ih hx (by omega)) ?_
            simp only [nextW, e1]
            rintro y L'' (hy | ⟨e, wt', i, w', h3, h4, h5, h6⟩)
            · exact Or.inl hy
            · exact Or.inr ⟨e, wt', i, w', h3, h4, by omega, h6⟩

theorem nextBackG_spec (hd : DesOk des .unbounded .unbounded R) {h : List (K × W)} : ∀ {n : Nat}
    {s : S} {w : List (HAct N I)} {wt : List (Act K W)} {L : Multiset (Handle P)},
    R h s w.reverse wt.reverse L → wsize wt ≤ n →
    wp (nextBackG des n s w) L (fun x L' =>
      (nextBackRev wt = none ∧ x.2 = none ∧ R h x.1 [] [] L') ∨
      ∃ e wt' i w', nextBackRev wt = some (e, wt') ∧ x.2 = some (i, w') ∧ wsize wt' ≤ wsize wt ∧
        R h x.1 (w'.reverse ++ [.ret i]) (wt'.reverse ++ [.ret e]) L') := by
  intro n
  induction n with
  | zero =>
    intro s w wt L hR hn
    have hk := List.forall₂_reverse_iff.1 (hd.kind hR)
    cases hk with
    | nil => exact wp_pure (Or.inl ⟨by simp [nextBackRev], rfl, hR⟩)
    | @cons a b w wt ha hw =>
      cases b with
      | desc t => simp only [wsize] at hn; omega
      | ret e => simp only [wsize] at hn; omega
  | succ n ih =>
    intro s w wt L hR hn
    have hk := List.forall₂_reverse_iff.1 (hd.kind hR)
    cases hk with
    | nil => exact wp_pure (Or.inl ⟨by simp [nextBackRev], rfl, hR⟩)
    | @cons a b w wt ha hw =>
      cases b with
      | ret e =>
        cases a with
        | desc m => exact ha.elim
        | ret i =>
          refine wp_pure (Or.inr ⟨e, wt, i, w, by simp [nextBackRev], rfl, ?_, by simpa using hR⟩)
          simp only [wsize]; omega
      | desc t =>
        cases a with
        | ret i => exact ha.elim
        | desc m =>
          cases t with
          | nil => simp [Kind] at ha
          | node k v lh rh l r =>
            have h1 := hd.step (u := w.reverse) (ut := wt.reverse) (n := m) (w := []) (wt := [])
              (k := k) (v := v) (lh := lh) (rh := rh) (l := l) (r := r) (h := h) (s := s) (L := L)
              (by simp [hw.length_eq]) (by simpa using hR)
            simp only [nextBackG]
            refine wp_bind (wp_conseq h1 ?_)
            intro x L' hx
            have e1 : pushDesc r (.ret (k, v) :: pushDesc l wt) =
                (partsT .unbounded .unbounded k v l r).reverse ++ wt := by
              rw [← pruneStepR_append]; rfl
            have h2 := Avl.wsize_pruneStepR .unbounded .unbounded k v l r wt
            rw [pruneStepR_append] at h2
            simp only [wsize, Tree.size] at hn ⊢
            refine wp_conseq (ih (wt := (partsT .unbounded .unbounded k v l r).reverse ++ wt) ?_
              (by omega)) ?_
            · simpa [optD_reverse, optR_reverse] using hx
            · simp only [nextBackRev, e1]
              rintro y L'' (hy | ⟨e, wt', i, w', h3, h4, h5, h6⟩)
              · exact Or.inl hy
              · exact Or.inr ⟨e, wt', i, w', h3, h4, by omega, h6⟩

theorem wsize_append (a b : List (Act K W)) : wsize (a ++ b) = wsize a + wsize b := by
  induction a with
  | nil => simp [wsize]
  | cons x a ih => cases x <;> simp only [List.cons_append, wsize, ih] <;> omega

theorem wsize_reverse (a : List (Act K W)) : wsize a.reverse = wsize a := by
  induction a with
  | nil => rfl
  | cons x a ih =>
    rw [List.reverse_cons, wsize_append, ih]
    cases x <;> simp only [wsize] <;> omega

/-- What a run has yielded. -/
def yields (ys : List (Option (K × W) × Nat)) : List (K × W) := ys.filterMap (·.1)

/-- One call. -/
theorem stepG_spec (hd : DesOk des .unbounded .unbounded R) {n : Nat} {d : Bool}
    {h : List (K × W)} {s : S} {it : HIter N I} {vit vit' : Avl.Iter K W} {y : Option (K × W)}
    {L : Multiset (Handle P)} (hst : vit.step d = some (y, vit')) (hR : R h s it.work vit.work L)
    (hl : it.len = vit.len) (hn : wsize vit.work ≤ n) :
    wp (stepG des n d s it) L (fun x L' =>
      x.2.2.len = vit'.len ∧ wsize vit'.work ≤ wsize vit.work ∧
      ((y = none ∧ x.2.1 = none ∧ R h x.1 x.2.2.work vit'.work L') ∨
      ∃ e i u w ut wt, y = some e ∧ x.2.1 = some i ∧ u.length = ut.length ∧
        R h x.1 (u ++ .ret i :: w) (ut ++ .ret e :: wt) L' ∧ x.2.2.work = u ++ w ∧
        vit'.work = ut ++ wt)) := by
  cases d with
  | true =>
    simp only [stepG]
    refine wp_bind (wp_conseq (nextG_spec hd hR hn) ?_)
    rintro x L' (⟨h1, h2, h3⟩ | ⟨e, wt', i, w', h1, h2, h3, h4⟩)
    · simp only [Avl.Iter.step, if_true, h1, Option.some.injEq, Prod.mk.injEq] at hst
      obtain ⟨rfl, rfl⟩ := hst
      rw [h2]
      exact wp_pure ⟨hl, by simp [wsize], Or.inl ⟨rfl, rfl, h3⟩⟩
    · simp only [Avl.Iter.step, if_true, h1] at hst
      split at hst
      · cases hst
      · next hz =>
        simp only [Option.some.injEq, Prod.mk.injEq] at hst
        obtain ⟨rfl, rfl⟩ := hst
        rw [h2]
        dsimp only
        rw [if_neg (by omega)]
        exact wp_pure ⟨by simp [hl], h3, Or.inr ⟨e, i, [], w', [], wt', rfl, rfl, rfl, h4, rfl, rfl⟩⟩
  | false =>
    simp only [stepG]
    refine wp_bind (wp_conseq (nextBackG_spec hd (wt := vit.work.reverse)
      (by simpa using hR) (by rw [wsize_reverse]; exact hn)) ?_)
    rintro x L' (⟨h1, h2, h3⟩ | ⟨e, wt', i, w', h1, h2, h3, h4⟩)
    · simp only [Avl.Iter.step, Bool.false_eq_true, if_false, nextBackW, h1, Option.map_none,
        Option.some.injEq, Prod.mk.injEq] at hst
      obtain ⟨rfl, rfl⟩ := hst
      rw [h2]
      exact wp_pure ⟨hl, by simp [wsize], Or.inl ⟨rfl, rfl, h3⟩⟩
    · simp only [Avl.Iter.step, Bool.false_eq_true, if_false, nextBackW, h1,
        Option.map_some] at hst
      split at hst
      · cases hst
      · next hz =>
        simp only [Option.some.injEq, Prod.mk.injEq] at hst
        obtain ⟨rfl, rfl⟩ := hst
        rw [h2]
        dsimp only
        rw [if_neg (by omega)]
        have hlen := (hd.kind h4).length_eq
        simp only [List.length_append, List.length_reverse, List.length_singleton] at hlen
        refine wp_pure ⟨by simp [hl], by rw [wsize_reverse]; rwa [wsize_reverse] at h3,
          Or.inr ⟨e, i, w'.reverse, [], wt'.reverse, [], rfl, rfl, ?_, h4, by simp, by simp⟩⟩
        simp only [List.length_reverse]; omega

theorem runG_spec {yld : S → I → Option (S × (K × V))} {see : K × W → K × V}
    (hd : DesOk des .unbounded .unbounded R) (hy : YldOk yld see R) {n : Nat} : ∀ {ds : List Bool}
    {h : List (K × W)} {s : S} {it : HIter N I} {vit : Avl.Iter K W}
    {ys : List (Option (K × W) × Nat)} {L : Multiset (Handle P)},
    vit.run ds = some ys → R h s it.work vit.work L → it.len = vit.len → wsize vit.work ≤ n →
    wp (runG des yld n ds s it) L (fun x L' =>
      x.2.1 = ys.map (fun y => (y.1.map see, y.2)) ∧
      ∃ wt, R (h ++ yields ys) x.1 x.2.2.work wt L') := by
  intro ds
  induction ds with
  | nil =>
    intro h s it vit ys L hrun hR hl hn
    simp only [Avl.Iter.run, Option.some.injEq] at hrun
    subst hrun
    exact wp_pure ⟨rfl, vit.work, by simpa [yields] using hR⟩
  | cons d ds ih =>
    intro h s it vit ys L hrun hR hl hn
    simp only [Avl.Iter.run] at hrun
    cases hst : vit.step d with
    | none => rw [hst] at hrun; cases hrun
    | some z =>
      obtain ⟨y, vit'⟩ := z
      rw [hst] at hrun
      simp only at hrun
      cases hrun' : vit'.run ds with
      | none => rw [hrun'] at hrun; cases hrun
      | some ys' =>
        rw [hrun'] at hrun
        simp only [Option.map_some, Option.some.injEq] at hrun
        subst hrun
        have hstep := stepG_spec hd hst hR hl hn
        simp only [runG]
        refine wp_bind (wp_conseq hstep ?_)
        rintro x L' ⟨h1, h2, (⟨rfl, h4, h5⟩ | ⟨e, i, u, w, ut, wt, rfl, h4, h5, h6, h7, h8⟩)⟩
        · rw [h4]
          dsimp only
          refine wp_bind (wp_conseq (ih hrun' h5 h1 (by omega)) ?_)
          rintro z L'' ⟨h6, wt, h7⟩
          exact wp_pure ⟨by simp [h6, h1], wt, by simpa [yields] using h7⟩
        · rw [h4]
          dsimp only
          obtain ⟨s', g1, g2⟩ := hy h5 h6
          rw [g1]
          dsimp only
          rw [← h7, ← h8] at g2
          refine wp_bind (wp_conseq (ih hrun' g2 h1 (by omega)) ?_)
          rintro z L'' ⟨h6, wt, h7⟩
          exact wp_pure ⟨by simp [h6, h1], wt, by simpa [yields] using h7⟩

theorem pruneG_spec (hd : DesOk des lb ub R) {h : List (K × W)} : ∀ {n : Nat}
    {s : S} {w : List (HAct N I)} {wt : List (Act K W)} {L : Multiset (Handle P)},
    R h s w wt L → wsize wt ≤ n →
    wp (pruneG des n s w) L (fun x L' =>
      wsize (pruneL lb ub wt) ≤ wsize wt ∧ R h x.1 x.2 (pruneL lb ub wt) L') := by
  intro n
  induction n with
  | zero =>
    intro s w wt L hR hn
    cases hd.kind hR with
    | nil => exact wp_pure ⟨by simp [pruneL], by simpa [pruneL] using hR⟩
    | @cons a b w wt ha hw =>
      cases b with
      | desc t => simp only [wsize] at hn; omega
      | ret e => simp only [wsize] at hn; omega
  | succ n ih =>
    intro s w wt L hR hn
    cases hd.kind hR with
    | nil => exact wp_pure ⟨by simp [pruneL], by simpa [pruneL] using hR⟩
    | @cons a b w wt ha hw =>
      cases b with
      | ret e =>
        cases a with
        | desc m => exact ha.elim
        | ret i => exact wp_pure ⟨by simp [pruneL], by simpa [pruneL] using hR⟩
      | desc t =>
        cases a with
        | ret i => exact ha.elim
        | desc m =>
          cases t with
          | nil => simp [Kind] at ha
          | node k v lh rh l r =>
            have h1 := hd.step (u := []) (ut := []) rfl hR
            simp only [pruneG]
            refine wp_bind (wp_conseq h1 ?_)
            intro x L' hx
            have h2 := Avl.wsize_pruneStepL lb ub k v l r wt
            rw [pruneStepL_append] at h2
            simp only [List.nil_append] at hx
            simp only [wsize, Tree.size] at hn ⊢
            refine wp_conseq (ih hx (by omega)) ?_
            have e1 : pruneL lb ub (.desc (.node k v lh rh l r) :: wt) =
                pruneL lb ub (partsT lb ub k v l r ++ wt) := by
              rw [← pruneStepL_append, pruneL]
            rw [e1]
            rintro y L'' ⟨h3, h4⟩
            exact ⟨by omega, h4⟩

theorem pruneBackG_spec (hd : DesOk des lb ub R) {h : List (K × W)} : ∀ {n : Nat}
    {s : S} {w : List (HAct N I)} {wt : List (Act K W)} {L : Multiset (Handle P)},
    R h s w.reverse wt.reverse L → wsize wt ≤ n →
    wp (pruneBackG des n s w) L (fun x L' =>
      wsize (pruneRrev lb ub wt) ≤ wsize wt ∧
        R h x.1 x.2.reverse (pruneRrev lb ub wt).reverse L') := by
  intro n
  induction n with
  | zero =>
    intro s w wt L hR hn
    cases List.forall₂_reverse_iff.1 (hd.kind hR) with
    | nil => exact wp_pure ⟨by simp [pruneRrev], by simpa [pruneRrev] using hR⟩
    | @cons a b w wt ha hw =>
      cases b with
      | desc t => simp only [wsize] at hn; omega
      | ret e => simp only [wsize] at hn; omega
  | succ n ih =>
    intro s w wt L hR hn
    have hk := List.forall₂_reverse_iff.1 (hd.kind hR)
    cases hk with
    | nil => exact wp_pure ⟨by simp [pruneRrev], by simpa [pruneRrev] using hR⟩
    | @cons a b w wt ha hw =>
      cases b with
      | ret e =>
        cases a with
        | desc m => exact ha.elim
        | ret i => exact wp_pure ⟨by simp [pruneRrev], by simpa [pruneRrev] using hR⟩
      | desc t =>
        cases a with
        | ret i => exact ha.elim
        | desc m =>
          cases t with
          | nil => simp [Kind] at ha
          | node k v lh rh l r =>
            have h1 := hd.step (u := w.reverse) (ut := wt.reverse) (n := m) (w := []) (wt := [])
              (k := k) (v := v) (lh := lh) (rh := rh) (l := l) (r := r) (h := h) (s := s) (L := L)
              (by simp [hw.length_eq]) (by simpa using hR)
            simp only [pruneBackG]
            refine wp_bind (wp_conseq h1 ?_)
            intro x L' hx
            have h2 := Avl.wsize_pruneStepR lb ub k v l r wt
            rw [pruneStepR_append] at h2
            simp only [wsize, Tree.size] at hn ⊢
            refine wp_conseq (ih (wt := (partsT lb ub k v l r).reverse ++ wt) ?_ (by omega)) ?_
            · simpa [optD_reverse, optR_reverse] using hx
            · have e1 : pruneRrev lb ub (.desc (.node k v lh rh l r) :: wt) =
                  pruneRrev lb ub ((partsT lb ub k v l r).reverse ++ wt) := by
                rw [← pruneStepR_append, pruneRrev]
              rw [e1]
              rintro y L'' ⟨h3, h4⟩
              exact ⟨by omega, h4⟩

end
end Verif.AvlH
