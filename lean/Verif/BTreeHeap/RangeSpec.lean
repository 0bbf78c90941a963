import Verif.BTreeHeap.RangeModel
import Verif.BTreeHeap.IntoSpec
/-!
# `range` of `BTreeMap` on reference-counted memory, against `range` on values
-/
namespace Verif.BTreeH
open Heap
open BTree (Node InnerIter NodeIterOps NIter nodeOps findRangeEdges Edges getSlice mkWork mkWorkAt)

variable {K V X : Type}

/-! ## The worklist on values, with indices -/

theorem mkWorkAt_eq (lb ub : Bnd K) : ∀ (i : Nat) (ks : List (Node K V)),
    mkWorkAt lb ub i ks = match ks[i]? with
      | none => some []
      | some c => mkWork lb ub c
  | _, [] => by simp [mkWorkAt]
  | 0, c :: ks => by simp [mkWorkAt]
  | i + 1, c :: ks => by
    rw [mkWorkAt, mkWorkAt_eq lb ub i ks]
    simp

theorem kidSlice_ok (n lb ub : Nat) :
    (kidSlice n lb ub).1 ≤ (kidSlice n lb ub).2 ∧ (kidSlice n lb ub).2 ≤ n := by
  unfold kidSlice
  split
  · assumption
  · simp

theorem getSlice_eq {α : Type} (l : List α) (lb ub : Nat) :
    getSlice l lb ub = sl (kidSlice l.length lb ub).1 (kidSlice l.length lb ub).2 l := by
  unfold getSlice kidSlice
  split <;> simp

/-- The slice's indices are the edges, unless it is empty. -/
theorem kidSlice_edges {n lb ub : Nat} (h : (kidSlice n lb ub).1 < (kidSlice n lb ub).2) :
    (kidSlice n lb ub).1 = lb ∧ (kidSlice n lb ub).2 = ub := by
  unfold kidSlice at h ⊢
  split
  · exact ⟨rfl, rfl⟩
  · rename_i h1; rw [if_neg h1] at h; simp at h

/-- The items of the worklist on values. -/
def vItem (es : List (K × V)) (ks : List (Node K V)) (lbE ubE lbK ubK : Nat) (lf rt : Bool) :
    NIter (K × V) (Node K V) := ⟨sl lbE ubE es, sl lbK ubK ks, lf, rt⟩

/-- The left part on values. -/
def vLeft (lb ub : Bnd K) (ed : Edges) (c : Nat × Nat) (ks : List (Node K V)) :
    Option (List (NIter (K × V) (Node K V))) :=
  if ed.lp && decide (c.1 < c.2) then
    if decide (c.2 - c.1 = 1) && ed.rp then
      if ed.ubE ≤ ed.lbE then mkWorkAt lb ub c.1 ks else none
    else mkWorkAt lb .unbounded c.1 ks
  else some []

/-- The right part on values. -/
def vRight (lb ub : Bnd K) (ed : Edges) (c : Nat × Nat) (ks : List (Node K V)) :
    Option (List (NIter (K × V) (Node K V))) :=
  if ed.rp && decide (c.1 < c.2) then
    mkWorkAt (if ed.lp then .unbounded else lb) ub (c.2 - 1) ks
  else some []

theorem afterNext_tail {α : Type} (b : Bool) (c : Nat × Nat) {l : List α} (hc : c.2 ≤ l.length) :
    (if b then (sl c.1 c.2 l).tail else sl c.1 c.2 l) =
      sl (afterNext b c).1 (afterNext b c).2 l := by
  cases b with
  | false => rfl
  | true =>
    simp only [afterNext, Bool.true_and, if_true, decide_eq_true_eq]
    split
    · rw [sl_tail]
    · rename_i h
      rw [sl_empty (by omega)]
      rfl

theorem afterBack_dropLast {α : Type} (b : Bool) (c : Nat × Nat) {l : List α}
    (hc : c.2 ≤ l.length) :
    (if b then (sl c.1 c.2 l).dropLast else sl c.1 c.2 l) =
      sl (afterBack b c).1 (afterBack b c).2 l := by
  cases b with
  | false => rfl
  | true =>
    simp only [afterBack, Bool.true_and, if_true, decide_eq_true_eq]
    split
    · rename_i h
      rw [sl_dropLast h hc]
    · rename_i h
      rw [sl_empty (by omega)]
      rfl

theorem afterNext_ok (b : Bool) {c : Nat × Nat} (h : c.1 ≤ c.2) :
    (afterNext b c).1 ≤ (afterNext b c).2 ∧ (afterNext b c).2 = c.2 ∧ c.1 ≤ (afterNext b c).1 := by
  unfold afterNext
  split
  · rename_i h1
    simp only [Bool.and_eq_true, decide_eq_true_eq] at h1
    exact ⟨by simp only; omega, rfl, by simp only; omega⟩
  · exact ⟨h, rfl, le_rfl⟩

theorem afterBack_ok (b : Bool) {c : Nat × Nat} (h : c.1 ≤ c.2) :
    (afterBack b c).1 ≤ (afterBack b c).2 ∧ (afterBack b c).1 = c.1 ∧
      (afterBack b c).2 ≤ c.2 := by
  unfold afterBack
  split
  · rename_i h1
    simp only [Bool.and_eq_true, decide_eq_true_eq] at h1
    exact ⟨by simp only; omega, rfl, by simp only; omega⟩
  · exact ⟨h, rfl, le_rfl⟩

theorem mkWork_eq (lb ub : Bnd K) (es : List (K × V)) (ks : List (Node K V)) (ed : Edges)
    (hed : findRangeEdges lb ub es = ed) :
    mkWork lb ub (.mk es ks) =
      if ed.lbE ≤ ed.ubE ∧ ed.ubE ≤ es.length then
        match vLeft lb ub ed (kidSlice ks.length ed.lbK ed.ubK) ks with
        | none => none
        | some w1 =>
          match vRight lb ub ed (afterNext ed.lp (kidSlice ks.length ed.lbK ed.ubK)) ks with
          | none => none
          | some w2 => some (w1 ++ ergOf (vItem es ks) ed
              (afterBack ed.rp (afterNext ed.lp (kidSlice ks.length ed.lbK ed.ubK))) ++ w2)
      else none := by
  rw [mkWork, hed]
  dsimp only
  by_cases h : ed.lbE ≤ ed.ubE ∧ ed.ubE ≤ es.length
  swap
  · rw [if_neg h, if_neg h]
  rw [if_pos h, if_pos h]
  have hk := kidSlice_ok ks.length ed.lbK ed.ubK
  have he := kidSlice_edges (n := ks.length) (lb := ed.lbK) (ub := ed.ubK)
  rw [getSlice_eq]
  generalize kidSlice ks.length ed.lbK ed.ubK = c at hk he ⊢
  have n1 := afterNext_ok ed.lp hk.1
  rw [afterNext_tail ed.lp c hk.2]
  generalize hc1 : afterNext ed.lp c = c1 at n1 ⊢
  have n2 := afterBack_ok ed.rp n1.1
  have hc1l : c1.2 ≤ ks.length := by omega
  rw [afterBack_dropLast ed.rp c1 hc1l]
  generalize afterBack ed.rp c1 = c2 at n2 ⊢
  have hc2l : c2.2 ≤ ks.length := by omega
  have hE : ((es.take ed.ubE).drop ed.lbE).isEmpty = decide (ed.ubE ≤ ed.lbE) := sl_isEmpty h.2
  have e1 : (!(sl c.1 c.2 ks).isEmpty) = decide (c.1 < c.2) := by
    rw [sl_isEmpty hk.2]; simp [← decide_not]
  have e2 : ((sl c.1 c.2 ks).length == 1) = decide (c.2 - c.1 = 1) := by
    rw [Bool.eq_iff_iff]
    simp only [sl, List.length_drop, List.length_take, beq_iff_eq, decide_eq_true_eq]
    omega
  have e3 : (!(sl c1.1 c1.2 ks).isEmpty) = decide (c1.1 < c1.2) := by
    rw [sl_isEmpty hc1l]; simp [← decide_not]
  have hL : (if (ed.lp && !(sl c.1 c.2 ks).isEmpty) = true then
        if ((sl c.1 c.2 ks).length == 1 && ed.rp) = true then
          if ((es.take ed.ubE).drop ed.lbE).isEmpty = true then mkWorkAt lb ub ed.lbK ks else none
        else mkWorkAt lb .unbounded ed.lbK ks
      else some []) = vLeft lb ub ed c ks := by
    unfold vLeft
    rw [e1, e2, hE]
    simp only [decide_eq_true_eq]
    by_cases hh : (ed.lp && decide (c.1 < c.2)) = true
    · rw [if_pos hh, if_pos hh]
      have : c.1 < c.2 := by
        simp only [Bool.and_eq_true, decide_eq_true_eq] at hh; exact hh.2
      rw [(he this).1]
    · rw [if_neg hh, if_neg hh]
  have hR : (if (ed.rp && !(sl c1.1 c1.2 ks).isEmpty) = true then
        mkWorkAt (if ed.lp then .unbounded else lb) ub (ed.ubK - 1) ks
      else some []) = vRight lb ub ed c1 ks := by
    unfold vRight
    rw [e3]
    by_cases hh : (ed.rp && decide (c1.1 < c1.2)) = true
    · rw [if_pos hh, if_pos hh]
      have : c.1 < c.2 := by
        simp only [Bool.and_eq_true, decide_eq_true_eq] at hh; omega
      rw [n1.2.1, (he this).2]
    · rw [if_neg hh, if_neg hh]
  rw [hL, hR]
  cases vLeft lb ub ed c ks with
  | none => rfl
  | some w1 =>
    dsimp only
    cases vRight lb ub ed c1 ks with
    | none => rfl
    | some w2 =>
      dsimp only
      unfold ergOf
      rw [hE, sl_isEmpty hc2l]
      rfl

/-! ## The shared worklist -/

section
variable {a : Nat} {t : VT (ND K V)} {u : Bool}

/-- The two worklists, or panics. -/
def WorkR (n : Nat) (t : VT (ND K V)) : Option (List (SIter K V)) →
    Option (List (NIter (K × V) (Node K V))) → Prop
  | none, none => True
  | some w, some wt => List.Forall₂ (SRel n t) w wt
  | _, _ => False

theorem mkWorkH_spec {m : Nat} : ∀ {n : Nat} {nd : Node K V} {lb ub : Bnd K} {path : List Nat}
    {s : Unit}, n ≤ m + 1 →
    t.sub path = some (vt nd) → (vt nd).Dep n →
    wp (mkWorkH a n lb ub path s) {⟨some a, t, u⟩} (fun x L =>
      WorkR m t x.2 (mkWork lb ub nd) ∧ L = {⟨some a, t, u⟩})
  | 0, nd, lb, ub, path, s, _, _, hd => by obtain ⟨_, h⟩ := dep_pos hd; cases h
  | n + 1, .mk es ks, lb, ub, path, s, hm, hp, hd => by
    have hkd := dep_mk.1 hd
    -- the recursive calls
    have hrec : ∀ {i : Nat} {lb ub : Bnd K} {s : Unit}, i < ks.length →
        wp (mkWorkH a n lb ub (path ++ [i]) s) {⟨some a, t, u⟩} (fun x L =>
          WorkR m t x.2 (mkWorkAt lb ub i ks) ∧ L = {⟨some a, t, u⟩}) := by
      intro i lb ub s hi
      have hc : ks[i]? = some ks[i] := List.getElem?_eq_getElem hi
      rw [mkWorkAt_eq, hc]
      exact mkWorkH_spec (by omega) (sub_kid hp hc) (hkd _ (List.getElem_mem _))
    rw [mkWork_eq lb ub es ks _ rfl]
    simp only [mkWorkH]
    wcall readN_spec hp
    rintro ⟨es', ks'⟩ _ ⟨⟨h1, h2⟩, rfl⟩
    simp only [BTree.Node.elems, BTree.Node.kids] at h1 h2
    subst h1
    rw [add_zero]
    dsimp only
    generalize findRangeEdges lb ub es' = ed
    unfold workStep
    by_cases h : ed.lbE ≤ ed.ubE ∧ ed.ubE ≤ es'.length
    swap
    · rw [if_neg h, if_neg h]
      exact wp_pure ⟨trivial, rfl⟩
    rw [if_pos h, if_pos h, ← h2]
    have hk := kidSlice_ok ks.length ed.lbK ed.ubK
    generalize kidSlice ks.length ed.lbK ed.ubK = c at hk ⊢
    have n1 := afterNext_ok ed.lp hk.1
    generalize afterNext ed.lp c = c1 at n1 ⊢
    have n2 := afterBack_ok ed.rp n1.1
    generalize afterBack ed.rp c1 = c2 at n2 ⊢
    -- the left part
    have hL : wp (workLeft (mkWorkH a n) lb ub path ed c ()) {⟨some a, t, u⟩} (fun x L =>
        WorkR m t x.2 (vLeft lb ub ed c ks) ∧ L = {⟨some a, t, u⟩}) := by
      unfold workLeft vLeft
      split
      · rename_i hh
        have hi : c.1 < ks.length := by
          simp only [Bool.and_eq_true, decide_eq_true_eq] at hh; omega
        split
        · split
          · exact hrec hi
          · exact wp_pure ⟨trivial, rfl⟩
        · exact hrec hi
      · exact wp_pure ⟨.nil, rfl⟩
    refine wp_bind (wp_conseq hL ?_)
    rintro ⟨⟨⟩, w1⟩ _ ⟨hw1, rfl⟩
    dsimp only at hw1 ⊢
    revert hw1
    cases vLeft lb ub ed c ks with
    | none =>
      intro hw1
      cases w1 with
      | some _ => exact hw1.elim
      | none => exact wp_pure ⟨trivial, rfl⟩
    | some v1 =>
    intro hw1
    cases w1 with
    | none => exact hw1.elim
    | some w1 =>
    dsimp only
    have hR : wp (workRight (mkWorkH a n) lb ub path ed c1 ()) {⟨some a, t, u⟩} (fun x L =>
        WorkR m t x.2 (vRight lb ub ed c1 ks) ∧ L = {⟨some a, t, u⟩}) := by
      unfold workRight vRight
      split
      · rename_i hh
        have hi : c1.2 - 1 < ks.length := by
          simp only [Bool.and_eq_true, decide_eq_true_eq] at hh; omega
        exact hrec hi
      · exact wp_pure ⟨.nil, rfl⟩
    refine wp_bind (wp_conseq hR ?_)
    rintro ⟨⟨⟩, w2⟩ _ ⟨hw2, rfl⟩
    dsimp only at hw2 ⊢
    revert hw2
    cases vRight lb ub ed c1 ks with
    | none =>
      intro hw2
      cases w2 with
      | some _ => exact hw2.elim
      | none => exact wp_pure ⟨trivial, rfl⟩
    | some v2 =>
    intro hw2
    cases w2 with
    | none => exact hw2.elim
    | some w2 =>
    dsimp only
    refine wp_pure ⟨List.rel_append (List.rel_append hw1 ?_) hw2, rfl⟩
    unfold ergOf
    split
    · exact .nil
    · refine .cons ⟨rfl, ?_, rfl, rfl⟩ .nil
      have := forall₂_kidPaths (n := m) hp (fun c hc => (hkd c hc).mono (by omega))
      exact List.forall₂_drop _ (List.forall₂_take _ this)

end

theorem rangeRun_spec {root : Option (Node K V)} {r : Option Nat} {len n : Nat} {lb ub : Bnd K}
    {ds : List Bool} {ys : Option (List (Option (K × V) × Nat))}
    (hd : ∀ nd, root = some nd → (vt nd).Dep n)
    (h : ∀ w, (root.elim (some []) (mkWork lb ub)) = some w →
      ∃ zs, nodeOps.run ds ⟨w, len⟩ = some zs ∧ ys = some zs)
    (h0 : root.elim (some []) (mkWork lb ub) = none → ys = none) :
    wp (rangeRun n lb ub ds r len) (own r (vtO root))
      (fun x L => x = ys ∧ L = own r (vtO root)) := by
  refine wp_root (r := r) (root := root) 0 (add_zero _).symm ?_ ?_
  · rintro rfl rfl
    obtain ⟨zs, h1, rfl⟩ := h [] rfl
    rw [vrun_nil] at h1
    cases h1
    simp only [rangeRun, run_nil]
    exact wp_pure ⟨rfl, rfl⟩
  · rintro a nd rfl rfl
    obtain ⟨n, rfl⟩ := dep_pos (hd _ rfl)
    rw [add_zero]
    simp only [rangeRun]
    show wp _ {⟨some a, vt nd, false⟩} _
    simp only [Option.elim] at h h0
    refine wp_bind (wp_conseq (mkWorkH_spec (m := n) le_rfl rfl (hd _ rfl)) ?_)
    rintro ⟨⟨⟩, w⟩ _ ⟨hw, rfl⟩
    dsimp only at hw ⊢
    revert hw
    cases hv : mkWork lb ub nd with
    | none =>
      intro hw
      cases w with
      | some _ => exact hw.elim
      | none => exact wp_pure ⟨(h0 hv).symm, rfl⟩
    | some wt =>
      intro hw
      cases w with
      | none => exact hw.elim
      | some w =>
      obtain ⟨zs, h1, rfl⟩ := h _ hv
      dsimp only
      refine wp_bind (wp_conseq (run_ok sharedOk yldS_ok (fun _ _ _ => trivial) (h := [])
        (jt := ⟨wt, len⟩) rfl ⟨hw, rfl⟩ h1 trivial) ?_)
      rintro x _ ⟨h2, wt, -, rfl⟩
      exact wp_pure ⟨by rw [h2, map_id'], rfl⟩

end Verif.BTreeH
