import Verif.AvlHeap.IterGen
import Verif.AvlHeap.Access
/-!
# Shared and owning iterators on reference-counted memory
-/
namespace Verif.AvlH
open Heap
open Avl (Tree Act pushDesc wsize lbGe ubLe iterOf rangeOf)

variable {K V W : Type}

theorem partsT_eq (lb ub : Bnd K) (k : K) (v : W) (l r : Tree K W) :
    partsT lb ub k v l r = (if lbGe lb k then [] else pushDesc l []) ++
      ((if lb.okLo k && ub.okHi k then [.ret (k, v)] else []) ++
      (if ubLe ub k then [] else pushDesc r [])) := by
  simp only [Avl.pruneStepL]
  split <;> split <;> split <;>
    simp only [List.nil_append, List.append_nil, List.cons_append, pushDesc_append l (_ :: _),
      pushDesc_append l (pushDesc _ _)]

/-! ## Shared -/

/-- A shared reference on the worklist. -/
def NAct (t : VT (ND K V)) : HAct (List Nat) (K × V) → Act K V → Prop
  | .desc path, .desc s => isNode s = true ∧ t.sub path = some (vt s)
  | .ret e, .ret e' => e = e'
  | _, _ => False

/-- The worklist of a shared iterator. -/
def NRel (a : Nat) (t : VT (ND K V)) (b : Bool) : Rel K V (ND K V) Unit (List Nat) (K × V) :=
  fun _ _ w wt L => List.Forall₂ (NAct t) w wt ∧ L = {⟨some a, t, b⟩}

theorem NAct.kind {t : VT (ND K V)} {x : HAct (List Nat) (K × V)} {y : Act K V} (h : NAct t x y) :
    Kind x y := by
  cases x <;> cases y <;> simp_all [NAct, Kind]

theorem forall₂_app {α β : Type} {Q : α → β → Prop} {u : List α} {ut : List β} {w : List α}
    {wt : List β} (hl : u.length = ut.length) :
    List.Forall₂ Q (u ++ w) (ut ++ wt) ↔ List.Forall₂ Q u ut ∧ List.Forall₂ Q w wt := by
  induction u generalizing ut with
  | nil => cases ut with
    | nil => simp
    | cons => simp at hl
  | cons a u ih => cases ut with
    | nil => simp at hl
    | cons b ut =>
      simp only [List.length_cons, Nat.add_right_cancel_iff] at hl
      simp [ih hl, and_assoc]

theorem desN_ok {a : Nat} {t : VT (ND K V)} {b : Bool} (lb ub : Bnd K) :
    DesOk (desN a lb ub) lb ub (NRel a t b) where
  kind := fun h => h.1.imp fun _ _ h => h.kind
  step := by
    rintro h s u n w ut k v lh rh l r wt L hl ⟨hR, rfl⟩
    obtain ⟨h1, h2⟩ := (forall₂_app hl).1 hR
    simp only [List.forall₂_cons, NAct] at h2
    obtain ⟨⟨-, hp⟩, h2⟩ := h2
    obtain ⟨hpl, hpr⟩ := sub_kids hp
    simp only [desN]
    wcall readN_spec hp
    rintro _ _ ⟨rfl, rfl⟩
    rw [add_zero]
    refine wp_pure ⟨?_, rfl⟩
    refine (forall₂_app hl).2 ⟨h1, ?_⟩
    rw [partsT_eq]
    dsimp only
    have q1 : List.Forall₂ (NAct t)
        (optD (if isNode l && !lbGe lb k then some (n ++ [0]) else none))
        (if lbGe lb k then [] else pushDesc l []) := by
      cases lbGe lb k <;> cases l <;> simp [optD, pushDesc, NAct, hpl]
    have q3 : List.Forall₂ (NAct t)
        (optD (if isNode r && !ubLe ub k then some (n ++ [1]) else none))
        (if ubLe ub k then [] else pushDesc r []) := by
      cases ubLe ub k <;> cases r <;> simp [optD, pushDesc, NAct, hpr]
    have q2 : List.Forall₂ (NAct t)
        (optR (if lb.okLo k && ub.okHi k then some (k, v) else none))
        (if lb.okLo k && ub.okHi k then [.ret (k, v)] else []) := by
      cases lb.okLo k && ub.okHi k <;> simp [optR, NAct]
    rw [List.append_assoc, List.append_assoc]
    exact List.rel_append q1 (List.rel_append q2 (List.rel_append q3 h2))

theorem yldN_ok {a : Nat} {t : VT (ND K V)} {b : Bool} :
    YldOk (V := V) yldN (fun e => e) (NRel a t b) := by
  rintro h s u i w ut e wt L hl ⟨hR, rfl⟩
  obtain ⟨h1, h2⟩ := (forall₂_app hl).1 hR
  simp only [List.forall₂_cons, NAct] at h2
  obtain ⟨rfl, h2⟩ := h2
  exact ⟨(), rfl, (forall₂_app hl).2 ⟨h1, h2⟩, rfl⟩

theorem map_id' (ys : List (Option (K × V) × Nat)) :
    ys.map (fun y => (y.1.map (fun e => e), y.2)) = ys := by
  simp

theorem iterRun_spec {t : Tree K V} {r : Option Nat} {len n : Nat} {ds : List Bool}
    {ys : List (Option (K × V) × Nat)} (hn : 3 * t.size + 1 ≤ n)
    (h : (iterOf len t).run ds = some ys) :
    wp (iterRun n ds r len) (own r (vt t)) (fun x L => x = ys ∧ L = own r (vt t)) := by
  refine wp_tree_cases (r := r) (t := t) 0 (add_zero _).symm ?_ ?_
  · rintro rfl rfl
    simp only [iterRun]
    have h1 := runG_spec (n := n) (ds := ds) (s := ()) (it := ⟨[], len⟩) (vit := iterOf len .nil)
      (h := [])
      (des := desN 0 .unbounded .unbounded) (R := fun _ _ w wt L => w = [] ∧ wt = [] ∧ L = 0)
      (yld := yldN) (see := fun e : K × V => e) (ys := ys) (L := 0)
      ⟨by rintro _ _ _ _ _ ⟨rfl, rfl, rfl⟩; exact .nil,
        by rintro _ _ u _ _ _ _ _ _ _ _ _ _ _ _ ⟨h, _, _⟩; simp at h⟩
      (by rintro _ _ _ _ _ _ _ _ _ _ ⟨h, _, _⟩; simp at h)
      h ⟨rfl, rfl, rfl⟩ rfl (by simp [iterOf, pushDesc, wsize])
    refine wp_bind (wp_conseq h1 ?_)
    rintro x L ⟨h2, wt, -, -, rfl⟩
    exact wp_pure ⟨by rw [h2, map_id'], rfl⟩
  · rintro a k v lh rh l r' rfl rfl
    rw [add_zero]
    simp only [iterRun]
    have h1 := runG_spec (n := n) (it := ⟨[.desc []], len⟩) (s := ()) (h := [])
      (vit := iterOf len (.node k v lh rh l r'))
      (desN_ok (a := a) (t := vt (.node k v lh rh l r')) (b := false) .unbounded .unbounded)
      yldN_ok h (L := own (some a) (vt (.node k v lh rh l r')))
      ⟨by simp [iterOf, pushDesc, NAct, VT.sub, vt], rfl⟩ rfl
      (by simp only [iterOf, pushDesc, wsize]; omega)
    refine wp_bind (wp_conseq h1 ?_)
    rintro x L ⟨h2, wt, -, rfl⟩
    exact wp_pure ⟨by rw [h2, map_id'], rfl⟩

theorem rangeRun_spec {t : Tree K V} {r : Option Nat} {len n : Nat} {lb ub : Bnd K}
    {ds : List Bool}
    {ys : List (Option (K × V) × Nat)} (hn : 3 * t.size + 1 ≤ n)
    (h : (rangeOf lb ub len t).run ds = some ys) :
    wp (rangeRun n lb ub ds r len) (own r (vt t)) (fun x L => x = ys ∧ L = own r (vt t)) := by
  refine wp_tree_cases (r := r) (t := t) 0 (add_zero _).symm ?_ ?_
  · rintro rfl rfl
    have e : rangeOf lb ub len (.nil : Tree K V) = iterOf len .nil := by
      simp [rangeOf, iterOf, pushDesc, Avl.pruneL, Avl.pruneRrev]
    rw [e] at h
    have := iterRun_spec (r := none) hn h
    simp only [own_vt_nil] at this ⊢
    exact this
  · rintro a k v lh rh l r' rfl rfl
    rw [add_zero]
    simp only [rangeRun]
    have e1 : pushDesc (Tree.node k v lh rh l r') [] = [.desc (.node k v lh rh l r')] := rfl
    refine wp_bind (wp_conseq (pruneG_spec (n := n) (h := [])
      (desN_ok (a := a) (t := vt (.node k v lh rh l r')) (b := false) lb ub)
      (wt := [.desc (.node k v lh rh l r')])
      (L := own (some a) (vt (.node k v lh rh l r')))
      ⟨by simp [NAct, VT.sub, vt], rfl⟩ (by simp only [wsize]; omega)) ?_)
    rintro ⟨⟨⟩, w⟩ L ⟨h1, h2⟩
    refine wp_bind (wp_conseq (pruneBackG_spec (n := n) (desN_ok lb ub)
      (wt := (Avl.pruneL lb ub [.desc (.node k v lh rh l r')]).reverse) (by simpa using h2)
      (by rw [wsize_reverse]; simp only [wsize] at h1; omega)) ?_)
    rintro ⟨⟨⟩, w'⟩ L ⟨h3, h4⟩
    have h5 := runG_spec (n := n) (it := ⟨w'.reverse, len⟩) (desN_ok .unbounded .unbounded) yldN_ok
      h h4 rfl (by
        simp only [rangeOf, e1, wsize_reverse] at h3 ⊢
        simp only [wsize] at h1; omega)
    refine wp_bind (wp_conseq h5 ?_)
    rintro x L ⟨h2, wt, -, rfl⟩
    exact wp_pure ⟨by rw [h2, map_id'], rfl⟩

/-! ## Owning -/

/-- What the worklist of an owning iterator holds. -/
def OwnW : List (HAct (OwnN K V) (K × V)) → List (Act K V) → Multiset (Handle (ND K V))
  | .desc (.arcked a) :: w, .desc t :: wt => own (some a) (vt t) + OwnW w wt
  | .desc (.owned _ l r) :: w, .desc (.node _ _ _ _ tl tr) :: wt =>
    own l (vt tl) + own r (vt tr) + OwnW w wt
  | _ :: w, _ :: wt => OwnW w wt
  | _, _ => 0

/-- The items of the worklist of an owning iterator. -/
def IAct (D : Nat) : HAct (OwnN K V) (K × V) → Act K V → Prop
  | .desc (.arcked _), .desc s => isNode s = true ∧ s.size ≤ D
  | .desc (.owned d _ _), .desc (.node k v lh rh tl tr) =>
    d = ⟨k, v, lh, rh⟩ ∧ (Tree.node k v lh rh tl tr).size ≤ D
  | .ret e, .ret e' => e = e'
  | _, _ => False

/-- The worklist of an owning iterator. -/
def IRel (D : Nat) : Rel K V (ND K V) Unit (OwnN K V) (K × V) :=
  fun _ _ w wt L => List.Forall₂ (IAct D) w wt ∧ L = OwnW w wt

theorem IAct.kind {D : Nat} {x : HAct (OwnN K V) (K × V)} {y : Act K V} (h : IAct D x y) :
    Kind x y := by
  cases x with
  | ret => cases y <;> simp_all [IAct, Kind]
  | desc m =>
    cases y with
    | ret => cases m <;> simp_all [IAct]
    | desc t => cases m <;> cases t <;> simp_all [IAct, Kind]

theorem OwnW_append {D : Nat} {u : List (HAct (OwnN K V) (K × V))} {ut : List (Act K V)}
    {w : List (HAct (OwnN K V) (K × V))} {wt : List (Act K V)}
    (h : List.Forall₂ (IAct D) u ut) : OwnW (u ++ w) (ut ++ wt) = OwnW u ut + OwnW w wt := by
  induction h with
  | nil => simp [OwnW]
  | @cons x y u ut hxy h ih =>
    cases x with
    | ret i => simp only [List.cons_append, OwnW, ih]
    | desc m =>
      cases m with
      | arcked a =>
        cases y with
        | ret => simp [IAct] at hxy
        | desc t => simp only [List.cons_append, OwnW, ih, add_assoc]
      | owned d l r =>
        cases y with
        | ret => simp [IAct] at hxy
        | desc t =>
          cases t with
          | nil => simp [IAct] at hxy
          | node => simp only [List.cons_append, OwnW, ih, add_assoc]

theorem optToIterNode_spec {D : Nat} {r : Option Nat} {t : Tree K V} (hD : t.size ≤ D) :
    wp (optToIterNode r) (own r (vt t)) (fun m L =>
      List.Forall₂ (IAct D) (optD m) (pushDesc t []) ∧ L = OwnW (optD m) (pushDesc t [])) := by
  refine wp_tree_cases (r := r) (t := t) 0 (add_zero _).symm ?_ ?_
  · rintro rfl rfl
    exact wp_pure ⟨.nil, rfl⟩
  · rintro a k v lh rh l r' rfl rfl
    simp only [optToIterNode]
    refine wp_tryUnwrap 0 rfl ?_ ?_
    · exact wp_pure ⟨by simp [optD, pushDesc, IAct, hD], by simp [optD, pushDesc, OwnW]⟩
    · intro ks hks
      obtain ⟨l1, r1, rfl⟩ := two_links hks
      exact wp_pure ⟨by simp [optD, pushDesc, IAct, hD], by simp [optD, pushDesc, OwnW, owns_cons]⟩

theorem desI_ok (D : Nat) : DesOk (desI (K := K) (V := V) D) .unbounded .unbounded (IRel D) where
  kind := fun h => h.1.imp fun _ _ h => h.kind
  step := by
    rintro h s u n w ut k v lh rh l r wt L hl ⟨hR, rfl⟩
    obtain ⟨h1, h2⟩ := (forall₂_app hl).1 hR
    rw [OwnW_append h1]
    have e1 : partsT .unbounded .unbounded k v l r = pushDesc l [] ++ ([.ret (k, v)] ++ pushDesc r []) := by
      rw [partsT_eq]; rfl
    rw [e1]
    have fin : ∀ {l1 r1 : Option (OwnN K V)}, List.Forall₂ (IAct D) (optD l1) (pushDesc l []) →
        List.Forall₂ (IAct D) (optD r1) (pushDesc r []) →
        IRel D h s (u ++ (optD l1 ++ (optR (some (k, v)) ++ (optD r1 ++ w))))
          (ut ++ (pushDesc l [] ++ ([Act.ret (k, v)] ++ pushDesc r []) ++ wt))
          (OwnW (optD l1) (pushDesc l []) + (OwnW (optD r1) (pushDesc r []) + (OwnW u ut + OwnW w wt))) := by
      intro l1 r1 hl1 hr1
      have hw : List.Forall₂ (IAct D) w wt := by
        simp only [List.forall₂_cons] at h2; exact h2.2
      have hm : List.Forall₂ (IAct D) (optR (some (k, v))) [Act.ret (k, v)] := by
        simp [optR, IAct]
      simp only [List.append_assoc]
      refine ⟨List.rel_append h1 (List.rel_append hl1 (List.rel_append hm (List.rel_append hr1 hw))), ?_⟩
      rw [OwnW_append h1, OwnW_append hl1, OwnW_append hm, OwnW_append hr1]
      have : OwnW (optR (some (k, v))) [Act.ret (k, v)] = 0 := rfl
      rw [this]
      simp only [zero_add]
      ac_rfl
    cases n with
    | arcked a =>
      simp only [List.forall₂_cons, IAct] at h2
      obtain ⟨⟨-, hD⟩, h2⟩ := h2
      simp only [Tree.size] at hD
      simp only [desI, OwnW]
      wcall readN_own
      rintro _ _ ⟨rfl, rfl⟩
      wcall incAt_spec (a := a) (t := vt (.node k v lh rh l r)) (u := false) (path := [])
        (p := ⟨k, v, lh, rh⟩) (ts := [vt l, vt r]) (i := 0) rfl (by simp)
      rintro l1 _ rfl
      wcall incAt_spec (a := a) (t := vt (.node k v lh rh l r)) (u := false) (path := [])
        (p := ⟨k, v, lh, rh⟩) (ts := [vt l, vt r]) (i := 1) rfl (by simp)
      rintro r1 _ rfl
      dsimp only
      have hdr := drop_spec (r := some a) (t := .node k v lh rh l r) (D := D) (by simp only [Tree.size]; omega)
      have conv : ∀ {α : Type} {p : Prog (ND K V) α} {Q : α → Multiset (Handle (ND K V)) → Prop}
          {x : Option Nat} {t : Tree K V} {M : Multiset (Handle (ND K V))}
          (G : Multiset (Handle (ND K V))), M = own x (vt t) + G → t.size ≤ D →
          (List.Forall₂ (IAct D) (optD (x.map OwnN.arcked)) (pushDesc t []) →
            wp p (OwnW (optD (x.map OwnN.arcked)) (pushDesc t []) + G) Q) → wp p M Q := by
        intro α p Q x t M G hM ht hk
        refine wp_tree_cases G hM ?_ ?_
        · rintro rfl rfl
          simpa [optD, pushDesc, OwnW] using hk .nil
        · rintro a k v lh rh l r rfl rfl
          have := hk (by simp [optD, pushDesc, IAct, ht])
          simpa [optD, pushDesc, OwnW] using this
      refine wp_call (L := own (some a) (vt (.node k v lh rh l r)))
        (own l1 (vt l) + (own r1 (vt r) + (OwnW u ut + OwnW w wt))) hdr ?_ ?_
      · simp only [List.getElem_cons_zero, List.getElem_cons_succ, add_zero]
        show _ = own (some a) (vt (.node k v lh rh l r)) + _
        have : ({⟨some a, vt (.node k v lh rh l r), false⟩} : Multiset (Handle (ND K V))) =
          own (some a) (vt (.node k v lh rh l r)) := rfl
        rw [this]
        ac_rfl
      rintro _ _ rfl
      rw [zero_add]
      refine conv (x := l1) (t := l) _ rfl (by omega) ?_
      intro hl1
      refine conv (x := r1) (t := r) (OwnW (optD (l1.map OwnN.arcked)) (pushDesc l []) + (OwnW u ut + OwnW w wt)) (by ac_rfl) (by omega) ?_
      intro hr1
      refine wp_pure ?_
      have := fin hl1 hr1
      rw [add_left_comm] at this
      exact this
    | owned d l1 r1 =>
      simp only [List.forall₂_cons, IAct] at h2
      obtain ⟨⟨rfl, hD⟩, h2⟩ := h2
      simp only [Tree.size] at hD
      simp only [desI, OwnW]
      wcall optToIterNode_spec (r := l1) (t := l) (D := D) (by omega)
      rintro l2 _ ⟨hl2, rfl⟩
      wcall optToIterNode_spec (r := r1) (t := r) (D := D) (by omega)
      rintro r2 _ ⟨hr2, rfl⟩
      refine wp_pure ?_
      have := fin hl2 hr2
      rw [add_left_comm] at this
      exact this

theorem yldI_ok (D : Nat) : YldOk (V := V) yldN (fun e => e) (IRel (K := K) D) := by
  rintro h s u i w ut e wt L hl ⟨hR, rfl⟩
  obtain ⟨h1, h2⟩ := (forall₂_app hl).1 hR
  simp only [List.forall₂_cons, IAct] at h2
  obtain ⟨rfl, h2⟩ := h2
  refine ⟨(), rfl, (forall₂_app hl).2 ⟨h1, h2⟩, ?_⟩
  rw [OwnW_append h1, OwnW_append h1]
  rfl

theorem dropWork_spec {D : Nat} : ∀ {w : List (HAct (OwnN K V) (K × V))} {wt : List (Act K V)},
    List.Forall₂ (IAct D) w wt → wp (dropWork D w) (OwnW w wt) (fun _ L => L = 0) := by
  intro w wt h
  induction h with
  | nil => exact wp_pure rfl
  | @cons x y w wt hxy h ih =>
    cases x with
    | ret i => simpa only [dropWork, OwnW] using ih
    | desc m =>
      cases m with
      | arcked a =>
        cases y with
        | ret => simp [IAct] at hxy
        | desc t =>
          simp only [dropWork, OwnW]
          wcall drop_spec (r := some a) (t := t) hxy.2
          rintro _ _ rfl
          rw [zero_add]
          exact ih
      | owned d l r =>
        cases y with
        | ret => simp [IAct] at hxy
        | desc t =>
          cases t with
          | nil => simp [IAct] at hxy
          | node k v lh rh tl tr =>
            have hD := hxy.2
            simp only [Tree.size] at hD
            simp only [dropWork, OwnW]
            wcall drop_spec (r := l) (t := tl) (D := D) (by omega)
            rintro _ _ rfl
            wcall drop_spec (r := r) (t := tr) (D := D) (by omega)
            rintro _ _ rfl
            rw [zero_add]
            exact ih

theorem intoRun_spec {t : Tree K V} {r : Option Nat} {len D n : Nat} {ds : List Bool}
    {ys : List (Option (K × V) × Nat)} (hD : t.size ≤ D) (hn : 3 * t.size + 1 ≤ n)
    (h : (iterOf len t).run ds = some ys) :
    wp (intoRun D n ds r len) (own r (vt t)) (fun x L => x = ys ∧ L = 0) := by
  simp only [intoRun]
  refine wp_bind (wp_conseq (optToIterNode_spec hD) ?_)
  rintro m L hm
  have h1 := runG_spec (n := n) (it := ⟨optD m, len⟩) (s := ()) (h := [])
      (desI_ok D) (yldI_ok D) h (L := L) hm rfl (by
        have := Avl.wsize_pushDesc t []
        simp only [iterOf]; simp only [wsize] at this; omega)
  refine wp_bind (wp_conseq h1 ?_)
  rintro x L ⟨h2, wt, h3, rfl⟩
  refine wp_bind (wp_conseq (dropWork_spec h3) ?_)
  rintro _ _ rfl
  exact wp_pure ⟨by rw [h2, map_id'], rfl⟩

end Verif.AvlH
