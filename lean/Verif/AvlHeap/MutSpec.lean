import Mathlib.Algebra.BigOperators.Group.Multiset.Basic
import Verif.AvlHeap.IterSpec
/-!
# Mutable iterators on reference-counted memory
-/
namespace Verif.AvlH
open Heap
open Avl (Tree Act pushDesc wsize lbGe ubLe iterOf rangeOf items slotsOf seenOf)

variable {K V : Type}

/-- What is in slot `i` after `g j` was written through the `j`-th reference obtained, which
pointed to the `j`-th of `slots` (numbered from `j0`). -/
def updF (g : Nat → K → V → V) : Nat → List Nat → Nat → K → V → V
  | _, [], _, _, v => v
  | j, s :: ss, i, k, v => if i = s then g j k v else updF g (j + 1) ss i k v

/-- A tree of slots with the contents `f` of the slots. -/
def unl (f : Nat → K → V → V) : Tree K (Nat × V) → Tree K V
  | .nil => .nil
  | .node k iv lh rh l r => .node k (f iv.1 k iv.2) lh rh (unl f l) (unl f r)

section
variable {g : Nat → K → V → V}

theorem updF_not_mem {ss : List Nat} {i : Nat} {k : K} {v : V} (h : i ∉ ss) : ∀ {j : Nat},
    updF g j ss i k v = v := by
  induction ss with
  | nil => intro j; rfl
  | cons s ss ih =>
    intro j
    simp only [List.mem_cons, not_or] at h
    simp [updF, h.1, ih h.2]

theorem updF_new {ss : List Nat} {i : Nat} {k : K} {v : V} (h : i ∉ ss) : ∀ {j : Nat},
    updF g j (ss ++ [i]) i k v = g (j + ss.length) k v := by
  induction ss with
  | nil => intro j; simp [updF]
  | cons s ss ih =>
    intro j
    simp only [List.mem_cons, not_or] at h
    simp only [List.cons_append, updF, h.1, if_false, ih h.2, List.length_cons]
    congr 1; omega

theorem updF_other {ss : List Nat} {i x : Nat} {k : K} {v : V} (h : i ≠ x) : ∀ {j : Nat},
    updF g j (ss ++ [x]) i k v = updF g j ss i k v := by
  induction ss with
  | nil => intro j; simp [updF, h]
  | cons s ss ih => intro j; simp only [List.cons_append, updF, ih]

/-- The slots of a tree. -/
def labs (t : Tree K (Nat × V)) : List Nat := t.toList.map (·.2.1)

theorem unl_congr {f f' : Nat → K → V → V} : ∀ {t : Tree K (Nat × V)},
    (∀ i ∈ labs t, ∀ k v, f i k v = f' i k v) → unl f t = unl f' t
  | .nil, _ => rfl
  | .node k iv lh rh l r, h => by
    simp only [labs, Tree.toList, List.map_append, List.map_cons, List.mem_append,
      List.mem_cons] at h
    simp only [unl]
    rw [h iv.1 (Or.inr (Or.inl rfl)), unl_congr (t := l) (fun i hi => h i (Or.inl hi)),
      unl_congr (t := r) (fun i hi => h i (Or.inr (Or.inr hi)))]

theorem unl_label (t : Tree K V) (n : Nat) : unl (updF g 0 []) (t.label n) = t := by
  induction t generalizing n with
  | nil => rfl
  | node k v lh rh l r ihl ihr => simp only [Tree.label, unl, ihl, ihr]; rfl

theorem size_label (t : Tree K V) (n : Nat) : (t.label n).size = t.size := by
  induction t generalizing n with
  | nil => rfl
  | node k v lh rh l r ihl ihr => simp [Tree.label, Tree.size, ihl, ihr]

theorem size_unl {f : Nat → K → V → V} (t : Tree K (Nat × V)) : (unl f t).size = t.size := by
  induction t with
  | nil => rfl
  | node k iv lh rh l r ihl ihr => simp [unl, Tree.size, ihl, ihr]

theorem labs_label_nodup (t : Tree K V) (n : Nat) : (labs (t.label n)).Nodup := by
  rw [labs, Avl.label_toList, List.map_map]
  have : ((fun x : K × (Nat × V) => x.2.1) ∘ fun (x : (K × V) × Nat) => (x.1.1, (x.2, x.1.2))) =
      Prod.snd := rfl
  rw [this, List.zipIdx_map_snd]
  exact List.nodup_range'

end

/-! ## Nodes taken apart -/

/-- A node taken apart: its address, original contents with slot, links. -/
structure OE (K V : Type) where
  addr : Nat
  key : K
  slot : Nat
  val : V
  lh : Int
  rh : Int
  left : Option Nat
  right : Option Nat

/-- The contents of a node taken apart as kept by the iterator. -/
def OE.real (f : Nat → K → V → V) (e : OE K V) : Nat × ND K V × Option Nat × Option Nat :=
  (e.addr, ⟨e.key, f e.slot e.key e.val, e.lh, e.rh⟩, e.left, e.right)

/-- The nodes whose contents have been moved out. -/
def holes (O : List (OE K V)) : Multiset (Handle (ND K V)) :=
  (O.map (fun e => hole e.addr (⟨e.key, e.val, e.lh, e.rh⟩ : ND K V))).sum

/-- Links held besides. -/
def pown (f : Nat → K → V → V) (Q : Multiset (Option Nat × Tree K (Nat × V))) :
    Multiset (Handle (ND K V)) :=
  (Q.map (fun x => own x.1 (vt (unl f x.2)))).sum

/-- Putting the opened nodes back, last one first, with the links `Q` in their places makes the
tree `t` below link `r`. -/
inductive Asm : List (OE K V) → Multiset (Option Nat × Tree K (Nat × V)) → Option Nat →
    Tree K (Nat × V) → Prop
  | nil (r t) : Asm [] {(r, t)} r t
  | snoc {O Q e tl tr r t} :
    Asm O ({(some e.addr, .node e.key (e.slot, e.val) e.lh e.rh tl tr)} + Q) r t →
    Asm (O ++ [e]) ({(e.left, tl)} + ({(e.right, tr)} + Q)) r t

theorem pown_add (f : Nat → K → V → V) (Q R) : pown f (Q + R) = pown f Q + pown f R := by
  simp [pown]

@[simp] theorem pown_singleton (f : Nat → K → V → V) (x) :
    pown f {x} = own x.1 (vt (unl f x.2)) := by simp [pown]

@[simp] theorem pown_zero (f : Nat → K → V → V) : pown f 0 = 0 := by simp [pown]

theorem holes_snoc (O : List (OE K V)) (e) :
    holes (O ++ [e]) = holes O + hole e.addr ⟨e.key, e.val, e.lh, e.rh⟩ := by simp [holes]

theorem closeAll_spec {f : Nat → K → V → V} {O : List (OE K V)} {Q r t} (h : Asm O Q r t) :
    wp (closeAll (O.map (OE.real f)).reverse) (holes O + pown f Q)
      (fun _ L => L = own r (vt (unl f t))) := by
  induction h with
  | nil r t => exact wp_pure (by simp [holes])
  | @snoc O Q e tl tr r t h ih =>
    simp only [List.map_append, List.map_cons, List.map_nil, List.reverse_append, List.reverse_cons,
      List.reverse_nil, List.nil_append, List.cons_append, closeAll, OE.real, holes_snoc, pown_add,
      pown_singleton]
    wcall closeN_tree (d := ⟨e.key, e.val, e.lh, e.rh⟩) (tl := unl f tl) (tr := unl f tr)
    rintro _ _ rfl
    refine wp_forget _ (by wframe) ?_
    rw [pown_add, pown_singleton] at ih
    have e1 : ∀ A B C : Multiset (Handle (ND K V)), A + (B + C) = B + (A + C) := add_left_comm
    rw [e1]
    exact ih

/-- The slots of everything. -/
theorem Asm.labs {O : List (OE K V)} {Q r t} (h : Asm O Q r t) :
    ((O.map (·.slot) : List Nat) : Multiset Nat) +
      (Q.map (fun x => (AvlH.labs x.2 : Multiset Nat))).sum = (AvlH.labs t : Multiset Nat) := by
  induction h with
  | nil r t => simp
  | @snoc O Q e tl tr r t h ih =>
    rw [← ih]
    simp only [List.map_append, List.map_cons, List.map_nil, Multiset.map_add,
      Multiset.map_singleton, Multiset.sum_add, Multiset.sum_singleton, AvlH.labs, Tree.toList]
    simp only [← Multiset.coe_add, ← Multiset.cons_coe, ← Multiset.singleton_add,
      Multiset.coe_nil, add_zero]
    ac_rfl

/-! ## The worklist -/

/-- The nodes to visit, known to be ours alone. -/
def uw (f : Nat → K → V → V) : List (HAct Nat Nat) → List (Act K (Nat × V)) →
    Multiset (Handle (ND K V))
  | .desc a :: w, .desc t :: wt => uown a (vt (unl f t)) + uw f w wt
  | _ :: w, _ :: wt => uw f w wt
  | _, _ => 0

/-- The same, as links. -/
def pend : List (HAct Nat Nat) → List (Act K (Nat × V)) →
    Multiset (Option Nat × Tree K (Nat × V))
  | .desc a :: w, .desc t :: wt => {(some a, t)} + pend w wt
  | _ :: w, _ :: wt => pend w wt
  | _, _ => 0

/-- An element of the worklist. -/
def MAct (D : Nat) (O : List (OE K V)) : HAct Nat Nat → Act K (Nat × V) → Prop
  | .desc _, .desc s => isNode s = true ∧ s.size ≤ D
  | .ret p, .ret e => ∃ o, O[p]? = some o ∧ e = (o.key, (o.slot, o.val))
  | _, _ => False

theorem MAct.kind {D : Nat} {O : List (OE K V)} {x y} (h : MAct D O x y) : Kind x y := by
  cases x <;> cases y <;> simp_all [MAct, Kind]

theorem MAct.snoc {D : Nat} {O : List (OE K V)} {e x y} (h : MAct D O x y) : MAct D (O ++ [e]) x y := by
  cases x <;> cases y <;> simp_all only [MAct]
  · trivial
  · obtain ⟨o, h1, h2⟩ := h
    refine ⟨o, ?_, h2⟩
    have := (List.getElem?_eq_some_iff.1 h1).1
    rw [List.getElem?_append_left this, h1]

theorem uw_append {f : Nat → K → V → V} {u : List (HAct Nat Nat)} {ut : List (Act K (Nat × V))}
    {w wt} (h : u.length = ut.length) : uw f (u ++ w) (ut ++ wt) = uw f u ut + uw f w wt := by
  induction u generalizing ut with
  | nil => cases ut with
    | nil => simp [uw]
    | cons => simp at h
  | cons x u ih =>
    cases ut with
    | nil => simp at h
    | cons y ut =>
      simp only [List.length_cons, Nat.add_right_cancel_iff] at h
      cases x <;> cases y <;> simp only [List.cons_append, uw, ih h, add_assoc]

theorem pend_append {u : List (HAct Nat Nat)} {ut : List (Act K (Nat × V))}
    {w wt} (h : u.length = ut.length) : pend (u ++ w) (ut ++ wt) = pend u ut + pend w wt := by
  induction u generalizing ut with
  | nil => cases ut with
    | nil => simp [pend]
    | cons => simp at h
  | cons x u ih =>
    cases ut with
    | nil => simp at h
    | cons y ut =>
      simp only [List.length_cons, Nat.add_right_cancel_iff] at h
      cases x <;> cases y <;> simp only [List.cons_append, pend, ih h, add_assoc]

theorem uw_congr {f f' : Nat → K → V → V} : ∀ {w : List (HAct Nat Nat)} {wt : List (Act K (Nat × V))},
    (∀ x ∈ pend w wt, unl f x.2 = unl f' x.2) → uw f w wt = uw f' w wt
  | [], _, _ => by cases ‹List (Act K (Nat × V))› <;> rfl
  | _ :: _, [], _ => by rename_i x _ _; cases x <;> rfl
  | .desc a :: w, .desc t :: wt, h => by
    simp only [pend, Multiset.mem_add, Multiset.mem_singleton] at h
    simp only [uw]
    rw [h _ (Or.inl rfl), uw_congr (fun x hx => h x (Or.inr hx))]
  | .ret p :: w, .desc t :: wt, h => uw_congr (w := w) (wt := wt) h
  | .desc a :: w, .ret e :: wt, h => uw_congr (w := w) (wt := wt) h
  | .ret p :: w, .ret e :: wt, h => uw_congr (w := w) (wt := wt) h

theorem wp_forget_all {α : Type} {p : Prog (ND K V) α} {Z : α → Multiset (Handle (ND K V)) → Prop}
    {f : Nat → K → V → V} : ∀ {w : List (HAct Nat Nat)} {wt : List (Act K (Nat × V))}
    {G : Multiset (Handle (ND K V))}, wp p (pown f (pend w wt) + G) Z → wp p (uw f w wt + G) Z
  | [], wt, _, h => by cases wt <;> simpa [uw, pend] using h
  | x :: _, [], _, h => by cases x <;> simpa [uw, pend] using h
  | .desc a :: w, .desc t :: wt, G, h => by
    simp only [uw]
    simp only [pend, pown_add, pown_singleton] at h
    refine wp_forget _ (by wframe) ?_
    have := wp_forget_all (w := w) (wt := wt) (f := f) (G := own (some a) (vt (unl f t)) + G)
      (p := p) (Z := Z) (by
        have e : ∀ A B C : Multiset (Handle (ND K V)), A + B + C = B + (A + C) := fun A B C => by ac_rfl
        rw [← e]; exact h)
    have e : ∀ A B C : Multiset (Handle (ND K V)), A + (B + C) = B + (A + C) := add_left_comm
    rw [e]
    exact this
  | .ret p :: w, .desc t :: wt, G, h => wp_forget_all (w := w) (wt := wt) h
  | .desc a :: w, .ret e :: wt, G, h => wp_forget_all (w := w) (wt := wt) h
  | .ret p :: w, .ret e :: wt, G, h => wp_forget_all (w := w) (wt := wt) h

/-- The state of a mutable iterator on the tree `t0` below `root`. -/
def MRel (D : Nat) (g : Nat → K → V → V) (root : Nat) (t0 : Tree K (Nat × V)) :
    Rel K (Nat × V) (ND K V) (MS K V) Nat Nat := fun h s w wt L =>
  ∃ (O : List (OE K V)) (Q : Multiset (Option Nat × Tree K (Nat × V))),
    s.opened = O.map (OE.real (updF g 0 (h.map (·.2.1)))) ∧ s.count = h.length ∧
    List.Forall₂ (MAct D O) w wt ∧ Asm O (pend w wt + Q) (some root) t0 ∧
    ((items wt).map (·.2.1) ++ h.map (·.2.1)).Nodup ∧
    L = holes O + (uw (updF g 0 (h.map (·.2.1))) w wt + pown (updF g 0 (h.map (·.2.1))) Q)

theorem mutKid_spec {D : Nat} {keep : Bool} {x : Option Nat} {t : Tree K (Nat × V)}
    {f : Nat → K → V → V} {O : List (OE K V)} (hD : t.size ≤ D) :
    wp (mutKid D keep x) (own x (vt (unl f t))) (fun y L => ∃ Q,
      pend (optD y.2) (if keep then pushDesc t [] else []) + Q = {(y.1, t)} ∧
      List.Forall₂ (MAct D O) (optD y.2) (if keep then pushDesc t [] else []) ∧
      L = uw f (optD y.2) (if keep then pushDesc t [] else []) + pown f Q) := by
  cases t with
  | nil =>
    refine wp_nil (r := x) 0 (add_zero _).symm ?_
    rintro rfl
    refine wp_pure ⟨{(none, .nil)}, ?_⟩
    cases keep <;> simp [optD, pushDesc, pend, uw, unl]
  | node k iv lh rh l r =>
    simp only [unl]
    refine wp_node (r := x) 0 (add_zero _).symm ?_
    rintro a rfl
    rw [add_zero]
    cases keep with
    | false =>
      exact wp_pure ⟨{(some a, .node k iv lh rh l r)}, by simp [optD, pend, uw, unl]⟩
    | true =>
      simp only [mutKid]
      wcall makeMut_tree ?_
      · simpa only [Tree.size, size_unl] using hD
      rintro a' _ rfl
      exact wp_pure ⟨0, by simp [optD, pend, uw, unl, pushDesc, MAct, hD]⟩

theorem items_partsT (lb ub : Bnd K) (k : K) (v : Nat × V) (l r : Tree K (Nat × V)) :
    (items (partsT lb ub k v l r)).Sublist (l.toList ++ (k, v) :: r.toList) := by
  rw [partsT_eq]
  simp only [Avl.items_append]
  have e : l.toList ++ (k, v) :: r.toList = l.toList ++ ([(k, v)] ++ r.toList) := by simp
  rw [e]
  refine List.Sublist.append ?_ (List.Sublist.append ?_ ?_)
  · split <;> simp
  · split <;> simp [Act.items]
  · split <;> simp

theorem desM_ok {D : Nat} {g : Nat → K → V → V} {root : Nat} {t0 : Tree K (Nat × V)}
    (lb ub : Bnd K) : DesOk (desM D lb ub) lb ub (MRel D g root t0) where
  kind := by
    rintro h s w wt L ⟨O, Q, -, -, h1, -⟩
    exact h1.imp fun _ _ h => h.kind
  step := by
    rintro h s u n w ut k ⟨i, v⟩ lh rh l r wt L hl ⟨O, Q, ho, hc, hF, hA, hN, rfl⟩
    obtain ⟨h1, h2⟩ := (forall₂_app hl).1 hF
    rw [uw_append hl]
    rw [pend_append hl] at hA
    generalize hf : updF g 0 (h.map (·.2.1)) = f at ho ⊢
    simp only [List.forall₂_cons, MAct] at h2
    obtain ⟨⟨-, hD⟩, h2⟩ := h2
    simp only [Tree.size] at hD
    simp only [desM, uw, unl]
    wcall openN_tree
    rintro _ _ ⟨l1, r1, rfl, rfl⟩
    dsimp only
    wcall mutKid_spec (x := l1) (t := l) (f := f) (O := O) (keep := !lbGe lb k) (D := D) (by omega)
    rintro l2 _ ⟨Ql, el, Fl, rfl⟩
    wcall mutKid_spec (x := r1) (t := r) (f := f) (O := O) (keep := !ubLe ub k) (D := D) (by omega)
    rintro r2 _ ⟨Qr, er, Fr, rfl⟩
    have c1 : (if !lbGe lb k then pushDesc l [] else []) = (if lbGe lb k then [] else pushDesc l []) := by
      cases lbGe lb k <;> rfl
    have c2 : (if !ubLe ub k then pushDesc r [] else []) = (if ubLe ub k then [] else pushDesc r []) := by
      cases ubLe ub k <;> rfl
    rw [c1] at el Fl ⊢
    rw [c2] at er Fr ⊢
    have Fm : List.Forall₂ (MAct D (O ++ [⟨n, k, i, v, lh, rh, l2.1, r2.1⟩]))
        (optR (if (lb.okLo k && ub.okHi k) = true then some s.opened.length else none))
        (if lb.okLo k && ub.okHi k then [Act.ret (k, (i, v))] else []) := by
      have : s.opened.length = O.length := by rw [ho]; simp
      cases lb.okLo k && ub.okHi k with
      | false => simp [optR]
      | true =>
        simp only [if_true, optR, List.forall₂_cons, MAct, List.forall₂_nil_left_iff, and_true, this]
        exact ⟨⟨n, k, i, v, lh, rh, l2.1, r2.1⟩, by simp, rfl⟩
    have zm1 : uw f (optR (if (lb.okLo k && ub.okHi k) = true then some s.opened.length else none))
        (if lb.okLo k && ub.okHi k then [Act.ret (k, (i, v))] else []) = 0 := by
      cases lb.okLo k && ub.okHi k <;> rfl
    have zm2 : pend (optR (if (lb.okLo k && ub.okHi k) = true then some s.opened.length else none))
        (if lb.okLo k && ub.okHi k then [Act.ret (k, (i, v))] else []) = 0 := by
      cases lb.okLo k && ub.okHi k <;> rfl
    have hsub : (items (ut ++ (partsT lb ub k (i, v) l r ++ wt))).Sublist
        (items (ut ++ .desc (.node k (i, v) lh rh l r) :: wt)) := by
      simp only [Avl.items_append, Avl.items_cons, Act.items, Tree.toList]
      exact (List.Sublist.refl _).append ((items_partsT lb ub k (i, v) l r).append (List.Sublist.refl _))
    refine wp_pure ⟨O ++ [⟨n, k, i, v, lh, rh, l2.1, r2.1⟩], Ql + (Qr + Q), ?_, hc, ?_, ?_, ?_, ?_⟩
    · simp [ho, OE.real, hf]
    · rw [partsT_eq, List.append_assoc, List.append_assoc]
      exact List.rel_append (h1.imp fun _ _ h => h.snoc) (List.rel_append (Fl.imp fun _ _ h => h.snoc)
        (List.rel_append Fm (List.rel_append (Fr.imp fun _ _ h => h.snoc) (h2.imp fun _ _ h => h.snoc))))
    · rw [partsT_eq, List.append_assoc, List.append_assoc, pend_append hl, pend_append Fl.length_eq,
        pend_append Fm.length_eq, pend_append Fr.length_eq, zm2, zero_add]
      have := Asm.snoc (e := ⟨n, k, i, v, lh, rh, l2.1, r2.1⟩) (tl := l) (tr := r)
        (Q := pend u ut + pend w wt + Q) (O := O) (r := some root) (t := t0) (by
          simp only [pend] at hA
          refine cast (congrArg (fun z => Asm O z (some root) t0) ?_) hA
          ac_rfl)
      rw [← el, ← er] at this
      refine cast (congrArg (fun z => Asm _ z (some root) t0) ?_) this
      ac_rfl
    · exact hN.sublist (List.Sublist.append (hsub.map _) (List.Sublist.refl _))
    · rw [partsT_eq, List.append_assoc, List.append_assoc, hf, uw_append hl, uw_append Fl.length_eq,
        uw_append Fm.length_eq, uw_append Fr.length_eq, zm1, zero_add, pown_add, pown_add, holes_snoc]
      simp only [hole]
      have e1 : f i k v = v := by
        rw [← hf]
        refine updF_not_mem ?_
        have := (List.nodup_append.1 hN).2.2 i (by
          simp only [Avl.items_append, Avl.items_cons, Act.items, Tree.toList, List.map_append,
            List.map_cons, List.mem_append, List.mem_cons]
          tauto)
        intro hi
        exact this i hi rfl
      rw [e1]
      ac_rfl

/-- What the caller sees of an entry. -/
abbrev seeM (e : K × (Nat × V)) : K × V := (e.1, e.2.2)

theorem yldM_ok {D : Nat} {g : Nat → K → V → V} {root : Nat} {t0 : Tree K (Nat × V)}
    (h0 : (labs t0).Nodup) : YldOk (yldM g) seeM (MRel D g root t0) := by
  rintro h s u p w ut e wt L hl ⟨O, Q, ho, hc, hF, hA, hN, rfl⟩
  obtain ⟨h1, h2⟩ := (forall₂_app hl).1 hF
  simp only [List.forall₂_cons, MAct] at h2
  obtain ⟨⟨o, hp, rfl⟩, h2⟩ := h2
  have hw := h2
  have hlab := hA.labs
  have hnd : (((O.map (·.slot) : List Nat) : Multiset Nat) +
      ((pend (u ++ .ret p :: w) (ut ++ .ret (o.key, (o.slot, o.val)) :: wt) + Q).map
        (fun x => (AvlH.labs x.2 : Multiset Nat))).sum).Nodup := by
    rw [hlab]; exact Multiset.coe_nodup.2 h0
  rw [Multiset.nodup_add] at hnd
  obtain ⟨hnO, -, hdis⟩ := hnd
  rw [Multiset.coe_nodup] at hnO
  have hpl : p < O.length := (List.getElem?_eq_some_iff.1 hp).1
  have hpe : O[p] = o := (List.getElem?_eq_some_iff.1 hp).2
  have hoO : o.slot ∈ O.map (·.slot) := List.mem_map.2 ⟨o, hpe ▸ List.getElem_mem hpl, rfl⟩
  -- the slot has not been handed out before
  have hfresh : o.slot ∉ h.map (·.2.1) := by
    have := (List.nodup_append.1 hN).2.2 o.slot (by
      simp only [Avl.items_append, Avl.items_cons, Act.items, List.map_append, List.map_cons,
        List.mem_append, List.mem_cons, List.cons_append, List.nil_append]
      tauto)
    intro hi
    exact this _ hi rfl
  have hother : ∀ x ∈ pend (u ++ .ret p :: w) (ut ++ .ret (o.key, (o.slot, o.val)) :: wt) + Q,
      unl (updF g 0 (h.map (·.2.1))) x.2 = unl (updF g 0 ((h ++ [(o.key, (o.slot, o.val))]).map (·.2.1))) x.2 := by
    intro x hx
    refine unl_congr ?_
    intro i hi k v
    rw [List.map_append, List.map_cons, List.map_nil, updF_other]
    rintro rfl
    refine Multiset.disjoint_left.1 hdis (Multiset.mem_coe.2 hoO) ?_
    obtain ⟨M, hM⟩ := Multiset.exists_cons_of_mem hx
    rw [hM, Multiset.map_cons, Multiset.sum_cons, Multiset.mem_add]
    exact Or.inl (Multiset.mem_coe.2 hi)
  have hget : s.opened[p]? = some (OE.real (updF g 0 (h.map (·.2.1))) o) := by
    rw [ho, List.getElem?_map, hp]; rfl
  have hval : updF g 0 (h.map (·.2.1)) o.slot o.key o.val = o.val := updF_not_mem hfresh
  refine ⟨_, by rw [yldM, hget]; simp only [OE.real, hval]; rfl, O, Q, ?_, by simp [hc], ?_, ?_, ?_, ?_⟩
  · dsimp only
    rw [ho]
    apply List.ext_getElem?
    intro q
    rw [List.getElem?_set]
    by_cases hq : p = q
    · subst hq
      simp only [if_true, List.length_map, hpl, List.getElem?_map, hp, Option.map_some, OE.real,
        List.map_append, List.map_cons, List.map_nil, hval, updF_new hfresh, hc, Nat.zero_add]
    · rw [if_neg hq, List.getElem?_map, List.getElem?_map]
      cases hO : O[q]? with
      | none => rfl
      | some o' =>
        have hql : q < O.length := (List.getElem?_eq_some_iff.1 hO).1
        have hqe : O[q] = o' := (List.getElem?_eq_some_iff.1 hO).2
        have hne : o'.slot ≠ o.slot := by
          intro he
          apply hq
          have := (List.nodup_iff_injective_get.1 hnO) (a₁ := ⟨p, by simpa using hpl⟩)
            (a₂ := ⟨q, by simpa using hql⟩) (by simp [hpe, hqe, he])
          simpa using this
        simp only [Option.map_some, OE.real, List.map_append, List.map_cons, List.map_nil,
          updF_other hne]
  · exact (forall₂_app hl).2 ⟨h1, h2⟩
  · rw [pend_append hl] at hA ⊢
    exact hA
  · have : ((items (ut ++ wt)).map (·.2.1) ++ (h ++ [(o.key, (o.slot, o.val))]).map (·.2.1)).Perm
        ((items (ut ++ .ret (o.key, (o.slot, o.val)) :: wt)).map (·.2.1) ++ h.map (·.2.1)) := by
      simp only [Avl.items_append, Avl.items_cons, Act.items, List.map_append, List.map_cons,
        List.map_nil, List.append_assoc, List.cons_append, List.nil_append]
      refine List.Perm.append_left _ ?_
      rw [← List.append_assoc]
      exact (List.perm_append_comm (l₂ := [o.slot])).trans (by simp)
    exact this.nodup_iff.2 hN
  · rw [uw_append hl, uw_append hl]
    rw [pend_append hl] at hother
    have e1 := uw_congr (w := u) (wt := ut) (fun x hx => hother x (by simp [hx]))
    have e2 := uw_congr (w := w) (wt := wt) (fun x hx => hother x (by simp [pend, hx]))
    have e3 : pown (updF g 0 (h.map (·.2.1))) Q =
        pown (updF g 0 ((h ++ [(o.key, (o.slot, o.val))]).map (·.2.1))) Q := by
      unfold pown
      congr 1
      refine Multiset.map_congr rfl ?_
      intro x hx
      rw [hother x (by simp [hx])]
    rw [← e1, ← e2, ← e3]
    rfl

theorem slots_yields (ys : List (Option (K × (Nat × V)) × Nat)) :
    (yields ys).map (·.2.1) = slotsOf ys := by
  simp only [yields, slotsOf, List.map_filterMap]

theorem MRel_start {D : Nat} {g : Nat → K → V → V} {a : Nat} {t : Tree K V} (hn : isNode t = true)
    (hD : t.size ≤ D) :
    MRel D g a (t.label 0) [] ⟨[], 0⟩ [.desc a] [.desc (t.label 0)] (uown a (vt t)) := by
  refine ⟨[], 0, rfl, rfl, ?_, ?_, ?_, ?_⟩
  · refine .cons ⟨?_, by rw [size_label]; exact hD⟩ .nil
    cases t with
    | nil => simp at hn
    | node => rfl
  · simpa [pend] using Asm.nil (some a) (t.label 0)
  · have := labs_label_nodup t 0
    simpa [items, Act.items, labs] using this
  · simp [holes, uw, unl_label]

theorem MRel_end {D : Nat} {g : Nat → K → V → V} {a : Nat} {t : Tree K (Nat × V)} {h s w wt L}
    (hR : MRel D g a t h s w wt L) :
    wp (closeAll s.opened.reverse) L
      (fun _ L => L = own (some a) (vt (unl (updF g 0 (h.map (·.2.1))) t))) := by
  obtain ⟨O, Q, ho, -, -, hA, -, rfl⟩ := hR
  rw [ho]
  have e : ∀ A B C : Multiset (Handle (ND K V)), A + (B + C) = B + (A + C) := add_left_comm
  rw [e]
  refine wp_forget_all ?_
  rw [e, ← pown_add]
  exact closeAll_spec hA

theorem runG_none {D n len : Nat} {ds : List Bool} {g : Nat → K → V → V}
    {ys : List (Option (K × (Nat × V)) × Nat)}
    (h : (iterOf len (.nil : Tree K (Nat × V))).run ds = some ys) :
    wp (runG (desM D .unbounded .unbounded) (yldM g) n ds ⟨[], 0⟩ ⟨[], len⟩) 0
      (fun x L => x.2.1 = seenOf ys ∧ yields ys = [] ∧ L = 0) := by
  have h1 := runG_spec (n := n) (ds := ds) (s := (⟨[], 0⟩ : MS K V)) (it := ⟨[], len⟩)
      (vit := iterOf len .nil) (h := [])
      (des := desM D .unbounded .unbounded)
      (R := fun h _ w wt L => h = [] ∧ w = [] ∧ wt = [] ∧ L = 0)
      (yld := yldM g) (see := seeM) (ys := ys) (L := 0)
      ⟨by rintro _ _ _ _ _ ⟨rfl, rfl, rfl, rfl⟩; exact .nil,
        by rintro _ _ u _ _ _ _ _ _ _ _ _ _ _ _ ⟨_, h, _, _⟩; simp at h⟩
      (by rintro _ _ _ _ _ _ _ _ _ _ ⟨_, h, _, _⟩; simp at h)
      h ⟨rfl, rfl, rfl, rfl⟩ rfl (by simp [iterOf, pushDesc, wsize])
  refine wp_conseq h1 ?_
  rintro x L ⟨h2, wt, h3, -, -, rfl⟩
  exact ⟨h2, by simpa using h3, rfl⟩

theorem iterMutRun_spec {t : Tree K V} {r : Option Nat} {len D n : Nat} {ds : List Bool}
    {g : Nat → K → V → V} {ys : List (Option (K × (Nat × V)) × Nat)}
    (hD : t.size ≤ D) (hn : 3 * t.size + 1 ≤ n) (h : (iterOf len (t.label 0)).run ds = some ys) :
    wp (iterMutRun D n g ds r len) (own r (vt t)) (fun x L => ∃ r', x = (r', seenOf ys) ∧
      L = own r' (vt (unl (updF g 0 (slotsOf ys)) (t.label 0)))) := by
  refine wp_tree_cases (r := r) (t := t) 0 (add_zero _).symm ?_ ?_
  · rintro rfl rfl
    simp only [iterMutRun]
    refine wp_bind (wp_conseq (runG_none h) ?_)
    rintro x L ⟨h2, -, rfl⟩
    exact wp_pure ⟨none, by rw [h2], rfl⟩
  · rintro a k v lh rh l r' rfl rfl
    rw [add_zero]
    simp only [iterMutRun]
    wcall makeMut_tree hD
    rintro a _ rfl
    rw [add_zero]
    have h1 := runG_spec (n := n) (it := ⟨[.desc a], len⟩) (s := (⟨[], 0⟩ : MS K V)) (h := [])
      (vit := iterOf len (Tree.label 0 (.node k v lh rh l r')))
      (desM_ok (D := D) (g := g) .unbounded .unbounded) (yldM_ok (labs_label_nodup _ 0)) h
      (MRel_start rfl hD) rfl (by
        simp only [iterOf]
        refine Nat.le_trans (Avl.wsize_pushDesc _ _) ?_
        rw [size_label]; simp only [wsize]; omega)
    refine wp_bind (wp_conseq h1 ?_)
    rintro x L ⟨h2, wt, h3⟩
    refine wp_bind (wp_conseq (MRel_end h3) ?_)
    rintro _ _ rfl
    rw [List.nil_append, slots_yields]
    exact wp_pure ⟨some a, by rw [h2]; rfl, rfl⟩

theorem rangeMutRun_spec {t : Tree K V} {r : Option Nat} {len D n : Nat} {lb ub : Bnd K}
    {ds : List Bool}
    {g : Nat → K → V → V} {ys : List (Option (K × (Nat × V)) × Nat)}
    (hD : t.size ≤ D) (hn : 3 * t.size + 1 ≤ n)
    (h : (rangeOf lb ub len (t.label 0)).run ds = some ys) :
    wp (rangeMutRun D n lb ub g ds r len) (own r (vt t)) (fun x L => ∃ r', x = (r', seenOf ys) ∧
      L = own r' (vt (unl (updF g 0 (slotsOf ys)) (t.label 0)))) := by
  refine wp_tree_cases (r := r) (t := t) 0 (add_zero _).symm ?_ ?_
  · rintro rfl rfl
    have e : rangeOf lb ub len (.nil : Tree K (Nat × V)) = iterOf len .nil := by
      simp [rangeOf, iterOf, pushDesc, Avl.pruneL, Avl.pruneRrev]
    simp only [Tree.label] at h
    rw [e] at h
    simp only [rangeMutRun]
    refine wp_bind (wp_conseq (runG_none h) ?_)
    rintro x L ⟨h2, -, rfl⟩
    exact wp_pure ⟨none, by rw [h2], rfl⟩
  · rintro a k v lh rh l r' rfl rfl
    rw [add_zero]
    simp only [rangeMutRun]
    wcall makeMut_tree hD
    rintro a _ rfl
    rw [add_zero]
    have e1 : pushDesc (Tree.label 0 (.node k v lh rh l r')) [] =
      [.desc (Tree.label 0 (.node k v lh rh l r'))] := rfl
    have hsz : wsize [Act.desc (Tree.label 0 (Tree.node k v lh rh l r'))] ≤ n := by
      simp only [wsize, size_label]; omega
    refine wp_bind (wp_conseq (pruneG_spec (n := n) (h := [])
      (desM_ok (D := D) (g := g) lb ub) (MRel_start rfl hD) hsz) ?_)
    rintro ⟨s, w⟩ L ⟨h1, h2⟩
    refine wp_bind (wp_conseq (pruneBackG_spec (n := n) (desM_ok lb ub)
      (wt := (Avl.pruneL lb ub [.desc (Tree.label 0 (.node k v lh rh l r'))]).reverse)
      (by simpa using h2) (by rw [wsize_reverse]; omega)) ?_)
    rintro ⟨s', w'⟩ L ⟨h3, h4⟩
    have h5 := runG_spec (n := n) (it := ⟨w'.reverse, len⟩) (desM_ok .unbounded .unbounded)
      (yldM_ok (labs_label_nodup _ 0)) h h4 rfl (by
        simp only [rangeOf, e1, wsize_reverse] at h3 ⊢
        omega)
    refine wp_bind (wp_conseq h5 ?_)
    rintro x L ⟨h2, wt, h3⟩
    refine wp_bind (wp_conseq (MRel_end h3) ?_)
    rintro _ _ rfl
    rw [List.nil_append, slots_yields]
    exact wp_pure ⟨some a, by rw [h2]; rfl, rfl⟩

end Verif.AvlH
