import Verif.BTreeHeap.IterGen
/-!
# Shared and owning B-tree iterators on reference-counted memory, against those on values
-/
namespace Verif.BTreeH
open Heap
open BTree (Node InnerIter NodeIterOps NIter nodeOps borrowedOps)

variable {K V X : Type}

/-! ## Depth -/

theorem dep_iff_depth : ∀ {n : Nat} {nd : Node K V}, (vt nd).Dep n ↔ nd.depth ≤ n
  | 0, .mk es ks => by
    constructor
    · intro h; obtain ⟨_, h⟩ := dep_pos h; cases h
    · intro h; simp [BTree.Node.depth] at h
  | n + 1, .mk es ks => by
    rw [dep_mk, BTree.Node.depth]
    have h1 : ∀ ks : List (Node K V), (∀ c ∈ ks, c.depth ≤ n) ↔ BTree.Node.depths ks ≤ n := by
      intro ks
      induction ks with
      | nil => simp [BTree.Node.depths]
      | cons c ks ih =>
        rw [BTree.Node.depths, List.forall_mem_cons, ih]
        omega
    rw [Nat.add_le_add_iff_right, ← h1]
    exact forall₂_congr fun c _ => dep_iff_depth

theorem fuel_le {n : Nat} {et : NIter (K × V) (Node K V)} (h : ∀ c ∈ et.kids, (vt c).Dep n) :
    nodeOps.fuel et ≤ n + 1 := by
  show (et.kids.map BTree.Node.depth).foldr max 0 + 1 ≤ n + 1
  have : ∀ ks : List (Node K V), (∀ c ∈ ks, (vt c).Dep n) →
      (ks.map BTree.Node.depth).foldr max 0 ≤ n := by
    intro ks
    induction ks with
    | nil => simp
    | cons c ks ih =>
      intro h
      have h1 := ih (fun d hd => h d (by simp [hd]))
      have h2 := dep_iff_depth.1 (h c (by simp))
      simp only [List.map_cons, List.foldr_cons]
      omega
  exact Nat.add_le_add_right (this _ h) 1

theorem f2_dropLast {α β : Type} {r : α → β → Prop} {as : List α} {bs : List β}
    (h : List.Forall₂ r as bs) : List.Forall₂ r as.dropLast bs.dropLast := by
  rw [List.dropLast_eq_take, List.dropLast_eq_take, h.length_eq]
  exact List.forall₂_take _ h

theorem f2_tail {α β : Type} {r : α → β → Prop} {as : List α} {bs : List β}
    (h : List.Forall₂ r as bs) : List.Forall₂ r as.tail bs.tail := by
  cases h with
  | nil => exact .nil
  | cons _ h => exact h

theorem f2_isEmpty {α β : Type} {r : α → β → Prop} {as : List α} {bs : List β}
    (h : List.Forall₂ r as bs) : as.isEmpty = bs.isEmpty := by
  cases h <;> rfl

theorem f2_head {α β : Type} {r : α → β → Prop} {as : List α} {bs : List β} {b : β}
    (h : List.Forall₂ r as bs) (hb : bs.head? = some b) : ∃ a, as.head? = some a ∧ r a b := by
  cases h with
  | nil => simp at hb
  | cons h1 _ => simp only [List.head?_cons, Option.some.injEq] at hb; subst hb; exact ⟨_, rfl, h1⟩

theorem f2_last {α β : Type} {r : α → β → Prop} {as : List α} {bs : List β} {b : β}
    (h : List.Forall₂ r as bs) (hb : bs.getLast? = some b) :
    ∃ a, as.getLast? = some a ∧ r a b := by
  rw [← List.head?_reverse] at hb ⊢
  exact f2_head (List.rel_reverse h) hb

theorem f2_mem {α β : Type} {r : α → β → Prop} {as : List α} {bs : List β} {b : β}
    (h : List.Forall₂ r as bs) (hb : b ∈ bs) : ∃ a, r a b := by
  induction h with
  | nil => simp at hb
  | cons h1 _ ih =>
    rcases List.mem_cons.1 hb with rfl | hb
    · exact ⟨_, h1⟩
    · exact ih hb

theorem keep_pure {P S I E C : Type} (o : HOps P S I E C) (hd : ∀ e, o.done e = .pure ()) (e : I)
    (rest : List I) : o.keep e rest = .pure (if o.isEmpty e then rest else e :: rest) := by
  unfold HOps.keep
  split
  · rw [hd]; rfl
  · rfl

/-! ## Shared iterators -/

/-- The paths lead to the nodes. -/
def PathTo (n : Nat) (t : VT (ND K V)) (p : List Nat) (c : Node K V) : Prop :=
  t.sub p = some (vt c) ∧ (vt c).Dep n

/-- A node iterator on memory and one on values. -/
structure SRel (n : Nat) (t : VT (ND K V)) (e : SIter K V) (et : NIter (K × V) (Node K V)) :
    Prop where
  elems : e.elems = et.elems
  kids : List.Forall₂ (PathTo n t) e.kids et.kids
  lf : e.lf = et.lf
  rt : e.rt = et.rt

theorem SRel.empty {n : Nat} {t : VT (ND K V)} {a : Nat} {e : SIter K V}
    {et : NIter (K × V) (Node K V)}
    (h : SRel n t e et) : (sharedOps a).isEmpty e = nodeOps.isEmpty et := by
  show (e.elems.isEmpty && e.kids.isEmpty) = (et.elems.isEmpty && et.kids.isEmpty)
  rw [h.elems, f2_isEmpty h.kids]

theorem SRel.keep {n : Nat} {t : VT (ND K V)} {a : Nat} {e : SIter K V}
    {et : NIter (K × V) (Node K V)} {w : List (SIter K V)} {wt : List (NIter (K × V) (Node K V))}
    (h : SRel n t e et) (hw : List.Forall₂ (SRel n t) w wt) :
    List.Forall₂ (SRel n t) (if (sharedOps a).isEmpty e then w else e :: w)
      (nodeOps.keep et wt) := by
  rw [NodeIterOps.keep, ← h.empty (a := a)]
  split
  · exact hw
  · exact .cons h hw

theorem forall₂_kidPaths {n : Nat} {t : VT (ND K V)} {p : List Nat} {nd : Node K V}
    (hp : t.sub p = some (vt nd)) (hk : ∀ c ∈ nd.kids, (vt c).Dep n) :
    List.Forall₂ (PathTo n t) (kidPaths p nd.kids.length) nd.kids := by
  rw [List.forall₂_iff_get]
  refine ⟨by simp [kidPaths], ?_⟩
  intro i h1 h2
  simp only [List.get_eq_getElem, kidPaths, List.getElem_map, List.getElem_range]
  exact ⟨sub_kid hp (List.getElem?_eq_getElem h2), hk _ (List.getElem_mem _)⟩

section
variable {n a : Nat} {t : VT (ND K V)} {u : Bool}

/-- The relation for shared iterators. -/
def SR (n a : Nat) (t : VT (ND K V)) (u : Bool) :
    Rel (ND K V) Unit (SIter K V) (NIter (K × V) (Node K V)) (K × V) :=
  fun _ _ w wt L => List.Forall₂ (SRel n t) w wt ∧ L = {⟨some a, t, u⟩}

theorem sharedMake_spec {p : List Nat} {nd : Node K V} (hp : t.sub p = some (vt nd))
    (hd : (vt nd).Dep (n + 1)) :
    wp ((sharedOps a).make () p) {⟨some a, t, u⟩} (fun x L =>
      SRel n t x.2 (nodeOps.make nd) ∧ L = {⟨some a, t, u⟩}) := by
  show wp ((lift (.read a p)).bind _) _ _
  wcall readN_spec hp
  rintro ⟨es, ks⟩ _ ⟨⟨h1, h2⟩, rfl⟩
  dsimp only at h1 h2
  subst h1
  rw [add_zero]
  have e : ks.isEmpty = nd.kids.isEmpty := by
    rw [Bool.eq_iff_iff, List.isEmpty_iff_length_eq_zero, List.isEmpty_iff_length_eq_zero, h2]
  refine wp_pure ⟨⟨rfl, ?_, ?_, ?_⟩, rfl⟩
  · show List.Forall₂ _ (kidPaths p ks.length) nd.kids
    rw [← h2]
    exact forall₂_kidPaths hp (dep_kids hd)
  · show (!ks.isEmpty) = (!nd.kids.isEmpty); rw [e]
  · show (!ks.isEmpty) = (!nd.kids.isEmpty); rw [e]

theorem sharedFront : OpsOk (n + 1) (sharedOps a) nodeOps (SR n a t u) (fun _ => Eq) where
  len h := h.1.length_eq
  fuel := by
    rintro h s w wt L et ⟨hw, -⟩ he
    refine fuel_le ?_
    obtain ⟨e, hr⟩ := f2_mem hw he
    intro c hc
    obtain ⟨p, hp⟩ := f2_mem hr.kids hc
    exact hp.2
  needs := by
    rintro h s e w et wt L ⟨hw, -⟩
    cases hw with
    | cons h _ => exact h.lf
  stop := by
    rintro h s e w et et' wt L ⟨hw, rfl⟩ hk
    cases hw with
    | cons hr hw =>
    simp only [nodeOps, borrowedOps] at hk
    split at hk
    · rename_i hc
      simp only [Option.some.injEq, Prod.mk.injEq] at hk
      obtain ⟨rfl, h0⟩ := hk
      have h1 : e.kids.head? = none := by
        rw [List.head?_eq_none_iff] at h0 ⊢
        have := f2_isEmpty hr.kids
        rw [h0] at this
        simpa using this
      simp only [HOps.kidStep, sharedOps]
      rw [f2_isEmpty hr.kids, hr.lf, if_pos hc]
      simp only [Prog.bind, h1]
      exact wp_pure ⟨_, _, rfl, .cons ⟨hr.elems, f2_tail hr.kids, rfl, hr.rt⟩ hw, rfl⟩
    · simp at hk
  kid := by
    rintro h s e w et et' c wt L ⟨hw, rfl⟩ hk
    cases hw with
    | cons hr hw =>
    simp only [nodeOps, borrowedOps] at hk
    split at hk
    · rename_i hc
      simp only [Option.some.injEq, Prod.mk.injEq] at hk
      obtain ⟨rfl, h0⟩ := hk
      obtain ⟨p, h1, hp⟩ := f2_head hr.kids h0
      unfold HOps.kidStep
      have e1 : (sharedOps a).nextKid e =
          .pure (⟨e.elems, e.kids.tail, false, e.rt⟩, e.kids.head?) := by
        simp only [sharedOps]
        rw [f2_isEmpty hr.kids, hr.lf, if_pos hc]
      rw [e1]
      simp only [Prog.bind, h1, keep_pure (sharedOps a) (fun _ => rfl)]
      wcall sharedMake_spec (n := n) hp.1 (hp.2.mono (by omega))
      rintro x _ ⟨h2, rfl⟩
      rw [add_zero]
      refine wp_pure ⟨rfl, .cons h2 (SRel.keep (a := a) ⟨hr.elems, f2_tail hr.kids, rfl, hr.rt⟩ hw), rfl⟩
    · simp at hk
  elem := by
    rintro h s e w et et' x wt L len ⟨hw, rfl⟩ hk hl
    cases hw with
    | cons hr hw =>
    simp only [nodeOps, borrowedOps] at hk
    split at hk
    · simp at hk
    · rename_i hc
      simp only [Option.some.injEq, Prod.mk.injEq] at hk
      obtain ⟨rfl, h0⟩ := hk
      unfold HOps.yieldElem
      have e1 : (sharedOps a).nextElem e =
          .pure (⟨e.elems.tail, e.kids, !e.kids.isEmpty, e.rt⟩, e.elems.head?) := by
        simp only [sharedOps]
        rw [hr.lf, if_neg hc]
      rw [e1]
      simp only [Prog.bind, hr.elems, h0, keep_pure (sharedOps a) (fun _ => rfl), if_neg hl]
      exact wp_pure ⟨rfl, ⟨_, rfl, rfl⟩,
        SRel.keep (a := a) ⟨rfl, hr.kids, by simp [f2_isEmpty hr.kids], hr.rt⟩ hw, rfl⟩

theorem sharedBack : OpsOk (n + 1) (sharedOps a).mirror nodeOps.mirror (SR n a t u) (fun _ => Eq) where
  len h := h.1.length_eq
  fuel := by
    rintro h s w wt L et ⟨hw, -⟩ he
    refine fuel_le ?_
    obtain ⟨e, hr⟩ := f2_mem hw he
    intro c hc
    obtain ⟨p, hp⟩ := f2_mem hr.kids hc
    exact hp.2
  needs := by
    rintro h s e w et wt L ⟨hw, -⟩
    cases hw with
    | cons h _ => exact h.rt
  stop := by
    rintro h s e w et et' wt L ⟨hw, rfl⟩ hk
    cases hw with
    | cons hr hw =>
    simp only [NodeIterOps.mirror, nodeOps, borrowedOps] at hk
    split at hk
    · rename_i hc
      simp only [Option.some.injEq, Prod.mk.injEq] at hk
      obtain ⟨rfl, h0⟩ := hk
      have h1 : e.kids.getLast? = none := by
        rw [List.getLast?_eq_none_iff] at h0 ⊢
        have := f2_isEmpty hr.kids
        rw [h0] at this
        simpa using this
      simp only [HOps.kidStep, HOps.mirror, sharedOps]
      rw [f2_isEmpty hr.kids, hr.rt, if_pos hc]
      simp only [Prog.bind, h1]
      exact wp_pure ⟨_, _, rfl, .cons ⟨hr.elems, f2_dropLast hr.kids, hr.lf, rfl⟩ hw, rfl⟩
    · simp at hk
  kid := by
    rintro h s e w et et' c wt L ⟨hw, rfl⟩ hk
    cases hw with
    | cons hr hw =>
    simp only [NodeIterOps.mirror, nodeOps, borrowedOps] at hk
    split at hk
    · rename_i hc
      simp only [Option.some.injEq, Prod.mk.injEq] at hk
      obtain ⟨rfl, h0⟩ := hk
      obtain ⟨p, h1, hp⟩ := f2_last hr.kids h0
      unfold HOps.kidStep
      have e1 : (sharedOps a).mirror.nextKid e =
          .pure (⟨e.elems, e.kids.dropLast, e.lf, false⟩, e.kids.getLast?) := by
        simp only [HOps.mirror, sharedOps]
        rw [f2_isEmpty hr.kids, hr.rt, if_pos hc]
      rw [e1]
      simp only [Prog.bind, h1, keep_pure (sharedOps a).mirror (fun _ => rfl)]
      wcall sharedMake_spec (n := n) hp.1 (hp.2.mono (by omega))
      rintro x _ ⟨h2, rfl⟩
      rw [add_zero]
      refine wp_pure ⟨rfl, .cons h2 (SRel.keep (a := a) ⟨hr.elems, f2_dropLast hr.kids, hr.lf, rfl⟩ hw), rfl⟩
    · simp at hk
  elem := by
    rintro h s e w et et' x wt L len ⟨hw, rfl⟩ hk hl
    cases hw with
    | cons hr hw =>
    simp only [NodeIterOps.mirror, nodeOps, borrowedOps] at hk
    split at hk
    · simp at hk
    · rename_i hc
      simp only [Option.some.injEq, Prod.mk.injEq] at hk
      obtain ⟨rfl, h0⟩ := hk
      unfold HOps.yieldElem
      have e1 : (sharedOps a).mirror.nextElem e =
          .pure (⟨e.elems.dropLast, e.kids, e.lf, !e.kids.isEmpty⟩, e.elems.getLast?) := by
        simp only [HOps.mirror, sharedOps]
        rw [hr.rt, if_neg hc]
      rw [e1]
      simp only [Prog.bind, hr.elems, h0, keep_pure (sharedOps a).mirror (fun _ => rfl), if_neg hl]
      exact wp_pure ⟨rfl, ⟨_, rfl, rfl⟩,
        SRel.keep (a := a) ⟨rfl, hr.kids, hr.lf, by simp [f2_isEmpty hr.kids]⟩ hw, rfl⟩

theorem sharedOk : BothOk (n + 1) (sharedOps a) nodeOps (SR n a t u) (fun _ => Eq) where
  front := sharedFront
  back := sharedBack
  rev := fun h => ⟨List.rel_reverse h.1, h.2⟩

theorem yldS_ok : YldOk (X := K × V) yldN (fun e => e) (SR n a t u) (fun _ => Eq) (fun _ => True) := by
  rintro h s w wt L i x hR rfl -
  exact ⟨s, rfl, hR⟩

end

/-- The value of an optional root. -/
def vtO : Option (Node K V) → VT (ND K V)
  | none => .nil
  | some nd => vt nd

theorem wp_root {α : Type} {p : Prog (ND K V) α} {r : Option Nat} {root : Option (Node K V)}
    {L : Multiset (Handle (ND K V))} {Q : α → Multiset (Handle (ND K V)) → Prop}
    (G : Multiset (Handle (ND K V))) (hL : L = own r (vtO root) + G)
    (h0 : r = none → root = none → wp p G Q)
    (h1 : ∀ a nd, r = some a → root = some nd → wp p (own (some a) (vt nd) + G) Q) :
    wp p L Q := by
  refine wp_own_cases (r := r) (t := vtO root) G hL ?_ ?_
  · intro hr h
    cases root with
    | none => exact h0 hr rfl
    | some nd => rw [vtO, vt_eta] at h; cases h
  · intro a q ts hr h
    cases root with
    | none => cases h
    | some nd =>
      rw [← h]
      exact h1 a nd hr rfl

theorem map_id' (ys : List (Option X × Nat)) :
    ys.map (fun y => (y.1.map (fun e => e), y.2)) = ys := by
  simp

theorem iterRun_spec {root : Option (Node K V)} {r : Option Nat} {len n : Nat} {ds : List Bool}
    {ys : List (Option (K × V) × Nat)} (hd : ∀ nd, root = some nd → (vt nd).Dep n)
    (h : nodeOps.run ds (BTree.iterOf len root) = some ys) :
    wp (iterRun n ds r len) (own r (vtO root)) (fun x L => x = ys ∧ L = own r (vtO root)) := by
  refine wp_root (r := r) (root := root) 0 (add_zero _).symm ?_ ?_
  · rintro rfl rfl
    have h : nodeOps.run ds ⟨[], 0⟩ = some ys := h
    rw [vrun_nil] at h
    cases h
    simp only [iterRun, run_nil]
    exact wp_pure ⟨rfl, rfl⟩
  · rintro a nd rfl rfl
    obtain ⟨n, rfl⟩ := dep_pos (hd _ rfl)
    rw [add_zero]
    simp only [iterRun]
    show wp _ {⟨some a, vt nd, false⟩} _
    refine wp_bind (wp_conseq (sharedMake_spec (n := n) rfl (hd _ rfl)) ?_)
    rintro ⟨_, e⟩ _ ⟨h1, rfl⟩
    dsimp only
    refine wp_bind (wp_conseq (run_ok sharedOk yldS_ok (fun _ _ _ => trivial) (h := [])
      (jt := BTree.iterOf len (some nd)) rfl ⟨.cons h1 .nil, rfl⟩ h trivial) ?_)
    rintro x _ ⟨h2, wt, -, rfl⟩
    exact wp_pure ⟨by rw [h2, map_id'], rfl⟩

end Verif.BTreeH
