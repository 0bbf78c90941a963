import Verif.BTreeHeap.IterSpec
/-!
# The owning B-tree iterator on reference-counted memory, against the one on values
-/
namespace Verif.BTreeH
open Heap
open BTree (Node InnerIter NodeIterOps NIter nodeOps borrowedOps)

variable {K V X : Type}

/-! ## Slices -/

/-- `l[lb..ub]`. -/
abbrev sl {α : Type} (lb ub : Nat) (l : List α) : List α := (l.take ub).drop lb

section
variable {α : Type} {lb ub : Nat} {l : List α}

theorem sl_isEmpty (h : ub ≤ l.length) : (sl lb ub l).isEmpty = decide (ub ≤ lb) := by
  rw [Bool.eq_iff_iff, List.isEmpty_iff_length_eq_zero, decide_eq_true_iff]
  simp only [sl, List.length_drop, List.length_take]
  omega

theorem sl_head (h : lb < ub) : (sl lb ub l).head? = l[lb]? := by
  rw [List.head?_drop, List.getElem?_take_of_lt h]

theorem sl_tail : (sl lb ub l).tail = sl (lb + 1) ub l := by
  simp [sl]

theorem sl_last (h : lb < ub) (hu : ub ≤ l.length) : (sl lb ub l).getLast? = l[ub - 1]? := by
  rw [List.getLast?_eq_getElem?, List.getElem?_drop]
  simp only [sl, List.length_drop, List.length_take]
  rw [List.getElem?_take_of_lt (by omega)]
  congr 1
  omega

theorem sl_dropLast (h : lb < ub) (hu : ub ≤ l.length) :
    (sl lb ub l).dropLast = sl lb (ub - 1) l := by
  rw [List.dropLast_eq_take]
  simp only [sl, List.length_drop, List.length_take]
  rw [List.take_drop, List.take_take]
  congr 2
  omega

theorem sl_empty (h : ub ≤ lb) : sl lb ub l = [] := by
  simp only [sl, List.drop_eq_nil_iff, List.length_take]
  omega

end

/-! ## The relation -/

/-- A node iterator on memory, one on values, and what the former holds. -/
def ORel (D : Nat) : OIter K V → NIter (K × V) (Node K V) → Multiset (Handle (ND K V)) → Prop
  | .arcked a lbE ubE lbK ubK lf rt, et, L => ∃ nd, L = own (some a) (vt nd) ∧ (vt nd).Dep D ∧
      ubE ≤ nd.elems.length ∧ ubK ≤ nd.kids.length ∧ lbK ≤ ubK ∧
      et = ⟨sl lbE ubE nd.elems, sl lbK ubK nd.kids, lf, rt⟩
  | .owned es ks lf rt, et, L => ∃ kt, et = ⟨es, kt, lf, rt⟩ ∧ kt.length = ks.length ∧
      (∀ c ∈ kt, (vt c).Dep D) ∧ L = owns ks (vts kt)

/-- The deque. -/
inductive OW (D : Nat) : List (OIter K V) → List (NIter (K × V) (Node K V)) →
    Multiset (Handle (ND K V)) → Prop
  | nil : OW D [] [] 0
  | cons {e et w wt L1 L2} : ORel D e et L1 → OW D w wt L2 → OW D (e :: w) (et :: wt) (L1 + L2)

/-- A child. -/
def OKidR (k : OKid K V) (c : Node K V) (L : Multiset (Handle (ND K V))) : Prop :=
  match k with
  | .ok n => Fits n c ∧ L = owns n.kids (vts c.kids)
  | .err a => L = own (some a) (vt c)

section
variable {D : Nat}

theorem OW.append {w w2 : List (OIter K V)} {wt wt2 : List (NIter (K × V) (Node K V))}
    {L1 L2 : Multiset (Handle (ND K V))} (h1 : OW D w wt L1) (h2 : OW D w2 wt2 L2) :
    OW D (w ++ w2) (wt ++ wt2) (L1 + L2) := by
  induction h1 with
  | nil => rw [zero_add]; exact h2
  | cons h _ ih => rw [add_assoc]; exact .cons h ih

theorem OW.reverse {w : List (OIter K V)} {wt : List (NIter (K × V) (Node K V))}
    {L : Multiset (Handle (ND K V))} (h : OW D w wt L) : OW D w.reverse wt.reverse L := by
  induction h with
  | nil => exact .nil
  | cons h _ ih =>
    rw [List.reverse_cons, List.reverse_cons, add_comm]
    exact ih.append (by simpa using OW.cons h OW.nil)

theorem OW.len {w : List (OIter K V)} {wt : List (NIter (K × V) (Node K V))}
    {L : Multiset (Handle (ND K V))} (h : OW D w wt L) : w.length = wt.length := by
  induction h with
  | nil => rfl
  | cons _ _ ih => simp [ih]

theorem ORel.dep {e : OIter K V} {et : NIter (K × V) (Node K V)}
    {L : Multiset (Handle (ND K V))} (h : ORel D e et L) : ∀ c ∈ et.kids, (vt c).Dep D := by
  intro c hc
  cases e with
  | arcked a lbE ubE lbK ubK lf rt =>
    obtain ⟨nd, -, hd, -, -, -, rfl⟩ := h
    obtain ⟨D, rfl⟩ := dep_pos hd
    exact (dep_kids hd c (List.mem_of_mem_take (List.mem_of_mem_drop hc))).mono (by omega)
  | owned es ks lf rt =>
    obtain ⟨kt, rfl, -, hd, -⟩ := h
    exact hd c hc

theorem OW.dep {w : List (OIter K V)} {wt : List (NIter (K × V) (Node K V))}
    {L : Multiset (Handle (ND K V))} (h : OW D w wt L) :
    ∀ et ∈ wt, ∀ c ∈ et.kids, (vt c).Dep D := by
  induction h with
  | nil => simp
  | cons h _ ih =>
    intro et he
    rcases List.mem_cons.1 he with rfl | he
    · exact h.dep
    · exact ih et he

theorem ORel.empty {e : OIter K V} {et : NIter (K × V) (Node K V)}
    {L : Multiset (Handle (ND K V))} (h : ORel D e et L) :
    (ownOps D).isEmpty e = nodeOps.isEmpty et := by
  show _ = (et.elems.isEmpty && et.kids.isEmpty)
  cases e with
  | arcked a lbE ubE lbK ubK lf rt =>
    obtain ⟨nd, -, -, h1, h2, -, rfl⟩ := h
    simp only [sl_isEmpty h1, sl_isEmpty h2]
    rfl
  | owned es ks lf rt =>
    obtain ⟨kt, rfl, h1, -, -⟩ := h
    show (es.isEmpty && ks.isEmpty) = (es.isEmpty && kt.isEmpty)
    congr 1
    rw [Bool.eq_iff_iff, List.isEmpty_iff_length_eq_zero, List.isEmpty_iff_length_eq_zero, h1]

theorem own_done_spec {e : OIter K V} {et : NIter (K × V) (Node K V)}
    {L : Multiset (Handle (ND K V))} (h : ORel D e et L) :
    wp ((ownOps D).done e) L (fun _ L' => L' = 0) := by
  cases e with
  | arcked a lbE ubE lbK ubK lf rt =>
    obtain ⟨nd, rfl, hd, -⟩ := h
    exact wp_drop hd
  | owned es ks lf rt =>
    obtain ⟨kt, -, hl, hd, rfl⟩ := h
    refine wp_forAll_drop wp_drop (by simpa using hl) ?_
    intro t ht
    rw [vts_map] at ht
    obtain ⟨c, hc, rfl⟩ := List.mem_map.1 ht
    exact hd c hc

theorem own_keep_spec {e : OIter K V} {et : NIter (K × V) (Node K V)} {w : List (OIter K V)}
    {wt : List (NIter (K × V) (Node K V))} {L1 L2 : Multiset (Handle (ND K V))}
    (h : ORel D e et L1) (hw : OW D w wt L2) :
    wp ((ownOps D).keep e w) (L1 + L2) (fun w' L' => OW D w' (nodeOps.keep et wt) L') := by
  unfold HOps.keep
  rw [NodeIterOps.keep, ← h.empty]
  split
  · refine wp_call L2 (own_done_spec h) rfl ?_
    rintro _ _ rfl
    rw [zero_add]
    exact wp_pure hw
  · exact wp_pure (.cons h hw)

theorem own_make_spec {k : OKid K V} {c : Node K V} {L : Multiset (Handle (ND K V))}
    (h : OKidR k c L) (hd : (vt c).Dep D) :
    wp ((ownOps D).make () k) L (fun x L' => ORel D x.2 (nodeOps.make c) L') := by
  have emp : ∀ {n : HN K V}, Fits n c → n.kids.isEmpty = c.kids.isEmpty := by
    intro n hn
    rw [Bool.eq_iff_iff, List.isEmpty_iff_length_eq_zero, List.isEmpty_iff_length_eq_zero, hn.len]
  cases k with
  | ok n =>
    obtain ⟨hn, rfl⟩ := h
    refine wp_pure ⟨c.kids, ?_, hn.len, ?_, rfl⟩
    · show NIter.mk c.elems c.kids (!c.kids.isEmpty) (!c.kids.isEmpty) = _
      rw [emp hn, hn.data]
    · intro d hd'
      obtain ⟨D, rfl⟩ := dep_pos hd
      exact (dep_kids hd d hd').mono (by omega)
  | err a =>
    cases h
    show wp ((lift (.read a [])).bind _) _ _
    wcall readN_spec (u := false) (path := []) (nd := c) rfl
    rintro n _ ⟨hn, rfl⟩
    rw [add_zero]
    refine wp_pure ⟨c, rfl, hd, by rw [hn.data], by rw [hn.len], by omega, ?_⟩
    show NIter.mk c.elems c.kids (!c.kids.isEmpty) (!c.kids.isEmpty) = _
    rw [emp hn]
    simp only [sl, List.drop_zero, hn.data, ← hn.len, List.take_length]

/-! ## Either direction -/

/-- What the functions of one direction must do. -/
structure ODir (D : Nat) (o : HOps (ND K V) Unit (OIter K V) (K × V) (OKid K V))
    (v : NodeIterOps (NIter (K × V) (Node K V)) (K × V) (Node K V)) : Prop where
  keep : o.keep = (ownOps D).keep
  make : o.make = (ownOps D).make
  vkeep : v.keep = nodeOps.keep
  vmake : v.make = nodeOps.make
  vfuel : v.fuel = nodeOps.fuel
  needs : ∀ {e et L}, ORel D e et L → o.needsLf e = v.needsLf et
  stop : ∀ {e et et' L}, ORel D e et L → v.nextKid et = some (et', none) →
    wp (o.nextKid e) L (fun x L' => x.2 = none ∧ ORel D x.1 et' L')
  kid : ∀ {e et et' c L}, ORel D e et L → v.nextKid et = some (et', some c) →
    wp (o.nextKid e) L (fun x L' => ∃ k L1 L2, x.2 = some k ∧ ORel D x.1 et' L1 ∧ OKidR k c L2 ∧
      (vt c).Dep D ∧ L' = L1 + L2)
  elem : ∀ {e et et' i L}, ORel D e et L → v.nextElem et = some (et', some i) →
    wp (o.nextElem e) L (fun x L' => x.2 = some i ∧ ORel D x.1 et' L')

/-- The relation for owning iterators. -/
def OR (D : Nat) : Rel (ND K V) Unit (OIter K V) (NIter (K × V) (Node K V)) (K × V) :=
  fun _ _ w wt L => OW D w wt L

theorem ODir.ok {o : HOps (ND K V) Unit (OIter K V) (K × V) (OKid K V)}
    {v : NodeIterOps (NIter (K × V) (Node K V)) (K × V) (Node K V)} (hd : ODir D o v) :
    OpsOk (D + 1) o v (OR D) (fun _ => Eq) where
  len h := OW.len h
  fuel := by
    intro h s w wt L et hR he
    rw [hd.vfuel]
    exact fuel_le (OW.dep hR et he)
  needs := by
    rintro h s e w et wt L hR
    cases hR with
    | cons h _ => exact hd.needs h
  stop := by
    rintro h s e w et et' wt L hR hk
    cases hR with
    | @cons _ _ _ _ L1 L2 he hw =>
    refine wp_call L2 (hd.stop he hk) rfl ?_
    rintro ⟨e', r⟩ L' ⟨rfl, h1⟩
    exact wp_pure ⟨s, e', rfl, .cons h1 hw⟩
  kid := by
    rintro h s e w et et' c wt L hR hk
    cases hR with
    | @cons _ _ _ _ L1 L2 he hw =>
    refine wp_call L2 (hd.kid he hk) rfl ?_
    rintro ⟨e', r⟩ _ ⟨k, L3, L4, rfl, h1, h2, h3, rfl⟩
    dsimp only
    rw [hd.keep, hd.make, hd.vkeep, hd.vmake]
    refine wp_call L4 (own_keep_spec h1 hw) (by ac_rfl) ?_
    intro w' L5 h4
    refine wp_call L5 (own_make_spec h2 h3) (add_comm _ _) ?_
    intro x L6 h5
    exact wp_pure ⟨rfl, .cons h5 h4⟩
  elem := by
    rintro h s e w et et' x wt L len hR hk hl
    cases hR with
    | @cons _ _ _ _ L1 L2 he hw =>
    refine wp_call L2 (hd.elem he hk) rfl ?_
    rintro ⟨e', r⟩ L' ⟨rfl, h1⟩
    dsimp only
    rw [if_neg hl, hd.keep, hd.vkeep]
    refine wp_bind (wp_conseq (own_keep_spec h1 hw) ?_)
    intro w' L3 h2
    exact wp_pure ⟨rfl, ⟨_, rfl, rfl⟩, h2⟩

theorem tryKid_spec {r : Option Nat} {c : Node K V} :
    wp (tryKid r) (own r (vt c)) (fun k L => OKidR k c L) := by
  refine wp_own_cases (r := r) (t := vt c) 0 (add_zero _).symm ?_ ?_
  · intro _ h; rw [vt_eta] at h; cases h
  · rintro a q ts rfl h
    simp only [tryKid, add_zero]
    refine wp_tryUnwrap 0 (add_zero _).symm ?_ ?_
    · refine wp_pure ?_
      show _ = _
      rw [h]
    · intro ks hl
      rw [vt_eta] at h
      cases h
      rw [add_zero]
      exact wp_pure ⟨⟨rfl, by simpa using hl⟩, rfl⟩

theorem incKid_spec {a i : Nat} {nd c : Node K V} (hc : nd.kids[i]? = some c) :
    wp (lift (.incAt a [] i)) (own (some a) (vt nd)) (fun (r : Option Nat) L =>
      L = own r (vt c) + own (some a) (vt nd)) := by
  have hi : i < (vts nd.kids).length := by
    simpa using (List.getElem?_eq_some_iff.1 hc).1
  have he : (vts nd.kids)[i] = vt c := by
    have := vts_get nd.kids i
    rw [hc, List.getElem?_eq_getElem hi] at this
    simpa using this
  refine wp_conseq (incAt_spec (a := a) (t := vt nd) (u := false) (path := [])
    (p := nd.elems) (ts := vts nd.kids) (i := i) (by rw [vt_eta]; rfl) hi) ?_
  rintro r _ rfl
  rw [he]
  rfl

theorem ownFront : ODir D (ownOps (K := K) (V := V) D) nodeOps where
  keep := rfl
  make := rfl
  vkeep := rfl
  vmake := rfl
  vfuel := rfl
  needs := by
    intro e et L h
    cases e with
    | arcked a lbE ubE lbK ubK lf rt => obtain ⟨nd, -, -, -, -, -, rfl⟩ := h; rfl
    | owned es ks lf rt => obtain ⟨kt, rfl, -⟩ := h; rfl
  stop := by
    intro e et et' L h hk
    simp only [nodeOps, borrowedOps] at hk
    split at hk
    · rename_i hc
      simp only [Option.some.injEq, Prod.mk.injEq, List.head?_eq_none_iff] at hk
      obtain ⟨rfl, h0⟩ := hk
      cases e with
      | arcked a lbE ubE lbK ubK lf rt =>
        obtain ⟨nd, rfl, hd, h1, h2, h3, rfl⟩ := h
        dsimp only at h0 hc
        have h4 : ubK ≤ lbK := by
          have := sl_isEmpty (lb := lbK) h2
          rw [h0] at this
          simpa using this.symm
        have h5 : lbK = ubK := by omega
        simp only [ownOps]
        rw [if_pos (by simp [h5]), if_neg (by omega)]
        refine wp_pure ⟨rfl, nd, rfl, hd, h1, h2, h3, ?_⟩
        simp only [sl_empty h4]
        rfl
      | owned es ks lf rt =>
        obtain ⟨kt, rfl, hl, hd, rfl⟩ := h
        dsimp only at h0
        subst h0
        obtain rfl : ks = [] := List.length_eq_zero_iff.1 hl.symm
        simp only [ownOps, List.isEmpty_nil, Bool.or_true, if_true]
        exact wp_pure ⟨rfl, [], rfl, rfl, hd, rfl⟩
    · simp at hk
  kid := by
    intro e et et' c L h hk
    simp only [nodeOps, borrowedOps] at hk
    split at hk
    · rename_i hc
      simp only [Option.some.injEq, Prod.mk.injEq] at hk
      obtain ⟨rfl, h0⟩ := hk
      cases e with
      | arcked a lbE ubE lbK ubK lf rt =>
        obtain ⟨nd, rfl, hd, h1, h2, h3, rfl⟩ := h
        dsimp only at h0 hc
        have h4 : lbK < ubK := by
          by_contra hn
          rw [sl_empty (by omega)] at h0
          simp at h0
        rw [sl_head h4] at h0
        have hlf : lf = true := by
          rw [sl_isEmpty h2] at hc
          simpa [Nat.not_le.2 h4] using hc
        simp only [ownOps]
        rw [if_pos (by simp [hlf]), if_pos h4]
        refine wp_bind (wp_conseq (incKid_spec h0) ?_)
        rintro r _ rfl
        refine wp_own_cases (r := r) (t := vt c) _ rfl ?_ ?_
        · intro _ h; rw [vt_eta] at h; cases h
        · rintro b q ts rfl ht
          rw [← ht]
          dsimp only
          refine wp_pure ⟨_, _, _, rfl, ⟨nd, rfl, hd, h1, h2, by omega, ?_⟩, rfl, ?_, add_comm _ _⟩
          · simp only [sl_tail]
          · obtain ⟨D, rfl⟩ := dep_pos hd
            exact (dep_kids hd c (List.mem_of_getElem? h0)).mono (by omega)
      | owned es ks lf rt =>
        obtain ⟨kt, rfl, hl, hd, rfl⟩ := h
        dsimp only at h0 hc
        cases kt with
        | nil => simp at h0
        | cons c' kt =>
          cases ks with
          | nil => simp at hl
          | cons k ks =>
            simp only [List.head?_cons, Option.some.injEq] at h0
            subst h0
            have hlf : lf = true := by simpa using hc
            simp only [ownOps]
            rw [if_pos (by simp [hlf])]
            simp only [vts, owns_cons]
            refine wp_call (owns ks (vts kt)) tryKid_spec rfl ?_
            intro k L hk
            exact wp_pure ⟨k, _, L, rfl, ⟨kt, rfl, by simpa using hl,
              fun d hd' => hd d (by simp [hd']), rfl⟩, hk, hd _ (by simp), add_comm _ _⟩
    · simp at hk
  elem := by
    intro e et et' i L h hk
    simp only [nodeOps, borrowedOps] at hk
    split at hk
    · simp at hk
    · rename_i hc
      simp only [Option.some.injEq, Prod.mk.injEq] at hk
      obtain ⟨rfl, h0⟩ := hk
      cases e with
      | arcked a lbE ubE lbK ubK lf rt =>
        obtain ⟨nd, rfl, hd, h1, h2, h3, rfl⟩ := h
        dsimp only at h0 hc
        have h4 : lbE < ubE := by
          by_contra hn
          rw [sl_empty (by omega)] at h0
          simp at h0
        rw [sl_head h4] at h0
        simp only [ownOps]
        rw [if_neg hc, if_pos h4]
        wcall readN_spec (u := false) (path := []) (nd := nd) rfl
        rintro n _ ⟨hn, rfl⟩
        rw [add_zero, hn.data, h0]
        dsimp only
        refine wp_pure ⟨rfl, nd, rfl, hd, h1, h2, h3, ?_⟩
        simp only [sl_tail, sl_isEmpty h2]
        congr 1
        rw [Bool.eq_iff_iff]; simp
      | owned es ks lf rt =>
        obtain ⟨kt, rfl, hl, hd, rfl⟩ := h
        dsimp only at h0 hc
        simp only [ownOps]
        rw [if_neg hc]
        refine wp_pure ⟨h0, kt, ?_, hl, hd, rfl⟩
        congr 2
        rw [Bool.eq_iff_iff, List.isEmpty_iff_length_eq_zero, List.isEmpty_iff_length_eq_zero, hl]

theorem ownBack : ODir D (ownOps (K := K) (V := V) D).mirror nodeOps.mirror where
  keep := rfl
  make := rfl
  vkeep := rfl
  vmake := rfl
  vfuel := rfl
  needs := by
    intro e et L h
    cases e with
    | arcked a lbE ubE lbK ubK lf rt => obtain ⟨nd, -, -, -, -, -, rfl⟩ := h; rfl
    | owned es ks lf rt => obtain ⟨kt, rfl, -⟩ := h; rfl
  stop := by
    intro e et et' L h hk
    simp only [NodeIterOps.mirror, nodeOps, borrowedOps] at hk
    split at hk
    · rename_i hc
      simp only [Option.some.injEq, Prod.mk.injEq, List.getLast?_eq_none_iff] at hk
      obtain ⟨rfl, h0⟩ := hk
      cases e with
      | arcked a lbE ubE lbK ubK lf rt =>
        obtain ⟨nd, rfl, hd, h1, h2, h3, rfl⟩ := h
        dsimp only at h0 hc
        have h4 : ubK ≤ lbK := by
          have := sl_isEmpty (lb := lbK) h2
          rw [h0] at this
          simpa using this.symm
        have h5 : lbK = ubK := by omega
        simp only [HOps.mirror, ownOps]
        rw [if_pos (by simp [h5]), if_neg (by omega)]
        refine wp_pure ⟨rfl, nd, rfl, hd, h1, h2, h3, ?_⟩
        simp only [sl_empty h4]
        rfl
      | owned es ks lf rt =>
        obtain ⟨kt, rfl, hl, hd, rfl⟩ := h
        dsimp only at h0
        subst h0
        obtain rfl : ks = [] := List.length_eq_zero_iff.1 hl.symm
        simp only [HOps.mirror, ownOps, List.isEmpty_nil, Bool.or_true, if_true, List.getLast?_nil]
        exact wp_pure ⟨rfl, [], rfl, rfl, hd, rfl⟩
    · simp at hk
  kid := by
    intro e et et' c L h hk
    simp only [NodeIterOps.mirror, nodeOps, borrowedOps] at hk
    split at hk
    · rename_i hc
      simp only [Option.some.injEq, Prod.mk.injEq] at hk
      obtain ⟨rfl, h0⟩ := hk
      cases e with
      | arcked a lbE ubE lbK ubK lf rt =>
        obtain ⟨nd, rfl, hd, h1, h2, h3, rfl⟩ := h
        dsimp only at h0 hc
        have h4 : lbK < ubK := by
          by_contra hn
          rw [sl_empty (by omega)] at h0
          simp at h0
        rw [sl_last h4 h2] at h0
        have hlf : rt = true := by
          rw [sl_isEmpty h2] at hc
          simpa [Nat.not_le.2 h4] using hc
        simp only [HOps.mirror, ownOps]
        rw [if_pos (by simp [hlf]), if_pos h4]
        refine wp_bind (wp_conseq (incKid_spec h0) ?_)
        rintro r _ rfl
        refine wp_own_cases (r := r) (t := vt c) _ rfl ?_ ?_
        · intro _ h; rw [vt_eta] at h; cases h
        · rintro b q ts rfl ht
          rw [← ht]
          dsimp only
          refine wp_pure ⟨_, _, _, rfl, ⟨nd, rfl, hd, h1, by omega, by omega, ?_⟩, rfl, ?_, add_comm _ _⟩
          · simp only [sl_dropLast h4 h2]
          · obtain ⟨D, rfl⟩ := dep_pos hd
            exact (dep_kids hd c (List.mem_of_getElem? h0)).mono (by omega)
      | owned es ks lf rt =>
        obtain ⟨kt, rfl, hl, hd, rfl⟩ := h
        dsimp only at h0 hc
        obtain ⟨kt, rfl⟩ := List.getLast?_eq_some_iff.1 h0
        rcases List.eq_nil_or_concat ks with rfl | ⟨ks, k, rfl⟩
        · simp at hl
        · have hlf : rt = true := by simpa using hc
          have hl' : kt.length = ks.length := by simpa using hl
          simp only [HOps.mirror, ownOps]
          rw [if_pos (by simp [hlf])]
          simp only [List.concat_eq_append, List.getLast?_append, List.getLast?_singleton, Option.some_or]
          rw [vts_append, owns_append (by simpa using hl')]
          simp only [vts, owns_cons, owns_nil, add_zero]
          refine wp_call (owns ks (vts kt)) tryKid_spec (add_comm _ _) ?_
          intro k L hk
          refine wp_pure ⟨k, _, L, rfl, ⟨kt, by simp, by simpa using hl',
              fun d hd' => hd d (by simp [hd']), by simp⟩, hk, hd _ (by simp), add_comm _ _⟩
    · simp at hk
  elem := by
    intro e et et' i L h hk
    simp only [NodeIterOps.mirror, nodeOps, borrowedOps] at hk
    split at hk
    · simp at hk
    · rename_i hc
      simp only [Option.some.injEq, Prod.mk.injEq] at hk
      obtain ⟨rfl, h0⟩ := hk
      cases e with
      | arcked a lbE ubE lbK ubK lf rt =>
        obtain ⟨nd, rfl, hd, h1, h2, h3, rfl⟩ := h
        dsimp only at h0 hc
        have h4 : lbE < ubE := by
          by_contra hn
          rw [sl_empty (by omega)] at h0
          simp at h0
        rw [sl_last h4 h1] at h0
        simp only [HOps.mirror, ownOps]
        rw [if_neg hc, if_pos h4]
        wcall readN_spec (u := false) (path := []) (nd := nd) rfl
        rintro n _ ⟨hn, rfl⟩
        rw [add_zero, hn.data, h0]
        dsimp only
        refine wp_pure ⟨rfl, nd, rfl, hd, by omega, h2, h3, ?_⟩
        simp only [sl_dropLast h4 h1, sl_isEmpty h2]
        congr 1
        rw [Bool.eq_iff_iff]; simp
      | owned es ks lf rt =>
        obtain ⟨kt, rfl, hl, hd, rfl⟩ := h
        dsimp only at h0 hc
        simp only [HOps.mirror, ownOps]
        rw [if_neg hc]
        refine wp_pure ⟨h0, kt, ?_, hl, hd, rfl⟩
        congr 2
        rw [Bool.eq_iff_iff, List.isEmpty_iff_length_eq_zero, List.isEmpty_iff_length_eq_zero, hl]


theorem ownOk : BothOk (D + 1) (ownOps (K := K) (V := V) D) nodeOps (OR D) (fun _ => Eq) where
  front := ownFront.ok
  back := ownBack.ok
  rev := fun h => OW.reverse h

theorem yldO_ok : YldOk (X := K × V) yldN (fun e => e) (OR D) (fun _ => Eq) (fun _ => True) := by
  rintro h s w wt L i x hR rfl -
  exact ⟨s, rfl, hR⟩

theorem dropWork_spec {w : List (OIter K V)} {wt : List (NIter (K × V) (Node K V))}
    {L : Multiset (Handle (ND K V))} (h : OW D w wt L) :
    wp (dropWork D w) L (fun _ L => L = 0) := by
  induction h with
  | nil => exact wp_pure rfl
  | @cons e et w wt L1 L2 h _ ih =>
    refine wp_call L2 (own_done_spec h) rfl ?_
    rintro _ _ rfl
    rw [zero_add]
    exact ih

theorem intoNew_spec {root : Option (Node K V)} {r : Option Nat} {len : Nat}
    (hd : ∀ nd, root = some nd → (vt nd).Dep D) :
    wp (intoNew D r len) (own r (vtO root)) (fun it L =>
      it.len = (BTree.iterOf len root).len ∧ OW D it.work (BTree.iterOf len root).work L) := by
  refine wp_root (r := r) (root := root) 0 (add_zero _).symm ?_ ?_
  · rintro rfl rfl
    exact wp_pure ⟨rfl, .nil⟩
  · rintro a nd rfl rfl
    rw [add_zero]
    simp only [intoNew]
    refine wp_bind (wp_conseq tryKid_spec ?_)
    intro k L hk
    refine wp_bind (wp_conseq (own_make_spec hk (hd _ rfl)) ?_)
    intro x L' hx
    refine wp_pure ⟨rfl, ?_⟩
    have := OW.cons hx OW.nil
    rwa [add_zero] at this

theorem intoRun_spec {root : Option (Node K V)} {r : Option Nat} {len : Nat} {ds : List Bool}
    {ys : List (Option (K × V) × Nat)} (hd : ∀ nd, root = some nd → (vt nd).Dep D)
    (h : nodeOps.run ds (BTree.iterOf len root) = some ys) :
    wp (intoRun D (D + 1) ds r len) (own r (vtO root)) (fun x L => x = ys ∧ L = 0) := by
  simp only [intoRun]
  refine wp_bind (wp_conseq (intoNew_spec hd) ?_)
  rintro it L ⟨h1, h2⟩
  refine wp_bind (wp_conseq (run_ok ownOk yldO_ok (fun _ _ _ => trivial) (h := []) h1 h2 h
    trivial) ?_)
  rintro x L ⟨h3, wt, h4⟩
  refine wp_bind (wp_conseq (dropWork_spec h4) ?_)
  rintro _ _ rfl
  exact wp_pure ⟨by rw [h3, map_id'], rfl⟩

end

end Verif.BTreeH
