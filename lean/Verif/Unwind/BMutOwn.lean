import Verif.Unwind.BMutSpec
/-!
# What mutable iteration over a `BTreeMap` owns

The references handed out are to entries that the map owned before, or to clones.
-/
set_option linter.unusedVariables false
namespace Verif.Unwind
open Verif.Wild
universe w
variable {σ : Type w} {K V : Type}

namespace BTreeMut
open Verif.BTree BTreeInto

/-- What a node iterator owns. -/
def ownI (q : K → Bool) (e : NIter (K × V) (ANode K V)) : Nat :=
  (e.elems.map (·.1)).countP q + (ownL e.kids).countP q

/-- What the work list owns. -/
def ownWk (q : K → Bool) (w : List (NIter (K × V) (ANode K V))) : Nat := (w.map (ownI q)).sum

theorem ownL_disown : ∀ ks : List (ANode K V), ownL (ks.map disown) = []
  | [] => rfl
  | .mk own es ks :: l => by simp [ownL, ownL_disown l, disown, ownN]

theorem cloneIf_unl {q : K → Bool} {c : Cl σ K V} {sh b : Bool} {es : List (K × (Nat × V))}
    {s s' : Nat × σ} (h : cloneIf (unl (tally q c)) sh es s = (b, s')) :
    s'.1 = s.1 + (if sh && !b then (es.map (·.1)).countP q else 0) := by
  cases sh with
  | false => cases h; simp
  | true =>
    simp only [cloneIf, unl, tally, if_true] at h
    rcases hc : c (es.map fun e => (e.1, e.2.2)) s.2 with ⟨_ | _, s2⟩ <;> rw [hc] at h <;>
      cases h <;> simp [List.map_map, Function.comp_def]

theorem make_own {q : K → Bool} {c : Cl σ K V} {n : ANode K (Nat × V)} {s s' : Nat × σ}
    (h : mkC (unl (tally q c)) n s = (false, s')) :
    ownI q (mutOps.make n) + s.1 = (ownN n).countP q + s'.1 := by
  have h1 := cloneIf_unl h
  obtain ⟨own, es, ks⟩ := n
  cases own
  · simp [mutOps, borrowedOps, ownI, mutKids, ANode.own, ANode.elems, ANode.kids, ownL_disown,
      ownN] at *
    omega
  · simp [mutOps, borrowedOps, ownI, mutKids, ANode.own, ANode.elems, ANode.kids, ownN] at *
    omega

theorem fail_own {q : K → Bool} {c : Cl σ K V} {n : ANode K (Nat × V)} {s s' : Nat × σ}
    (h : mkC (unl (tally q c)) n s = (true, s')) : ownN n = [] ∧ s'.1 = s.1 := by
  have h1 := cloneIf_unl h
  obtain ⟨own, es, ks⟩ := n
  cases own
  · simp [ownN] at *; exact h1
  · cases h

/-- What `next` needs of the operations, and `next_back` of their mirror image. -/
structure Owns (q : K → Bool) (o : NodeIterOps (NIter (K × V) (ANode K V)) (K × V) (ANode K V)) :
    Prop where
  elem : ∀ {e e' x}, o.nextElem e = some (e', some x) → ownI q e' + one q x.1 = ownI q e
  kid : ∀ {e e' n}, o.nextKid e = some (e', some n) → ownI q e' + (ownN n).countP q = ownI q e
  nokid : ∀ {e e'}, o.nextKid e = some (e', none) → ownI q e' = ownI q e
  empty : ∀ {e}, o.isEmpty e = true → ownI q e = 0
  make : o.make = mutOps.make

theorem owns (q : K → Bool) : Owns q (mutOps (K := K) (V := V)) where
  elem {e e' x} h := by
    obtain ⟨es, ks, lf, rt⟩ := e
    simp only [mutOps, borrowedOps] at h
    split at h
    · cases h
    · cases es with
      | nil => simp at h
      | cons y es =>
        simp only [List.head?_cons, Option.some.injEq, Prod.mk.injEq, List.tail_cons] at h
        obtain ⟨rfl, rfl⟩ := h
        simp only [ownI, List.map_cons, List.countP_cons, one]
        omega
  kid {e e' n} h := by
    obtain ⟨es, ks, lf, rt⟩ := e
    simp only [mutOps, borrowedOps] at h
    split at h
    · cases ks with
      | nil => simp at h
      | cons y ks =>
        simp only [List.head?_cons, Option.some.injEq, Prod.mk.injEq, List.tail_cons] at h
        obtain ⟨rfl, rfl⟩ := h
        simp only [ownI, ownL, List.countP_append]
        omega
    · cases h
  nokid {e e'} h := by
    obtain ⟨es, ks, lf, rt⟩ := e
    simp only [mutOps, borrowedOps] at h
    split at h
    · cases ks with
      | nil => simp at h; subst h; rfl
      | cons y ks => simp at h
    · cases h
  empty {e} h := by
    simp only [mutOps, borrowedOps, Bool.and_eq_true, List.isEmpty_iff] at h
    simp [ownI, h.1, h.2, ownL]
  make := rfl

theorem owns_back (q : K → Bool) : Owns q (mutOps (K := K) (V := V)).mirror where
  elem {e e' x} h := by
    obtain ⟨es, ks, lf, rt⟩ := e
    simp only [NodeIterOps.mirror, mutOps, borrowedOps] at h
    split at h
    · cases h
    · simp only [Option.some.injEq, Prod.mk.injEq] at h
      obtain ⟨rfl, h⟩ := h
      have h2 := congrArg (fun l => (l.map (·.1)).countP q) (getLast_split h)
      simp only [List.map_append, List.countP_append, List.map_cons, List.map_nil,
        List.countP_cons, List.countP_nil] at h2
      simp only [ownI, one]
      omega
  kid {e e' n} h := by
    obtain ⟨es, ks, lf, rt⟩ := e
    simp only [NodeIterOps.mirror, mutOps, borrowedOps] at h
    split at h
    · simp only [Option.some.injEq, Prod.mk.injEq] at h
      obtain ⟨rfl, hc⟩ := h
      have h2 := congrArg (fun l => (ownL l).countP q) (getLast_split hc)
      simp only [ownL_append, ownL, List.append_nil, List.countP_append] at h2
      simp only [ownI]
      omega
    · cases h
  nokid {e e'} h := by
    obtain ⟨es, ks, lf, rt⟩ := e
    simp only [NodeIterOps.mirror, mutOps, borrowedOps] at h
    split at h
    · simp only [Option.some.injEq, Prod.mk.injEq, List.getLast?_eq_none_iff] at h
      obtain ⟨rfl, rfl⟩ := h
      rfl
    · cases h
  empty {e} h := (owns q).empty h
  make := rfl

section
variable {q : K → Bool} {c : Cl σ K V}
  {o : NodeIterOps (NIter (K × (Nat × V)) (ANode K (Nat × V))) (K × (Nat × V)) (ANode K (Nat × V))}

theorem keep_own (h : Owns q o) (e : NIter (K × (Nat × V)) (ANode K (Nat × V))) (rest) :
    ownWk q (o.keep e rest) = ownI q e + ownWk q rest := by
  unfold NodeIterOps.keep
  split
  · rename_i he; rw [h.empty he, Nat.zero_add]
  · simp [ownWk]

theorem descendC_acc (h : Owns q o) : ∀ (f : Nat) (e : NIter (K × (Nat × V)) (ANode K (Nat × V)))
    (rest : List (NIter (K × (Nat × V)) (ANode K (Nat × V)))) (s : Nat × σ),
    AcctEq (ownI q e + ownWk q rest) (ownWk q) (fun x => ownI q x.1 + ownWk q x.2) s
      (descendC o (mkC (unl (tally q c))) f e rest s) := by
  intro f
  induction f with
  | zero => intros; trivial
  | succ f ih =>
    intro e rest s
    unfold descendC
    split
    · trivial
    · rename_i e' hk; simp only [AcctEq]; rw [h.nokid hk]
    · rename_i e' n hk
      have h1 := h.kid hk
      split
      · rename_i s' hm
        have h2 := fail_own hm
        rw [h2.1] at h1
        simp only [AcctEq, keep_own h, h2.2]
        simp at h1
        omega
      · rename_i s' hm
        have h2 := make_own hm
        have h3 := ih (o.make n) (o.keep e' rest) s'
        rw [keep_own h, h.make] at h3
        rw [h.make]
        revert h3
        generalize descendC o (mkC (unl (tally q c))) f (mutOps.make n) (o.keep e' rest) s' = x
        intro h3
        match x, h3 with
        | none, _ => trivial
        | some (.unwound y, _), h3 => simp only [AcctEq] at *; omega
        | some (.done y, _), h3 => simp only [AcctEq] at *; omega

theorem yieldC_acc (h : Owns q o) (len : Nat) (e : NIter (K × (Nat × V)) (ANode K (Nat × V)))
    (rest) (s : Nat × σ) :
    AcctEq (ownI q e + ownWk q rest) (fun it => ownWk q it.work)
      (fun x => ownWk q x.2.work + (x.1.elim 0 fun e => one q e.1)) s (yieldC o len e rest s) := by
  unfold yieldC NodeIterOps.yieldElem
  split
  · trivial
  · trivial
  · rename_i e' x hx
    have h1 := h.elem hx
    split
    · trivial
    · simp only [Option.map_some, AcctEq, keep_own h, Option.elim]
      omega

theorem nextC_acc (h : Owns q o) (it : MIter K V) (s : Nat × σ) :
    AcctEq (ownWk q it.work) (fun it => ownWk q it.work)
      (fun x => ownWk q x.2.work + (x.1.elim 0 fun e => one q e.1)) s
      (nextC o (mkC (unl (tally q c))) it s) := by
  unfold nextC
  split
  · rename_i hw; simp [AcctEq, hw]
  · rename_i e rest hw
    have e0 : ownWk q it.work = ownI q e + ownWk q rest := by rw [hw]; simp [ownWk]
    rw [e0]
    split
    · have h1 := descendC_acc (c := c) h (o.fuel e) e rest s
      split <;> rename_i hd <;> rw [hd] at h1
      · trivial
      · exact h1
      · rename_i e' rest' s'
        have h2 := yieldC_acc h it.len e' rest' s'
        revert h2
        generalize yieldC o it.len e' rest' s' = x
        intro h2
        match x, h2 with
        | none, _ => trivial
        | some (.unwound y, _), h2 => simp only [AcctEq] at *; omega
        | some (.done y, _), h2 => simp only [AcctEq] at *; omega
    · exact yieldC_acc h _ _ _ s
end

theorem ownWk_reverse (q : K → Bool) (w : List (NIter (K × V) (ANode K V))) :
    ownWk q w.reverse = ownWk q w := by
  simp [ownWk, List.map_reverse, List.sum_reverse]

theorem step_acc (q : K → Bool) (c : Cl σ K V) (d : Bool) (it : MIter K V) (s : Nat × σ) :
    AcctEq (ownWk q it.work) (fun it => ownWk q it.work)
      (fun x => ownWk q x.2.work + (x.1.elim 0 fun e => one q e.1)) s (step (tally q c) d it s) := by
  unfold step stepC
  split
  · exact nextC_acc (owns q) it s
  · have h := nextC_acc (c := c) (owns_back q) it.rev s
    rw [show it.rev.work = it.work.reverse from rfl, ownWk_reverse] at h
    revert h
    generalize nextC mutOps.mirror (mkC (unl (tally q c))) it.rev s = x
    intro h
    match x, h with
    | none, _ => trivial
    | some (.unwound y, _), h =>
      simpa only [Option.map_some, flip, AcctEq, InnerIter.rev, ownWk_reverse] using h
    | some (.done y, _), h =>
      simpa only [Option.map_some, flip, AcctEq, InnerIter.rev, ownWk_reverse] using h

/-! ### `range_mut` -/

/-- What a node owns below a link that may have been copied. -/
def ownU (q : K → Bool) (up : Bool) (ks : List (ANode K V)) : Nat :=
  if up then 0 else (ownL ks).countP q

theorem ownU_append (q : K → Bool) (up : Bool) (a b : List (ANode K V)) :
    ownU q up (a ++ b) = ownU q up a + ownU q up b := by
  cases up <;> simp [ownU, ownL_append]

theorem ownU_nil (q : K → Bool) (up : Bool) : ownU q up ([] : List (ANode K V)) = 0 := by
  cases up <;> simp [ownU, ownL]

theorem slice_split {α : Type} {l : List α} {a b : Nat} (h : getSlice l a b ≠ []) :
    ∃ x z, l = x ++ getSlice l a b ++ z ∧ x.length = a ∧ b = a + (getSlice l a b).length := by
  unfold getSlice at *
  split at h
  · rename_i hb
    rw [if_pos hb]
    refine ⟨l.take a, l.drop b, ?_, by simp; omega, by simp; omega⟩
    have h1 : (l.take b).take a = l.take a := by rw [List.take_take]; congr 1; omega
    rw [← h1, List.take_append_drop, List.take_append_drop]
  · exact absurd rfl h

/-- The parts into which a slice of the children is taken are disjoint. -/
theorem slice_own (q : K → Bool) (u lp rp : Bool) (ks : List (ANode K V)) (a b : Nat) :
    let S := getSlice ks a b
    let S1 := if lp = true then S.tail else S
    let S2 := if rp = true then S1.dropLast else S1
    (if (lp && !S.isEmpty) = true then ownU q u ks[a]?.toList else 0) + ownU q u S2 +
      (if (rp && !S1.isEmpty) = true then ownU q u ks[b - 1]?.toList else 0) ≤ ownU q u ks := by
  intro S S1 S2
  by_cases hS : getSlice ks a b = []
  · have e0 : S = [] := hS
    have e1 : S1 = [] := by simp only [S1, e0]; split <;> rfl
    have e2 : S2 = [] := by simp only [S2, e1]; split <;> rfl
    rw [e2, e1, e0]
    simp [ownU_nil]
  · obtain ⟨x, z, h1, h2, h3⟩ := slice_split hS
    change ks = x ++ S ++ z at h1
    change b = a + S.length at h3
    have hS : S ≠ [] := hS
    clear_value S
    have hks : ownU q u ks = ownU q u x + ownU q u S + ownU q u z := by
      rw [h1, ownU_append, ownU_append]
    have ha : ks[a]? = S[0]? := by
      have : 0 < S.length := List.length_pos_iff.2 hS
      rw [h1, List.append_assoc, List.getElem?_append_right (by omega), h2, Nat.sub_self,
        List.getElem?_append_left this]
    have hb : ks[b - 1]? = S.getLast? := by
      have : 0 < S.length := List.length_pos_iff.2 hS
      rw [h1, List.append_assoc, List.getElem?_append_right (by omega), h2,
        List.getElem?_append_left (by omega), List.getLast?_eq_getElem?]
      congr 1
      omega
    rw [ha, hb, hks]
    have hA : (if (lp && !S.isEmpty) = true then ownU q u S[0]?.toList else 0) + ownU q u S1 =
        ownU q u S := by
      cases S with
      | nil => exact absurd rfl hS
      | cons y t =>
        cases lp
        · simp [S1]
        · simp only [S1, if_true, List.tail_cons, Bool.true_and, List.isEmpty_cons, Bool.not_false,
            List.getElem?_cons_zero, Option.toList_some]
          rw [← ownU_append]; rfl
    have hB : ownU q u S2 + (if (rp && !S1.isEmpty) = true then ownU q u S.getLast?.toList else 0) =
        ownU q u S1 := by
      rcases hs1 : S1 with _ | ⟨y, t⟩
      · simp only [S2, hs1]
        split <;> simp [ownU_nil]
      · cases rp
        · simp [S2, hs1]
        · have hl : S.getLast? = S1.getLast? := by
            simp only [S1] at hs1 ⊢
            split
            · cases S with
              | nil => exact absurd rfl hS
              | cons w t' =>
                cases lp
                · contradiction
                · simp only [if_true, List.tail_cons] at hs1 ⊢
                  rw [hs1, List.getLast?_cons_cons]
            · rfl
          simp only [S2, if_true, Bool.true_and]
          rw [hl, hs1]
          have hg : (y :: t).getLast? = some ((y :: t).getLast (by simp)) := List.getLast?_eq_some_getLast _
          have := congrArg (ownU q u) (getLast_split hg)
          rw [hg]
          simp only [List.isEmpty_cons, Bool.not_false, if_true, Option.toList_some]
          rw [this, ownU_append]
    omega

theorem ownWk_append (q : K → Bool) (a b : List (NIter (K × V) (ANode K V))) :
    ownWk q (a ++ b) = ownWk q a + ownWk q b := by
  simp [ownWk]

mutual
theorem mkWorkC_acc [Ord K] (q : K → Bool) (c : Cl σ K V) : ∀ (up : Bool) (lb ub : Bnd K)
    (n : ANode K (Nat × V)) (s : Nat × σ),
    match mkWorkC (unl (tally q c)) up lb ub n s with
    | some (.done w, s') => ownWk q w + s.1 ≤ ownU q up [n] + s'.1
    | _ => True
  | up, lb, ub, .mk own es ks, s => by
    rw [mkWorkC]
    dsimp only
    rcases hcl : cloneIf (unl (tally q c)) (up || !own) es s with ⟨_ | _, s0⟩
    · have h0 := cloneIf_unl hcl
      dsimp only
      have hat := fun lb ub i s => mkWorkAtC_acc q c (up || !own) lb ub i ks s
      generalize findRangeEdges lb ub es = ed
      by_cases hb : ed.lbE ≤ ed.ubE ∧ ed.ubE ≤ es.length
      · simp only [if_pos hb]
        have hn : ownU q up [ANode.mk own es ks] + s0.1 =
            s.1 + (es.map (·.1)).countP q + ownU q (up || !own) ks := by
          cases up <;> cases own <;> simp [ownU, ownL, ownN] at h0 ⊢ <;> omega
        have hsl := slice_own q (up || !own) ed.lp ed.rp ks ed.lbK ed.ubK
        dsimp only at hsl
        have hk0 : getSlice (if (up || !own) = true then ks.map disown else ks) ed.lbK ed.ubK =
            (if (up || !own) = true then (getSlice ks ed.lbK ed.ubK).map disown
              else getSlice ks ed.lbK ed.ubK) := by
          split
          · rw [getSlice_map]
          · rfl
        rw [hk0]
        have hel : (((es.take ed.ubE).drop ed.lbE).map (·.1)).countP q ≤ (es.map (·.1)).countP q :=
          (((List.drop_sublist _ _).trans (List.take_sublist _ _)).map _).countP_le
        generalize (es.take ed.ubE).drop ed.lbE = elems at hel
        generalize getSlice ks ed.lbK ed.ubK = S at hsl
        have e0 : (if (up || !own) = true then S.map disown else S).isEmpty = S.isEmpty := by
          split
          · simp
          · rfl
        rw [e0]
        have e1 : (if ed.lp = true then (if (up || !own) = true then S.map disown else S).tail
              else (if (up || !own) = true then S.map disown else S)) =
            (if (up || !own) = true then (if ed.lp = true then S.tail else S).map disown
              else (if ed.lp = true then S.tail else S)) := by
          split <;> split <;> simp
        rw [e1]
        generalize (if (up || !own) = true then S.map disown else S) = kids
        generalize (if ed.lp = true then S.tail else S) = S1 at hsl
        have e2 : (if (up || !own) = true then S1.map disown else S1).isEmpty = S1.isEmpty := by
          split
          · simp
          · rfl
        rw [e2]
        have e3 : (if ed.rp = true then (if (up || !own) = true then S1.map disown else S1).dropLast
              else (if (up || !own) = true then S1.map disown else S1)) =
            (if (up || !own) = true then (if ed.rp = true then S1.dropLast else S1).map disown
              else (if ed.rp = true then S1.dropLast else S1)) := by
          split <;> split <;> simp
        rw [e3]
        generalize (if ed.rp = true then S1.dropLast else S1) = S2 at hsl
        have e4 : (ownL (if (up || !own) = true then S2.map disown else S2)).countP q =
            ownU q (up || !own) S2 := by
          unfold ownU
          split
          · rw [ownL_disown]; rfl
          · rfl
        generalize (if (up || !own) = true then S2.map disown else S2) = kids2 at e4
        have h1 : match (if (ed.lp && !S.isEmpty) = true then
              if (kids.length == 1 && ed.rp) = true then
                if elems.isEmpty = true then
                  mkWorkAtC (unl (tally q c)) (up || !own) lb ub ed.lbK ks s0 else none
              else mkWorkAtC (unl (tally q c)) (up || !own) lb .unbounded ed.lbK ks s0
            else some (.done [], s0)) with
            | some (.done w, s') => ownWk q w + s0.1 ≤
                (if (ed.lp && !S.isEmpty) = true then ownU q (up || !own) ks[ed.lbK]?.toList else 0) + s'.1
            | _ => True := by
          by_cases a1 : (ed.lp && !S.isEmpty) = true
          · by_cases a2 : (kids.length == 1 && ed.rp) = true
            · by_cases a3 : elems.isEmpty = true
              · simp only [if_pos a1, if_pos a2, if_pos a3]; exact hat _ _ _ _
              · simp only [if_pos a1, if_pos a2, if_neg a3]
            · simp only [if_pos a1, if_neg a2]; exact hat _ _ _ _
          · simp only [if_neg a1]; simp [ownWk]
        revert h1
        generalize (if (ed.lp && !S.isEmpty) = true then
              if (kids.length == 1 && ed.rp) = true then
                if elems.isEmpty = true then
                  mkWorkAtC (unl (tally q c)) (up || !own) lb ub ed.lbK ks s0 else none
              else mkWorkAtC (unl (tally q c)) (up || !own) lb .unbounded ed.lbK ks s0
            else some (.done [], s0)) = R1
        intro h1
        rcases R1 with _ | ⟨u | w1, s1⟩
        · trivial
        · trivial
        · simp only at h1 ⊢
          have h2 : match (if (ed.rp && !S1.isEmpty) = true then
                mkWorkAtC (unl (tally q c)) (up || !own) (if ed.lp = true then .unbounded else lb) ub
                  (ed.ubK - 1) ks s1
              else some (.done [], s1)) with
              | some (.done w, s') => ownWk q w + s1.1 ≤
                (if (ed.rp && !S1.isEmpty) = true then ownU q (up || !own) ks[ed.ubK - 1]?.toList
                  else 0) + s'.1
              | _ => True := by
            by_cases a1 : (ed.rp && !S1.isEmpty) = true
            · simp only [if_pos a1]; exact hat _ _ _ _
            · simp only [if_neg a1]; simp [ownWk]
          revert h2
          generalize (if (ed.rp && !S1.isEmpty) = true then
                mkWorkAtC (unl (tally q c)) (up || !own) (if ed.lp = true then .unbounded else lb) ub
                  (ed.ubK - 1) ks s1
              else some (.done [], s1)) = R2
          intro h2
          rcases R2 with _ | ⟨u | w2, s2⟩
          · trivial
          · trivial
          · simp only at h2 ⊢
            rw [ownWk_append, ownWk_append]
            have h3 : ownWk q (if (elems.isEmpty && kids2.isEmpty) = true then []
                else [(⟨elems, kids2, !ed.lp && decide (ed.lbE = ed.lbK),
                  !ed.rp && decide (ed.ubE < ed.ubK)⟩ : NIter (K × (Nat × V)) (ANode K (Nat × V)))]) ≤
                (es.map (·.1)).countP q + ownU q (up || !own) S2 := by
              split
              · simp [ownWk]
              · simp only [ownWk, ownI, List.map_cons, List.map_nil, List.sum_cons, List.sum_nil]
                omega
            omega
      · simp only [if_neg hb]
    · trivial
theorem mkWorkAtC_acc [Ord K] (q : K → Bool) (c : Cl σ K V) : ∀ (up : Bool) (lb ub : Bnd K) (i : Nat)
    (ks : List (ANode K (Nat × V))) (s : Nat × σ),
    match mkWorkAtC (unl (tally q c)) up lb ub i ks s with
    | some (.done w, s') => ownWk q w + s.1 ≤ ownU q up (ks[i]?.toList) + s'.1
    | _ => True
  | _, _, _, _, [], s => by simp [mkWorkAtC, ownU_nil, ownWk]
  | up, lb, ub, 0, n :: ks, s => by
    rw [mkWorkAtC]
    exact mkWorkC_acc q c up lb ub n s
  | up, lb, ub, i + 1, n :: ks, s => by
    rw [mkWorkAtC]
    exact mkWorkAtC_acc q c up lb ub i ks s
end

end BTreeMut
end Verif.Unwind
