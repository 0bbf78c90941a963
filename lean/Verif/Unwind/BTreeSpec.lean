import Verif.Unwind.BTree
/-!
# What `BTreeMap` is left with when `Clone` panics
-/
set_option linter.unusedVariables false
set_option linter.unusedSectionVars false
namespace Verif.BTree
open Verif.Wild Verif.Unwind Std
universe w
variable {σ : Type w} {K V : Type}

namespace Node

/-! ### Insertion and `get_mut` -/

mutual
theorem insC_spec [Ord K] (N : Nat) (c : Cl σ K V) (k : K) (v : V) : ∀ (n : Node K V) (s : σ)
    {x : InsRes K V}, ins N k v n = some x → ∃ q s', insC N c k v n s = some (q, s') ∧
      match q with
      | .unwound n' => n' = n ∧ Bad c
      | .done r => r = x
  | mk es ks, s, x, hx => by
    rw [ins] at hx
    rw [insC]
    by_cases hl : (locate (compare k) es).2 = true
    · rw [if_pos hl] at hx ⊢
      cases he : es[(locate (compare k) es).1]? with
      | none => rw [he] at hx; cases hx
      | some e =>
        rw [he] at hx
        cases hx
        exact ⟨_, _, rfl, rfl⟩
    · rw [if_neg hl] at hx ⊢
      generalize (locate (compare k) es).1 = i at hx ⊢
      cases hi : insAt N k v i ks with
      | none =>
        rw [hi] at hx
        rw [insAtC_none N c k v i ks s hi]
        dsimp only at hx ⊢
        rw [hx]
        exact ⟨_, _, rfl, rfl⟩
      | some y =>
        rw [hi] at hx
        cases y with
        | none => cases hx
        | some y =>
          obtain ⟨q, s', e, hq⟩ := insAtC_spec N c k v i ks s hi
          rw [e]
          rcases q with n' | r
          · exact ⟨_, _, rfl, by rw [hq.1], hq.2⟩
          · cases hq
            cases y with
            | replaced o n' => cases hx; exact ⟨_, _, rfl, rfl⟩
            | absorbed n' => cases hx; exact ⟨_, _, rfl, rfl⟩
            | split a kv n' =>
              dsimp only at hx ⊢
              rw [hx]
              exact ⟨_, _, rfl, rfl⟩
theorem insAtC_none [Ord K] (N : Nat) (c : Cl σ K V) (k : K) (v : V) : ∀ (i : Nat)
    (ks : List (Node K V)) (s : σ), insAt N k v i ks = none → insAtC N c k v i ks s = none
  | _, [], s, h => by rw [insAtC]
  | 0, n :: _, s, h => by rw [insAt] at h; cases h
  | i + 1, _ :: ks, s, h => by
    rw [insAt] at h
    rw [insAtC]
    exact insAtC_none N c k v i ks s h
theorem insAtC_spec [Ord K] (N : Nat) (c : Cl σ K V) (k : K) (v : V) : ∀ (i : Nat)
    (ks : List (Node K V)) (s : σ) {x : InsRes K V}, insAt N k v i ks = some (some x) →
    ∃ q s', insAtC N c k v i ks s = some (some (q, s')) ∧
      match q with
      | .unwound n' => ks.set i n' = ks ∧ Bad c
      | .done r => r = x
  | _, [], s, x, h => by rw [insAt] at h; cases h
  | 0, n :: ks, s, x, h => by
    rw [insAt] at h
    rw [insAtC]
    rcases hc : c n.elems s with ⟨_ | _, s1⟩
    · dsimp only
      obtain ⟨q, s', e, hq⟩ := insC_spec N c k v n s1 (Option.some.inj h)
      refine ⟨q, s', by rw [e], ?_⟩
      rcases q with n' | r
      · exact ⟨by rw [hq.1]; rfl, hq.2⟩
      · exact hq
    · exact ⟨_, _, rfl, rfl, bad_of_eq hc⟩
  | i + 1, n :: ks, s, x, h => by
    rw [insAt] at h
    rw [insAtC]
    obtain ⟨q, s', e, hq⟩ := insAtC_spec N c k v i ks s h
    refine ⟨q, s', e, ?_⟩
    rcases q with n' | r
    · exact ⟨by rw [List.set_cons_succ, hq.1], hq.2⟩
    · exact hq
end

mutual
theorem getMutC_spec (c : Cl σ K V) (p : K → Ordering) (g : V → V) : ∀ (n : Node K V) (s : σ),
    match (getMutC c p g n s).1 with
    | .unwound n' => n' = n ∧ Bad c
    | .done r => r = getMut p g n
  | mk es ks, s => by
    rw [getMutC, getMut]
    by_cases hl : (locate p es).2 = true
    · rw [if_pos hl, if_pos hl]
    · rw [if_neg hl, if_neg hl]
      have h := getMutAtC_spec c p g (descIdx (locate p es).1 es ks.length) ks s
      generalize getMutAtC c p g (descIdx (locate p es).1 es ks.length) ks s = x at h ⊢
      rcases x with ⟨ks' | ⟨ks', b⟩, s'⟩
      · exact ⟨by rw [h.1], h.2⟩
      · dsimp only at h ⊢
        rw [← h]
theorem getMutAtC_spec (c : Cl σ K V) (p : K → Ordering) (g : V → V) : ∀ (i : Nat)
    (ks : List (Node K V)) (s : σ),
    match (getMutAtC c p g i ks s).1 with
    | .unwound ks' => ks' = ks ∧ Bad c
    | .done r => r = getMutAt p g i ks
  | _, [], s => by rw [getMutAtC, getMutAt]
  | 0, n :: ks, s => by
    rw [getMutAtC, getMutAt]
    rcases hc : c n.elems s with ⟨_ | _, s1⟩
    · dsimp only
      have h := getMutC_spec c p g n s1
      generalize getMutC c p g n s1 = x at h ⊢
      rcases x with ⟨n' | ⟨n', b⟩, s'⟩
      · exact ⟨by rw [h.1], h.2⟩
      · dsimp only at h ⊢
        rw [← h]
    · exact ⟨rfl, bad_of_eq hc⟩
  | i + 1, n :: ks, s => by
    rw [getMutAtC, getMutAt]
    have h := getMutAtC_spec c p g i ks s
    generalize getMutAtC c p g i ks s = x at h ⊢
    rcases x with ⟨ks' | ⟨ks', b⟩, s'⟩
    · exact ⟨by rw [h.1], h.2⟩
    · dsimp only at h ⊢
      rw [← h]
end

/-! ### Sublists -/

/-- Fewer entries in a child. -/
theorem inter_set {n' : Node K V} : ∀ {ks : List (Node K V)} {es : List (K × V)} {i : Nat} {n : Node K V},
    ks[i]? = some n → n'.toList.Sublist n.toList → (inter (ks.set i n') es).Sublist (inter ks es)
  | [], es, i, n, h, _ => by simp at h
  | d :: ks, es, 0, n, h, hn => by
    simp only [List.getElem?_cons_zero, Option.some.injEq] at h
    subst h
    rw [List.set_cons_zero, inter_cons, inter_cons]
    exact hn.append (List.Sublist.refl _)
  | d :: ks, es, i + 1, n, h, hn => by
    rw [List.getElem?_cons_succ] at h
    rw [List.set_cons_succ, inter_cons, inter_cons]
    refine (List.Sublist.refl _).append ?_
    cases es with
    | nil => exact inter_set h hn
    | cons e es => exact (inter_set h hn).cons_cons _

/-- The last entry of a child in the place of the separator after it. -/
theorem inter_replace {kv : K × V} {n' : Node K V} : ∀ {ks : List (Node K V)} {es : List (K × V)}
    {i : Nat} {n : Node K V}, ks[i]? = some n → i < es.length → n.toList = n'.toList ++ [kv] →
    (inter (ks.set i n') (es.set i kv)).Sublist (inter ks es)
  | [], es, i, n, h, _, _ => by simp at h
  | d :: ks, [], i, n, h, hi, hn => by simp at hi
  | d :: ks, e :: es, 0, n, h, hi, hn => by
    simp only [List.getElem?_cons_zero, Option.some.injEq] at h
    subst h
    rw [List.set_cons_zero, List.set_cons_zero, inter_cons, inter_cons, post_cons, post_cons, hn,
      List.append_assoc]
    exact (List.Sublist.refl _).append (((List.Sublist.refl _).cons _).cons_cons _)
  | d :: ks, e :: es, i + 1, n, h, hi, hn => by
    rw [List.getElem?_cons_succ] at h
    rw [List.set_cons_succ, List.set_cons_succ, inter_cons, inter_cons, post_cons, post_cons]
    exact (List.Sublist.refl _).append ((inter_replace h (by simpa using hi) hn).cons_cons _)

theorem inter_erase : ∀ {ks : List (Node K V)} {es : List (K × V)} {i : Nat}, i < ks.length →
    i < es.length → (inter (ks.eraseIdx i) (es.eraseIdx i)).Sublist (inter ks es)
  | [], es, i, h, _ => by simp at h
  | d :: ks, [], i, h, hi => by simp at hi
  | d :: ks, e :: es, 0, h, hi => by
    rw [List.eraseIdx_cons_zero, List.eraseIdx_cons_zero, inter_cons, post_cons]
    exact ((List.Sublist.refl _).cons _).trans (List.sublist_append_right _ _)
  | d :: ks, e :: es, i + 1, h, hi => by
    rw [List.eraseIdx_cons_succ, List.eraseIdx_cons_succ, inter_cons, inter_cons, post_cons, post_cons]
    exact (List.Sublist.refl _).append
      ((inter_erase (by simpa using h) (by simpa using hi)).cons_cons _)

theorem vRemove_eq {α : Type _} {i : Nat} {l : List α} {x : α} {l' : List α}
    (h : vRemove i l = some (x, l')) : i < l.length ∧ l' = l.eraseIdx i := by
  simp only [vRemove] at h
  split at h
  · cases h
  · rename_i y hy
    cases h
    exact ⟨(List.getElem?_eq_some_iff.1 hy).1, (List.eraseIdx_eq_take_drop_succ ..).symm⟩

/-! ### Removal -/

/-- How a removal ends: as it does otherwise, or leaving some of the entries, in their order. -/
def RmEnd {R : Type} (c : Cl σ K V) (L : List (K × V)) (x : R) : Ends (Node K V) R → Prop
  | .unwound n => n.toList.Sublist L ∧ Bad c
  | .done r => r = x

theorem RmEnd.mono {R : Type} {c : Cl σ K V} {L L' : List (K × V)} {x : R} {q : Ends (Node K V) R}
    (h : RmEnd c L x q) (hl : L.Sublist L') : RmEnd c L' x q := by
  rcases q with n | r
  · exact ⟨h.1.trans hl, h.2⟩
  · exact h

theorem mergeKidsC_spec (c : Cl σ K V) (lsh rsh : Bool) {idx : Nat} {es : List (K × V)}
    {ks : List (Node K V)} {x : Node K V} (s : σ) (hx : mergeKids idx es ks = some x) :
    ∃ q s', mergeKidsC c lsh rsh idx es ks s = some (q, s') ∧ RmEnd c (inter ks es) x q := by
  simp only [mergeKids] at hx
  simp only [mergeKidsC]
  cases h1 : vRemove idx es with
  | none => rw [h1] at hx; cases hx
  | some y =>
    obtain ⟨mid, es'⟩ := y
    rw [h1] at hx
    dsimp only at hx ⊢
    cases h2 : vRemove idx ks with
    | none => rw [h2] at hx; cases hx
    | some y =>
      obtain ⟨⟨les, lks⟩, ks'⟩ := y
      rw [h2] at hx
      dsimp only at hx ⊢
      obtain ⟨hi, rfl⟩ := vRemove_eq h1
      obtain ⟨hj, rfl⟩ := vRemove_eq h2
      have hsub := inter_erase (ks := ks) (es := es) hj hi
      rcases hl : cloneIf c lsh les s with ⟨_ | _, s1⟩
      · dsimp only
        cases h3 : (ks.eraseIdx idx)[idx]? with
        | none => rw [h3] at hx; cases hx
        | some y =>
          obtain ⟨res, rks⟩ := y
          rw [h3] at hx
          dsimp only at hx ⊢
          cases hx
          rcases hr : cloneIf c rsh res s1 with ⟨_ | _, s2⟩
          · exact ⟨_, _, rfl, rfl⟩
          · exact ⟨_, _, rfl, by rw [toList_mk]; exact hsub, bad_of_cloneIf hr⟩
      · exact ⟨_, _, rfl, by rw [toList_mk]; exact hsub, bad_of_cloneIf hl⟩

theorem rotLfC_spec (N : Nat) (c : Cl σ K V) {idx : Nat} {es : List (K × V)}
    {ks : List (Node K V)} {x : Node K V} (s : σ) (hx : rotLf N idx es ks = some x) :
    ∃ q s', rotLfC N c idx es ks s = some (q, s') ∧ RmEnd c (inter ks es) x q := by
  have hx' := hx
  simp only [rotLf] at hx
  simp only [rotLfC]
  cases h : ks[idx + 1]? with
  | none => rw [h] at hx; cases hx
  | some y =>
    obtain ⟨res, rks⟩ := y
    rw [h] at hx
    dsimp only at hx ⊢
    by_cases hl : res.length ≤ N
    · rw [if_pos hl] at hx; cases hx
    · rw [if_neg hl]
      rcases hc : c res s with ⟨_ | _, s1⟩
      · rw [hx']; exact ⟨_, _, rfl, rfl⟩
      · exact ⟨_, _, rfl, by rw [toList_mk]; exact List.Sublist.refl _, bad_of_eq hc⟩

theorem rotRtC_spec (N : Nat) (c : Cl σ K V) {idx : Nat} {es : List (K × V)}
    {ks : List (Node K V)} {x : Node K V} (s : σ) (hx : rotRt N idx es ks = some x) :
    ∃ q s', rotRtC N c idx es ks s = some (q, s') ∧ RmEnd c (inter ks es) x q := by
  have hx' := hx
  simp only [rotRt] at hx
  simp only [rotRtC]
  cases h : ks[idx]? with
  | none => rw [h] at hx; cases hx
  | some y =>
    obtain ⟨res, rks⟩ := y
    rw [h] at hx
    dsimp only at hx ⊢
    by_cases hl : res.length ≤ N
    · rw [if_pos hl] at hx; cases hx
    · rw [if_neg hl]
      rcases hc : c res s with ⟨_ | _, s1⟩
      · rw [hx']; exact ⟨_, _, rfl, rfl⟩
      · exact ⟨_, _, rfl, by rw [toList_mk]; exact List.Sublist.refl _, bad_of_eq hc⟩

theorem rebalC_spec (N : Nat) (c : Cl σ K V) {at_ : Nat} {es : List (K × V)}
    {ks : List (Node K V)} {x : Node K V} (s : σ) (hx : rebal N at_ es ks = some x) :
    ∃ q s', rebalC N c at_ es ks s = some (q, s') ∧ RmEnd c (inter ks es) x q := by
  simp only [rebal] at hx
  simp only [rebalC]
  by_cases h0 : ks.isEmpty = true
  · rw [if_pos h0] at hx; cases hx
  · rw [if_neg h0] at hx ⊢
    by_cases h1 : 0 < at_
    · rw [if_pos h1] at hx ⊢
      cases h2 : kidLen ks (at_ - 1) with
      | none => rw [h2] at hx; cases hx
      | some len =>
        rw [h2] at hx
        dsimp only at hx ⊢
        by_cases h3 : N + 1 < len
        · rw [if_pos h3] at hx ⊢; exact rotRtC_spec N c s hx
        · rw [if_neg h3] at hx ⊢; exact mergeKidsC_spec c _ _ s hx
    · rw [if_neg h1] at hx ⊢
      cases h2 : kidLen ks (at_ + 1) with
      | none => rw [h2] at hx; cases hx
      | some len =>
        rw [h2] at hx
        dsimp only at hx ⊢
        by_cases h3 : N + 1 < len
        · rw [if_pos h3] at hx ⊢; exact rotLfC_spec N c s hx
        · rw [if_neg h3] at hx ⊢; exact mergeKidsC_spec c _ _ s hx

theorem afterKidC_spec (N : Nat) (c : Cl σ K V) {i : Nat} {kv : K × V} {b : Bool}
    {es : List (K × V)} {ks : List (Node K V)} {x : RemRes K V} (s : σ)
    (hx : afterKid N i kv b es ks = some x) :
    ∃ q s', afterKidC N c i kv b es ks s = some (q, s') ∧ RmEnd c (inter ks es) x q := by
  simp only [afterKid] at hx
  simp only [afterKidC]
  cases b with
  | false => cases hx; exact ⟨_, _, rfl, rfl⟩
  | true =>
    simp only [if_true] at hx ⊢
    obtain ⟨n, hn, rfl⟩ := Option.map_eq_some_iff.1 hx
    obtain ⟨q, s', e, hq⟩ := rebalC_spec N c s hn
    rw [e]
    rcases q with n' | r
    · exact ⟨_, _, rfl, hq⟩
    · cases hq; exact ⟨_, _, rfl, rfl⟩

theorem popFirstAtC_eq (N : Nat) (c : Cl σ K V) (s : σ) : ∀ (ks : List (Node K V)),
    popFirstAtC N c ks s = ks.head?.map (fun n => owning c (popFirstC N c) n s)
  | [] => by rw [popFirstAtC]; rfl
  | n :: ks => by
    rw [popFirstAtC]
    simp only [List.head?_cons, Option.map_some, owning]
    rcases c n.elems s with ⟨_ | _, s1⟩ <;> rfl

theorem popLastAtC_eq (N : Nat) (c : Cl σ K V) (s : σ) : ∀ (ks : List (Node K V)),
    popLastAtC N c ks s = ks.getLast?.map (fun n => owning c (popLastC N c) n s)
  | [] => by rw [popLastAtC]; rfl
  | [n] => by
    rw [popLastAtC]
    simp only [List.getLast?_singleton, Option.map_some, owning]
    rcases c n.elems s with ⟨_ | _, s1⟩ <;> rfl
  | m :: n :: ks => by
    rw [popLastAtC, popLastAtC_eq N c s (n :: ks), List.getLast?_cons_cons]

theorem removeAtC_eq (N : Nat) (c : Cl σ K V) (p : K → Ordering) (s : σ) : ∀ (i : Nat)
    (ks : List (Node K V)),
    removeAtC N c p i ks s = ks[i]?.map (fun n => owning c (removeC N c p) n s)
  | _, [] => by rw [removeAtC]; rfl
  | 0, n :: ks => by
    rw [removeAtC]
    simp only [List.getElem?_cons_zero, Option.map_some, owning]
    rcases c n.elems s with ⟨_ | _, s1⟩ <;> rfl
  | i + 1, _ :: ks => by
    rw [removeAtC, removeAtC_eq N c p s i ks, List.getElem?_cons_succ]

theorem owning_spec {R : Type} (c : Cl σ K V) {f : Node K V → σ → Option (Ends (Node K V) R × σ)}
    {n : Node K V} {x : R} (h : ∀ s, ∃ q s', f n s = some (q, s') ∧ RmEnd c n.toList x q) (s : σ) :
    ∃ q s', owning c f n s = some (q, s') ∧ RmEnd c n.toList x q := by
  simp only [owning]
  rcases hc : c n.elems s with ⟨_ | _, s1⟩
  · exact h s1
  · exact ⟨_, _, rfl, List.Sublist.refl _, bad_of_eq hc⟩

variable {N : Nat}

theorem popFirstC_spec (hN : 1 ≤ N) (c : Cl σ K V) : ∀ {h lo : Nat} {n : Node K V}, Ok N lo h n → 1 ≤ lo →
    lo ≤ N → ∀ {x}, popFirst N n = some x → ∀ s,
    ∃ q s', popFirstC N c n s = some (q, s') ∧ RmEnd c n.toList x q := by
  intro h
  induction h with
  | zero =>
    intro lo n hn hlo1 hloN x hx s
    obtain ⟨es, ks⟩ := n
    obtain ⟨rfl, hlo, hhi⟩ := hn
    rw [popFirst, popFirstAt_eq] at hx
    rw [popFirstC, popFirstAtC_eq]
    dsimp only [List.head?_nil, Option.map_none] at hx ⊢
    cases hv : vRemove 0 es with
    | none => rw [hv] at hx; cases hx
    | some y => rw [hv] at hx; cases hx; exact ⟨_, _, rfl, rfl⟩
  | succ h ih =>
    intro lo n hn hlo1 hloN x hx s
    obtain ⟨es, ks⟩ := n
    obtain ⟨hl, hlo, hhi, hk⟩ := hn
    cases ks with
    | nil => simp at hl
    | cons d ks =>
      have hd := hk d (by simp)
      obtain ⟨kv, b, d', e, -, ht⟩ := popFirst_spec hN hd hN (Nat.le_refl N)
      rw [popFirst, popFirstAt_eq] at hx
      rw [popFirstC, popFirstAtC_eq]
      simp only [List.head?_cons, Option.map_some, e] at hx ⊢
      obtain ⟨q, s', e2, hq⟩ := owning_spec c (ih hd hN (Nat.le_refl N) e) s
      rw [e2]
      have hsub : ∀ d' : Node K V, d'.toList.Sublist d.toList →
          (inter ((d :: ks).set 0 d') es).Sublist (inter (d :: ks) es) := fun d' h => inter_set rfl h
      rcases q with d'' | r
      · exact ⟨_, _, rfl, by rw [toList_mk, toList_mk]; exact hsub _ hq.1, hq.2⟩
      · cases hq
        obtain ⟨q, s2, e3, hq⟩ := afterKidC_spec N c s' hx
        refine ⟨q, s2, e3, ?_⟩
        rw [toList_mk]
        exact hq.mono (hsub _ (by rw [ht]; exact (List.Sublist.refl _).cons _))

theorem popLastC_spec (hN : 1 ≤ N) (c : Cl σ K V) : ∀ {h lo : Nat} {n : Node K V}, Ok N lo h n → 1 ≤ lo →
    lo ≤ N → ∀ {x}, popLast N n = some x → ∀ s,
    ∃ q s', popLastC N c n s = some (q, s') ∧ RmEnd c n.toList x q := by
  intro h
  induction h with
  | zero =>
    intro lo n hn hlo1 hloN x hx s
    obtain ⟨es, ks⟩ := n
    obtain ⟨rfl, hlo, hhi⟩ := hn
    rw [popLast, popLastAt_eq] at hx
    rw [popLastC, popLastAtC_eq]
    dsimp only [List.getLast?_nil, Option.map_none] at hx ⊢
    cases hv : vPop es with
    | none => rw [hv] at hx; cases hx
    | some y => rw [hv] at hx; cases hx; exact ⟨_, _, rfl, rfl⟩
  | succ h ih =>
    intro lo n hn hlo1 hloN x hx s
    obtain ⟨es, ks⟩ := n
    obtain ⟨hl, hlo, hhi, hk⟩ := hn
    obtain ⟨ks, d, rfl⟩ := concat_of_pos ks (by omega)
    have hd := hk d (by simp)
    obtain ⟨kv, b, d', e, -, ht⟩ := popLast_spec hN hd hN (Nat.le_refl N)
    rw [popLast, popLastAt_eq] at hx
    rw [popLastC, popLastAtC_eq]
    simp only [List.getLast?_append, List.getLast?_singleton, Option.some_or, Option.map_some, e]
      at hx ⊢
    obtain ⟨q, s', e2, hq⟩ := owning_spec c (ih hd hN (Nat.le_refl N) e) s
    rw [e2]
    have hget : (ks ++ [d])[(ks ++ [d]).length - 1]? = some d := by simp
    have hsub : ∀ d' : Node K V, d'.toList.Sublist d.toList →
        (inter ((ks ++ [d]).set ((ks ++ [d]).length - 1) d') es).Sublist (inter (ks ++ [d]) es) :=
      fun d' h => inter_set hget h
    rcases q with d'' | r
    · exact ⟨_, _, rfl, by rw [toList_mk, toList_mk]; exact hsub _ hq.1, hq.2⟩
    · cases hq
      obtain ⟨q, s2, e3, hq⟩ := afterKidC_spec N c s' hx
      refine ⟨q, s2, e3, ?_⟩
      rw [toList_mk]
      exact hq.mono (hsub _ (by rw [ht]; exact List.sublist_append_left _ _))

theorem remove_sublist (hN : 1 ≤ N) {p : K → Ordering} {h lo : Nat} {n : Node K V} (hn : Ok N lo h n)
    (hlo1 : 1 ≤ lo) (hloN : lo ≤ N) {kv : K × V} {b : Bool} {n' : Node K V}
    (hx : remove N p n = some (some (kv, b, n'))) : n'.toList.Sublist n.toList := by
  obtain ⟨r, s', e, hr⟩ := removeW_spec (σ := Unit) (tame p) hN hn hlo1 hloN ()
  rw [removeW_tame, hx] at e
  cases e
  obtain ⟨-, l1, l2, h1, h2, -⟩ := hr
  rw [h1, h2]
  exact (List.Sublist.refl _).append ((List.Sublist.refl _).cons _)

theorem removeC_spec (hN : 1 ≤ N) (c : Cl σ K V) (p : K → Ordering) : ∀ {h lo : Nat} {n : Node K V},
    Ok N lo h n → 1 ≤ lo → lo ≤ N → ∀ {x}, remove N p n = some x → ∀ s,
    ∃ q s', removeC N c p n s = some (q, s') ∧ RmEnd c n.toList x q := by
  intro h
  induction h with
  | zero =>
    intro lo n hn hlo1 hloN x hx s
    obtain ⟨es, ks⟩ := n
    obtain ⟨rfl, hlo, hhi⟩ := hn
    rw [remove] at hx
    rw [removeC]
    by_cases hl : (locate p es).2 = true
    · rw [if_pos hl] at hx ⊢
      simp only [List.isEmpty_nil, if_true] at hx ⊢
      cases hv : vRemove (locate p es).1 es with
      | none => rw [hv] at hx; cases hx
      | some y => rw [hv] at hx; cases hx; exact ⟨_, _, rfl, rfl⟩
    · rw [if_neg hl] at hx ⊢
      rw [removeAtC_eq]
      rw [removeAt_eq] at hx
      cases hx
      exact ⟨_, _, rfl, rfl⟩
  | succ h ih =>
    intro lo n hn hlo1 hloN x hx s
    obtain ⟨es, ks⟩ := n
    obtain ⟨hle, hlo, hhi, hk⟩ := hn
    have hne : ¬ ks.isEmpty = true := by
      intro h; rw [List.isEmpty_iff] at h; subst h; simp at hle
    rw [remove] at hx
    rw [removeC]
    by_cases hl : (locate p es).2 = true
    · rw [if_pos hl] at hx ⊢
      rw [if_neg hne] at hx ⊢
      rw [popLastKid_eq] at hx
      have hi : (locate p es).1 < es.length := locate_found hl
      generalize (locate p es).1 = i at hx hi ⊢
      have hik : i < ks.length := by omega
      rw [List.getElem?_eq_getElem hik] at hx ⊢
      have hd := hk ks[i] (List.getElem_mem hik)
      obtain ⟨kv, b, d', e, -, ht⟩ := popLast_spec hN hd hN (Nat.le_refl N)
      simp only [Option.map_some, e, List.getElem?_eq_getElem hi] at hx ⊢
      obtain ⟨z, hz, rfl⟩ := Option.map_eq_some_iff.1 hx
      obtain ⟨q, s', e2, hq⟩ := owning_spec c (popLastC_spec hN c hd hN (Nat.le_refl N) e) s
      rw [e2]
      rcases q with d'' | r
      · exact ⟨_, _, rfl, by
          rw [toList_mk, toList_mk]
          exact inter_set (List.getElem?_eq_getElem hik) hq.1, hq.2⟩
      · cases hq
        obtain ⟨q, s2, e3, hq⟩ := afterKidC_spec N c s' hz
        simp only [e3]
        have hsub := inter_replace (List.getElem?_eq_getElem hik) hi ht
        rcases q with n' | r
        · exact ⟨_, _, rfl, by rw [toList_mk]; exact hq.1.trans hsub, hq.2⟩
        · cases hq; exact ⟨_, _, rfl, rfl⟩
    · rw [if_neg hl] at hx ⊢
      rw [removeAtC_eq]
      rw [removeAt_eq] at hx
      generalize (locate p es).1 = i at hx ⊢
      generalize descIdx i es ks.length = j at hx ⊢
      cases hj : ks[j]? with
      | none => rw [hj] at hx; cases hx; exact ⟨_, _, rfl, rfl⟩
      | some d =>
        rw [hj] at hx
        have hd := hk d (List.mem_of_getElem? hj)
        simp only [Option.map_some] at hx ⊢
        cases hr : remove N p d with
        | none => rw [hr] at hx; cases hx
        | some y =>
          rw [hr] at hx
          obtain ⟨q, s', e2, hq⟩ := owning_spec c (ih hd hN (Nat.le_refl N) hr) s
          rw [e2]
          rcases q with d'' | r
          · exact ⟨_, _, rfl, by rw [toList_mk, toList_mk]; exact inter_set hj hq.1, hq.2⟩
          · cases hq
            rcases y with _ | ⟨kv, b, d'⟩
            · cases hx; exact ⟨_, _, rfl, rfl⟩
            · dsimp only at hx ⊢
              obtain ⟨z, hz, rfl⟩ := Option.map_eq_some_iff.1 hx
              obtain ⟨q, s2, e3, hq⟩ := afterKidC_spec N c s' hz
              simp only [e3]
              have hsub := inter_set (es := es) hj (remove_sublist hN hd hN (Nat.le_refl N) hr)
              rcases q with n' | r
              · exact ⟨_, _, rfl, by rw [toList_mk]; exact hq.1.trans hsub, hq.2⟩
              · cases hq; exact ⟨_, _, rfl, rfl⟩

end Node
open Node

namespace BTreeMap
variable {N : Nat}

theorem getMutC_spec (m : BTreeMap K V) (c : Cl σ K V) (p : K → Ordering) (g : V → V) (s : σ) :
    ∃ q s', m.getMutC c p g s = some (q, s') ∧ match q with
      | .unwound m' => m' = m ∧ Bad c
      | .done r => m.getMut p g = r := by
  obtain ⟨len, root⟩ := m
  cases root with
  | none => exact ⟨_, _, rfl, rfl⟩
  | some n =>
    simp only [getMutC, getMut]
    rcases hc : c n.elems s with ⟨_ | _, s1⟩
    · dsimp only
      have h := Node.getMutC_spec c p g n s1
      generalize n.getMutC c p g s1 = x at h ⊢
      rcases x with ⟨n' | ⟨n', b⟩, s'⟩
      · exact ⟨_, _, rfl, by rw [h.1], h.2⟩
      · exact ⟨_, _, rfl, by dsimp only at h ⊢; rw [← h]⟩
    · exact ⟨_, _, rfl, rfl, bad_of_eq hc⟩

theorem insertC_spec [Ord K] (m : BTreeMap K V) (c : Cl σ K V) (k : K) (v : V) (s : σ)
    {x : BTreeMap K V × Option V} (hx : m.insert N k v = some x) :
    ∃ q s', m.insertC N c k v s = some (q, s') ∧ match q with
      | .unwound m' => m' = m ∧ Bad c
      | .done r => r = x := by
  obtain ⟨len, root⟩ := m
  cases root with
  | none => cases hx; exact ⟨_, _, rfl, rfl⟩
  | some n =>
    simp only [insert] at hx
    simp only [insertC, owning]
    rcases hc : c n.elems s with ⟨_ | _, s1⟩
    · dsimp only
      cases hi : ins N k v n with
      | none => rw [hi] at hx; cases hx
      | some y =>
        rw [hi] at hx
        obtain ⟨q, s', e, hq⟩ := insC_spec N c k v n s1 hi
        rw [e]
        rcases q with n' | r
        · exact ⟨_, _, rfl, by rw [hq.1], hq.2⟩
        · cases hq
          cases y with
          | replaced => cases hx; exact ⟨_, _, rfl, rfl⟩
          | absorbed => cases hx; exact ⟨_, _, rfl, rfl⟩
          | split => cases hx; exact ⟨_, _, rfl, rfl⟩
    · exact ⟨_, _, rfl, rfl, bad_of_eq hc⟩

/-- How a removal ends. -/
def TakeEnd (c : Cl σ K V) (m : BTreeMap K V) (x : BTreeMap K V × Option (K × V)) :
    Ends (BTreeMap K V) (BTreeMap K V × Option (K × V)) → Prop
  | .unwound m' => m'.abs.Sublist m.abs ∧ m'.len = m.len ∧ Bad c
  | .done r => r = x

theorem rmAndRebalC_spec {m : BTreeMap K V} (c : Cl σ K V)
    {f : Node K V → Option (Option (RemRes K V))}
    {fC : Node K V → σ → Option (Ends (Node K V) (Option (RemRes K V)) × σ)}
    (hf : ∀ n, m.root = some n → ∀ x, f n = some x → ∀ s,
      ∃ q s', fC n s = some (q, s') ∧ RmEnd c n.toList x q)
    {x : BTreeMap K V × Option (K × V)} (hx : m.rmAndRebal f = some x) (s : σ) :
    ∃ q s', m.rmAndRebalC c fC s = some (q, s') ∧ TakeEnd c m x q := by
  obtain ⟨len, root⟩ := m
  cases root with
  | none => cases hx; exact ⟨_, _, rfl, rfl⟩
  | some n =>
    simp only [rmAndRebalC]
    cases hr : f n with
    | none => simp only [rmAndRebal, hr] at hx; cases hx
    | some y =>
      obtain ⟨q, s', e, hq⟩ := owning_spec c (hf n rfl y hr) s
      rw [e]
      rcases q with n' | r
      · exact ⟨_, _, rfl, by simpa [abs] using hq.1, rfl, hq.2⟩
      · cases hq
        have e2 : rmAndRebal (⟨len, some n⟩ : BTreeMap K V) (fun _ => some y) = some x := by
          rw [← hx]; simp only [rmAndRebal, hr]
        simp only [e2]
        exact ⟨_, _, rfl, rfl⟩

theorem takeC_spec [Ord K] (hN : 1 ≤ N) {m : BTreeMap K V} (hm : m.Inv N) (c : Cl σ K V) (w : Which K)
    {x : BTreeMap K V × Option (K × V)} (hx : m.take N w = some x) (s : σ) :
    ∃ q s', m.takeC N c w s = some (q, s') ∧ TakeEnd c m x q := by
  have hal : ∀ {n : Node K V} {y : RemRes K V} {z : Option (Ends (Node K V) (RemRes K V) × σ)},
      (∃ q s', z = some (q, s') ∧ RmEnd c n.toList y q) →
      ∃ q s', always z = some (q, s') ∧ RmEnd c n.toList (some y) q := by
    rintro n y z ⟨q, s', rfl, hq⟩
    rcases q with n' | r
    · exact ⟨_, _, rfl, hq⟩
    · cases hq; exact ⟨_, _, rfl, rfl⟩
  cases w with
  | key p =>
    simp only [take] at hx
    simp only [takeC]
    by_cases h : m.containsKey p = true
    · rw [if_pos h] at hx ⊢
      refine rmAndRebalC_spec c (fun n hn x hx s => ?_) hx s
      obtain ⟨h, ho⟩ := hm.shape n hn
      exact removeC_spec hN c p ho (Nat.le_refl 1) hN hx s
    · rw [if_neg h] at hx ⊢
      cases hx
      exact ⟨_, _, rfl, rfl⟩
  | first =>
    refine rmAndRebalC_spec c (fun n hn x hx s => ?_) hx s
    obtain ⟨h, ho⟩ := hm.shape n hn
    obtain ⟨y, hy, rfl⟩ := Option.map_eq_some_iff.1 hx
    exact hal (popFirstC_spec hN c ho (Nat.le_refl 1) hN hy s)
  | last =>
    refine rmAndRebalC_spec c (fun n hn x hx s => ?_) hx s
    obtain ⟨h, ho⟩ := hm.shape n hn
    obtain ⟨y, hy, rfl⟩ := Option.map_eq_some_iff.1 hx
    exact hal (popLastC_spec hN c ho (Nat.le_refl 1) hN hy s)

variable [Ord K] [TransOrd K]

theorem take_reach (hN : 1 ≤ N) {m : BTreeMap K V} (hm : Reachable N m) {w : Which K} (hw : w.Ok) :
    ∃ x, m.take N w = some x ∧ Reachable N x.1 := by
  have hwf := hm.wf hN
  cases w with
  | key p =>
    obtain ⟨m1, e, -⟩ := remove_spec hN hwf hw
    have e' := e
    simp only [remove] at e
    simp only [take]
    by_cases h : m.containsKey p = true
    · rw [if_pos h] at e ⊢
      obtain ⟨y, hy, h2⟩ := Option.map_eq_some_iff.1 e
      have h3 := (Prod.mk.inj h2).1
      exact ⟨y, hy, hm.remove hw (e'.trans (by rw [← h3]))⟩
    · rw [if_neg h]
      exact ⟨_, rfl, hm⟩
  | first =>
    obtain ⟨m1, e, -⟩ := popFirst_spec hN hwf
    exact ⟨_, e, hm.popFirst e⟩
  | last =>
    obtain ⟨m1, e, -⟩ := popLast_spec hN hwf
    exact ⟨_, e, hm.popLast e⟩

theorem kit_keeps (hN : 1 ≤ N) :
    (kit (σ := σ) (K := K) (V := V) N).Keeps Which.Ok (Reachable N) where
  new := .new
  share h := h
  insert c a b m s h := by
    obtain ⟨m1, e1, -⟩ := insert_spec (h.wf hN) a b
    obtain ⟨q, s', e, hq⟩ := insertC_spec m c a b s e1
    refine ⟨q, s', e, ?_⟩
    rcases q with m' | ⟨m', o⟩
    · dsimp only; rw [hq.1]; exact h
    · cases hq; exact h.insert e1
  getMut c p g m s hp h := by
    obtain ⟨q, s', e, hq⟩ := getMutC_spec m c p g s
    refine ⟨q, s', e, ?_⟩
    rcases q with m' | ⟨m', o⟩
    · dsimp only; rw [hq.1]; exact h
    · have := h.getMut hp (g := g)
      rw [hq] at this
      exact this
  take {c w m} s hc hw h := by
    obtain ⟨x, e, hr⟩ := take_reach hN h hw
    obtain ⟨q, s', e2, hq⟩ := takeC_spec hN (h.wf hN).inv c w e s
    refine ⟨q, s', e2, ?_⟩
    rcases q with m' | ⟨m', o⟩
    · exact absurd hq.2.2 hc
    · cases hq; exact hr

end BTreeMap
end Verif.BTree
