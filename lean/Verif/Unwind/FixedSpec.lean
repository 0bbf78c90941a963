import Verif.Unwind.Fixed
import Verif.Unwind.BTreeSpec
import Verif.BTreeHeap.MutTree
import Verif.Wild.FixedSpec
import Mathlib.Data.List.Perm.Subperm
/-!
# What the fixed-layout B-tree is left with when `Clone` panics
-/
set_option linter.unusedVariables false
set_option linter.unusedSectionVars false
namespace Verif.Fixed
open Verif.BTree Verif.BTree.Node Verif.Wild Verif.Unwind Std
universe w
variable {σ : Type w} {K V : Type} {lin : Bool}

/-! ### Insertion and `get_mut` -/

mutual
theorem insC_spec [Ord K] (lin : Bool) (c : Cl σ K V) (k : K) (v : V) : ∀ (n : Node K V) (s : σ)
    {x : InsRes K V}, ins lin k v n = some x → ∃ q s', insC lin c k v n s = some (q, s') ∧
      match q with
      | .unwound n' => n' = n ∧ Bad c
      | .done r => r = x
  | mk es ks, s, x, hx => by
    rw [ins] at hx
    rw [insC]
    rcases hsk : searchKeys lin (compare k) es with _ | ⟨i, _ | _⟩
    · rw [hsk] at hx; cases hx
    · rw [hsk] at hx
      dsimp only at hx ⊢
      cases hi : insAt lin k v i ks with
      | none =>
        rw [hi] at hx
        rw [insAtC_none lin c k v i ks s hi]
        dsimp only at hx ⊢
        rw [hx]
        exact ⟨_, _, rfl, rfl⟩
      | some y =>
        rw [hi] at hx
        cases y with
        | none => cases hx
        | some y =>
          obtain ⟨q, s', e, hq⟩ := insAtC_spec lin c k v i ks s hi
          rw [e]
          rcases q with n' | r
          · exact ⟨_, _, rfl, by rw [hq.1], hq.2⟩
          · cases hq
            cases y with
            | replaced o n' => cases hx; exact ⟨_, _, rfl, rfl⟩
            | absorbed n' => cases hx; exact ⟨_, _, rfl, rfl⟩
            | split a kv n' =>
              dsimp only at hx ⊢
              rw [hx]
              exact ⟨_, _, rfl, rfl⟩
    · rw [hsk] at hx
      dsimp only at hx ⊢
      cases he : es[i]? with
      | none => rw [he] at hx; cases hx
      | some e =>
        rw [he] at hx
        cases hx
        exact ⟨_, _, rfl, rfl⟩
theorem insAtC_none [Ord K] (lin : Bool) (c : Cl σ K V) (k : K) (v : V) : ∀ (i : Nat)
    (ks : List (Node K V)) (s : σ), insAt lin k v i ks = none → insAtC lin c k v i ks s = none
  | _, [], s, h => by rw [insAtC]
  | 0, n :: _, s, h => by rw [insAt] at h; cases h
  | i + 1, _ :: ks, s, h => by
    rw [insAt] at h
    rw [insAtC]
    exact insAtC_none lin c k v i ks s h
theorem insAtC_spec [Ord K] (lin : Bool) (c : Cl σ K V) (k : K) (v : V) : ∀ (i : Nat)
    (ks : List (Node K V)) (s : σ) {x : InsRes K V}, insAt lin k v i ks = some (some x) →
    ∃ q s', insAtC lin c k v i ks s = some (some (q, s')) ∧
      match q with
      | .unwound n' => ks.set i n' = ks ∧ Bad c
      | .done r => r = x
  | _, [], s, x, h => by rw [insAt] at h; cases h
  | 0, n :: ks, s, x, h => by
    rw [insAt] at h
    rw [insAtC]
    rcases hc : c n.elems s with ⟨_ | _, s1⟩
    · dsimp only
      obtain ⟨q, s', e, hq⟩ := insC_spec lin c k v n s1 (Option.some.inj h)
      refine ⟨q, s', by rw [e], ?_⟩
      rcases q with n' | r
      · exact ⟨by rw [hq.1]; rfl, hq.2⟩
      · exact hq
    · exact ⟨_, _, rfl, rfl, bad_of_eq hc⟩
  | i + 1, n :: ks, s, x, h => by
    rw [insAt] at h
    rw [insAtC]
    obtain ⟨q, s', e, hq⟩ := insAtC_spec lin c k v i ks s h
    refine ⟨q, s', e, ?_⟩
    rcases q with n' | r
    · exact ⟨by rw [List.set_cons_succ, hq.1], hq.2⟩
    · exact hq
end

mutual
theorem getMutC_spec (lin : Bool) (c : Cl σ K V) (p : K → Ordering) (g : V → V) :
    ∀ (n : Node K V) (s : σ) {x : Node K V × Bool}, getMut lin p g n = some x →
    ∃ q s', getMutC lin c p g n s = some (q, s') ∧
      match q with
      | .unwound n' => n' = n ∧ Bad c
      | .done r => r = x
  | mk es ks, s, x, hx => by
    rw [getMut] at hx
    rw [getMutC]
    rcases hsk : searchKeys lin p es with _ | ⟨i, _ | _⟩
    · rw [hsk] at hx; cases hx
    · rw [hsk] at hx
      dsimp only at hx ⊢
      cases hi : getMutAt lin p g i ks with
      | none =>
        rw [hi] at hx
        rw [getMutAtC_none lin c p g i ks s hi]
        cases hx
        exact ⟨_, _, rfl, rfl⟩
      | some y =>
        rw [hi] at hx
        cases y with
        | none => cases hx
        | some y =>
          obtain ⟨q, s', e, hq⟩ := getMutAtC_spec lin c p g i ks s hi
          rw [e]
          rcases q with n' | r
          · exact ⟨_, _, rfl, by rw [hq.1], hq.2⟩
          · cases hq
            cases hx
            exact ⟨_, _, rfl, rfl⟩
    · rw [hsk] at hx
      dsimp only at hx ⊢
      obtain ⟨e, he, rfl⟩ := Option.map_eq_some_iff.1 hx
      rw [he]
      exact ⟨_, _, rfl, rfl⟩
theorem getMutAtC_none (lin : Bool) (c : Cl σ K V) (p : K → Ordering) (g : V → V) : ∀ (i : Nat)
    (ks : List (Node K V)) (s : σ), getMutAt lin p g i ks = none → getMutAtC lin c p g i ks s = none
  | _, [], s, h => by rw [getMutAtC]
  | 0, n :: _, s, h => by rw [getMutAt] at h; cases h
  | i + 1, _ :: ks, s, h => by
    rw [getMutAt] at h
    rw [getMutAtC]
    exact getMutAtC_none lin c p g i ks s h
theorem getMutAtC_spec (lin : Bool) (c : Cl σ K V) (p : K → Ordering) (g : V → V) : ∀ (i : Nat)
    (ks : List (Node K V)) (s : σ) {x : Node K V × Bool}, getMutAt lin p g i ks = some (some x) →
    ∃ q s', getMutAtC lin c p g i ks s = some (some (q, s')) ∧
      match q with
      | .unwound n' => ks.set i n' = ks ∧ Bad c
      | .done r => r = x
  | _, [], s, x, h => by rw [getMutAt] at h; cases h
  | 0, n :: ks, s, x, h => by
    rw [getMutAt] at h
    rw [getMutAtC]
    rcases hc : c n.elems s with ⟨_ | _, s1⟩
    · dsimp only
      obtain ⟨q, s', e, hq⟩ := getMutC_spec lin c p g n s1 (Option.some.inj h)
      refine ⟨q, s', by rw [e], ?_⟩
      rcases q with n' | r
      · exact ⟨by rw [hq.1]; rfl, hq.2⟩
      · exact hq
    · exact ⟨_, _, rfl, rfl, bad_of_eq hc⟩
  | i + 1, n :: ks, s, x, h => by
    rw [getMutAt] at h
    rw [getMutAtC]
    obtain ⟨q, s', e, hq⟩ := getMutAtC_spec lin c p g i ks s h
    refine ⟨q, s', e, ?_⟩
    rcases q with n' | r
    · exact ⟨by rw [List.set_cons_succ, hq.1], hq.2⟩
    · exact hq
end

/-! ### Fewer entries -/

theorem mk_subperm {es es' : List (K × V)} {ks ks' : List (Node K V)} (he : es'.Sublist es)
    (hk : (ks'.flatMap (·.toList)).Subperm (ks.flatMap (·.toList))) :
    (inter ks' es').Subperm (inter ks es) := by
  refine (BTreeH.inter_perm ks' es').subperm_right.2 ((BTreeH.inter_perm ks es).subperm_left.2 ?_)
  exact he.subperm.append hk

theorem flatMap_set {n' : Node K V} : ∀ {ks : List (Node K V)} {i : Nat} {n : Node K V},
    ks[i]? = some n → n'.toList.Subperm n.toList →
    ((ks.set i n').flatMap (·.toList)).Subperm (ks.flatMap (·.toList))
  | [], i, n, h, _ => by simp at h
  | d :: ks, 0, n, h, hn => by
    simp only [List.getElem?_cons_zero, Option.some.injEq] at h
    subst h
    rw [List.set_cons_zero, List.flatMap_cons, List.flatMap_cons]
    exact hn.append (List.Subperm.refl _)
  | d :: ks, i + 1, n, h, hn => by
    rw [List.getElem?_cons_succ] at h
    rw [List.set_cons_succ, List.flatMap_cons, List.flatMap_cons]
    exact (List.Subperm.refl _).append (flatMap_set h hn)

theorem inter_set' {n' n : Node K V} {ks : List (Node K V)} {i : Nat} (es : List (K × V))
    (h : ks[i]? = some n) (hn : n'.toList.Subperm n.toList) :
    (inter (ks.set i n') es).Subperm (inter ks es) :=
  mk_subperm (List.Sublist.refl _) (flatMap_set h hn)

theorem flatMap_erase : ∀ (ks : List (Node K V)) (i : Nat),
    ((ks.eraseIdx i).flatMap (·.toList)).Subperm (ks.flatMap (·.toList))
  | [], i => by simp
  | d :: ks, 0 => by
    rw [List.eraseIdx_cons_zero, List.flatMap_cons]
    exact (List.sublist_append_right _ _).subperm
  | d :: ks, i + 1 => by
    rw [List.eraseIdx_cons_succ, List.flatMap_cons, List.flatMap_cons]
    exact (List.Subperm.refl _).append (flatMap_erase ks i)

theorem ivRemove_eq' {es : List (K × V)} {i : Nat} (hi : i < es.length) (hl : es.length ≤ MAX) :
    ivRemove MAX i es = some (es[i], es.eraseIdx i) := by
  obtain ⟨es1, x, es2, rfl, rfl⟩ := split_at es i hi
  simp only [List.length_append, List.length_cons] at hl
  rw [ivRemove_eq (by omega), List.eraseIdx_eq_take_drop_succ]
  simp

theorem kRemove_eq' {ks : List (Node K V)} {i : Nat} (hi : i < ks.length) (hl : ks.length ≤ KIDS) :
    kRemove i ks = some (ks[i], ks.eraseIdx i) := by
  obtain ⟨ks1, x, ks2, rfl, rfl⟩ := split_at ks i hi
  simp only [List.length_append, List.length_cons] at hl
  rw [kRemove_eq (by omega), List.eraseIdx_eq_take_drop_succ]
  simp

/-! ### Removal -/

/-- How a removal ends: as it does otherwise, or leaving some of the entries. -/
def RmEnd {R : Type} (c : Cl σ K V) (L : List (K × V)) (x : R) : Ends (Node K V) R → Prop
  | .unwound n => n.toList.Subperm L ∧ Bad c
  | .done r => r = x

theorem RmEnd.mono {R : Type} {c : Cl σ K V} {L L' : List (K × V)} {x : R} {q : Ends (Node K V) R}
    (h : RmEnd c L x q) (hl : L.Subperm L') : RmEnd c L' x q := by
  rcases q with n | r
  · exact ⟨h.1.trans hl, h.2⟩
  · exact h

theorem mergeKidsC_spec (c : Cl σ K V) (lsh rsh : Bool) {idx : Nat} {es : List (K × V)}
    {ks : List (Node K V)} {x : Node K V} (s : σ) (hl : ks.length = es.length + 1)
    (hm : es.length ≤ MAX) (hi : idx < es.length) (hx : mergeKids idx es ks = some x) :
    ∃ q s', mergeKidsC c lsh rsh idx es ks s = some (q, s') ∧ RmEnd c (inter ks es) x q := by
  have hM : MAX + 1 = KIDS := rfl
  have e0 : ks.isEmpty = false := by cases ks <;> simp_all
  have e1 := kRemove_eq' (ks := ks) (i := idx + 1) (by omega) (by omega)
  have e2 := ivRemove_eq' hi hm
  have h1 := mk_subperm (List.Sublist.refl es) (flatMap_erase ks (idx + 1))
  have h2 := mk_subperm (List.eraseIdx_sublist es idx) (flatMap_erase ks (idx + 1))
  have hj : idx < (ks.eraseIdx (idx + 1)).length := by
    rw [List.length_eraseIdx]; split <;> omega
  obtain ⟨l, e3⟩ : ∃ l, (ks.eraseIdx (idx + 1))[idx]? = some l := ⟨_, List.getElem?_eq_getElem hj⟩
  generalize ks[idx + 1] = r at e1
  obtain ⟨les, lks⟩ := l
  obtain ⟨res, rks⟩ := r
  simp only [mergeKidsC, e0, Bool.false_eq_true, if_false, e1, e2, hx, e3]
  rcases hr : cloneIf c rsh res s with ⟨_ | _, s1⟩
  · dsimp only
    rcases hl : cloneIf c lsh les s1 with ⟨_ | _, s2⟩
    · exact ⟨_, _, rfl, rfl⟩
    · exact ⟨_, _, rfl, by rw [toList_mk]; exact h2, bad_of_cloneIf hl⟩
  · exact ⟨_, _, rfl, by rw [toList_mk]; exact h1, bad_of_cloneIf hr⟩

theorem rotLfC_spec (c : Cl σ K V) {idx : Nat} {es : List (K × V)}
    {ks : List (Node K V)} {x : Node K V} (s : σ) (hx : rotLf idx es ks = some x) :
    ∃ q s', rotLfC c idx es ks s = some (q, s') ∧ RmEnd c (inter ks es) x q := by
  have hx' := hx
  simp only [rotLf] at hx
  simp only [rotLfC]
  cases h : ks[idx + 1]? with
  | none => rw [h] at hx; cases hx
  | some y =>
    obtain ⟨res, rks⟩ := y
    rw [h] at hx
    dsimp only at hx ⊢
    by_cases hl : res.length ≤ MIN
    · rw [if_pos hl] at hx; cases hx
    · rw [if_neg hl]
      rcases hc : c res s with ⟨_ | _, s1⟩
      · rw [hx']; exact ⟨_, _, rfl, rfl⟩
      · exact ⟨_, _, rfl, by rw [toList_mk], bad_of_eq hc⟩

theorem rotRtC_spec (c : Cl σ K V) {idx : Nat} {es : List (K × V)}
    {ks : List (Node K V)} {x : Node K V} (s : σ) (hx : rotRt idx es ks = some x) :
    ∃ q s', rotRtC c idx es ks s = some (q, s') ∧ RmEnd c (inter ks es) x q := by
  have hx' := hx
  simp only [rotRt] at hx
  simp only [rotRtC]
  cases h : ks[idx]? with
  | none => rw [h] at hx; cases hx
  | some y =>
    obtain ⟨res, rks⟩ := y
    rw [h] at hx
    dsimp only at hx ⊢
    by_cases hl : res.length ≤ MIN
    · rw [if_pos hl] at hx; cases hx
    · rw [if_neg hl]
      rcases hc : c res s with ⟨_ | _, s1⟩
      · rw [hx']; exact ⟨_, _, rfl, rfl⟩
      · exact ⟨_, _, rfl, by rw [toList_mk], bad_of_eq hc⟩

theorem kidLen_lt {ks : List (Node K V)} {i len : Nat} (h : kidLen ks i = some len) :
    i < ks.length := by
  simp only [kidLen] at h
  obtain ⟨y, hy, -⟩ := Option.map_eq_some_iff.1 h
  exact (List.getElem?_eq_some_iff.1 hy).1

theorem rebalC_spec (c : Cl σ K V) {at_ : Nat} {es : List (K × V)}
    {ks : List (Node K V)} {x : Node K V} (s : σ) (hl : ks.length = es.length + 1)
    (hm : es.length ≤ MAX) (hx : rebal at_ es ks = some x) :
    ∃ q s', rebalC c at_ es ks s = some (q, s') ∧ RmEnd c (inter ks es) x q := by
  simp only [rebal] at hx
  simp only [rebalC]
  by_cases h0 : ks.isEmpty = true
  · rw [if_pos h0] at hx; cases hx
  · rw [if_neg h0] at hx ⊢
    by_cases hk : kidLen ks at_ ≠ some (MIN - 1)
    · rw [if_pos hk] at hx; cases hx
    · rw [if_neg hk] at hx ⊢
      rw [ne_eq, not_not] at hk
      have := kidLen_lt hk
      by_cases h1 : 0 < at_
      · rw [if_pos h1] at hx ⊢
        cases h2 : kidLen ks (at_ - 1) with
        | none => rw [h2] at hx; cases hx
        | some len =>
          rw [h2] at hx
          dsimp only at hx ⊢
          by_cases h3 : MAX - MIN < len
          · rw [if_pos h3] at hx ⊢; exact rotRtC_spec c s hx
          · rw [if_neg h3] at hx ⊢; exact mergeKidsC_spec c _ _ s hl hm (by omega) hx
      · rw [if_neg h1] at hx ⊢
        cases h2 : kidLen ks (at_ + 1) with
        | none => rw [h2] at hx; cases hx
        | some len =>
          rw [h2] at hx
          have := kidLen_lt h2
          dsimp only at hx ⊢
          by_cases h3 : MAX - MIN < len
          · rw [if_pos h3] at hx ⊢; exact rotLfC_spec c s hx
          · rw [if_neg h3] at hx ⊢; exact mergeKidsC_spec c _ _ s hl hm (by omega) hx

theorem afterKidC_spec (c : Cl σ K V) {i : Nat} {kv : K × V} {b : Bool}
    {es : List (K × V)} {ks : List (Node K V)} {x : RemRes K V} (s : σ)
    (hl : ks.length = es.length + 1) (hm : es.length ≤ MAX) (hx : afterKid i kv b es ks = some x) :
    ∃ q s', afterKidC c i kv b es ks s = some (q, s') ∧ RmEnd c (inter ks es) x q := by
  simp only [afterKid] at hx
  simp only [afterKidC]
  cases b with
  | false => cases hx; exact ⟨_, _, rfl, rfl⟩
  | true =>
    simp only [if_true] at hx ⊢
    obtain ⟨n, hn, rfl⟩ := Option.map_eq_some_iff.1 hx
    obtain ⟨q, s', e, hq⟩ := rebalC_spec c s hl hm hn
    rw [e]
    rcases q with n' | r
    · exact ⟨_, _, rfl, hq⟩
    · cases hq; exact ⟨_, _, rfl, rfl⟩

theorem popGreatestAtC_eq (c : Cl σ K V) (s : σ) : ∀ (ks : List (Node K V)),
    popGreatestAtC c ks s = ks.getLast?.map (fun n => owning c (popGreatestC c) n s)
  | [] => by rw [popGreatestAtC]; rfl
  | [n] => by
    rw [popGreatestAtC]
    simp only [List.getLast?_singleton, Option.map_some, owning]
    rcases c n.elems s with ⟨_ | _, s1⟩ <;> rfl
  | m :: n :: ks => by
    rw [popGreatestAtC, popGreatestAtC_eq c s (n :: ks), List.getLast?_cons_cons]

theorem removeAtC_eq (lin : Bool) (c : Cl σ K V) (p : K → Ordering) (s : σ) : ∀ (i : Nat)
    (ks : List (Node K V)),
    removeAtC lin c p i ks s = ks[i]?.map (fun n => owning c (removeC lin c p) n s)
  | _, [] => by rw [removeAtC]; rfl
  | 0, n :: ks => by
    rw [removeAtC]
    simp only [List.getElem?_cons_zero, Option.map_some, owning]
    rcases c n.elems s with ⟨_ | _, s1⟩ <;> rfl
  | i + 1, _ :: ks => by
    rw [removeAtC, removeAtC_eq lin c p s i ks, List.getElem?_cons_succ]

theorem owning_spec {R : Type} (c : Cl σ K V) {f : Node K V → σ → Option (Ends (Node K V) R × σ)}
    {n : Node K V} {x : R} (h : ∀ s, ∃ q s', f n s = some (q, s') ∧ RmEnd c n.toList x q) (s : σ) :
    ∃ q s', owning c f n s = some (q, s') ∧ RmEnd c n.toList x q := by
  simp only [owning]
  rcases hc : c n.elems s with ⟨_ | _, s1⟩
  · exact h s1
  · exact ⟨_, _, rfl, List.Subperm.refl _, bad_of_eq hc⟩

theorem popGreatestC_spec (c : Cl σ K V) : ∀ {h lo : Nat} {n : Node K V}, Ok MIN lo h n → 1 ≤ lo →
    lo ≤ MIN → ∀ {x}, popGreatest n = some x → ∀ s,
    ∃ q s', popGreatestC c n s = some (q, s') ∧ RmEnd c n.toList x q := by
  intro h
  induction h with
  | zero =>
    intro lo n hn hlo1 hloN x hx s
    obtain ⟨es, ks⟩ := n
    obtain ⟨rfl, hlo, hhi⟩ := hn
    rw [popGreatest, popGreatestAt_eq] at hx
    rw [popGreatestC, popGreatestAtC_eq]
    dsimp only [List.getLast?_nil, Option.map_none] at hx ⊢
    cases hv : ivPop MAX es with
    | none => rw [hv] at hx; cases hx
    | some y => rw [hv] at hx; cases hx; exact ⟨_, _, rfl, rfl⟩
  | succ h ih =>
    intro lo n hn hlo1 hloN x hx s
    obtain ⟨es, ks⟩ := n
    obtain ⟨hl, hlo, hhi, hk⟩ := hn
    obtain ⟨ks, d, rfl⟩ := concat_of_pos ks (by omega)
    have hd := hk d (by simp)
    obtain ⟨kv, b, d', e, -, ht⟩ := popLast_spec (by decide) hd (by decide) (Nat.le_refl MIN)
    rw [← popGreatest_eq hd (by decide) (Nat.le_refl MIN)] at e
    rw [popGreatest, popGreatestAt_eq] at hx
    rw [popGreatestC, popGreatestAtC_eq]
    simp only [List.getLast?_append, List.getLast?_singleton, Option.some_or, Option.map_some, e]
      at hx ⊢
    obtain ⟨q, s', e2, hq⟩ := owning_spec c (ih hd (by decide) (Nat.le_refl MIN) e) s
    rw [e2]
    have hget : (ks ++ [d])[(ks ++ [d]).length - 1]? = some d := by simp
    rcases q with d'' | r
    · exact ⟨_, _, rfl, by rw [toList_mk, toList_mk]; exact inter_set' es hget hq.1, hq.2⟩
    · cases hq
      obtain ⟨q, s2, e3, hq⟩ := afterKidC_spec c s' (by simpa using hl) (by omega) hx
      refine ⟨q, s2, e3, ?_⟩
      rw [toList_mk]
      exact hq.mono (inter_set' es hget (by rw [ht]; exact (List.sublist_append_left _ _).subperm))

theorem remove_sublist {p : K → Ordering} {h lo : Nat} {n : Node K V} (hn : Ok MIN lo h n)
    (hlo1 : 1 ≤ lo) (hloN : lo ≤ MIN) {kv : K × V} {b : Bool} {n' : Node K V}
    (hx : remove lin p n = some (some (kv, b, n'))) : n'.toList.Sublist n.toList := by
  obtain ⟨r, s', e, hr⟩ := removeW_spec (σ := Unit) (lin := lin) (c := tame p) hn hlo1 hloN ()
  rw [removeW_tame, hx] at e
  cases e
  obtain ⟨-, l1, l2, h1, h2, -⟩ := hr
  rw [h1, h2]
  exact (List.Sublist.refl _).append ((List.Sublist.refl _).cons _)

theorem removeC_spec (c : Cl σ K V) (p : K → Ordering) : ∀ {h lo : Nat} {n : Node K V},
    Ok MIN lo h n → 1 ≤ lo → lo ≤ MIN → ∀ {x}, remove lin p n = some x → ∀ s,
    ∃ q s', removeC lin c p n s = some (q, s') ∧ RmEnd c n.toList x q := by
  intro h
  induction h with
  | zero =>
    intro lo n hn hlo1 hloN x hx s
    obtain ⟨es, ks⟩ := n
    obtain ⟨rfl, hlo, hhi⟩ := hn
    rw [remove] at hx
    rw [removeC]
    rcases hsk : searchKeys lin p es with _ | ⟨i, _ | _⟩
    · rw [hsk] at hx; cases hx
    · rw [hsk] at hx
      dsimp only at hx ⊢
      rw [removeAtC_eq]
      rw [removeAt_eq] at hx
      cases hx
      exact ⟨_, _, rfl, rfl⟩
    · rw [hsk] at hx
      simp only [List.isEmpty_nil, if_true] at hx ⊢
      cases hv : ivRemove MAX i es with
      | none => rw [hv] at hx; cases hx
      | some y => rw [hv] at hx; cases hx; exact ⟨_, _, rfl, rfl⟩
  | succ h ih =>
    intro lo n hn hlo1 hloN x hx s
    obtain ⟨es, ks⟩ := n
    obtain ⟨hle, hlo, hhi, hk⟩ := hn
    have hne : ¬ ks.isEmpty = true := by
      intro h; rw [List.isEmpty_iff] at h; subst h; simp at hle
    rw [remove] at hx
    rw [removeC]
    rcases hsk : searchKeys lin p es with _ | ⟨i, _ | _⟩
    · rw [hsk] at hx; cases hx
    · rw [hsk] at hx
      dsimp only at hx ⊢
      rw [removeAtC_eq]
      rw [removeAt_eq] at hx
      cases hj : ks[i]? with
      | none => rw [hj] at hx; cases hx; exact ⟨_, _, rfl, rfl⟩
      | some d =>
        rw [hj] at hx
        have hd := hk d (List.mem_of_getElem? hj)
        simp only [Option.map_some] at hx ⊢
        cases hr : remove lin p d with
        | none => rw [hr] at hx; cases hx
        | some y =>
          rw [hr] at hx
          obtain ⟨q, s', e2, hq⟩ := owning_spec c (ih hd (by decide) (Nat.le_refl MIN) hr) s
          rw [e2]
          rcases q with d'' | r
          · exact ⟨_, _, rfl, by rw [toList_mk, toList_mk]; exact inter_set' es hj hq.1, hq.2⟩
          · cases hq
            rcases y with _ | ⟨kv, b, d'⟩
            · cases hx; exact ⟨_, _, rfl, rfl⟩
            · dsimp only at hx ⊢
              obtain ⟨z, hz, rfl⟩ := Option.map_eq_some_iff.1 hx
              obtain ⟨q, s2, e3, hq⟩ := afterKidC_spec c s' (by simpa using hle) (by omega) hz
              simp only [e3]
              have hsub := inter_set' es hj
                (remove_sublist hd (by decide) (Nat.le_refl MIN) hr).subperm
              rcases q with n' | r
              · exact ⟨_, _, rfl, by rw [toList_mk]; exact hq.1.trans hsub, hq.2⟩
              · cases hq; exact ⟨_, _, rfl, rfl⟩
    · rw [hsk] at hx
      dsimp only at hx ⊢
      rw [if_neg hne] at hx ⊢
      rw [popGreatestKid_eq] at hx
      cases hj : ks[i]? with
      | none => rw [hj] at hx; cases hx
      | some d =>
        rw [hj] at hx
        have hd := hk d (List.mem_of_getElem? hj)
        obtain ⟨kv, b, d', e, -, ht⟩ := popLast_spec (by decide) hd (by decide) (Nat.le_refl MIN)
        rw [← popGreatest_eq hd (by decide) (Nat.le_refl MIN)] at e
        simp only [Option.map_some, e] at hx ⊢
        cases ho : es[i]? with
        | none => rw [ho] at hx; cases hx
        | some old =>
          rw [ho] at hx
          dsimp only at hx ⊢
          have hi : i < es.length := (List.getElem?_eq_some_iff.1 ho).1
          obtain ⟨z, hz, rfl⟩ := Option.map_eq_some_iff.1 hx
          obtain ⟨q, s', e2, hq⟩ :=
            owning_spec c (popGreatestC_spec c hd (by decide) (Nat.le_refl MIN) e) s
          rw [e2]
          rcases q with d'' | r
          · exact ⟨_, _, rfl, by rw [toList_mk, toList_mk]; exact inter_set' es hj hq.1, hq.2⟩
          · cases hq
            obtain ⟨q, s2, e3, hq⟩ := afterKidC_spec c s' (by simpa using hle)
              (by simp; omega) hz
            simp only [e3]
            have hsub := (inter_replace hj hi ht).subperm
            rcases q with n' | r
            · exact ⟨_, _, rfl, by rw [toList_mk]; exact hq.1.trans hsub, hq.2⟩
            · cases hq; exact ⟨_, _, rfl, rfl⟩

namespace FMap

theorem getMutC_spec (m : FMap K V) (c : Cl σ K V) (p : K → Ordering) (g : V → V) (s : σ)
    {x : FMap K V × Bool} (hx : m.getMut lin p g = some x) :
    ∃ q s', m.getMutC lin c p g s = some (q, s') ∧ match q with
      | .unwound m' => m' = m ∧ Bad c
      | .done r => r = x := by
  obtain ⟨root, len⟩ := m
  cases root with
  | none => cases hx; exact ⟨_, _, rfl, rfl⟩
  | some n =>
    simp only [getMut] at hx
    simp only [getMutC, owning]
    obtain ⟨y, hy, rfl⟩ := Option.map_eq_some_iff.1 hx
    rcases hc : c n.elems s with ⟨_ | _, s1⟩
    · dsimp only
      obtain ⟨q, s', e, hq⟩ := Fixed.getMutC_spec lin c p g n s1 hy
      rw [e]
      rcases q with n' | r
      · exact ⟨_, _, rfl, by rw [hq.1], hq.2⟩
      · cases hq; exact ⟨_, _, rfl, rfl⟩
    · exact ⟨_, _, rfl, rfl, bad_of_eq hc⟩

theorem insertC_spec [Ord K] (m : FMap K V) (c : Cl σ K V) (k : K) (v : V) (s : σ)
    {x : FMap K V × Option V} (hx : m.insert lin k v = some x) :
    ∃ q s', m.insertC lin c k v s = some (q, s') ∧ match q with
      | .unwound m' => m' = m ∧ Bad c
      | .done r => r = x := by
  obtain ⟨root, len⟩ := m
  cases root with
  | none =>
    simp only [insert] at hx
    simp only [insertC]
    cases h : ivPush MAX (k, v) [] with
    | none => rw [h] at hx; cases hx
    | some es => rw [h] at hx; cases hx; exact ⟨_, _, rfl, rfl⟩
  | some n =>
    simp only [insert] at hx
    simp only [insertC, owning]
    rcases hc : c n.elems s with ⟨_ | _, s1⟩
    · dsimp only
      cases hi : ins lin k v n with
      | none => rw [hi] at hx; cases hx
      | some y =>
        rw [hi] at hx
        obtain ⟨q, s', e, hq⟩ := insC_spec lin c k v n s1 hi
        rw [e]
        rcases q with n' | r
        · exact ⟨_, _, rfl, by rw [hq.1], hq.2⟩
        · cases hq
          cases y with
          | replaced => cases hx; exact ⟨_, _, rfl, rfl⟩
          | absorbed => cases hx; exact ⟨_, _, rfl, rfl⟩
          | split lhs kv n' =>
            dsimp only at hx ⊢
            cases h1 : ivPush MAX kv [] with
            | none => rw [h1] at hx; cases hx
            | some es =>
              cases h2 : (kPush lhs []).bind (kPush n') with
              | none => rw [h1, h2] at hx; cases hx
              | some ks => rw [h1, h2] at hx; cases hx; exact ⟨_, _, rfl, rfl⟩
    · exact ⟨_, _, rfl, rfl, bad_of_eq hc⟩

/-- How a removal ends. -/
def TakeEnd (c : Cl σ K V) (m : FMap K V) (x : FMap K V × Option (K × V)) :
    Ends (FMap K V) (FMap K V × Option (K × V)) → Prop
  | .unwound m' => m'.toList.Subperm m.toList ∧ m'.len = m.len ∧ Bad c
  | .done r => r = x

theorem takeC_spec {m : FMap K V} (hm : m.Inv) (c : Cl σ K V) (p : K → Ordering)
    {x : FMap K V × Option (K × V)} (hx : m.take lin p = some x) (s : σ) :
    ∃ q s', m.takeC lin c p s = some (q, s') ∧ TakeEnd c m x q := by
  obtain ⟨root, len⟩ := m
  cases root with
  | none => cases hx; exact ⟨_, _, rfl, rfl⟩
  | some n =>
    obtain ⟨h, ho⟩ := hm.shape n rfl
    simp only [take] at hx
    simp only [takeC]
    cases hr : Fixed.remove lin p n with
    | none => rw [hr] at hx; cases hx
    | some y =>
      rw [hr] at hx
      obtain ⟨q, s', e, hq⟩ := owning_spec c (removeC_spec c p ho (Nat.le_refl 1) (by decide) hr) s
      rw [e]
      rcases q with n' | r
      · exact ⟨_, _, rfl, hq.1, rfl, hq.2⟩
      · cases hq
        rcases y with _ | r
        · cases hx; exact ⟨_, _, rfl, rfl⟩
        · simp only [hx]
          exact ⟨_, _, rfl, rfl⟩

variable [Ord K] [TransOrd K]

theorem take_reach {m : FMap K V} (hm : Reachable lin m) {p : K → Ordering} (hp : IsProbe p) :
    ∃ x, m.take lin p = some x ∧ Reachable lin x.1 := by
  obtain ⟨m1, e, -⟩ := remove_spec (lin := lin) hm.wf hp
  have e' := e
  obtain ⟨root, len⟩ := m
  cases root with
  | none => exact ⟨_, rfl, hm⟩
  | some n =>
    simp only [remove] at e
    simp only [take]
    obtain ⟨y, hy, h2⟩ := Option.map_eq_some_iff.1 e
    have h3 := (Prod.mk.inj h2).1
    exact ⟨y, hy, hm.remove hp (e'.trans (by rw [← h3]))⟩

theorem kit_keeps : (kit (σ := σ) (K := K) (V := V) lin).Keeps IsProbe (Reachable lin) where
  new := .new
  share h := h
  insert c a b m s h := by
    obtain ⟨m1, e1, -⟩ := insert_spec (lin := lin) h.wf a b
    obtain ⟨q, s', e, hq⟩ := insertC_spec m c a b s e1
    refine ⟨q, s', e, ?_⟩
    rcases q with m' | ⟨m', o⟩
    · dsimp only; rw [hq.1]; exact h
    · cases hq; exact h.insert e1
  getMut c p g m s hp h := by
    obtain ⟨m1, e1, -⟩ := getMut_spec (lin := lin) h.wf hp g
    obtain ⟨q, s', e, hq⟩ := getMutC_spec m c p g s e1
    refine ⟨q, s', e, ?_⟩
    rcases q with m' | ⟨m', o⟩
    · dsimp only; rw [hq.1]; exact h
    · cases hq; exact h.getMut hp e1
  take {c w m} s hc hw h := by
    obtain ⟨x, e, hr⟩ := take_reach h hw
    obtain ⟨q, s', e2, hq⟩ := takeC_spec h.wf.inv c w e s
    refine ⟨q, s', e2, ?_⟩
    rcases q with m' | ⟨m', o⟩
    · exact absurd hq.2.2 hc
    · cases hq; exact hr

end FMap
end Verif.Fixed
