import Verif.Avl.ShapeOps
/-! What the tree operations do to the in-order list of entries. -/
set_option linter.unusedSectionVars false
namespace Verif.Avl
open Std
namespace Tree
variable {K V : Type _} [Ord K] [TransOrd K]

theorem getKeyValue_toList {p : K → Ordering} (hp : IsProbe p) : ∀ {t : Tree K V},
    Sorted (toList t) → getKeyValue p t = Spec.find p (toList t)
  | nil, _ => rfl
  | node k v lh rh l r, hs => by
    have hs' := hs
    simp only [toList] at hs'
    obtain ⟨hl, hr, -, -⟩ := sorted_mid.1 hs'
    unfold getKeyValue
    simp only [toList]
    split
    · next h =>
      have := allLt_of_lt hp hs' h
      rw [getKeyValue_toList hp hl]
      simpa using (find_ctx (pre := []) (c := toList l) (by simp) this).symm
    · next h =>
      have h1 := allLt_of_eq hp hs' h
      have h2 := allGt_of_eq hp hs' h
      have := find_ctx (c := [(k, v)]) h2 h1
      simp at this
      rw [this]; simp [Spec.find, h]
    · next h =>
      have := allGt_of_gt hp hs' h
      rw [getKeyValue_toList hp hr]
      simpa using (find_ctx (c := toList r) (post := []) this (by simp)).symm

theorem ins_toList {k : K} {v : V} : ∀ {t t' : Tree K V} {old tl},
    Sorted (toList t) → ins k v t = some (t', old, tl) →
    toList t' = Spec.insert k v (toList t) ∧
      old = (Spec.find (compare k) (toList t)).map (·.2)
  | nil, t', old, tl, _, h => by
    simp [ins, mk] at h
    simp [← h.1, ← h.2.1, toList, Spec.insert, Spec.find]
  | node nk nv lh rh l r, t', old, tl, hs, h => by
    have hp := isProbe_compare k
    simp only [toList] at hs
    obtain ⟨hl, hr, -, -⟩ := sorted_mid.1 hs
    unfold ins at h
    simp only [toList]
    split at h
    · next hc =>
      have h1 := allLt_of_eq hp hs hc
      have h2 := allGt_of_eq hp hs hc
      have e1 := insert_ctx (v := v) (c := [(nk, nv)]) h2 h1
      have e2 := find_ctx (c := [(nk, nv)]) h2 h1
      simp only [List.append_assoc, List.cons_append, List.nil_append] at e1 e2
      rw [e1, e2]
      simp at h
      simp [← h.1, ← h.2.1, toList, Spec.insert, Spec.find, hc]
    · next hc =>
      have h1 := allLt_of_lt hp hs hc
      split at h
      · simp at h
      · rename_i l' old' tl' e
        obtain ⟨i1, i2⟩ := ins_toList hl e
        simp only [Option.map_eq_some_iff, Prod.mk.injEq] at h
        obtain ⟨x, ex, rfl, rfl, rfl⟩ := h
        have e1 := insert_ctx (v := v) (pre := []) (c := toList l) (by simp) h1
        have e2 := find_ctx (pre := []) (c := toList l) (by simp) h1
        simp only [List.nil_append] at e1 e2
        rw [e1, e2, afterInsLf_toList (t' := x.1) (b := x.2) ex, i1]
        exact ⟨rfl, i2⟩
    · next hc =>
      have h1 := allGt_of_gt hp hs hc
      split at h
      · simp at h
      · rename_i r' old' tl' e
        obtain ⟨i1, i2⟩ := ins_toList hr e
        simp only [Option.map_eq_some_iff, Prod.mk.injEq] at h
        obtain ⟨x, ex, rfl, rfl, rfl⟩ := h
        have e1 := insert_ctx (v := v) (post := []) (c := toList r) h1 (by simp)
        have e2 := find_ctx (post := []) (c := toList r) h1 (by simp)
        simp only [List.append_nil, List.append_assoc, List.cons_append, List.nil_append] at e1 e2
        rw [e1, e2, afterInsRt_toList (t' := x.1) (b := x.2) ex, i1]
        exact ⟨rfl, i2⟩

theorem rm_toList {p : K → Ordering} (hp : IsProbe p) : ∀ {t t' : Tree K V} {kv sh},
    Sorted (toList t) → rm p t = some (t', kv, sh) →
    toList t' = Spec.erase p (toList t) ∧ kv = Spec.find p (toList t)
  | nil, t', kv, sh, _, h => by
    simp [rm] at h
    simp [← h.1, ← h.2.1, Spec.erase, Spec.find]
  | node k v lh rh l r, t', kv, sh, hs, h => by
    simp only [toList] at hs
    obtain ⟨hl, hr, -, -⟩ := sorted_mid.1 hs
    unfold rm at h
    simp only [toList]
    split at h
    · next hc =>
      have h1 := allLt_of_lt hp hs hc
      split at h
      · simp at h
      · rename_i l' kv' sh' e
        obtain ⟨i1, i2⟩ := rm_toList hp hl e
        simp only [Option.map_eq_some_iff, Prod.mk.injEq] at h
        obtain ⟨x, ex, rfl, rfl, rfl⟩ := h
        have e1 := erase_ctx (pre := []) (c := toList l) (by simp) h1
        have e2 := find_ctx (pre := []) (c := toList l) (by simp) h1
        simp only [List.nil_append] at e1 e2
        rw [e1, e2, afterRmLf_toList (t' := x.1) (b := x.2) ex, i1]
        exact ⟨rfl, i2⟩
    · next hc =>
      have h1 := allGt_of_gt hp hs hc
      split at h
      · simp at h
      · rename_i r' kv' sh' e
        obtain ⟨i1, i2⟩ := rm_toList hp hr e
        simp only [Option.map_eq_some_iff, Prod.mk.injEq] at h
        obtain ⟨x, ex, rfl, rfl, rfl⟩ := h
        have e1 := erase_ctx (post := []) (c := toList r) h1 (by simp)
        have e2 := find_ctx (post := []) (c := toList r) h1 (by simp)
        simp only [List.append_nil, List.append_assoc, List.cons_append, List.nil_append] at e1 e2
        rw [e1, e2, afterRmRt_toList (t' := x.1) (b := x.2) ex, i1]
        exact ⟨rfl, i2⟩
    · next hc =>
      have h1 := allLt_of_eq hp hs hc
      have h2 := allGt_of_eq hp hs hc
      have e1 := erase_ctx (c := [(k, v)]) h2 h1
      have e2 := find_ctx (c := [(k, v)]) h2 h1
      simp only [List.append_assoc, List.cons_append, List.nil_append] at e1 e2
      rw [e1, e2]
      have e3 : Spec.erase p [(k, v)] = [] := by simp [Spec.erase, hc]
      have e4 : Spec.find p [(k, v)] = some (k, v) := by simp [Spec.find, hc]
      rw [e3, e4]
      split at h
      · simp at h; simp [← h.1, ← h.2.1]
      · simp at h; simp [← h.1, ← h.2.1]
      · simp at h; simp [← h.1, ← h.2.1]
      · split at h
        · rename_i r' sk sv sh' e
          have ⟨i1, i2⟩ := rmLeftmost_toList e
          simp only [Option.map_eq_some_iff, Prod.mk.injEq] at h
          obtain ⟨x, ex, rfl, rfl, rfl⟩ := h
          rw [afterRmRt_toList (t' := x.1) (b := x.2) ex, i1]
          refine ⟨?_, rfl⟩
          cases hm : r.toList with
          | nil => simp [hm] at i2
          | cons a m => simp [hm] at i2; simp [i2]
        · simp at h

theorem split_toList {p : K → Ordering} (hp : IsProbe p) : ∀ {t l' r' : Tree K V} {kv},
    Sorted (toList t) → split p t = some (l', kv, r') →
    toList l' = Spec.below p (toList t) ∧ kv = Spec.find p (toList t) ∧
      toList r' = Spec.above p (toList t)
  | nil, l', r', kv, _, h => by
    simp [split] at h
    simp [← h.1, ← h.2.1, ← h.2.2, Spec.below, Spec.above, Spec.find]
  | node k v lh rh l r, l', r', kv, hs, h => by
    simp only [toList] at hs
    obtain ⟨hl, hr, -, -⟩ := sorted_mid.1 hs
    unfold split at h
    simp only [toList]
    split at h
    · next hc =>
      have h1 := allLt_of_eq hp hs hc
      have h2 := allGt_of_eq hp hs hc
      have e1 := below_ctx (c := [(k, v)]) h2 h1
      have e2 := find_ctx (c := [(k, v)]) h2 h1
      have e3 := above_ctx (c := [(k, v)]) h2 h1
      simp only [List.append_assoc, List.cons_append, List.nil_append] at e1 e2 e3
      rw [e1, e2, e3]
      simp at h
      simp [← h.1, ← h.2.1, ← h.2.2, Spec.below, Spec.above, Spec.find, hc]
    · next hc =>
      have h1 := allLt_of_lt hp hs hc
      split at h
      · simp at h
      · rename_i l1 kv1 r1 e
        obtain ⟨i1, i2, i3⟩ := split_toList hp hl e
        simp only [Option.map_eq_some_iff, Prod.mk.injEq] at h
        obtain ⟨x, ex, rfl, rfl, rfl⟩ := h
        have e1 := below_ctx (pre := []) (c := toList l) (by simp) h1
        have e2 := find_ctx (pre := []) (c := toList l) (by simp) h1
        have e3 := above_ctx (pre := []) (c := toList l) (by simp) h1
        simp only [List.nil_append] at e1 e2 e3
        rw [e1, e2, e3, join_toList ex, i3]
        exact ⟨i1, i2, rfl⟩
    · next hc =>
      have h1 := allGt_of_gt hp hs hc
      split at h
      · simp at h
      · rename_i l1 kv1 r1 e
        obtain ⟨i1, i2, i3⟩ := split_toList hp hr e
        simp only [Option.map_eq_some_iff, Prod.mk.injEq] at h
        obtain ⟨x, ex, rfl, rfl, rfl⟩ := h
        have e1 := below_ctx (post := []) (c := toList r) h1 (by simp)
        have e2 := find_ctx (post := []) (c := toList r) h1 (by simp)
        have e3 := above_ctx (post := []) (c := toList r) h1 (by simp)
        simp only [List.append_nil, List.append_assoc, List.cons_append, List.nil_append] at e1 e2 e3
        rw [e1, e2, e3, join_toList ex, i1]
        exact ⟨rfl, i2, i3⟩

/-- How the lookups of a merge are determined by the lookups of its inputs. -/
def mergeAt {α : Type _} (keepL keepR : Bool) (dec : α → α → Option α) :
    Option α → Option α → Option α
  | none, none => none
  | some a, none => if keepL then some a else none
  | none, some b => if keepR then some b else none
  | some a, some b => dec a b

/-- `dec` returns an entry whose key equals the conflicting keys. -/
def KeyPreserving (dec : K × V → K × V → Option (K × V)) : Prop :=
  ∀ a b e, compare a.1 b.1 = .eq → dec a b = some e → compare a.1 e.1 = .eq

theorem mergeAt_bound {kl kr : Bool} {dec : K × V → K × V → Option (K × V)}
    {l r out : List (K × V)} (ho : Sorted out) {P : K → Prop}
    (hP : ∀ a b, compare a b = .eq → P b → P a)
    (hl : ∀ e ∈ l, P e.1) (hr : ∀ e ∈ r, P e.1)
    (h : ∀ q, Spec.find (compare q) out =
      mergeAt kl kr dec (Spec.find (compare q) l) (Spec.find (compare q) r)) :
    ∀ e ∈ out, P e.1 := by
  intro e he
  have h1 : Spec.find (compare e.1) out = some e :=
    (find_eq_some (isProbe_compare e.1) ho).2 ⟨he, cmp_self _⟩
  rw [h] at h1
  cases hfl : Spec.find (compare e.1) l with
  | some a =>
    have hm : a ∈ l := List.mem_of_find?_eq_some hfl
    have hq : compare e.1 a.1 = .eq := by simpa using List.find?_some hfl
    exact hP _ _ hq (hl a hm)
  | none =>
    cases hfr : Spec.find (compare e.1) r with
    | some a =>
      have hm : a ∈ r := List.mem_of_find?_eq_some hfr
      have hq : compare e.1 a.1 = .eq := by simpa using List.find?_some hfr
      exact hP _ _ hq (hr a hm)
    | none => simp [hfl, hfr, mergeAt] at h1

theorem merge_toList {kl kr : Bool} {dec : K × V → K × V → Option (K × V)}
    (hdec : KeyPreserving dec) : ∀ {t1 t2 t : Tree K V},
    Sorted (toList t1) → Sorted (toList t2) → merge kl kr dec t1 t2 = some t →
    Sorted (toList t) ∧ ∀ q, Spec.find (compare q) (toList t) =
      mergeAt kl kr dec (Spec.find (compare q) (toList t1)) (Spec.find (compare q) (toList t2))
  | nil, t2, t, _, h2, h => by
    unfold merge at h
    split at h
    · next hk =>
      simp at h; subst h
      refine ⟨h2, fun q => ?_⟩
      simp only [toList_nil, Spec.find, List.find?_nil, hk]
      cases List.find? (fun e => compare q e.1 == Ordering.eq) (toList t2) <;> rfl
    · next hk =>
      simp at h; subst h
      refine ⟨List.Pairwise.nil, fun q => ?_⟩
      simp only [toList_nil, Spec.find, List.find?_nil]
      cases List.find? (fun e => compare q e.1 == Ordering.eq) (toList t2) <;> simp_all [mergeAt]
  | node k v lh rh l r, nil, t, h1, _, h => by
    unfold merge at h
    split at h
    · next hk =>
      simp at h; subst h
      refine ⟨h1, fun q => ?_⟩
      simp only [toList_nil, Spec.find, List.find?_nil, hk]
      cases List.find? (fun e => compare q e.1 == Ordering.eq) (toList (node k v lh rh l r)) <;> rfl
    · next hk =>
      simp at h; subst h
      refine ⟨List.Pairwise.nil, fun q => ?_⟩
      simp only [toList_nil, Spec.find, List.find?_nil]
      cases List.find? (fun e => compare q e.1 == Ordering.eq) (toList (node k v lh rh l r)) <;>
        simp_all [mergeAt]
  | node k v lh rh l r, node k2 v2 lh2 rh2 l2 r2, t, h1, h2, h => by
    unfold merge at h
    split at h
    · simp at h
    · rename_i lt kv2 gt es
      split at h
      · simp at h
      · rename_i l' el
        split at h
        · simp at h
        · rename_i r' er
          dsimp only at h
          have hpk := isProbe_compare k
          simp only [toList] at h1
          obtain ⟨s1, s2, s3⟩ := split_toList hpk h2 es
          have hdc := sorted_decomp hpk h2
          rw [← s1, ← s2, ← s3] at hdc
          rw [hdc]
          have b1 : AllGt (compare k) (toList lt) := by
            rw [s1]; intro e he; simp only [Spec.below, List.mem_filter] at he; simpa using he.2
          have b2 : AllLt (compare k) (toList gt) := by
            rw [s3]; intro e he; simp only [Spec.above, List.mem_filter] at he; simpa using he.2
          obtain ⟨hl, hr, a1, a2⟩ := sorted_mid.1 h1
          obtain ⟨il1, il2⟩ := merge_toList hdec hl (by rw [s1]; exact h2.filter _) el
          obtain ⟨ir1, ir2⟩ := merge_toList hdec hr (by rw [s3]; exact h2.filter _) er
          have c1 : ∀ e ∈ toList l', compare e.1 k = .lt := by
            refine mergeAt_bound il1 (P := fun x => compare x k = .lt) ?_ a1 ?_ il2
            · intro a b hab hb; rw [cmp_congr_left hab]; exact hb
            · intro e he; exact cmp_gt_iff_lt.1 (b1 e he)
          have c2 : ∀ e ∈ toList r', compare k e.1 = .lt := by
            refine mergeAt_bound ir1 (P := fun x => compare k x = .lt) ?_ a2 ?_ ir2
            · intro a b hab hb; rw [cmp_congr_right hab]; exact hb
            · intro e he; exact b2 e he
          obtain ⟨kv, hkv, hj⟩ : ∃ kv, mergeAt kl kr dec (some (k, v)) kv2 = kv ∧
              join2 l' kv r' = some t := ⟨_, rfl, by cases kv2 <;> exact h⟩
          have ht := join2_toList hj
          have ekv2 : ∀ e, kv2 = some e → compare k e.1 = .eq := by
            intro e he; rw [s2] at he; exact ((find_eq_some hpk h2).1 he).2
          have ekv : ∀ e, kv = some e → compare k e.1 = .eq := by
            intro e he
            rw [he] at hkv
            cases hk2 : kv2 with
            | none => simp only [hk2, mergeAt] at hkv; split at hkv <;> simp at hkv; simp [← hkv]
            | some e2 =>
              simp only [hk2, mergeAt] at hkv
              exact hdec (k, v) e2 e (ekv2 _ hk2) hkv
          rw [ht]
          have hskv : Sorted (toList l' ++ kv.toList ++ toList r') := by
            cases hkv' : kv with
            | none =>
              simp only [Option.toList_none, List.append_nil]
              exact sorted_append.2 ⟨il1, ir1, fun a ha b hb => cmp_lt_trans (c1 a ha) (c2 b hb)⟩
            | some e =>
              simp only [Option.toList_some, List.append_assoc, List.singleton_append]
              have := ekv e hkv'
              refine sorted_mid.2 ⟨il1, ir1, fun a ha => ?_, fun b hb => ?_⟩
              · rw [← cmp_congr_right this]; exact c1 a ha
              · rw [← cmp_congr_left this]; exact c2 b hb
          refine ⟨hskv, fun q => ?_⟩
          have hpq := isProbe_compare q
          simp only [toList]
          have f2 : ∀ {o : Option (K × V)}, (∀ e, o = some e → compare k e.1 = .eq) →
              compare q k = .lt → AllLt (compare q) o.toList := by
            intro o ho hq e he
            simp at he
            rw [← cmp_congr_right (ho e he)]; exact hq
          have f3 : ∀ {o : Option (K × V)}, (∀ e, o = some e → compare k e.1 = .eq) →
              compare q k = .gt → AllGt (compare q) o.toList := by
            intro o ho hq e he
            simp at he
            rw [← cmp_congr_right (ho e he)]; exact hq
          have f1 : ∀ {o : Option (K × V)}, (∀ e, o = some e → compare k e.1 = .eq) →
              compare q k = .eq → Spec.find (compare q) o.toList = o := by
            intro o ho hq
            cases ho' : o with
            | none => rfl
            | some e =>
              have : compare q e.1 = .eq := by rw [← cmp_congr_right (ho e ho')]; exact hq
              simp [Spec.find, this]
          have g1 : ∀ m : List (K × V), AllLt (compare k) m → compare q k ≠ .gt →
              AllLt (compare q) m := by
            intro m hm hq e he
            exact hpq.mono _ _ (hm e he) hq
          have g2 : ∀ m : List (K × V), AllGt (compare k) m → compare q k ≠ .lt →
              AllGt (compare q) m := by
            intro m hm hq e he
            have h1 := cmp_gt_iff_lt.1 (hm e he)
            cases hqk : compare q k with
            | lt => exact absurd hqk hq
            | eq => rw [cmp_congr_left hqk]; exact hm e he
            | gt => exact hpq.gt_of_gt h1 hqk
          have a1' : AllGt (compare k) (toList l) := fun e he => cmp_gt_iff_lt.2 (a1 e he)
          have c1' : AllGt (compare k) (toList l') := fun e he => cmp_gt_iff_lt.2 (c1 e he)
          have a2' : AllLt (compare k) (toList r) := a2
          have c2' : AllLt (compare k) (toList r') := c2
          have hcons : toList l ++ (k, v) :: toList r =
              toList l ++ (some (k, v)).toList ++ toList r := by simp
          have ekk : ∀ e, some (k, v) = some e → compare k e.1 = .eq := by
            rintro e he; simp at he; simp [← he]
          rw [hcons]
          cases hq : compare q k with
          | lt =>
            have hng : compare q k ≠ .gt := by simp [hq]
            have e1 := find_ctx (pre := []) (c := toList l') (post := kv.toList ++ toList r')
              (p := compare q) (by simp) (allLt_append.2 ⟨f2 ekv hq, g1 _ c2' hng⟩)
            have e2 := find_ctx (pre := []) (c := toList l) (post := (some (k,v)).toList ++ toList r)
              (p := compare q) (by simp) (allLt_append.2 ⟨f2 ekk hq, g1 _ a2' hng⟩)
            have e3 := find_ctx (pre := []) (c := toList lt) (post := kv2.toList ++ toList gt)
              (p := compare q) (by simp) (allLt_append.2 ⟨f2 ekv2 hq, g1 _ b2 hng⟩)
            simp only [List.nil_append, ← List.append_assoc] at e1 e2 e3
            rw [e1, e2, e3, il2]
          | gt =>
            have hng : compare q k ≠ .lt := by simp [hq]
            have e1 := find_ctx (post := []) (c := toList r') (pre := toList l' ++ kv.toList)
              (p := compare q) (allGt_append.2 ⟨g2 _ c1' hng, f3 ekv hq⟩) (by simp)
            have e2 := find_ctx (post := []) (c := toList r) (pre := toList l ++ (some (k,v)).toList)
              (p := compare q) (allGt_append.2 ⟨g2 _ a1' hng, f3 ekk hq⟩) (by simp)
            have e3 := find_ctx (post := []) (c := toList gt) (pre := toList lt ++ kv2.toList)
              (p := compare q) (allGt_append.2 ⟨g2 _ b1 hng, f3 ekv2 hq⟩) (by simp)
            simp only [List.append_nil] at e1 e2 e3
            rw [e1, e2, e3, ir2]
          | eq =>
            have hng : compare q k ≠ .lt := by simp [hq]
            have hng' : compare q k ≠ .gt := by simp [hq]
            rw [find_ctx (g2 _ c1' hng) (g1 _ c2' hng'), find_ctx (g2 _ a1' hng) (g1 _ a2' hng'),
              find_ctx (g2 _ b1 hng) (g1 _ b2 hng'), f1 ekv hq, f1 ekk hq, f1 ekv2 hq, ← hkv]

end Tree
end Verif.Avl
