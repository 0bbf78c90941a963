import Verif.FixedHeap.Ops
/-!
# Removal from nodes of `core.rs` on reference-counted memory, against that on values
-/
namespace Verif.FixedH
open Heap BTreeH Fixed
open BTree (Node)
open BTree.Node (RemRes)
variable {K V : Type}

/-! ## Rotations and merging -/

theorem takeFirst_some {kt kt' : List (Node K V)} {c : Option (Node K V)}
    (h : Fixed.takeFirst kt = some (c, kt')) :
    (kt = [] ∧ c = none ∧ kt' = []) ∨
    ∃ d, kt = d :: kt' ∧ c = some d ∧ kt.length ≤ KIDS := by
  unfold Fixed.takeFirst at h
  cases kt with
  | nil => simp at h; exact .inl ⟨rfl, h.1.symm, h.2⟩
  | cons d l =>
    rw [if_neg (by simp)] at h
    obtain ⟨⟨e, l'⟩, h1, h2⟩ := Option.map_eq_some_iff.1 h
    obtain ⟨h3, h4, h5⟩ := kRemove_some h1
    cases h2
    simp at h4 h5
    subst h4 h5
    exact .inr ⟨_, rfl, rfl, h3⟩

theorem takeLast_some {kt kt' : List (Node K V)} {c : Option (Node K V)}
    (h : Fixed.takeLast kt = some (c, kt')) :
    (kt = [] ∧ c = none ∧ kt' = []) ∨
    ∃ d, kt = kt' ++ [d] ∧ c = some d ∧ kt.length ≤ KIDS := by
  unfold Fixed.takeLast at h
  by_cases hk : kt = []
  · subst hk; simp at h; exact .inl ⟨rfl, h.1.symm, h.2⟩
  · rw [if_neg (by simpa using hk)] at h
    obtain ⟨⟨e, l'⟩, h1, h2⟩ := Option.map_eq_some_iff.1 h
    obtain ⟨h3, h4⟩ := kPop_some h1
    cases h2
    exact .inr ⟨_, h4, rfl, h3⟩

theorem pushKid_some {kt kt' : List (Node K V)} {c : Option (Node K V)}
    (h : Fixed.pushKid c kt = some kt') :
    (c = none ∧ kt' = kt) ∨
    ∃ d, c = some d ∧ kt ≠ [] ∧ kt.length < KIDS ∧ kt' = kt ++ [d] := by
  unfold Fixed.pushKid at h
  cases c with
  | none => cases h; exact .inl ⟨rfl, rfl⟩
  | some d =>
    dsimp only at h
    split at h
    · cases h
    · rename_i h0
      obtain ⟨h1, h2⟩ := kPush_some h
      exact .inr ⟨d, rfl, by simpa using h0, h1, h2⟩

theorem insKid0_some {kt kt' : List (Node K V)} {c : Option (Node K V)}
    (h : Fixed.insKid0 c kt = some kt') :
    (c = none ∧ kt' = kt) ∨
    ∃ d, c = some d ∧ kt ≠ [] ∧ kt.length < KIDS ∧ kt' = d :: kt := by
  unfold Fixed.insKid0 at h
  cases c with
  | none => cases h; exact .inl ⟨rfl, rfl⟩
  | some d =>
    dsimp only at h
    split at h
    · cases h
    · rename_i h0
      obtain ⟨-, h1, h2⟩ := kInsert_some h
      exact .inr ⟨d, rfl, by simpa using h0, h1, by simpa using h2⟩

theorem joinKids_some {lt rt kt : List (Node K V)} (h : Fixed.joinKids lt rt = some kt) :
    (lt = [] ∧ kt = []) ∨
    (lt ≠ [] ∧ rt ≠ [] ∧ lt.length + rt.length ≤ KIDS ∧ kt = lt ++ rt) := by
  unfold Fixed.joinKids at h
  split at h
  · rename_i h0; cases h; exact .inl ⟨by simpa using h0, rfl⟩
  · rename_i h0
    split at h
    · cases h
    · rename_i h3
      obtain ⟨h1, h2⟩ := kAppend_some h
      exact .inr ⟨by simpa using h0, by simpa using h3, h1, h2⟩

/-- A child that was moved out of a node. -/
abbrev Moved (ct : Option (Node K V)) (c : Option (Option Nat))
    (L : Multiset (Handle (ND K V))) : Prop :=
  ct.isSome = c.isSome ∧ L = owns c.toList (vts ct.toList)

theorem takeFirst_spec {x : HN K V} {es es' : List (K × V)} {kt kt' : List (Node K V)}
    {kv : K × V} {ct : Option (Node K V)}
    (he : ivRemove MAX 0 es = some (kv, es')) (hk : Fixed.takeFirst kt = some (ct, kt'))
    (hx : Fits x (.mk es kt)) :
    wp (takeFirst x) (owns x.kids (vts kt)) (Turns (.mk es' kt') (fun y L => y.1 = kv ∧
      Moved ct y.2 L)) := by
  obtain ⟨es, ks⟩ := x
  obtain ⟨rfl, hl⟩ := hx
  simp only [BTree.Node.kids, BTree.Node.elems] at hl he ⊢
  unfold takeFirst
  simp only [he]
  rcases takeFirst_some hk with ⟨rfl, rfl, rfl⟩ | ⟨d, rfl, rfl, h1⟩
  · have : ks = [] := List.length_eq_zero_iff.1 hl.symm
    subst this
    rw [if_pos (by rfl)]
    exact wp_pure ⟨0, ⟨rfl, rfl⟩, by simp [vts], rfl, rfl, by simp [vts]⟩
  · cases ks with
    | nil => simp at hl
    | cons k ks =>
      rw [if_neg (by simp), kRemove_of (c := k) (by simp) (by omega)]
      refine wp_pure ⟨own k (vt d), ⟨rfl, by simpa using hl⟩, ?_, rfl, rfl, by simp [vts]⟩
      simp [vts, add_comm]

theorem takeLast_spec {x : HN K V} {es es' : List (K × V)} {kt kt' : List (Node K V)}
    {kv : K × V} {ct : Option (Node K V)}
    (he : ivPop MAX es = some (kv, es')) (hk : Fixed.takeLast kt = some (ct, kt'))
    (hx : Fits x (.mk es kt)) :
    wp (takeLast x) (owns x.kids (vts kt)) (Turns (.mk es' kt') (fun y L => y.1 = kv ∧
      Moved ct y.2 L)) := by
  obtain ⟨es, ks⟩ := x
  obtain ⟨rfl, hl⟩ := hx
  simp only [BTree.Node.kids, BTree.Node.elems] at hl he ⊢
  unfold takeLast
  simp only [he]
  rcases takeLast_some hk with ⟨rfl, rfl, rfl⟩ | ⟨d, rfl, rfl, h1⟩
  · have : ks = [] := List.length_eq_zero_iff.1 hl.symm
    subst this
    rw [if_pos (by rfl)]
    exact wp_pure ⟨0, ⟨rfl, rfl⟩, by simp [vts], rfl, rfl, by simp [vts]⟩
  · rcases List.eq_nil_or_concat ks with rfl | ⟨ks, k, rfl⟩
    · simp at hl
    · simp only [List.concat_eq_append, List.length_append, List.length_singleton,
        Nat.add_right_cancel_iff] at hl h1 ⊢
      rw [if_neg (by simp), kPop_eq (by omega)]
      refine wp_pure ⟨own k (vt d), ⟨rfl, hl⟩, ?_, rfl, rfl, by simp [vts]⟩
      simp only [BTree.Node.kids]
      rw [vts_append, owns_append (by simp [hl])]
      simp [vts]

theorem pushBack_spec {x : HN K V} {es es' : List (K × V)} {kt kt' : List (Node K V)}
    {kv : K × V} {ct : Option (Node K V)} {c : Option (Option Nat)}
    (he : ivPush MAX kv es = some es') (hk : Fixed.pushKid ct kt = some kt')
    (hc : ct.isSome = c.isSome) (hx : Fits x (.mk es kt)) :
    wp (pushBack kv c x) (owns x.kids (vts kt) + owns c.toList (vts ct.toList))
      (Turns (.mk es' kt') (fun _ L => L = 0)) := by
  obtain ⟨es, ks⟩ := x
  obtain ⟨rfl, hl⟩ := hx
  simp only [BTree.Node.kids, BTree.Node.elems] at hl he ⊢
  unfold pushBack
  simp only [he]
  rcases pushKid_some hk with ⟨rfl, rfl⟩ | ⟨d, rfl, h1, h2, rfl⟩
  · cases c with
    | some => cases hc
    | none => exact wp_pure ⟨0, ⟨rfl, hl⟩, by simp [vts], rfl⟩
  · cases c with
    | none => cases hc
    | some a =>
      dsimp only
      rw [if_neg (by rw [isEmpty_of_len hl]; simpa using h1), kPush_eq (by omega)]
      refine wp_pure ⟨0, ⟨rfl, by simp [hl]⟩, ?_, rfl⟩
      simp only [BTree.Node.kids, Option.toList_some]
      rw [vts_append, owns_append (by simp [hl]), add_zero]

theorem pushFront_spec {x : HN K V} {es es' : List (K × V)} {kt kt' : List (Node K V)}
    {kv : K × V} {ct : Option (Node K V)} {c : Option (Option Nat)}
    (he : ivInsert MAX 0 kv es = some es') (hk : Fixed.insKid0 ct kt = some kt')
    (hc : ct.isSome = c.isSome) (hx : Fits x (.mk es kt)) :
    wp (pushFront kv c x) (owns x.kids (vts kt) + owns c.toList (vts ct.toList))
      (Turns (.mk es' kt') (fun _ L => L = 0)) := by
  obtain ⟨es, ks⟩ := x
  obtain ⟨rfl, hl⟩ := hx
  simp only [BTree.Node.kids, BTree.Node.elems] at hl he ⊢
  unfold pushFront
  simp only [he]
  rcases insKid0_some hk with ⟨rfl, rfl⟩ | ⟨d, rfl, h1, h2, rfl⟩
  · cases c with
    | some => cases hc
    | none => exact wp_pure ⟨0, ⟨rfl, hl⟩, by simp [vts], rfl⟩
  · cases c with
    | none => cases hc
    | some a =>
      dsimp only
      rw [if_neg (by rw [isEmpty_of_len hl]; simpa using h1),
        kInsert_of (Nat.zero_le _) (by omega)]
      refine wp_pure ⟨0, ⟨rfl, by simp [hl]⟩, ?_, rfl⟩
      simp [vts, add_comm]

theorem rotLf_spec {D idx : Nat} {x : HN K V} {es : List (K × V)} {kt : List (Node K V)}
    {n : Node K V} (hr : Fixed.rotLf idx es kt = some n) (hx : Fits x (.mk es kt))
    (hd : ∀ c ∈ kt, (vt c).Dep D) :
    wp (rotLf D idx x) (owns x.kids (vts kt)) (Holds n) := by
  obtain ⟨es, ks⟩ := x
  obtain ⟨rfl, hl⟩ := hx
  simp only [BTree.Node.kids, BTree.Node.elems] at hl hr ⊢
  unfold Fixed.rotLf at hr
  cases e1 : kt[idx + 1]? with
  | none => rw [e1] at hr; cases hr
  | some c1 =>
    obtain ⟨res, rks⟩ := c1
    rw [e1] at hr
    dsimp only at hr
    split at hr
    · cases hr
    rename_i h1
    simp only [Option.bind_eq_bind, Option.bind_eq_some_iff] at hr
    obtain ⟨⟨kv2, res'⟩, e2, ⟨ct, rks'⟩, e2', kv1, e3, hr⟩ := hr
    dsimp only at hr
    cases e4 : kt[idx]? with
    | none => rw [e4] at hr; cases hr
    | some c0 =>
      obtain ⟨les, lks⟩ := c0
      rw [e4] at hr
      dsimp only at hr
      split at hr
      · cases hr
      rename_i h2
      simp only [Option.bind_eq_some_iff] at hr
      obtain ⟨les', e5, lks', e6, hr⟩ := hr
      cases hr
      unfold rotLf
      wcall kidLen_spec hl e1
      rintro _ _ ⟨rfl, rfl⟩
      rw [add_zero]
      rw [if_neg (show ¬ (BTree.Node.mk res rks).elems.length ≤ MIN from h1)]
      wcall mutKid_spec0 hl e1 (hd _ (List.mem_of_getElem? e1))
        (fun x hx => takeFirst_spec e2 e2' hx)
      rintro ⟨ks1, kv, c⟩ _ ⟨L2, h3, rfl, rfl, h4, rfl⟩
      simp only [e3]
      have hl1 : (kt.set (idx + 1) (.mk res' rks')).length = ks1.length := by
        simp [hl, h3]
      have e4' : (kt.set (idx + 1) (.mk res' rks'))[idx]? = some (.mk les lks) := by
        rw [List.getElem?_set_ne (by omega), e4]
      wcall kidLen_spec hl1 e4'
      rintro _ _ ⟨rfl, rfl⟩
      rw [if_neg (show ¬ MIN ≤ (BTree.Node.mk les lks).elems.length from h2)]
      wcall mutKid_spec hl1 e4' (hd _ (List.mem_of_getElem? e4))
        (fun x hx => pushBack_spec e5 e6 h4 hx)
      rintro ⟨ks2, _⟩ _ ⟨_, h5, rfl, rfl⟩
      exact wp_pure ⟨⟨rfl, by simp [hl, h3] at h5 ⊢; omega⟩, by simp⟩

theorem rotRt_spec {D idx : Nat} {x : HN K V} {es : List (K × V)} {kt : List (Node K V)}
    {n : Node K V} (hr : Fixed.rotRt idx es kt = some n) (hx : Fits x (.mk es kt))
    (hd : ∀ c ∈ kt, (vt c).Dep D) :
    wp (rotRt D idx x) (owns x.kids (vts kt)) (Holds n) := by
  obtain ⟨es, ks⟩ := x
  obtain ⟨rfl, hl⟩ := hx
  simp only [BTree.Node.kids, BTree.Node.elems] at hl hr ⊢
  unfold Fixed.rotRt at hr
  cases e1 : kt[idx]? with
  | none => rw [e1] at hr; cases hr
  | some c1 =>
    obtain ⟨les, lks⟩ := c1
    rw [e1] at hr
    dsimp only at hr
    split at hr
    · cases hr
    rename_i h1
    simp only [Option.bind_eq_bind, Option.bind_eq_some_iff] at hr
    obtain ⟨⟨kv0, les'⟩, e2, ⟨ct, lks'⟩, e2', kv1, e3, hr⟩ := hr
    dsimp only at hr
    cases e4 : kt[idx + 1]? with
    | none => rw [e4] at hr; cases hr
    | some c0 =>
      obtain ⟨res, rks⟩ := c0
      rw [e4] at hr
      simp only [Option.bind_eq_some_iff] at hr
      obtain ⟨res', e5, rks', e6, hr⟩ := hr
      cases hr
      unfold rotRt
      wcall kidLen_spec hl e1
      rintro _ _ ⟨rfl, rfl⟩
      rw [add_zero]
      rw [if_neg (show ¬ (BTree.Node.mk les lks).elems.length ≤ MIN from h1)]
      wcall mutKid_spec0 hl e1 (hd _ (List.mem_of_getElem? e1))
        (fun x hx => takeLast_spec e2 e2' hx)
      rintro ⟨ks1, kv, c⟩ _ ⟨L2, h3, rfl, rfl, h4, rfl⟩
      simp only [e3]
      have hl1 : (kt.set idx (.mk les' lks')).length = ks1.length := by
        simp [hl, h3]
      have e4' : (kt.set idx (.mk les' lks'))[idx + 1]? = some (.mk res rks) := by
        rw [List.getElem?_set_ne (by omega), e4]
      wcall mutKid_spec hl1 e4' (hd _ (List.mem_of_getElem? e4))
        (fun x hx => pushFront_spec e5 e6 h4 hx)
      rintro ⟨ks2, _⟩ _ ⟨_, h5, rfl, rfl⟩
      exact wp_pure ⟨⟨rfl, by simp [hl, h3] at h5 ⊢; omega⟩, by simp⟩

theorem append_spec {D : Nat} {x : HN K V} {es es' es'' res : List (K × V)} {kt rt kt' : List (Node K V)}
    {kv : K × V} {rks : List (Option Nat)}
    (he : ivPush MAX kv es = some es') (he' : ivAppend MAX es' res = some es'')
    (hk : Fixed.joinKids kt rt = some kt') (hd : ∀ c ∈ rt, (vt c).Dep D)
    (hc : rt.length = rks.length) (hx : Fits x (.mk es kt)) :
    wp (append D kv ⟨res, rks⟩ x) (owns x.kids (vts kt) + owns rks (vts rt))
      (Turns (.mk es'' kt') (fun _ L => L = 0)) := by
  obtain ⟨es, ks⟩ := x
  obtain ⟨rfl, hl⟩ := hx
  simp only [BTree.Node.kids, BTree.Node.elems] at hl he ⊢
  unfold append
  simp only [he, Option.bind_some, he']
  rcases joinKids_some hk with ⟨rfl, rfl⟩ | ⟨h1, h2, h3, rfl⟩
  · have : ks = [] := List.length_eq_zero_iff.1 hl.symm
    subst this
    rw [if_pos (by rfl), show owns [] (vts []) + owns rks (vts rt) = owns rks (vts rt) by simp [vts]]
    wcall wp_forAll_drop wp_drop (ks := rks) (ts := vts rt) (by simpa using hc) (by
      intro t ht
      rw [vts_map] at ht
      obtain ⟨c, hc, rfl⟩ := List.mem_map.1 ht
      exact hd c hc)
    rintro _ _ rfl
    exact wp_pure ⟨0, ⟨rfl, rfl⟩, by simp [vts], rfl⟩
  · rw [if_neg (by rw [isEmpty_of_len hl]; simpa using h1),
      if_neg (by rw [isEmpty_of_len hc]; simpa using h2), kAppend_eq (by omega)]
    refine wp_pure ⟨0, ⟨rfl, by simp [hl, hc]⟩, ?_, rfl⟩
    simp only [BTree.Node.kids]
    rw [vts_append, owns_append (by simp [hl]), add_zero]

theorem mergeKids_spec {D idx : Nat} {x : HN K V} {es : List (K × V)} {kt : List (Node K V)}
    {n : Node K V} (hr : Fixed.mergeKids idx es kt = some n) (hx : Fits x (.mk es kt))
    (hd : ∀ c ∈ kt, (vt c).Dep D) :
    wp (mergeKids D idx x) (owns x.kids (vts kt)) (Holds n) := by
  obtain ⟨es, ks⟩ := x
  obtain ⟨rfl, hl⟩ := hx
  simp only [BTree.Node.kids, BTree.Node.elems] at hl hr ⊢
  unfold Fixed.mergeKids at hr
  unfold mergeKids
  simp only
  rw [isEmpty_of_len hl]
  split at hr
  · cases hr
  rename_i h0
  rw [if_neg h0]
  cases e2 : kRemove (idx + 1) kt with
  | none => rw [e2] at hr; cases hr
  | some r2 =>
    obtain ⟨⟨res, rt⟩, kt'⟩ := r2
    rw [e2] at hr
    dsimp only at hr
    obtain ⟨h3, h1, h2⟩ := kRemove_some e2
    subst h2
    simp only [Option.bind_eq_bind, Option.bind_eq_some_iff] at hr
    obtain ⟨⟨mid, es'⟩, e1, hr⟩ := hr
    dsimp only at hr
    cases e3 : (kt.eraseIdx (idx + 1))[idx]? with
    | none => rw [e3] at hr; cases hr
    | some c =>
      obtain ⟨les, lt⟩ := c
      rw [e3] at hr
      simp only [Option.bind_eq_some_iff] at hr
      obtain ⟨les', e5, les'', e6, lks', e7, hr⟩ := hr
      cases hr
      have hi : idx + 1 < kt.length := (List.getElem?_eq_some_iff.1 h1).1
      have hk : ks[idx + 1]? = some ks[idx + 1] := List.getElem?_eq_getElem (by omega)
      have ht : (vts kt)[idx + 1]? = some (vt (.mk res rt)) := by rw [vts_get, h1]; rfl
      rw [kRemove_of hk (by omega)]
      have hev : (vts kt).eraseIdx (idx + 1) = vts (kt.eraseIdx (idx + 1)) := by
        simp [vts_map, List.eraseIdx_map]
      refine wp_own_cases (r := ks[idx + 1]) (t := vt (.mk res rt))
        (owns (ks.eraseIdx (idx + 1)) (vts (kt.eraseIdx (idx + 1))))
        (by rw [owns_get hk ht, hev]) ?_ ?_
      · intro _ h; rw [vt_eta] at h; cases h
      · intro a q ts ha h
        rw [vt_mk] at h
        cases h
        rw [ha]
        dsimp only
        have hdl := hd _ (List.mem_of_getElem? h1)
        rw [vt_mk] at hdl
        wcall wp_unwrapOrClone hdl
        rintro _ _ ⟨lks, rfl, h4, rfl⟩
        simp only [e1]
        have hl1 : (kt.eraseIdx (idx + 1)).length = (ks.eraseIdx (idx + 1)).length := by
          rw [List.length_eraseIdx_of_lt hi, List.length_eraseIdx_of_lt (by omega), hl]
        have hm := List.mem_of_mem_eraseIdx (List.mem_of_getElem? e3)
        have hdr : ∀ c ∈ rt, (vt c).Dep D := by
          have := hd _ (List.mem_of_getElem? h1)
          obtain ⟨D', rfl⟩ := dep_pos this
          exact fun c hc => (dep_mk.1 this c hc).mono (Nat.le_succ _)
        wcall mutKid_spec hl1 e3 (hd _ hm)
          (fun x hx => append_spec e5 e6 e7 hdr (by simpa using h4) hx)
        rintro ⟨ks2, _⟩ _ ⟨_, h5, rfl, rfl⟩
        refine wp_pure ⟨⟨rfl, ?_⟩, by simp⟩
        simp only [BTree.Node.kids, List.length_set]
        rw [hl1]
        exact h5.symm

theorem rebal_spec {D i : Nat} {x : HN K V} {es : List (K × V)} {kt : List (Node K V)}
    {n : Node K V} (hr : Fixed.rebal i es kt = some n) (hx : Fits x (.mk es kt))
    (hd : ∀ c ∈ kt, (vt c).Dep D) :
    wp (rebal D i x) (owns x.kids (vts kt)) (Holds n) := by
  have hl := hx.len
  simp only [BTree.Node.kids] at hl
  unfold Fixed.rebal at hr
  unfold rebal
  rw [isEmpty_of_len hl]
  split at hr
  · cases hr
  rename_i h1
  rw [if_neg h1]
  split at hr
  · cases hr
  rename_i h2
  unfold BTree.Node.kidLen at hr h2
  cases e : kt[i]? with
  | none => rw [e] at h2; simp at h2
  | some c =>
    rw [e] at h2
    simp only [Option.map_some, ne_eq, Option.some.injEq, not_not] at h2
    wcall kidLen_spec hl e
    rintro _ _ ⟨rfl, rfl⟩
    rw [add_zero, if_neg (by omega)]
    split at hr
    · rename_i h3
      rw [if_pos h3]
      cases e : kt[i - 1]? with
      | none => rw [e] at hr; cases hr
      | some c =>
        rw [e] at hr
        dsimp only [Option.map_some] at hr
        wcall kidLen_spec hl e
        rintro _ _ ⟨rfl, rfl⟩
        rw [add_zero]
        split at hr
        · rw [if_pos ‹_›]; exact rotRt_spec hr hx hd
        · rw [if_neg ‹_›]; exact mergeKids_spec hr hx hd
    · rename_i h3
      rw [if_neg h3]
      cases e : kt[i + 1]? with
      | none => rw [e] at hr; cases hr
      | some c =>
        rw [e] at hr
        dsimp only [Option.map_some] at hr
        wcall kidLen_spec hl e
        rintro _ _ ⟨rfl, rfl⟩
        rw [add_zero]
        split at hr
        · rw [if_pos ‹_›]; exact rotLf_spec hr hx hd
        · rw [if_neg ‹_›]; exact mergeKids_spec hr hx hd

/-! ## Nesting depth -/

theorem rotLf_dep {idx d : Nat} {es : List (K × V)} {kt : List (Node K V)}
    {n : Node K V} (hr : Fixed.rotLf idx es kt = some n)
    (hd : ∀ c ∈ kt, (vt c).Dep d) : ∀ c ∈ n.kids, (vt c).Dep d := by
  unfold Fixed.rotLf at hr
  split at hr
  · cases hr
  rename_i res rks e1
  split at hr
  · cases hr
  simp only [Option.bind_eq_bind, Option.bind_eq_some_iff] at hr
  obtain ⟨⟨kv2, res'⟩, e2, ⟨ct, rks'⟩, e2', kv1, e3, hr⟩ := hr
  dsimp only at hr
  split at hr
  · cases hr
  rename_i les lks e4
  split at hr
  · cases hr
  simp only [Option.bind_eq_some_iff] at hr
  obtain ⟨les', e5, lks', e6, hr⟩ := hr
  cases hr
  have h1 := hd _ (List.mem_of_getElem? e1)
  have h2 := hd _ (List.mem_of_getElem? e4)
  obtain ⟨d, rfl⟩ := dep_pos h1
  have hct : (∀ c ∈ rks', c ∈ rks) ∧ ∀ c ∈ ct, c ∈ rks := by
    rcases takeFirst_some e2' with ⟨rfl, rfl, rfl⟩ | ⟨c, rfl, rfl, -⟩ <;> simp +contextual
  have hlk : ∀ c ∈ lks', c ∈ lks ∨ c ∈ ct := by
    rcases pushKid_some e6 with ⟨rfl, rfl⟩ | ⟨c, rfl, -, -, rfl⟩
    · simp
    · simp [eq_comm]
  refine dep_set (dep_set hd ?_) ?_
  · exact dep_mk.2 (fun c hc => dep_mk.1 h1 c (hct.1 c hc))
  · refine dep_mk.2 (fun c hc => ?_)
    rcases hlk c hc with hc | hc
    · exact dep_mk.1 h2 c hc
    · exact dep_mk.1 h1 c (hct.2 c hc)

theorem rotRt_dep {idx d : Nat} {es : List (K × V)} {kt : List (Node K V)}
    {n : Node K V} (hr : Fixed.rotRt idx es kt = some n)
    (hd : ∀ c ∈ kt, (vt c).Dep d) : ∀ c ∈ n.kids, (vt c).Dep d := by
  unfold Fixed.rotRt at hr
  split at hr
  · cases hr
  rename_i les lks e1
  split at hr
  · cases hr
  simp only [Option.bind_eq_bind, Option.bind_eq_some_iff] at hr
  obtain ⟨⟨kv0, les'⟩, e2, ⟨ct, lks'⟩, e2', kv1, e3, hr⟩ := hr
  dsimp only at hr
  split at hr
  · cases hr
  rename_i res rks e4
  simp only [Option.bind_eq_some_iff] at hr
  obtain ⟨res', e5, rks', e6, hr⟩ := hr
  cases hr
  have h1 := hd _ (List.mem_of_getElem? e1)
  have h2 := hd _ (List.mem_of_getElem? e4)
  obtain ⟨d, rfl⟩ := dep_pos h1
  have hct : (∀ c ∈ lks', c ∈ lks) ∧ ∀ c ∈ ct, c ∈ lks := by
    rcases takeLast_some e2' with ⟨rfl, rfl, rfl⟩ | ⟨c, rfl, rfl, -⟩ <;> simp +contextual
  have hrk : ∀ c ∈ rks', c ∈ rks ∨ c ∈ ct := by
    rcases insKid0_some e6 with ⟨rfl, rfl⟩ | ⟨c, rfl, -, -, rfl⟩
    · simp
    · simp [eq_comm, or_comm]
  refine dep_set (dep_set hd ?_) ?_
  · exact dep_mk.2 (fun c hc => dep_mk.1 h1 c (hct.1 c hc))
  · refine dep_mk.2 (fun c hc => ?_)
    rcases hrk c hc with hc | hc
    · exact dep_mk.1 h2 c hc
    · exact dep_mk.1 h1 c (hct.2 c hc)

theorem mergeKids_dep {idx d : Nat} {es : List (K × V)} {kt : List (Node K V)}
    {n : Node K V} (hr : Fixed.mergeKids idx es kt = some n)
    (hd : ∀ c ∈ kt, (vt c).Dep d) : ∀ c ∈ n.kids, (vt c).Dep d := by
  unfold Fixed.mergeKids at hr
  split at hr
  · cases hr
  split at hr
  · cases hr
  rename_i res rks kt' e2
  obtain ⟨-, h0, rfl⟩ := kRemove_some e2
  simp only [Option.bind_eq_bind, Option.bind_eq_some_iff] at hr
  obtain ⟨⟨mid, es'⟩, e1, hr⟩ := hr
  dsimp only at hr
  split at hr
  · cases hr
  rename_i les lks e3
  simp only [Option.bind_eq_some_iff] at hr
  obtain ⟨les', e5, les'', e6, lks', e7, hr⟩ := hr
  cases hr
  have hd' : ∀ c ∈ kt.eraseIdx (idx + 1), (vt c).Dep d :=
    fun c hc => hd c (List.mem_of_mem_eraseIdx hc)
  have h1 := hd _ (List.mem_of_getElem? h0)
  have h2 := hd' _ (List.mem_of_getElem? e3)
  obtain ⟨d, rfl⟩ := dep_pos h1
  refine dep_set hd' (dep_mk.2 (fun c hc => ?_))
  rcases joinKids_some e7 with ⟨rfl, rfl⟩ | ⟨-, -, -, rfl⟩
  · cases hc
  · rcases List.mem_append.1 hc with hc | hc
    · exact dep_mk.1 h2 c hc
    · exact dep_mk.1 h1 c hc

theorem rebal_dep {i d : Nat} {es : List (K × V)} {kt : List (Node K V)}
    {n : Node K V} (hr : Fixed.rebal i es kt = some n)
    (hd : ∀ c ∈ kt, (vt c).Dep d) : ∀ c ∈ n.kids, (vt c).Dep d := by
  unfold Fixed.rebal at hr
  repeat' split at hr
  · cases hr
  · cases hr
  · cases hr
  · exact rotRt_dep hr hd
  · exact mergeKids_dep hr hd
  · cases hr
  · exact rotLf_dep hr hd
  · exact mergeKids_dep hr hd

theorem afterKid_dep {i d : Nat} {kv : K × V} {b : Bool} {es : List (K × V)}
    {kt : List (Node K V)} {r : RemRes K V}
    (hr : Fixed.afterKid i kv b es kt = some r)
    (hd : ∀ c ∈ kt, (vt c).Dep d) : (vt r.2.2).Dep (d + 1) := by
  unfold Fixed.afterKid at hr
  split at hr
  · obtain ⟨n, e, rfl⟩ := Option.map_eq_some_iff.1 hr
    have := rebal_dep e hd
    obtain ⟨es', kt'⟩ := n
    exact dep_mk.2 this
  · cases hr
    exact dep_mk.2 hd

theorem popGreatest_dep : ∀ {d : Nat} {nd : Node K V} {r : RemRes K V},
    Fixed.popGreatest nd = some r → (vt nd).Dep d → (vt r.2.2).Dep d := by
  intro d
  induction d with
  | zero => intro nd r _ h; obtain ⟨_, h⟩ := dep_pos h; cases h
  | succ d ih =>
    rintro ⟨es, kt⟩ r hr hd
    simp only [Fixed.popGreatest, Fixed.popGreatestAt_eq] at hr
    cases e : kt.getLast? with
    | none =>
      rw [e] at hr
      simp only [Option.map_none] at hr
      split at hr <;> cases hr
      exact dep_mk.2 (by simp)
    | some c =>
      rw [e] at hr
      simp only [Option.map_some] at hr
      have hc := dep_mk.1 hd c (List.mem_of_mem_getLast? e)
      split at hr
      · simp at *
      · cases hr
      · rename_i _ kv b c' e2
        simp only [Option.some.injEq] at e2
        exact afterKid_dep hr (dep_set (dep_mk.1 hd) (ih e2 hc))

theorem remove_dep {lin : Bool} {p : K → Ordering} : ∀ {d : Nat} {nd : Node K V}
    {r : RemRes K V},
    Fixed.remove lin p nd = some (some r) → (vt nd).Dep d → (vt r.2.2).Dep d := by
  intro d
  induction d with
  | zero => intro nd r _ h; obtain ⟨_, h⟩ := dep_pos h; cases h
  | succ d ih =>
    rintro ⟨es, kt⟩ r hr hd
    simp only [Fixed.remove, Fixed.removeAt_eq, Fixed.popGreatestKid_eq] at hr
    split at hr
    · cases hr
    · rename_i i _
      split at hr
      · split at hr <;> cases hr
        exact dep_mk.2 (dep_mk.1 hd)
      · cases e : kt[i]? with
        | none => rw [e] at hr; simp at hr
        | some c =>
          rw [e] at hr
          simp only [Option.map_some] at hr
          have hc := dep_mk.1 hd c (List.mem_of_getElem? e)
          split at hr
          · cases hr
          · cases hr
          · rename_i _ kv b c' e2
            simp only [Option.some.injEq] at e2
            split at hr
            · cases hr
            · obtain ⟨r', h1, h2⟩ := Option.map_eq_some_iff.1 hr
              cases h2
              exact afterKid_dep h1 (dep_set (dep_mk.1 hd) (popGreatest_dep e2 hc))
    · rename_i i _
      cases e : kt[i]? with
      | none => rw [e] at hr; simp at hr
      | some c =>
        rw [e] at hr
        simp only [Option.map_some] at hr
        have hc := dep_mk.1 hd c (List.mem_of_getElem? e)
        split at hr
        · cases hr
        · cases hr
        · cases hr
        · rename_i _ kv b c' e2
          simp only [Option.some.injEq] at e2
          obtain ⟨r', h1, h2⟩ := Option.map_eq_some_iff.1 hr
          cases h2
          exact afterKid_dep h1 (dep_set (dep_mk.1 hd) (ih e2 hc))

/-! ## The removals -/

theorem afterKid_spec {D i : Nat} {x : HN K V} {es : List (K × V)} {kt : List (Node K V)}
    {kv : K × V} {b : Bool} {r : RemRes K V}
    (hr : Fixed.afterKid i kv b es kt = some r) (hx : Fits x (.mk es kt))
    (hd : ∀ c ∈ kt, (vt c).Dep D) :
    wp (afterKid D i kv b x) (owns x.kids (vts kt))
      (Turns r.2.2 (fun y L => y = (r.1, r.2.1) ∧ L = 0)) := by
  unfold Fixed.afterKid at hr
  unfold afterKid
  split at hr
  · rw [if_pos ‹_›]
    obtain ⟨n, e, rfl⟩ := Option.map_eq_some_iff.1 hr
    wcall rebal_spec e hx hd
    rintro y _ ⟨h1, rfl⟩
    refine wp_pure ⟨0, h1, by simp, ?_, rfl⟩
    simp only [BTree.Node.under, h1.data]
  · rw [if_neg ‹_›]
    cases hr
    exact wp_pure ⟨0, hx, by simp, rfl, rfl⟩

theorem popGreatest_spec {D : Nat} : ∀ {n : Nat} {nd : Node K V} {x : HN K V} {r : RemRes K V},
    (vt nd).Dep n → (vt nd).Dep (D + 1) → Fits x nd → Fixed.popGreatest nd = some r →
    wp (popGreatest D n x) (owns x.kids (vts nd.kids))
      (Turns r.2.2 (fun y L => y = (r.1, r.2.1) ∧ L = 0)) := by
  intro n
  induction n with
  | zero => intro nd x r hn; obtain ⟨_, h⟩ := dep_pos hn; cases h
  | succ n ih =>
    rintro ⟨_, kt⟩ ⟨es, ks⟩ r hn hD ⟨rfl, hl⟩ hr
    simp only [BTree.Node.kids, BTree.Node.elems] at hl hr ⊢
    simp only [Fixed.popGreatest, Fixed.popGreatestAt_eq] at hr
    simp only [popGreatest]
    rw [List.getLast?_eq_getElem?] at hr
    by_cases h0 : ks.length = 0
    · have : ks = [] := List.length_eq_zero_iff.1 h0
      subst this
      have : kt = [] := List.length_eq_zero_iff.1 hl
      subst this
      rw [if_neg (by simp)]
      simp only [List.length_nil, List.getElem?_nil, Option.map_none] at hr
      cases e1 : ivPop MAX es with
      | none => rw [e1] at hr; cases hr
      | some r1 =>
        rw [e1] at hr
        cases hr
        exact wp_pure ⟨0, ⟨rfl, rfl⟩, by simp, rfl, rfl⟩
    · have hc : kt[kt.length - 1]? = some kt[kt.length - 1] :=
        List.getElem?_eq_getElem (by omega)
      generalize kt[kt.length - 1] = c at hc
      have hm : c ∈ kt := List.mem_of_getElem? hc
      rw [if_pos (by omega)]
      rw [hc] at hr
      simp only [Option.map_some] at hr
      cases e2 : Fixed.popGreatest c with
      | none => rw [e2] at hr; cases hr
      | some r1 =>
        rw [e2] at hr
        rw [← hl]
        wcall mutKid_spec0 hl hc (dep_mk.1 hD _ hm)
          (fun x hx => ih (dep_mk.1 hn _ hm) ((dep_mk.1 hD _ hm).mono (Nat.le_succ D)) hx e2)
        rintro ⟨ks', y⟩ _ ⟨_, h3, rfl, rfl, rfl⟩
        simp only [add_zero]
        exact afterKid_spec hr (x := ⟨es, ks'⟩)
          ⟨rfl, by have := (h3.trans hl.symm).symm; simpa using this⟩
          (dep_set (dep_mk.1 hD) (popGreatest_dep e2 (dep_mk.1 hD _ hm)))

theorem remove_spec {lin : Bool} {D : Nat} {p : K → Ordering} : ∀ {n : Nat} {nd : Node K V}
    {x : HN K V} {r : Option (RemRes K V)},
    (vt nd).Dep n → (vt nd).Dep (D + 1) → Fits x nd → Fixed.remove lin p nd = some r →
    wp (remove lin D p n x) (owns x.kids (vts nd.kids))
      (Turns (remNode nd r) (fun y L => y = r.map (fun r => (r.1, r.2.1)) ∧ L = 0)) := by
  intro n
  induction n with
  | zero => intro nd x r hn; obtain ⟨_, h⟩ := dep_pos hn; cases h
  | succ n ih =>
    rintro ⟨_, kt⟩ ⟨es, ks⟩ r hn hD ⟨rfl, hl⟩ hr
    simp only [BTree.Node.kids, BTree.Node.elems] at hl hr ⊢
    simp only [Fixed.remove, Fixed.removeAt_eq, Fixed.popGreatestKid_eq] at hr
    simp only [remove]
    cases e1 : searchKeys lin p es with
    | none => rw [e1] at hr; cases hr
    | some ib =>
      obtain ⟨i, b⟩ := ib
      rw [e1] at hr
      cases b with
      | true =>
        dsimp only at hr ⊢
        rw [isEmpty_of_len hl]
        by_cases h2 : kt = []
        · subst h2
          have : ks = [] := List.length_eq_zero_iff.1 hl.symm
          subst this
          rw [if_pos (by rfl)] at hr ⊢
          cases e1 : ivRemove MAX i es with
          | none => rw [e1] at hr; cases hr
          | some r1 =>
            rw [e1] at hr
            cases hr
            exact wp_pure ⟨0, ⟨rfl, rfl⟩, by simp [remNode], rfl, rfl⟩
        · rw [if_neg (by simpa using h2)] at hr ⊢
          cases hc : kt[i]? with
          | none => rw [hc] at hr; cases hr
          | some c =>
            rw [hc] at hr
            simp only [Option.map_some] at hr
            have hm : c ∈ kt := List.mem_of_getElem? hc
            cases e2 : Fixed.popGreatest c with
            | none => rw [e2] at hr; cases hr
            | some r1 =>
              rw [e2] at hr
              dsimp only at hr
              cases e3 : es[i]? with
              | none => rw [e3] at hr; cases hr
              | some old =>
                rw [e3] at hr
                dsimp only at hr
                obtain ⟨r', h3, rfl⟩ := Option.map_eq_some_iff.1 hr
                wcall mutKid_spec0 hl hc (dep_mk.1 hD _ hm)
                  (fun x hx => popGreatest_spec (dep_mk.1 hn _ hm)
                    ((dep_mk.1 hD _ hm).mono (Nat.le_succ D)) hx e2)
                rintro ⟨ks', y⟩ _ ⟨_, h4, rfl, rfl, rfl⟩
                unfold afterPop
                simp only [e3, add_zero]
                wcall afterKid_spec h3 (x := ⟨es.set i r1.1, ks'⟩)
                  ⟨rfl, by simpa [hl] using h4.symm⟩
                  (dep_set (dep_mk.1 hD) (popGreatest_dep e2 (dep_mk.1 hD _ hm)))
                rintro ⟨y, z⟩ _ ⟨_, h5, rfl, rfl, rfl⟩
                exact wp_pure ⟨0, h5, by simp [remNode], rfl, rfl⟩
      | false =>
        dsimp only at hr ⊢
        by_cases h2 : i < ks.length
        · have hc : kt[i]? = some kt[i] := List.getElem?_eq_getElem (by omega)
          generalize kt[i] = c at hc
          have hm : c ∈ kt := List.mem_of_getElem? hc
          rw [if_pos h2]
          rw [hc] at hr
          simp only [Option.map_some] at hr
          cases e2 : Fixed.remove lin p c with
          | none => rw [e2] at hr; cases hr
          | some r1 =>
            rw [e2] at hr
            wcall mutKid_spec0 hl hc (dep_mk.1 hD _ hm)
              (fun x hx => ih (dep_mk.1 hn _ hm) ((dep_mk.1 hD _ hm).mono (Nat.le_succ D)) hx e2)
            rintro ⟨ks', y⟩ _ ⟨_, h4, rfl, h5, rfl⟩
            dsimp only at h4 h5
            subst h5
            simp only [add_zero]
            cases r1 with
            | none =>
              cases hr
              refine wp_pure ⟨0, ⟨rfl, by simp [remNode, h4, hl]⟩, ?_, rfl, rfl⟩
              simp only [remNode, add_zero, BTree.Node.kids]
              rw [show kt.set i c = kt from by
                rw [List.getElem?_eq_some_iff] at hc
                obtain ⟨h6, rfl⟩ := hc
                simp]
            | some r1 =>
              dsimp only at hr
              obtain ⟨r', h3, rfl⟩ := Option.map_eq_some_iff.1 hr
              unfold afterRm
              dsimp only [Option.map_some]
              wcall afterKid_spec h3 (x := ⟨es, ks'⟩) ⟨rfl, by simpa [hl] using h4.symm⟩
                (dep_set (dep_mk.1 hD) (remove_dep e2 (dep_mk.1 hD _ hm)))
              rintro ⟨y, z⟩ _ ⟨_, h5, rfl, rfl, rfl⟩
              exact wp_pure ⟨0, h5, by simp [remNode], rfl, rfl⟩
        · rw [List.getElem?_eq_none (by omega)] at hr
          cases hr
          rw [if_neg h2]
          exact wp_pure ⟨0, ⟨rfl, hl⟩, by simp [remNode], rfl, rfl⟩

end Verif.FixedH
