import Verif.BTreeHeap.Ops
/-!
# Removal from nodes of `btree.rs` on reference-counted memory, against that on values
-/
namespace Verif.BTreeH
open Heap
open BTree (Node)
open BTree.Node (vInsert vRemove vSplitOff vPop locate descIdx RemRes)
variable {K V β : Type}

/-! ## Rotations and merging -/

theorem takeFirst_spec {x : HN K V} {es es' : List (K × V)} {kt : List (Node K V)} {kv : K × V}
    (he : vRemove 0 es = some (kv, es')) (hx : Fits x (.mk es kt)) :
    wp (takeFirst x) (owns x.kids (vts kt)) (Turns (.mk es' kt.tail) (fun y L => y.1 = kv ∧
      kt.head?.toList.length = y.2.length ∧ L = owns y.2 (vts kt.head?.toList))) := by
  obtain ⟨es, ks⟩ := x
  obtain ⟨rfl, hl⟩ := hx
  simp only [BTree.Node.kids, BTree.Node.elems] at hl ⊢
  unfold takeFirst
  simp only [he]
  cases kt with
  | nil =>
    have : ks = [] := List.length_eq_zero_iff.1 hl.symm
    subst this
    exact wp_pure ⟨0, ⟨rfl, rfl⟩, by simp [vts], rfl, rfl, by simp [vts]⟩
  | cons c cs =>
    cases ks with
    | nil => simp at hl
    | cons k ks =>
      refine wp_pure ⟨own k (vt c), ⟨rfl, by simpa using hl⟩, ?_, rfl, rfl, by simp [vts]⟩
      simp [vts, add_comm]

theorem takeLast_spec {x : HN K V} {es es' : List (K × V)} {kt : List (Node K V)} {kv : K × V}
    (he : vPop es = some (kv, es')) (hx : Fits x (.mk es kt)) :
    wp (takeLast x) (owns x.kids (vts kt)) (Turns (.mk es' kt.dropLast) (fun y L => y.1 = kv ∧
      kt.getLast?.toList.length = y.2.length ∧ L = owns y.2 (vts kt.getLast?.toList))) := by
  obtain ⟨es, ks⟩ := x
  obtain ⟨rfl, hl⟩ := hx
  simp only [BTree.Node.kids, BTree.Node.elems] at hl ⊢
  unfold takeLast
  simp only [he]
  rcases List.eq_nil_or_concat kt with rfl | ⟨cs, c, rfl⟩
  · have : ks = [] := List.length_eq_zero_iff.1 hl.symm
    subst this
    exact wp_pure ⟨0, ⟨rfl, rfl⟩, by simp [vts], rfl, rfl, by simp [vts]⟩
  · rcases List.eq_nil_or_concat ks with rfl | ⟨ks, k, rfl⟩
    · simp at hl
    · simp only [List.concat_eq_append] at hl ⊢
      have hl' : cs.length = ks.length := by simpa using hl
      refine wp_pure ⟨own k (vt c), ⟨rfl, by simpa using hl'⟩, ?_, rfl, by simp, by simp [vts]⟩
      rw [vts_append, owns_append (by simp [hl'])]
      simp [vts]

theorem pushBack_spec {x : HN K V} {es : List (K × V)} {kt ct : List (Node K V)} {kv : K × V}
    {c : List (Option Nat)} (hc : ct.length = c.length) (hx : Fits x (.mk es kt)) :
    wp (pushBack kv c x) (owns x.kids (vts kt) + owns c (vts ct))
      (Turns (.mk (es ++ [kv]) (kt ++ ct)) (fun _ L => L = 0)) := by
  obtain ⟨es, ks⟩ := x
  obtain ⟨rfl, hl⟩ := hx
  simp only [BTree.Node.kids, BTree.Node.elems] at hl ⊢
  refine wp_pure ⟨0, ⟨rfl, by simp [hl, hc]⟩, ?_, rfl⟩
  simp only [BTree.Node.kids]
  rw [vts_append, owns_append (by simp [hl]), add_zero]

theorem pushFront_spec {x : HN K V} {es : List (K × V)} {kt ct : List (Node K V)} {kv : K × V}
    {c : List (Option Nat)} (hc : ct.length = c.length) (hx : Fits x (.mk es kt)) :
    wp (pushFront kv c x) (owns x.kids (vts kt) + owns c (vts ct))
      (Turns (.mk (kv :: es) (ct ++ kt)) (fun _ L => L = 0)) := by
  obtain ⟨es, ks⟩ := x
  obtain ⟨rfl, hl⟩ := hx
  simp only [BTree.Node.kids, BTree.Node.elems] at hl ⊢
  refine wp_pure ⟨0, ⟨rfl, by simp [hl, hc]⟩, ?_, rfl⟩
  simp only [BTree.Node.kids]
  rw [vts_append, owns_append (by simp [hc]), add_zero, add_comm]

/-- The result is the contents of `n`. -/
abbrev Holds (n : Node K V) : HN K V → Multiset (Handle (ND K V)) → Prop :=
  fun y L => Fits y n ∧ L = owns y.kids (vts n.kids)

theorem rotLf_spec {N D idx : Nat} {x : HN K V} {es : List (K × V)} {kt : List (Node K V)}
    {n : Node K V} (hr : BTree.Node.rotLf N idx es kt = some n) (hx : Fits x (.mk es kt))
    (hd : ∀ c ∈ kt, (vt c).Dep D) :
    wp (rotLf N D idx x) (owns x.kids (vts kt)) (Holds n) := by
  obtain ⟨es, ks⟩ := x
  obtain ⟨rfl, hl⟩ := hx
  simp only [BTree.Node.kids, BTree.Node.elems] at hl hr ⊢
  unfold BTree.Node.rotLf at hr
  cases e1 : kt[idx + 1]? with
  | none => rw [e1] at hr; cases hr
  | some c1 =>
    obtain ⟨res, rks⟩ := c1
    rw [e1] at hr
    dsimp only at hr
    split at hr
    · cases hr
    rename_i h1
    cases e2 : vRemove 0 res with
    | none => rw [e2] at hr; cases hr
    | some r2 =>
      obtain ⟨kv2, res'⟩ := r2
      rw [e2] at hr
      dsimp only at hr
      cases e3 : es[idx]? with
      | none => rw [e3] at hr; cases hr
      | some kv1 =>
        rw [e3] at hr
        dsimp only at hr
        cases e4 : kt[idx]? with
        | none => rw [e4] at hr; cases hr
        | some c0 =>
          obtain ⟨les, lks⟩ := c0
          rw [e4] at hr
          dsimp only at hr
          split at hr
          · cases hr
          rename_i h2
          cases hr
          unfold rotLf
          wcall kidLen_spec hl e1
          rintro _ _ ⟨rfl, rfl⟩
          rw [add_zero]
          rw [if_neg (show ¬ (BTree.Node.mk res rks).elems.length ≤ N from h1)]
          wcall mutKid_spec0 hl e1 (hd _ (List.mem_of_getElem? e1))
            (fun x hx => takeFirst_spec e2 hx)
          rintro ⟨ks1, kv, c⟩ _ ⟨L2, h3, rfl, rfl, h4, rfl⟩
          simp only [e3]
          have hl1 : (kt.set (idx + 1) (.mk res' rks.tail)).length = ks1.length := by
            simp [hl, h3]
          have e4' : (kt.set (idx + 1) (.mk res' rks.tail))[idx]? = some (.mk les lks) := by
            rw [List.getElem?_set_ne (by omega), e4]
          wcall kidLen_spec hl1 e4'
          rintro _ _ ⟨rfl, rfl⟩
          rw [if_neg (show ¬ N ≤ (BTree.Node.mk les lks).elems.length from h2)]
          wcall mutKid_spec hl1 e4' (hd _ (List.mem_of_getElem? e4))
            (fun x hx => pushBack_spec h4 hx)
          rintro ⟨ks2, _⟩ _ ⟨_, h5, rfl, rfl⟩
          exact wp_pure ⟨⟨rfl, by simp [hl, h3] at h5 ⊢; omega⟩, by simp⟩

theorem rotRt_spec {N D idx : Nat} {x : HN K V} {es : List (K × V)} {kt : List (Node K V)}
    {n : Node K V} (hr : BTree.Node.rotRt N idx es kt = some n) (hx : Fits x (.mk es kt))
    (hd : ∀ c ∈ kt, (vt c).Dep D) :
    wp (rotRt N D idx x) (owns x.kids (vts kt)) (Holds n) := by
  obtain ⟨es, ks⟩ := x
  obtain ⟨rfl, hl⟩ := hx
  simp only [BTree.Node.kids, BTree.Node.elems] at hl hr ⊢
  unfold BTree.Node.rotRt at hr
  cases e1 : kt[idx]? with
  | none => rw [e1] at hr; cases hr
  | some c1 =>
    obtain ⟨les, lks⟩ := c1
    rw [e1] at hr
    dsimp only at hr
    split at hr
    · cases hr
    rename_i h1
    cases e2 : vPop les with
    | none => rw [e2] at hr; cases hr
    | some r2 =>
      obtain ⟨kv0, les'⟩ := r2
      rw [e2] at hr
      dsimp only at hr
      cases e3 : es[idx]? with
      | none => rw [e3] at hr; cases hr
      | some kv1 =>
        rw [e3] at hr
        dsimp only at hr
        cases e4 : kt[idx + 1]? with
        | none => rw [e4] at hr; cases hr
        | some c0 =>
          obtain ⟨res, rks⟩ := c0
          rw [e4] at hr
          cases hr
          unfold rotRt
          wcall kidLen_spec hl e1
          rintro _ _ ⟨rfl, rfl⟩
          rw [add_zero]
          rw [if_neg (show ¬ (BTree.Node.mk les lks).elems.length ≤ N from h1)]
          wcall mutKid_spec0 hl e1 (hd _ (List.mem_of_getElem? e1))
            (fun x hx => takeLast_spec e2 hx)
          rintro ⟨ks1, kv, c⟩ _ ⟨L2, h3, rfl, rfl, h4, rfl⟩
          simp only [e3]
          have hl1 : (kt.set idx (.mk les' lks.dropLast)).length = ks1.length := by
            simp [hl, h3]
          have e4' : (kt.set idx (.mk les' lks.dropLast))[idx + 1]? = some (.mk res rks) := by
            rw [List.getElem?_set_ne (by omega), e4]
          wcall mutKid_spec hl1 e4' (hd _ (List.mem_of_getElem? e4))
            (fun x hx => pushFront_spec h4 hx)
          rintro ⟨ks2, _⟩ _ ⟨_, h5, rfl, rfl⟩
          exact wp_pure ⟨⟨rfl, by simp [hl, h3] at h5 ⊢; omega⟩, by simp⟩

theorem prepend_spec {x : HN K V} {es les : List (K × V)} {kt lt : List (Node K V)} {kv : K × V}
    {lks : List (Option Nat)} (hc : lt.length = lks.length) (hx : Fits x (.mk es kt)) :
    wp (prepend ⟨les, lks⟩ kv x) (owns x.kids (vts kt) + owns lks (vts lt))
      (Turns (.mk (les ++ kv :: es) (lt ++ kt)) (fun _ L => L = 0)) := by
  obtain ⟨es, ks⟩ := x
  obtain ⟨rfl, hl⟩ := hx
  simp only [BTree.Node.kids, BTree.Node.elems] at hl ⊢
  refine wp_pure ⟨0, ⟨rfl, by simp [hl, hc]⟩, ?_, rfl⟩
  simp only [BTree.Node.kids]
  rw [vts_append, owns_append (by simp [hc]), add_zero, add_comm]

theorem mergeKids_spec {D idx : Nat} {x : HN K V} {es : List (K × V)} {kt : List (Node K V)}
    {n : Node K V} (hr : BTree.Node.mergeKids idx es kt = some n) (hx : Fits x (.mk es kt))
    (hd : ∀ c ∈ kt, (vt c).Dep D) :
    wp (mergeKids D idx x) (owns x.kids (vts kt)) (Holds n) := by
  obtain ⟨es, ks⟩ := x
  obtain ⟨rfl, hl⟩ := hx
  simp only [BTree.Node.kids, BTree.Node.elems] at hl hr ⊢
  unfold BTree.Node.mergeKids at hr
  unfold mergeKids
  cases e1 : vRemove idx es with
  | none => rw [e1] at hr; cases hr
  | some r1 =>
    obtain ⟨mid, es'⟩ := r1
    rw [e1] at hr
    dsimp only at hr
    cases e2 : vRemove idx kt with
    | none => rw [e2] at hr; cases hr
    | some r2 =>
      obtain ⟨⟨les, lt⟩, kt'⟩ := r2
      rw [e2] at hr
      dsimp only at hr
      obtain ⟨h1, h2⟩ := vRemove_some e2
      simp only at h1 h2
      subst h2
      cases e3 : (kt.eraseIdx idx)[idx]? with
      | none => rw [e3] at hr; cases hr
      | some c =>
        obtain ⟨res, rt⟩ := c
        rw [e3] at hr
        cases hr
        have hi : idx < kt.length := (List.getElem?_eq_some_iff.1 h1).1
        have hk : ks[idx]? = some ks[idx] := List.getElem?_eq_getElem (by omega)
        have ht : (vts kt)[idx]? = some (vt (.mk les lt)) := by rw [vts_get, h1]; rfl
        simp only [vRemove_of hk]
        have hev : (vts kt).eraseIdx idx = vts (kt.eraseIdx idx) := by
          simp [vts_map, List.eraseIdx_map]
        refine wp_own_cases (r := ks[idx]) (t := vt (.mk les lt))
          (owns (ks.eraseIdx idx) (vts (kt.eraseIdx idx))) (by rw [owns_get hk ht, hev]) ?_ ?_
        · intro _ h; rw [vt_eta] at h; cases h
        · intro a q ts ha h
          rw [vt_mk] at h
          cases h
          rw [ha]
          dsimp only
          have hdl := hd _ (List.mem_of_getElem? h1)
          rw [vt_mk] at hdl
          wcall wp_unwrapOrClone hdl
          rintro _ _ ⟨lks, rfl, h4, rfl⟩
          have hl1 : (kt.eraseIdx idx).length = (ks.eraseIdx idx).length := by
            rw [List.length_eraseIdx_of_lt hi, List.length_eraseIdx_of_lt (by omega), hl]
          wcall mutKid_spec hl1 e3
            (hd _ (List.mem_of_mem_eraseIdx (List.mem_of_getElem? e3)))
            (fun x hx => prepend_spec (by simpa using h4) hx)
          rintro ⟨ks2, _⟩ _ ⟨_, h5, rfl, rfl⟩
          refine wp_pure ⟨⟨rfl, ?_⟩, by simp⟩
          simp only [BTree.Node.kids, List.length_set]
          rw [hl1]
          exact h5.symm

theorem rebal_spec {N D i : Nat} {x : HN K V} {es : List (K × V)} {kt : List (Node K V)}
    {n : Node K V} (hr : BTree.Node.rebal N i es kt = some n) (hx : Fits x (.mk es kt))
    (hd : ∀ c ∈ kt, (vt c).Dep D) :
    wp (rebal N D i x) (owns x.kids (vts kt)) (Holds n) := by
  have hl := hx.len
  simp only [BTree.Node.kids] at hl
  unfold BTree.Node.rebal at hr
  unfold rebal
  have hem : x.kids.isEmpty = kt.isEmpty := by
    rw [Bool.eq_iff_iff, List.isEmpty_iff_length_eq_zero, List.isEmpty_iff_length_eq_zero, hl]
  rw [hem]
  split at hr
  · cases hr
  rename_i h1
  rw [if_neg h1]
  split at hr
  · rename_i h2
    rw [if_pos h2]
    unfold BTree.Node.kidLen at hr
    cases e : kt[i - 1]? with
    | none => rw [e] at hr; cases hr
    | some c =>
      rw [e] at hr
      dsimp only [Option.map_some] at hr
      wcall kidLen_spec hl e
      rintro _ _ ⟨rfl, rfl⟩
      rw [add_zero]
      split at hr
      · rw [if_pos ‹_›]; exact rotRt_spec hr hx hd
      · rw [if_neg ‹_›]; exact mergeKids_spec hr hx hd
  · rename_i h2
    rw [if_neg h2]
    unfold BTree.Node.kidLen at hr
    cases e : kt[i + 1]? with
    | none => rw [e] at hr; cases hr
    | some c =>
      rw [e] at hr
      dsimp only [Option.map_some] at hr
      wcall kidLen_spec hl e
      rintro _ _ ⟨rfl, rfl⟩
      rw [add_zero]
      split at hr
      · rw [if_pos ‹_›]; exact rotLf_spec hr hx hd
      · rw [if_neg ‹_›]; exact mergeKids_spec hr hx hd

/-! ## Nesting depth -/

/-- The contents of a node, grown or shrunk, are no deeper. -/
theorem dep_set {d i : Nat} {c : Node K V} {kt : List (Node K V)} (hd : ∀ c ∈ kt, (vt c).Dep d)
    (hc : (vt c).Dep d) : ∀ c' ∈ kt.set i c, (vt c').Dep d := by
  intro c' h
  rcases List.mem_or_eq_of_mem_set h with h | rfl
  · exact hd _ h
  · exact hc

theorem rotLf_dep {N idx d : Nat} {es : List (K × V)} {kt : List (Node K V)}
    {n : Node K V} (hr : BTree.Node.rotLf N idx es kt = some n)
    (hd : ∀ c ∈ kt, (vt c).Dep d) : ∀ c ∈ n.kids, (vt c).Dep d := by
  unfold BTree.Node.rotLf at hr
  repeat' split at hr
  all_goals cases hr
  rename_i res rks e1 _ _ kv2 res' e2 _ kv1 e3 _ les lks e4 _
  have h1 := hd _ (List.mem_of_getElem? e1)
  have h2 := hd _ (List.mem_of_getElem? e4)
  obtain ⟨d, rfl⟩ := dep_pos h1
  refine dep_set (dep_set hd ?_) ?_
  · exact dep_mk.2 (fun c hc => dep_mk.1 h1 c (List.mem_of_mem_tail hc))
  · refine dep_mk.2 (fun c hc => ?_)
    rcases List.mem_append.1 hc with hc | hc
    · exact dep_mk.1 h2 c hc
    · exact dep_mk.1 h1 c (List.mem_of_mem_head? (by simpa using hc))

theorem rotRt_dep {N idx d : Nat} {es : List (K × V)} {kt : List (Node K V)}
    {n : Node K V} (hr : BTree.Node.rotRt N idx es kt = some n)
    (hd : ∀ c ∈ kt, (vt c).Dep d) : ∀ c ∈ n.kids, (vt c).Dep d := by
  unfold BTree.Node.rotRt at hr
  repeat' split at hr
  all_goals cases hr
  rename_i les lks e1 _ _ kv2 res' e2 _ kv1 e3 _ res rks e4
  have h1 := hd _ (List.mem_of_getElem? e1)
  have h2 := hd _ (List.mem_of_getElem? e4)
  obtain ⟨d, rfl⟩ := dep_pos h1
  refine dep_set (dep_set hd ?_) ?_
  · exact dep_mk.2 (fun c hc => dep_mk.1 h1 c ((List.dropLast_sublist _).subset hc))
  · refine dep_mk.2 (fun c hc => ?_)
    rcases List.mem_append.1 hc with hc | hc
    · exact dep_mk.1 h1 c (List.mem_of_mem_getLast? (by simpa using hc))
    · exact dep_mk.1 h2 c hc

theorem mergeKids_dep {idx d : Nat} {es : List (K × V)} {kt : List (Node K V)}
    {n : Node K V} (hr : BTree.Node.mergeKids idx es kt = some n)
    (hd : ∀ c ∈ kt, (vt c).Dep d) : ∀ c ∈ n.kids, (vt c).Dep d := by
  unfold BTree.Node.mergeKids at hr
  repeat' split at hr
  all_goals cases hr
  rename_i _ mid es' e1 _ les lks kt' e2 _ res rks e3
  obtain ⟨h0, h1⟩ := vRemove_some e2
  simp only at h0 h1
  subst h1
  have hd' : ∀ c ∈ kt.eraseIdx idx, (vt c).Dep d := fun c hc => hd c (List.mem_of_mem_eraseIdx hc)
  have h1 := hd _ (List.mem_of_getElem? h0)
  have h2 := hd' _ (List.mem_of_getElem? e3)
  obtain ⟨d, rfl⟩ := dep_pos h1
  refine dep_set hd' ?_
  refine dep_mk.2 (fun c hc => ?_)
  rcases List.mem_append.1 hc with hc | hc
  · exact dep_mk.1 h1 c hc
  · exact dep_mk.1 h2 c hc

theorem rebal_dep {N i d : Nat} {es : List (K × V)} {kt : List (Node K V)}
    {n : Node K V} (hr : BTree.Node.rebal N i es kt = some n)
    (hd : ∀ c ∈ kt, (vt c).Dep d) : ∀ c ∈ n.kids, (vt c).Dep d := by
  unfold BTree.Node.rebal at hr
  repeat' split at hr
  · cases hr
  · cases hr
  · exact rotRt_dep hr hd
  · exact mergeKids_dep hr hd
  · cases hr
  · exact rotLf_dep hr hd
  · exact mergeKids_dep hr hd

theorem afterKid_dep {N i d : Nat} {kv : K × V} {b : Bool} {es : List (K × V)}
    {kt : List (Node K V)} {r : RemRes K V}
    (hr : BTree.Node.afterKid N i kv b es kt = some r)
    (hd : ∀ c ∈ kt, (vt c).Dep d) : (vt r.2.2).Dep (d + 1) := by
  unfold BTree.Node.afterKid at hr
  split at hr
  · cases e : BTree.Node.rebal N i es kt with
    | none => rw [e] at hr; cases hr
    | some n =>
      rw [e] at hr
      cases hr
      have := rebal_dep e hd
      obtain ⟨es', kt'⟩ := n
      exact dep_mk.2 this
  · cases hr
    exact dep_mk.2 hd

theorem popFirst_dep {N : Nat} : ∀ {d : Nat} {nd : Node K V} {r : RemRes K V},
    nd.popFirst N = some r → (vt nd).Dep d → (vt r.2.2).Dep d := by
  intro d
  induction d with
  | zero => intro nd r _ h; obtain ⟨_, h⟩ := dep_pos h; cases h
  | succ d ih =>
    rintro ⟨es, kt⟩ r hr hd
    simp only [BTree.Node.popFirst, BTree.Node.popFirstAt_eq] at hr
    cases e : kt.head? with
    | none =>
      rw [e] at hr
      simp only [Option.map_none] at hr
      split at hr <;> cases hr
      exact dep_mk.2 (by simp)
    | some c =>
      rw [e] at hr
      simp only [Option.map_some] at hr
      have hc := dep_mk.1 hd c (List.mem_of_mem_head? e)
      split at hr
      · simp at *
      · cases hr
      · rename_i _ kv b c' e2
        simp only [Option.some.injEq] at e2
        exact afterKid_dep hr (dep_set (dep_mk.1 hd) (ih e2 hc))

theorem popLast_dep {N : Nat} : ∀ {d : Nat} {nd : Node K V} {r : RemRes K V},
    nd.popLast N = some r → (vt nd).Dep d → (vt r.2.2).Dep d := by
  intro d
  induction d with
  | zero => intro nd r _ h; obtain ⟨_, h⟩ := dep_pos h; cases h
  | succ d ih =>
    rintro ⟨es, kt⟩ r hr hd
    simp only [BTree.Node.popLast, BTree.Node.popLastAt_eq] at hr
    cases e : kt.getLast? with
    | none =>
      rw [e] at hr
      simp only [Option.map_none] at hr
      split at hr <;> cases hr
      exact dep_mk.2 (by simp)
    | some c =>
      rw [e] at hr
      simp only [Option.map_some] at hr
      have hc := dep_mk.1 hd c (List.mem_of_mem_getLast? e)
      split at hr
      · simp at *
      · cases hr
      · rename_i _ kv b c' e2
        simp only [Option.some.injEq] at e2
        exact afterKid_dep hr (dep_set (dep_mk.1 hd) (ih e2 hc))

theorem remove_dep {N : Nat} {p : K → Ordering} : ∀ {d : Nat} {nd : Node K V} {r : RemRes K V},
    nd.remove N p = some (some r) → (vt nd).Dep d → (vt r.2.2).Dep d := by
  intro d
  induction d with
  | zero => intro nd r _ h; obtain ⟨_, h⟩ := dep_pos h; cases h
  | succ d ih =>
    rintro ⟨es, kt⟩ r hr hd
    simp only [BTree.Node.remove, BTree.Node.removeAt_eq, BTree.Node.popLastKid_eq] at hr
    split at hr
    · split at hr
      · split at hr <;> cases hr
        exact dep_mk.2 (dep_mk.1 hd)
      · cases e : kt[(locate p es).1]? with
        | none => rw [e] at hr; simp at hr
        | some c =>
          rw [e] at hr
          simp only [Option.map_some] at hr
          have hc := dep_mk.1 hd c (List.mem_of_getElem? e)
          split at hr
          · cases hr
          · cases hr
          · rename_i _ kv b c' e2
            simp only [Option.some.injEq] at e2
            split at hr
            · cases hr
            · obtain ⟨r', h1, h2⟩ := Option.map_eq_some_iff.1 hr
              cases h2
              exact afterKid_dep h1 (dep_set (dep_mk.1 hd) (popLast_dep e2 hc))
    · cases e : kt[descIdx (locate p es).1 es kt.length]? with
      | none => rw [e] at hr; simp at hr
      | some c =>
        rw [e] at hr
        simp only [Option.map_some] at hr
        have hc := dep_mk.1 hd c (List.mem_of_getElem? e)
        split at hr
        · cases hr
        · cases hr
        · cases hr
        · rename_i _ kv b c' e2
          simp only [Option.some.injEq] at e2
          obtain ⟨r', h1, h2⟩ := Option.map_eq_some_iff.1 hr
          cases h2
          exact afterKid_dep h1 (dep_set (dep_mk.1 hd) (ih e2 hc))

/-! ## The removals -/

theorem afterKid_spec {N D i : Nat} {x : HN K V} {es : List (K × V)} {kt : List (Node K V)}
    {kv : K × V} {b : Bool} {r : RemRes K V}
    (hr : BTree.Node.afterKid N i kv b es kt = some r) (hx : Fits x (.mk es kt))
    (hd : ∀ c ∈ kt, (vt c).Dep D) :
    wp (afterKid N D i kv b x) (owns x.kids (vts kt))
      (Turns r.2.2 (fun y L => y = (r.1, r.2.1) ∧ L = 0)) := by
  unfold BTree.Node.afterKid at hr
  unfold afterKid
  split at hr
  · rw [if_pos ‹_›]
    cases e : BTree.Node.rebal N i es kt with
    | none => rw [e] at hr; cases hr
    | some n =>
      rw [e] at hr
      cases hr
      wcall rebal_spec e hx hd
      rintro y _ ⟨h1, rfl⟩
      refine wp_pure ⟨0, h1, by simp, ?_, rfl⟩
      simp only [BTree.Node.under, h1.data]
  · rw [if_neg ‹_›]
    cases hr
    exact wp_pure ⟨0, hx, by simp, rfl, rfl⟩

theorem popFirst_spec {N D : Nat} : ∀ {n : Nat} {nd : Node K V} {x : HN K V} {r : RemRes K V},
    (vt nd).Dep n → (vt nd).Dep (D + 1) → Fits x nd → nd.popFirst N = some r →
    wp (popFirst N D n x) (owns x.kids (vts nd.kids))
      (Turns r.2.2 (fun y L => y = (r.1, r.2.1) ∧ L = 0)) := by
  intro n
  induction n with
  | zero => intro nd x r hn; obtain ⟨_, h⟩ := dep_pos hn; cases h
  | succ n ih =>
    rintro ⟨_, kt⟩ ⟨es, ks⟩ r hn hD ⟨rfl, hl⟩ hr
    simp only [BTree.Node.kids, BTree.Node.elems] at hl ⊢
    simp only [BTree.Node.popFirst, BTree.Node.popFirstAt_eq] at hr
    simp only [popFirst]
    cases kt with
    | nil =>
      have : ks = [] := List.length_eq_zero_iff.1 hl.symm
      subst this
      rw [if_neg (by simp)]
      simp only [List.head?_nil, Option.map_none] at hr
      cases e1 : vRemove 0 es with
      | none => rw [e1] at hr; cases hr
      | some r1 =>
        rw [e1] at hr
        cases hr
        exact wp_pure ⟨0, ⟨rfl, rfl⟩, by simp, rfl, rfl⟩
    | cons c kt =>
      have hc : (c :: kt)[0]? = some c := rfl
      have hm : c ∈ c :: kt := by simp
      rw [if_pos (by rw [← hl]; simp)]
      simp only [List.head?_cons, Option.map_some] at hr
      cases e2 : c.popFirst N with
      | none => rw [e2] at hr; cases hr
      | some r1 =>
        rw [e2] at hr
        wcall mutKid_spec0 hl hc (dep_mk.1 hD _ hm)
          (fun x hx => ih (dep_mk.1 hn _ hm) ((dep_mk.1 hD _ hm).mono (Nat.le_succ D)) hx e2)
        rintro ⟨ks', y⟩ _ ⟨_, h3, rfl, rfl, rfl⟩
        simp only [add_zero]
        exact afterKid_spec hr (x := ⟨es, ks'⟩) ⟨rfl, by have := (h3.trans hl.symm).symm; simpa using this⟩
          (dep_set (dep_mk.1 hD) (popFirst_dep e2 (dep_mk.1 hD _ hm)))

theorem popLast_spec {N D : Nat} : ∀ {n : Nat} {nd : Node K V} {x : HN K V} {r : RemRes K V},
    (vt nd).Dep n → (vt nd).Dep (D + 1) → Fits x nd → nd.popLast N = some r →
    wp (popLast N D n x) (owns x.kids (vts nd.kids))
      (Turns r.2.2 (fun y L => y = (r.1, r.2.1) ∧ L = 0)) := by
  intro n
  induction n with
  | zero => intro nd x r hn; obtain ⟨_, h⟩ := dep_pos hn; cases h
  | succ n ih =>
    rintro ⟨_, kt⟩ ⟨es, ks⟩ r hn hD ⟨rfl, hl⟩ hr
    simp only [BTree.Node.kids, BTree.Node.elems] at hl ⊢
    simp only [BTree.Node.popLast, BTree.Node.popLastAt_eq] at hr
    simp only [popLast]
    rw [List.getLast?_eq_getElem?] at hr
    by_cases h0 : ks.length = 0
    · have : ks = [] := List.length_eq_zero_iff.1 h0
      subst this
      have : kt = [] := List.length_eq_zero_iff.1 hl
      subst this
      rw [if_neg (by simp)]
      simp only [List.length_nil, List.getElem?_nil, Option.map_none] at hr
      cases e1 : vPop es with
      | none => rw [e1] at hr; cases hr
      | some r1 =>
        rw [e1] at hr
        cases hr
        exact wp_pure ⟨0, ⟨rfl, rfl⟩, by simp, rfl, rfl⟩
    · have hc : kt[kt.length - 1]? = some kt[kt.length - 1] :=
        List.getElem?_eq_getElem (by omega)
      generalize kt[kt.length - 1] = c at hc
      have hm : c ∈ kt := List.mem_of_getElem? hc
      rw [if_pos (by omega)]
      rw [hc] at hr
      simp only [Option.map_some] at hr
      cases e2 : c.popLast N with
      | none => rw [e2] at hr; cases hr
      | some r1 =>
        rw [e2] at hr
        rw [← hl]
        wcall mutKid_spec0 hl hc (dep_mk.1 hD _ hm)
          (fun x hx => ih (dep_mk.1 hn _ hm) ((dep_mk.1 hD _ hm).mono (Nat.le_succ D)) hx e2)
        rintro ⟨ks', y⟩ _ ⟨_, h3, rfl, rfl, rfl⟩
        simp only [add_zero]
        exact afterKid_spec hr (x := ⟨es, ks'⟩) ⟨rfl, by have := (h3.trans hl.symm).symm; simpa using this⟩
          (dep_set (dep_mk.1 hD) (popLast_dep e2 (dep_mk.1 hD _ hm)))

/-- The node after `remove`. -/
def remNode (nd : Node K V) : Option (RemRes K V) → Node K V
  | none => nd
  | some r => r.2.2

theorem remove_spec {N D : Nat} {p : K → Ordering} : ∀ {n : Nat} {nd : Node K V} {x : HN K V}
    {r : Option (RemRes K V)},
    (vt nd).Dep n → (vt nd).Dep (D + 1) → Fits x nd → nd.remove N p = some r →
    wp (remove N D p n x) (owns x.kids (vts nd.kids))
      (Turns (remNode nd r) (fun y L => y = r.map (fun r => (r.1, r.2.1)) ∧ L = 0)) := by
  intro n
  induction n with
  | zero => intro nd x r hn; obtain ⟨_, h⟩ := dep_pos hn; cases h
  | succ n ih =>
    rintro ⟨_, kt⟩ ⟨es, ks⟩ r hn hD ⟨rfl, hl⟩ hr
    simp only [BTree.Node.kids, BTree.Node.elems] at hl ⊢
    simp only [BTree.Node.remove, BTree.Node.removeAt_eq, BTree.Node.popLastKid_eq] at hr
    simp only [remove]
    by_cases h1 : (locate p es).2 = true
    · rw [if_pos h1] at hr ⊢
      by_cases h2 : kt = []
      · subst h2
        have : ks = [] := List.length_eq_zero_iff.1 hl.symm
        subst this
        rw [if_pos (by rfl)] at hr ⊢
        cases e1 : vRemove (locate p es).1 es with
        | none => rw [e1] at hr; cases hr
        | some r1 =>
          rw [e1] at hr
          cases hr
          exact wp_pure ⟨0, ⟨rfl, rfl⟩, by simp [remNode], rfl, rfl⟩
      · have h2' : ks ≠ [] := by rintro rfl; exact h2 (List.length_eq_zero_iff.1 hl)
        rw [if_neg (by simpa using h2)] at hr
        rw [if_neg (by simpa using h2')]
        generalize (locate p es).1 = i at hr ⊢
        cases hc : kt[i]? with
        | none => rw [hc] at hr; cases hr
        | some c =>
          rw [hc] at hr
          simp only [Option.map_some] at hr
          have hm : c ∈ kt := List.mem_of_getElem? hc
          cases e2 : c.popLast N with
          | none => rw [e2] at hr; cases hr
          | some r1 =>
            rw [e2] at hr
            dsimp only at hr
            cases e3 : es[i]? with
            | none => rw [e3] at hr; cases hr
            | some old =>
              rw [e3] at hr
              dsimp only at hr
              obtain ⟨r', h3, rfl⟩ := Option.map_eq_some_iff.1 hr
              wcall mutKid_spec0 hl hc (dep_mk.1 hD _ hm)
                (fun x hx => popLast_spec (dep_mk.1 hn _ hm)
                  ((dep_mk.1 hD _ hm).mono (Nat.le_succ D)) hx e2)
              rintro ⟨ks', y⟩ _ ⟨_, h4, rfl, rfl, rfl⟩
              unfold afterPop
              simp only [e3, add_zero]
              wcall afterKid_spec h3 (x := ⟨es.set i r1.1, ks'⟩)
                ⟨rfl, by simpa [hl] using h4.symm⟩
                (dep_set (dep_mk.1 hD) (popLast_dep e2 (dep_mk.1 hD _ hm)))
              rintro ⟨y, z⟩ _ ⟨_, h5, rfl, rfl, rfl⟩
              exact wp_pure ⟨0, h5, by simp [remNode], rfl, rfl⟩
    · rw [if_neg h1] at hr ⊢
      rw [hl] at hr
      generalize descIdx (locate p es).1 es ks.length = j at hr ⊢
      by_cases h2 : j < ks.length
      · have hc : kt[j]? = some kt[j] := List.getElem?_eq_getElem (by omega)
        generalize kt[j] = c at hc
        have hm : c ∈ kt := List.mem_of_getElem? hc
        rw [if_pos h2]
        rw [hc] at hr
        simp only [Option.map_some] at hr
        cases e2 : c.remove N p with
        | none => rw [e2] at hr; cases hr
        | some r1 =>
          rw [e2] at hr
          wcall mutKid_spec0 hl hc (dep_mk.1 hD _ hm)
            (fun x hx => ih (dep_mk.1 hn _ hm) ((dep_mk.1 hD _ hm).mono (Nat.le_succ D)) hx e2)
          rintro ⟨ks', y⟩ _ ⟨_, h4, rfl, h5, rfl⟩
          dsimp only at h4 h5
          subst h5
          simp only [add_zero]
          cases r1 with
          | none =>
            cases hr
            refine wp_pure ⟨0, ⟨rfl, by simp [remNode, h4, hl]⟩, ?_, rfl, rfl⟩
            simp only [remNode, add_zero, BTree.Node.kids]
            rw [show kt.set j c = kt from by
              rw [List.getElem?_eq_some_iff] at hc
              obtain ⟨h6, rfl⟩ := hc
              simp]
          | some r1 =>
            dsimp only at hr
            obtain ⟨r', h3, rfl⟩ := Option.map_eq_some_iff.1 hr
            unfold afterRm
            simp only [Option.map_some]
            wcall afterKid_spec h3 (x := ⟨es, ks'⟩)
              ⟨rfl, by simpa [hl] using h4.symm⟩
              (dep_set (dep_mk.1 hD) (remove_dep e2 (dep_mk.1 hD _ hm)))
            rintro ⟨y, z⟩ _ ⟨_, h5, rfl, rfl, rfl⟩
            exact wp_pure ⟨0, h5, by simp [remNode], rfl, rfl⟩
      · rw [if_neg h2]
        rw [List.getElem?_eq_none (by omega)] at hr
        cases hr
        exact wp_pure ⟨0, ⟨rfl, hl⟩, by simp [remNode], rfl, rfl⟩

end Verif.BTreeH
