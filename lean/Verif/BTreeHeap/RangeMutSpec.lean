import Verif.BTreeHeap.MutSpec
/-!
# `range_mut` of `BTreeMap` on reference-counted memory, against `range_mut` on values
-/
namespace Verif.BTreeH
open Heap
open BTree (Node InnerIter NodeIterOps NIter nodeOps findRangeEdges Edges mkWork mkWorkAt findL findR)
open AvlH (updF)

variable {K V : Type}

/-! ## The edges depend on the keys only -/

theorem findL_app {f : Nat → K → V → V} (lb : Bnd K) : ∀ (es : List (K × (Nat × V))) (i : Nat),
    findL lb i (es.map (app f)) = ((findL lb i es).1, (findL lb i es).2.1,
      (findL lb i es).2.2.map (app f))
  | [], i => by cases lb <;> simp [findL]
  | e :: es, i => by
    have ih := findL_app (f := f) lb es (i + 1)
    simp only [List.map_cons, findL]
    cases BTree.cmpBd lb e.1 <;> first | exact ih | rfl

theorem findR_app {f : Nat → K → V → V} (n : Nat) (ub : Bnd K) :
    ∀ (es : List (K × (Nat × V))) (i : Nat), findR n ub i (es.map (app f)) = findR n ub i es
  | [], i => by cases ub <;> simp [findR]
  | e :: es, i => by
    have ih := findR_app (f := f) n ub es (i + 1)
    simp only [List.map_cons, findR]
    cases BTree.cmpBd ub e.1 <;> first | exact ih | rfl

theorem edges_app {f : Nat → K → V → V} (lb ub : Bnd K) (es : List (K × (Nat × V))) :
    findRangeEdges lb ub (es.map (app f)) = findRangeEdges lb ub es := by
  simp only [findRangeEdges, findL_app, findR_app, List.length_map]

/-! ## The worklist -/

/-- What `make_mut_worklist` at `path` leaves: the worklists, or panics. -/
def WorkM (root : Node K (Nat × V)) (path : List Nat) (m : MT K V) : Option (List MIter) →
    Option (List (NIter (K × (Nat × V)) (Node K (Nat × V)))) → Prop
  | none, none => True
  | some w, some wt => MW root m w wt ∧ ∀ q ∈ pend w, ∃ t, t ≠ [] ∧ q = path ++ t
  | _, _ => False

/-- What opening nodes below `path` preserves. -/
structure Kept (path : List Nat) (m m' : MT K V) : Prop where
  opened : ∀ q, IsOpen m q → IsOpen m' q
  links : ∀ q, IsLink m q → q = path ∨ IsLink m' q

theorem MW.kept {root : Node K (Nat × V)} {path : List Nat} {m m' : MT K V} {w wt}
    (h : MW root m w wt) (hk : Kept path m m') (hp : path ∉ pend w) : MW root m' w wt :=
  ⟨h.core, fun e he => hk.opened _ (h.opened e he), fun q hq =>
    (hk.links q (h.links q hq)).resolve_left (fun e => hp (e ▸ hq)), h.nodup⟩

theorem MW.append {root : Node K (Nat × V)} {m : MT K V} {w w' wt wt'} (h : MW root m w wt)
    (h' : MW root m w' wt') (hd : ∀ q ∈ pend w, q ∉ pend w') : MW root m (w ++ w') (wt ++ wt') := by
  refine ⟨List.rel_append h.core h'.core, ?_, ?_, ?_⟩
  · intro e he
    rcases List.mem_append.1 he with he | he
    · exact h.opened e he
    · exact h'.opened e he
  · intro q hq
    rw [pend, List.flatMap_append, List.mem_append] at hq
    rcases hq with hq | hq
    · exact h.links q hq
    · exact h'.links q hq
  · rw [pend, List.flatMap_append, List.nodup_append]
    exact ⟨h.nodup, h'.nodup, fun a ha b hb hab => hd a ha (hab ▸ hb)⟩

theorem mkWorkM_spec {f : Nat → K → V → V} {D : Nat} {root : Node K (Nat × V)}
    (hnd : (labs root).Nodup) (hD : (vt root).Dep D) :
    ∀ {n : Nat} {nd : Node K (Nat × V)} {lb ub : Bnd K} {path : List Nat} {m : MT K V}
      {L : Multiset (Handle (ND K V))}, Is f m root L → subN root path = some nd →
    IsLink m path → (vt nd).Dep n →
    wp (mkWorkM D n lb ub path m) L (fun x L' => Is f x.1 root L' ∧ Kept path m x.1 ∧
      WorkM root path x.1 x.2 (mkWork lb ub nd))
  | 0, nd, lb, ub, path, m, L, _, _, _, hd => by obtain ⟨_, h⟩ := dep_pos hd; cases h
  | n + 1, .mk es ks, lb, ub, path, m, L, hI, hs, ⟨r, hr⟩, hd => by
    have hkd := dep_mk.1 hd
    -- the recursive calls
    have hrec : ∀ {i : Nat} {lb ub : Bnd K} {m : MT K V} {L}, i < ks.length → Is f m root L →
        IsLink m (path ++ [i]) →
        wp (mkWorkM D n lb ub (path ++ [i]) m) L (fun x L' => Is f x.1 root L' ∧
          Kept (path ++ [i]) m x.1 ∧ WorkM root (path ++ [i]) x.1 x.2 (mkWorkAt lb ub i ks)) := by
      intro i lb ub m L hi hI hl
      have hc : ks[i]? = some ks[i] := List.getElem?_eq_getElem hi
      rw [mkWorkAt_eq, hc]
      exact mkWorkM_spec hnd hD hI (subN_kid hs hc) hl (hkd _ (List.getElem_mem _))
    rw [mkWork_eq lb ub es ks _ rfl]
    -- the address
    obtain ⟨c, L1, L2, hc, h1, rfl, h2⟩ := hI.at hnd hr
    rw [hs] at hc
    cases hc
    cases h1
    refine wp_own_cases (r := r) (t := vt (unl f (.mk es ks))) L2 rfl ?_ ?_
    · intro _ h; rw [vt_eta] at h; cases h
    rintro a q ts rfl ht
    rw [← ht]
    have hI' : Is f m root (own (some a) (vt (unl f (.mk es ks))) + L2) := hI
    simp only [mkWorkM, hr]
    have hread : wp (lift (.read a [])) (own (some a) (vt (unl f (Node.mk es ks))))
        (fun (n : HN K V) L => Fits n (unl f (Node.mk es ks)) ∧
          L = own (some a) (vt (unl f (Node.mk es ks)))) :=
      readN_spec (t := vt (unl f (Node.mk es ks))) rfl
    wcall hread
    rintro ⟨es', ks'⟩ _ ⟨⟨h3, -⟩, rfl⟩
    rw [unl_elems] at h3
    dsimp only at h3 ⊢
    subst h3
    refine wp_bind (wp_conseq (openAt_spec hI' hnd hD hr) ?_)
    rintro ⟨m0, n0⟩ L0 ⟨c, a0, ks0, h4, h5, h6, h7, h8⟩
    rw [hs] at h4
    cases h4
    dsimp only at h6 h7 h8 ⊢
    subst h6
    simp only [BTree.Node.elems, BTree.Node.kids, List.length_map] at h5 h7 ⊢
    obtain ⟨k1, k2⟩ := open_kinds (x := .opened a0 (es.map (app f)) (ks0.map MT.link)) hr
    rw [← h7] at k1 k2
    have kk : Kept path m m0 := ⟨k1, k2⟩
    have hself : IsOpen m0 path := by rw [h7]; exact opened_self hr
    have hkid : ∀ i, i < ks.length → IsLink m0 (path ++ [i]) := by
      intro i hi; rw [h7]; exact opened_kid hr (by omega)
    clear h7
    rw [edges_app, ← h5]
    generalize findRangeEdges lb ub es = ed
    unfold workStep
    by_cases h : ed.lbE ≤ ed.ubE ∧ ed.ubE ≤ es.length
    swap
    · rw [if_neg h, if_neg h]
      exact wp_pure ⟨h8, kk, trivial⟩
    rw [if_pos h, if_pos h]
    have hk := kidSlice_ok ks.length ed.lbK ed.ubK
    generalize kidSlice ks.length ed.lbK ed.ubK = c at hk ⊢
    have n1 := afterNext_ok ed.lp hk.1
    have n1' : ed.lp = true → c.1 < c.2 → (afterNext ed.lp c).1 = c.1 + 1 := by
      intro h1 h2; simp [afterNext, h1, h2]
    generalize afterNext ed.lp c = c1 at n1 n1' ⊢
    have n2 := afterBack_ok ed.rp n1.1
    have n2' : ed.rp = true → c1.1 < c1.2 → (afterBack ed.rp c1).2 = c1.2 - 1 := by
      intro h1 h2; simp [afterBack, h1, h2]
    generalize afterBack ed.rp c1 = c2 at n2 n2' ⊢
    -- the left part
    have hL : wp (workLeft (mkWorkM D n) lb ub path ed c m0) L0 (fun x L' => Is f x.1 root L' ∧
        (∀ q, IsOpen m0 q → IsOpen x.1 q) ∧
        (∀ q, IsLink m0 q → q ≠ path → (ed.lp = true → c.1 < c.2 → q ≠ path ++ [c.1]) →
          IsLink x.1 q) ∧
        WorkM root (path ++ [c.1]) x.1 x.2 (vLeft lb ub ed c ks) ∧
        (∀ w, x.2 = some w → ¬ (ed.lp = true ∧ c.1 < c.2) → w = [])) := by
      unfold workLeft vLeft
      split
      · rename_i hh
        simp only [Bool.and_eq_true, decide_eq_true_eq] at hh
        have hi : c.1 < ks.length := by omega
        have key : ∀ {lb ub}, wp (mkWorkM D n lb ub (path ++ [c.1]) m0) L0 (fun x L' =>
            Is f x.1 root L' ∧ (∀ q, IsOpen m0 q → IsOpen x.1 q) ∧
            (∀ q, IsLink m0 q → q ≠ path → (ed.lp = true → c.1 < c.2 → q ≠ path ++ [c.1]) →
              IsLink x.1 q) ∧
            WorkM root (path ++ [c.1]) x.1 x.2 (mkWorkAt lb ub c.1 ks) ∧
            (∀ w, x.2 = some w → ¬ (ed.lp = true ∧ c.1 < c.2) → w = [])) := by
          intro lb ub
          refine wp_conseq (hrec hi h8 (hkid _ hi)) ?_
          rintro x L' ⟨g1, g2, g3⟩
          exact ⟨g1, g2.opened, fun q hq _ hne => (g2.links q hq).resolve_left (hne hh.1 hh.2), g3,
            fun _ _ hn => absurd hh hn⟩
        split
        · split
          · exact key
          · exact wp_pure ⟨h8, fun _ h => h, fun _ h _ _ => h, trivial, fun _ h => by cases h⟩
        · exact key
      · exact wp_pure ⟨h8, fun _ h => h, fun _ h _ _ => h, ⟨MW.nil _ _, by simp [pend]⟩,
          fun w hw _ => by cases hw; rfl⟩
    refine wp_bind (wp_conseq hL ?_)
    rintro ⟨m1, w1⟩ L1 ⟨hI1, ho1, hl1, hw1, hn1⟩
    dsimp only at hI1 ho1 hl1 hw1 hn1 ⊢
    have kk1 : Kept path m m1 := by
      refine ⟨fun q hq => ho1 q (kk.opened q hq), fun q hq => ?_⟩
      rcases kk.links q hq with rfl | h
      · exact Or.inl rfl
      · by_cases hqp : q = path
        · exact Or.inl hqp
        · refine Or.inr (hl1 q h hqp ?_)
          rintro - - rfl
          obtain ⟨r', hr'⟩ := hq
          rw [below_link hr (by simp)] at hr'
          cases hr'
    revert hw1
    cases vLeft lb ub ed c ks with
    | none =>
      intro hw1
      cases w1 with
      | some _ => exact hw1.elim
      | none => exact wp_pure ⟨hI1, kk1, trivial⟩
    | some v1 =>
    intro hw1
    cases w1 with
    | none => exact hw1.elim
    | some w1 =>
    dsimp only
    obtain ⟨hw1, hp1⟩ := hw1
    have hne1 : ∀ i, path ++ [i] ∉ pend w1 := by
      intro i hi
      obtain ⟨t, ht, he⟩ := hp1 _ hi
      rw [List.append_assoc, List.append_cancel_left_eq] at he
      simp only [List.cons_append, List.nil_append, List.cons.injEq] at he
      exact ht he.2.symm
    have hR : wp (workRight (mkWorkM D n) lb ub path ed c1 m1) L1 (fun x L' => Is f x.1 root L' ∧
        (∀ q, IsOpen m1 q → IsOpen x.1 q) ∧
        (∀ q, IsLink m1 q → (ed.rp = true → c1.1 < c1.2 → q ≠ path ++ [c1.2 - 1]) →
          IsLink x.1 q) ∧
        WorkM root (path ++ [c1.2 - 1]) x.1 x.2 (vRight lb ub ed c1 ks) ∧
        (∀ w, x.2 = some w → ¬ (ed.rp = true ∧ c1.1 < c1.2) → w = [])) := by
      unfold workRight vRight
      split
      · rename_i hh
        simp only [Bool.and_eq_true, decide_eq_true_eq] at hh
        have hi : c1.2 - 1 < ks.length := by omega
        refine wp_conseq (hrec hi hI1 (hl1 _ (hkid _ hi) (by simp) ?_)) ?_
        · intro g1 g2 g3
          simp only [List.append_cancel_left_eq, List.cons.injEq, and_true] at g3
          have := n1' g1 g2
          omega
        · rintro x L' ⟨g1, g2, g3⟩
          exact ⟨g1, g2.opened, fun q hq hne => (g2.links q hq).resolve_left (hne hh.1 hh.2), g3,
            fun _ _ hn => absurd hh hn⟩
      · exact wp_pure ⟨hI1, fun _ h => h, fun _ h _ => h, ⟨MW.nil _ _, by simp [pend]⟩,
          fun w hw _ => by cases hw; rfl⟩
    refine wp_bind (wp_conseq hR ?_)
    rintro ⟨m2, w2⟩ L2 ⟨hI2, ho2, hl2, hw2, hn2⟩
    dsimp only at hI2 ho2 hl2 hw2 hn2 ⊢
    have kk2 : Kept path m m2 := by
      refine ⟨fun q hq => ho2 q (kk1.opened q hq), fun q hq => ?_⟩
      rcases kk1.links q hq with rfl | h
      · exact Or.inl rfl
      · refine Or.inr (hl2 q h ?_)
        rintro - - rfl
        obtain ⟨r', hr'⟩ := hq
        rw [below_link hr (by simp)] at hr'
        cases hr'
    revert hw2
    cases vRight lb ub ed c1 ks with
    | none =>
      intro hw2
      cases w2 with
      | some _ => exact hw2.elim
      | none => exact wp_pure ⟨hI2, kk2, trivial⟩
    | some v2 =>
    intro hw2
    cases w2 with
    | none => exact hw2.elim
    | some w2 =>
    dsimp only
    obtain ⟨hw2, hp2⟩ := hw2
    have hne2 : ∀ i, path ++ [i] ∉ pend w2 := by
      intro i hi
      obtain ⟨t, ht, he⟩ := hp2 _ hi
      rw [List.append_assoc, List.append_cancel_left_eq] at he
      simp only [List.cons_append, List.nil_append, List.cons.injEq] at he
      exact ht he.2.symm
    -- the middle
    have hE : MW root m2 (ergOf (fun lbE ubE lbK ubK lf rt => ⟨path, lbE, ubE, lbK, ubK, lf, rt⟩)
        ed c2) (ergOf (vItem es ks) ed c2) ∧
        ∀ q ∈ pend (ergOf (fun lbE ubE lbK ubK lf rt => (⟨path, lbE, ubE, lbK, ubK, lf, rt⟩ :
          MIter)) ed c2), ∃ i, q = path ++ [i] := by
      unfold ergOf
      split
      · exact ⟨MW.nil _ _, by simp [pend]⟩
      · refine ⟨⟨.cons ⟨_, hs, h.2, ?_, rfl⟩ .nil, ?_, ?_, ?_⟩, ?_⟩
        · simp only [BTree.Node.kids]; omega
        · intro e he
          rw [List.mem_singleton] at he
          subst he
          exact ho2 _ (ho1 _ hself)
        · intro q hq
          simp only [pend, List.flatMap_cons, List.flatMap_nil, List.append_nil] at hq
          obtain ⟨i, g1, g2, rfl⟩ := mem_pendOf.1 hq
          dsimp only at g1 g2 ⊢
          refine hl2 _ (hl1 _ (hkid i (by omega)) (by simp) ?_) ?_
          · intro g3 g4 g5
            simp only [List.append_cancel_left_eq, List.cons.injEq, and_true] at g5
            have := n1' g3 g4
            omega
          · intro g3 g4 g5
            simp only [List.append_cancel_left_eq, List.cons.injEq, and_true] at g5
            have := n2' g3 g4
            omega
        · simp only [pend, List.flatMap_cons, List.flatMap_nil, List.append_nil]
          exact pendOf_nodup _
        · intro q hq
          simp only [pend, List.flatMap_cons, List.flatMap_nil, List.append_nil] at hq
          obtain ⟨i, g1, g2, rfl⟩ := mem_pendOf.1 hq
          exact ⟨i, rfl⟩
    generalize ergOf (fun lbE ubE lbK ubK lf rt => (⟨path, lbE, ubE, lbK, ubK, lf, rt⟩ : MIter))
      ed c2 = we at hE ⊢
    obtain ⟨hE, hpe⟩ := hE
    have hw1' : MW root m2 w1 v1 := by
      refine ⟨hw1.core, fun e he => ho2 _ (hw1.opened e he), fun q hq => ?_, hw1.nodup⟩
      refine hl2 q (hw1.links q hq) ?_
      rintro - - rfl
      exact hne1 _ hq
    refine wp_pure ⟨hI2, kk2, (hw1'.append hE ?_).append hw2 ?_, ?_⟩
    · intro q hq hq'
      obtain ⟨i, rfl⟩ := hpe q hq'
      exact hne1 i hq
    · intro q hq hq'
      rw [pend, List.flatMap_append, List.mem_append] at hq
      rcases hq with hq | hq
      · obtain ⟨t, ht, rfl⟩ := hp1 _ hq
        obtain ⟨t', ht', he⟩ := hp2 _ hq'
        rw [List.append_assoc, List.append_assoc, List.append_cancel_left_eq] at he
        simp only [List.cons_append, List.nil_append, List.cons.injEq] at he
        by_cases g1 : ed.lp = true ∧ c.1 < c.2
        · by_cases g2 : ed.rp = true ∧ c1.1 < c1.2
          · have := n1' g1.1 g1.2
            omega
          · rw [hn2 _ rfl g2] at hq'
            simp [pend] at hq'
        · rw [hn1 _ rfl g1] at hq
          simp [pend] at hq
      · obtain ⟨i, rfl⟩ := hpe q hq
        exact hne2 i hq'
    · intro q hq
      rw [pend, List.flatMap_append, List.flatMap_append, List.mem_append, List.mem_append] at hq
      rcases hq with (hq | hq) | hq
      · obtain ⟨t, ht, rfl⟩ := hp1 _ hq
        exact ⟨[c.1] ++ t, by simp, by simp⟩
      · obtain ⟨i, rfl⟩ := hpe q hq
        exact ⟨[i], by simp, rfl⟩
      · obtain ⟨t, ht, rfl⟩ := hp2 _ hq
        exact ⟨[c1.2 - 1] ++ t, by simp, by simp⟩

/-- `range_mut` on memory is `range_mut` on values. -/
theorem rangeMutRun_spec {root : Option (Node K V)} {r : Option Nat} {len D n : Nat}
    {lb ub : Bnd K} {g : Nat → K → V → V} {ds : List Bool}
    (hd : ∀ nd, root = some nd → (vt nd).Dep n) (hD : ∀ nd, root = some nd → (vt nd).Dep D)
    {Q : Option Nat → Option (List (Option (K × V) × Nat)) → Multiset (Handle (ND K V)) → Prop}
    (h : ∀ w, ((root.map Node.label).elim (some []) (mkWork lb ub)) = some w →
      ∃ ys, nodeOps.run ds ⟨w, len⟩ = some ys ∧ (slots (gives ys)).Nodup ∧
        ∀ r, Q r (some (ys.map (fun p => (p.1.map (fun e => (e.1, e.2.2)), p.2))))
          (own r (vtO (root.map (fun nd => unl (updF g 0 (slots (gives ys))) nd.label)))))
    (h0 : (root.map Node.label).elim (some []) (mkWork lb ub) = none →
      ∀ r, Q r none (own r (vtO root))) :
    wp (rangeMutRun D n lb ub g ds r len) (own r (vtO root)) (fun x L => Q x.1 x.2 L) := by
  refine wp_root (r := r) (root := root) 0 (add_zero _).symm ?_ ?_
  · rintro rfl rfl
    obtain ⟨ys, h1, -, h2⟩ := h [] rfl
    rw [vrun_nil] at h1
    cases h1
    simp only [rangeMutRun, run_nil]
    refine wp_pure ?_
    have := h2 none
    simpa [vtO] using this
  · rintro a nd rfl rfl
    obtain ⟨n, rfl⟩ := dep_pos (hd _ rfl)
    rw [add_zero]
    simp only [rangeMutRun]
    have hI : Is (updF g 0 []) (.link (some a)) nd.label (own (some a) (vt nd)) := by
      have := Is.link (f := updF g 0 []) (some a) nd.label
      rwa [unl_label_nil] at this
    have hnd := labs_label_nodup nd
    have hD' := label_dep (hD _ rfl)
    have hd' := label_dep (hd _ rfl)
    simp only [Option.map_some, Option.elim] at h h0
    refine wp_bind (wp_conseq (mkWorkM_spec hnd hD' hI (path := []) rfl ⟨_, rfl⟩ hd') ?_)
    rintro ⟨m, w⟩ L' ⟨h1, -, h2⟩
    dsimp only at h1 h2 ⊢
    revert h2
    cases hv : mkWork lb ub nd.label with
    | none =>
      intro hw
      cases w with
      | some _ => exact hw.elim
      | none =>
        dsimp only
        refine wp_bind (wp_conseq (close_spec' h1) ?_)
        rintro r _ rfl
        rw [unl_label_nil]
        exact wp_pure (h0 hv r)
    | some wt =>
      intro hw
      cases w with
      | none => exact hw.elim
      | some w =>
        obtain ⟨ys, h3, h4, h5⟩ := h _ hv
        dsimp only
        refine wp_bind (wp_conseq (mutRun_spec hnd hd' hD' h1 hw.1 h3 h4) ?_)
        rintro x L' ⟨h6, h7⟩
        refine wp_bind (wp_conseq (close_spec' h7) ?_)
        rintro r _ rfl
        refine wp_pure ?_
        dsimp only
        rw [h6]
        exact h5 r

end Verif.BTreeH
