import Verif.FixedHeap.IterSpec
/-!
# Mutable iterators of `core.rs` on memory, against those on values
-/
namespace Verif.FixedH
open Heap BTreeH Fixed
open Fixed (Inner)
open BTree (Node)
open AvlH (updF updF_not_mem updF_new updF_other)

variable {K V : Type}

/-- A reference to an element of the tree with numbered slots. -/
def ElemAt (root : Node K (Nat × V)) (i : List Nat × Nat) (x : K × (Nat × V)) : Prop :=
  ∃ nd, subN root i.1 = some nd ∧ nd.elems[i.2]? = some x

/-- A node iterator and one on values. -/
abbrev MCore (root : Node K (Nat × V)) :
    HNI (List Nat × Nat) (List Nat) → NI K (Nat × V) → Prop :=
  NR (ElemAt root) (fun q c => subN root q = some c)

/-- The children not yet visited. -/
def pend (w : List (HNI (List Nat × Nat) (List Nat))) : List (List Nat) := w.flatMap (·.ks)

/-- The deque, and the tree it refers to. -/
structure MW (root : Node K (Nat × V)) (m : MT K V) (w : List (HNI (List Nat × Nat) (List Nat)))
    (wt : List (NI K (Nat × V))) : Prop where
  core : List.Forall₂ (MCore root) w wt
  opened : ∀ e ∈ w, ∀ i ∈ e.es, IsOpen m i.1
  links : ∀ q ∈ pend w, IsLink m q
  nodup : (pend w).Nodup

/-- The relation for mutable iterators. -/
def MR (g : Nat → K → V → V) (root : Node K (Nat × V)) :
    Rel (ND K V) (MS K V) (HNI (List Nat × Nat) (List Nat)) (NI K (Nat × V)) (K × (Nat × V)) :=
  fun h s w wt L => s.count = h.length ∧ Is (updF g 0 (slots h)) s.tree root L ∧
    MW root s.tree w wt

/-- A reference that can be used. -/
def MItem (root : Node K (Nat × V)) (s : MS K V) (i : List Nat × Nat) (x : K × (Nat × V)) : Prop :=
  ElemAt root i x ∧ IsOpen s.tree i.1

section
variable {g : Nat → K → V → V} {D : Nat} {root : Node K (Nat × V)} {m : MT K V}
  {w : List (HNI (List Nat × Nat) (List Nat))} {wt : List (NI K (Nat × V))}

theorem MW.nil (root : Node K (Nat × V)) (m : MT K V) : MW root m [] [] :=
  ⟨.nil, by simp, by simp [pend], by simp [pend]⟩

theorem MW.reverse (h : MW root m w wt) : MW root m w.reverse wt.reverse := by
  have hp : (pend w.reverse).Perm (pend w) := List.Perm.flatMap_right _ (List.reverse_perm w)
  exact ⟨List.rel_reverse h.core, fun e he => h.opened e (by simpa using he),
    fun q hq => h.links q (hp.mem_iff.1 hq), hp.nodup_iff.2 h.nodup⟩

theorem MW.tail {e : HNI (List Nat × Nat) (List Nat)} {et : NI K (Nat × V)}
    (h : MW root m (e :: w) (et :: wt)) : MW root m w wt := by
  have hn := h.nodup
  simp only [pend, List.flatMap_cons, List.nodup_append] at hn
  refine ⟨?_, fun e he => h.opened e (by simp [he]), fun q hq => h.links q ?_, hn.2.1⟩
  · cases h.core with | cons _ h => exact h
  · simp only [pend, List.flatMap_cons, List.mem_append]
    exact Or.inr hq

theorem mem_kidPaths {p q : List Nat} {n : Nat} :
    q ∈ kidPaths p n ↔ ∃ i, i < n ∧ q = p ++ [i] := by
  simp only [kidPaths, List.mem_map, List.mem_range]
  constructor
  · rintro ⟨i, h, rfl⟩; exact ⟨i, h, rfl⟩
  · rintro ⟨i, h, rfl⟩; exact ⟨i, h, rfl⟩

theorem kidPaths_nodup (p : List Nat) (n : Nat) : (kidPaths p n).Nodup := by
  refine List.Nodup.map ?_ List.nodup_range
  intro i j h
  simpa using h

theorem mutMake_spec {s : MS K V} {L : Multiset (Handle (ND K V))} {q : List Nat}
    {c : Node K (Nat × V)} {j : NI K (Nat × V)}
    {f : Nat → K → V → V} (hI : Is f s.tree root L) (hnd : (labs root).Nodup)
    (hd : (vt root).Dep D) (hq : subN root q = some c) (hl : IsLink s.tree q)
    (hj : niOps.make c = some j) (hw : MW root s.tree w wt) (hn : q ∉ pend w) :
    wp ((mutOps D).make s q) L (fun x L' => x.1.count = s.count ∧ Is f x.1.tree root L' ∧
      MW root x.1.tree (x.2 :: w) (j :: wt)) := by
  obtain ⟨r, hr⟩ := hl
  obtain ⟨rfl, h0, -⟩ := start_cost hj
  show wp ((openAt D s.tree q).bind _) _ _
  refine wp_bind (wp_conseq (openAt_spec hI hnd hd hr) ?_)
  rintro ⟨m', n'⟩ L' ⟨c', a, ks, h1, h2, h3, h4, h5⟩
  dsimp only at h3 h4 h5 ⊢
  subst h3 h4
  rw [hq] at h1
  cases h1
  obtain ⟨k1, k2⟩ := open_kinds (x := .opened a (c.elems.map (app f)) (ks.map MT.link)) hr
  have hk : ks.isEmpty = c.kids.isEmpty := by
    rw [isEmpty_len, isEmpty_len, h2]
  have he : (c.elems.map (app f)).isEmpty = false := by
    rw [isEmpty_len, List.length_map, ← isEmpty_len, h0]
  dsimp only
  rw [he]
  simp only [Bool.false_eq_true, if_false]
  refine wp_pure ⟨rfl, h5, ⟨.cons ⟨?_, ?_, hk⟩ hw.core, ?_, ?_, ?_⟩⟩
  · dsimp only
    rw [List.forall₂_iff_get]
    refine ⟨by simp, ?_⟩
    intro i h1 h2
    simp only [List.get_eq_getElem, List.getElem_map, List.getElem_range]
    exact ⟨c, hq, List.getElem?_eq_getElem h2⟩
  · dsimp only
    rw [← h2, List.forall₂_iff_get]
    refine ⟨by simp [kidPaths], ?_⟩
    intro i h1 h2
    simp only [List.get_eq_getElem, kidPaths, List.getElem_map, List.getElem_range]
    exact subN_kid hq (List.getElem?_eq_getElem h2)
  · intro e he i hi
    rcases List.mem_cons.1 he with rfl | he
    · obtain ⟨_, -, rfl⟩ := List.mem_map.1 hi
      exact opened_self hr
    · exact k1 _ (hw.opened e he i hi)
  · intro p hp
    rw [pend, List.flatMap_cons, List.mem_append] at hp
    rcases hp with hp | hp
    · obtain ⟨i, h6, rfl⟩ := mem_kidPaths.1 hp
      exact opened_kid hr h6
    · rcases k2 p (hw.links p hp) with rfl | h
      · exact absurd hp hn
      · exact h
  · rw [pend, List.flatMap_cons, List.nodup_append]
    refine ⟨kidPaths_nodup _ _, hw.nodup, ?_⟩
    rintro p hp p' hp' rfl
    obtain ⟨i, h6, rfl⟩ := mem_kidPaths.1 hp
    obtain ⟨r', h7⟩ := hw.links _ hp'
    rw [below_link hr (by simp)] at h7
    cases h7

theorem mutOk (hnd : (labs root).Nodup) (hD : (vt root).Dep D) :
    GOk (mutOps D) niOps (MR g root) (MItem root) where
  len h := h.2.2.core.length_eq
  rev h := ⟨h.1, h.2.1, h.2.2.reverse⟩
  ret := by
    rintro h s e w et et' x wt L ⟨h1, h2, hw⟩ hn
    cases hw.core with
    | cons hr hcs =>
    obtain ⟨e', i, h3, h4, h5, h6, h7⟩ := hr.ret hn
    show wp (Prog.pure e.next) _ _
    rw [h3]
    refine wp_pure ⟨i, rfl, ⟨h4, hw.opened e (by simp) i (by simp [h7])⟩, h1, h2,
      ⟨.cons h5 hcs, ?_, ?_, ?_⟩⟩
    · intro e1 he1 i1 hi1
      rcases List.mem_cons.1 he1 with rfl | he1
      · exact hw.opened e (by simp) i1 (by simp [h7, hi1])
      · exact hw.opened e1 (by simp [he1]) i1 hi1
    · have := hw.links
      simpa only [pend, List.flatMap_cons, h6] using this
    · have := hw.nodup
      simpa only [pend, List.flatMap_cons, h6] using this
  desc := by
    rintro h s e w et et' c j wt L ⟨h1, h2, hw⟩ hn hj
    cases hw.core with
    | cons hr hcs =>
    obtain ⟨e', q, h3, h4, h5, h6, h7⟩ := hr.desc hn
    show wp (Prog.pure e.next) _ _
    rw [h3]
    have hp : pend (e :: w) = q :: pend (e' :: w) := by
      simp only [pend, List.flatMap_cons, h7, List.cons_append]
    have hno := hw.nodup
    rw [hp, List.nodup_cons] at hno
    have hw' : MW root s.tree (e' :: w) (et' :: wt) := by
      refine ⟨.cons h5 hcs, ?_, fun p hpp => hw.links p (by simp [hp, hpp]), hno.2⟩
      intro e1 he1 i1 hi1
      rcases List.mem_cons.1 he1 with rfl | he1
      · exact hw.opened e (by simp) i1 (by rwa [← h6])
      · exact hw.opened e1 (by simp [he1]) i1 hi1
    refine wp_pure ⟨q, rfl, ?_⟩
    refine wp_conseq (mutMake_spec h2 hnd hD h4 (hw.links q (by simp [hp])) hj hw' hno.1) ?_
    rintro z L2 ⟨h8, h9, h10⟩
    exact ⟨h8.trans h1, h9, h10⟩
  stop := by
    rintro h s e w et et' wt L ⟨h1, h2, hw⟩ hn
    cases hw.core with
    | cons hr hcs =>
    obtain ⟨e', h3⟩ := hr.stop hn
    show wp (Prog.pure e.next) _ _
    rw [h3]
    exact wp_pure ⟨rfl, wp_pure ⟨h1, h2, hw.tail⟩⟩

/-! ## Writing -/

theorem yldM_ok (hnd : (labs root).Nodup) :
    YldOk (yldM g) (fun x => (x.1, x.2.2)) (MR g root) (MItem root) (fun h => (slots h).Nodup) := by
  rintro h s w wt L ⟨p, idx⟩ x ⟨h1, h2, hw⟩ ⟨⟨nd, h3, h4⟩, a, es, ks, h5⟩ hC
  dsimp only at h3 h4 h5
  obtain ⟨c, L1, L2, hc, hI, rfl, hput⟩ := h2.at hnd h5
  rw [h3] at hc
  cases hc
  have hndc := subN_nodup hnd h3
  cases hI with
  | @opened _ _ et _ kt L3 d he hk =>
  have hparts := nd_parts hndc
  simp only [BTree.Node.elems] at h4
  rw [slots, List.map_append, List.nodup_append] at hC
  have hx : x.2.1 ∉ slots h := fun hm => hC.2.2 _ hm _ (by simp) rfl
  have hx' : es[idx]? = some (x.1, x.2.2) := by
    rw [he, List.getElem?_map, h4]
    simp only [Option.map_some, app, updF_not_mem hx]
  have hag : ∀ i, i ≠ x.2.1 → ∀ k v, updF g 0 (slots h) i k v =
      updF g 0 (slots (h ++ [x])) i k v := by
    intro i hi k v
    simp only [slots, List.map_append, List.map_cons, List.map_nil]
    rw [updF_other hi]
  have hnew : ∀ k v, updF g 0 (slots (h ++ [x])) x.2.1 k v = g s.count k v := by
    intro k v
    simp only [slots, List.map_append, List.map_cons, List.map_nil]
    rw [updF_new hx, h1]
    simp
  have hxm : x.2.1 ∈ et.map (·.2.1) := List.mem_map_of_mem (f := (·.2.1)) (List.mem_of_getElem? h4)
  refine ⟨⟨MT.put (.opened a (es.set idx (x.1, g s.count x.1 x.2.2)) ks) p s.tree, s.count + 1⟩,
    ?_, ?_, ?_, ?_⟩
  · simp only [yldM, h5, hx']
  · simp [h1]
  · dsimp only
    refine hput (.opened d ?_ (hk.congr ?_)) ?_
    · have h6 := map_app_set (f := updF g 0 (slots h)) (f' := updF g 0 (slots (h ++ [x]))) h4
        hparts.elems hag
      rw [← h6, he]
      simp only [app, hnew]
    · intro c hc i hi
      refine hag i ?_
      rintro rfl
      exact hparts.cross _ hxm c hc hi
    · intro i _ hi
      refine hag i ?_
      rintro rfl
      exact hi (mem_labs.2 (Or.inl hxm))
  · dsimp only
    refine ⟨hw.core, fun e he i hi => open_put h5 ?_ (hw.opened e he i hi), ?_, hw.nodup⟩
    · rintro q ⟨a', es', ks', hq⟩
      cases q with
      | nil => exact ⟨_, _, _, rfl⟩
      | cons i q => exact ⟨a', es', ks', hq⟩
    · intro q hq
      have hsub : ∀ q, IsLink (MT.opened a es ks) q →
          q = [] ∨ IsLink (.opened a (es.set idx (x.1, g s.count x.1 x.2.2)) ks) q := by
        rintro q ⟨r, hr⟩
        cases q with
        | nil => exact Or.inl rfl
        | cons i q => exact Or.inr ⟨r, hr⟩
      rcases link_put h5 hsub (hw.links q hq) with rfl | h
      · exact absurd ⟨a, es, ks, h5⟩ (link_not_open (hw.links q hq))
      · exact h

end

/-- `iter_mut` on memory is `iter_mut` on values. -/
theorem iterMutRun_spec {root : Option (Node K V)} {r : Option Nat} {len D n : Nat}
    {g : Nat → K → V → V} {ds : List Bool} {ys : List (Option (K × (Nat × V)) × Nat)}
    (hD : ∀ nd, root = some nd → (vt nd).Dep D)
    (hn : ∀ nd, root = some nd → nodeCost nd.label ≤ n + 1)
    (h : (FMap.mk root len).label.iterRun ds = some ys) (hs : (slots (gives ys)).Nodup) :
    wp (iterMutRun D (n + 1) g ds r len) (own r (vtO root)) (fun x L =>
      x.2 = ys.map (fun p => (p.1.map (fun e => (e.1, e.2.2)), p.2)) ∧
      L = own x.1 (vtO (root.map (fun nd =>
        unl (updF g 0 (slots (gives ys))) nd.label)))) := by
  rcases run_some h with ⟨h0, rfl⟩ | ⟨nd', i, it, h0, hi, hr⟩
  · cases root with
    | some nd => simp at h0
    | none =>
      refine wp_root (r := r) (root := none) 0 (add_zero _).symm ?_ (by rintro a nd rfl h; cases h)
      rintro rfl -
      simp only [iterMutRun, run_nil]
      exact wp_pure ⟨by simp, rfl⟩
  · cases root with
    | none => simp at h0
    | some nd =>
      obtain rfl : nd.label = nd' := by simpa using h0
      refine wp_root (r := r) (root := some nd) 0 (add_zero _).symm (by intro _ h; cases h) ?_
      rintro a nd rfl h
      cases h
      rw [add_zero]
      simp only [iterMutRun]
      have hI : Is (updF g 0 []) (.link (some a)) nd.label (own (some a) (vt nd)) := by
        have := Is.link (f := updF g 0 []) (some a) nd.label
        rwa [unl_label_nil] at this
      have hnd := labs_label_nodup nd
      have hD' := label_dep (hD _ rfl)
      refine wp_bind (wp_conseq (mutMake_spec (s := ⟨.link (some a), 0⟩) hI hnd hD'
        (q := []) rfl ⟨_, rfl⟩ hi (MW.nil _ _) (by simp [pend])) ?_)
      rintro ⟨⟨m, cnt⟩, e⟩ L' ⟨h1, h2, h3⟩
      dsimp only at h1 h2 h3 ⊢
      subst h1
      have hc := (start_cost hi).2.2
      have hy : YldOk (yldM g) (fun x => (x.1, x.2.2)) (MR g nd.label) (MItem nd.label)
        (fun h => (slots h).Nodup) := yldM_ok hnd
      refine wp_bind (wp_conseq (run_ok ni_tame (mutOk (g := g) hnd hD') (@hy) ?_ (h := [])
        (jt := ⟨[i], len⟩) (by rw [hc]; exact hn _ rfl) rfl ⟨rfl, h2, h3⟩ hr hs) ?_)
      · intro a b hab
        rw [slots, List.map_append, List.nodup_append] at hab
        exact hab.1
      · rintro x L' ⟨h4, -, h5, -⟩
        rw [List.nil_append] at h5
        refine wp_bind (wp_conseq (close_spec' h5) ?_)
        rintro r _ rfl
        exact wp_pure ⟨h4, rfl⟩

end Verif.FixedH
