import Verif.BTreeHeap.MutTree
/-!
# Mutable B-tree iterators on reference-counted memory, against those on values
-/
namespace Verif.BTreeH
open Heap
open BTree (Node InnerIter NodeIterOps NIter nodeOps borrowedOps findRangeEdges Edges mkWork mkWorkAt)
open AvlH (updF updF_not_mem updF_new updF_other)

variable {K V : Type}

/-! ## The relation -/

/-- A mutable node iterator and one on values. -/
def MCore (root : Node K (Nat × V)) (e : MIter) (et : NIter (K × (Nat × V)) (Node K (Nat × V))) :
    Prop :=
  ∃ nd, subN root e.path = some nd ∧ e.ubE ≤ nd.elems.length ∧ e.ubK ≤ nd.kids.length ∧
    et = ⟨sl e.lbE e.ubE nd.elems, sl e.lbK e.ubK nd.kids, e.lf, e.rt⟩

/-- The children not yet visited. -/
def pendOf (e : MIter) : List (List Nat) :=
  (List.range' e.lbK (e.ubK - e.lbK)).map (fun i => e.path ++ [i])

/-- All of them. -/
def pend (w : List MIter) : List (List Nat) := w.flatMap pendOf

theorem mem_pendOf {e : MIter} {q : List Nat} :
    q ∈ pendOf e ↔ ∃ i, e.lbK ≤ i ∧ i < e.ubK ∧ q = e.path ++ [i] := by
  simp only [pendOf, List.mem_map, List.mem_range'_1]
  constructor
  · rintro ⟨i, ⟨h1, h2⟩, rfl⟩
    exact ⟨i, h1, by omega, rfl⟩
  · rintro ⟨i, h1, h2, rfl⟩
    exact ⟨i, ⟨h1, by omega⟩, rfl⟩

theorem pendOf_nodup (e : MIter) : (pendOf e).Nodup := by
  refine List.Nodup.map ?_ (List.nodup_range' (step := 1))
  intro i j h
  simpa using h

/-- The deque, and the tree it refers to. -/
structure MW (root : Node K (Nat × V)) (m : MT K V) (w : List MIter)
    (wt : List (NIter (K × (Nat × V)) (Node K (Nat × V)))) : Prop where
  core : List.Forall₂ (MCore root) w wt
  opened : ∀ e ∈ w, IsOpen m e.path
  links : ∀ q ∈ pend w, IsLink m q
  nodup : (pend w).Nodup

/-- The slots of entries. -/
abbrev slots (h : List (K × (Nat × V))) : List Nat := h.map (·.2.1)

/-- The relation for mutable iterators. -/
def MR (g : Nat → K → V → V) (root : Node K (Nat × V)) :
    Rel (ND K V) (MS K V) MIter (NIter (K × (Nat × V)) (Node K (Nat × V))) (K × (Nat × V)) :=
  fun h s w wt L => s.count = h.length ∧ Is (updF g 0 (slots h)) s.tree root L ∧
    MW root s.tree w wt

/-- A reference to an element. -/
def MItem (root : Node K (Nat × V)) (s : MS K V) (i : List Nat × Nat) (x : K × (Nat × V)) : Prop :=
  ∃ nd, subN root i.1 = some nd ∧ nd.elems[i.2]? = some x ∧ IsOpen s.tree i.1

theorem MW.reverse {root : Node K (Nat × V)} {m : MT K V} {w : List MIter}
    {wt : List (NIter (K × (Nat × V)) (Node K (Nat × V)))} (h : MW root m w wt) :
    MW root m w.reverse wt.reverse := by
  have hp : (pend w.reverse).Perm (pend w) := List.Perm.flatMap_right _ (List.reverse_perm w)
  exact ⟨List.rel_reverse h.core, fun e he => h.opened e (by simpa using he),
    fun q hq => h.links q (hp.mem_iff.1 hq), hp.nodup_iff.2 h.nodup⟩

theorem MW.keep {root : Node K (Nat × V)} {D : Nat} {m : MT K V} {e : MIter} {w : List MIter}
    {et : NIter (K × (Nat × V)) (Node K (Nat × V))}
    {wt : List (NIter (K × (Nat × V)) (Node K (Nat × V)))} (h : MW root m (e :: w) (et :: wt)) :
    MW root m (if (mutOps (K := K) (V := V) D).isEmpty e then w else e :: w)
      (nodeOps.keep et wt) := by
  have h1 : (mutOps (K := K) (V := V) D).isEmpty e = nodeOps.isEmpty et := by
    cases h.core with
    | cons hc _ =>
      obtain ⟨nd, -, h1, h2, rfl⟩ := hc
      show _ = ((sl e.lbE e.ubE nd.elems).isEmpty && (sl e.lbK e.ubK nd.kids).isEmpty)
      rw [sl_isEmpty h1, sl_isEmpty h2]
      rfl
  rw [NodeIterOps.keep, ← h1]
  split
  · have hn := h.nodup
    simp only [pend, List.flatMap_cons, List.nodup_append] at hn
    refine ⟨?_, fun e he => h.opened e (by simp [he]), fun q hq => h.links q ?_, hn.2.1⟩
    · cases h.core with | cons _ h => exact h
    · simp only [pend, List.flatMap_cons, List.mem_append]
      exact Or.inr hq
  · exact h

/-- Opening the node at a link. -/
theorem open_kinds {m x : MT K V} {p : List Nat} {r : Option Nat} (hp : m.at p = some (.link r)) :
    (∀ q, IsOpen m q → IsOpen (MT.put x p m) q) ∧
    (∀ q, IsLink m q → q = p ∨ IsLink (MT.put x p m) q) := by
  refine ⟨fun q => open_put hp ?_, fun q => link_put hp ?_⟩
  · rintro q ⟨a, es, ks, h⟩
    cases q with
    | nil => simp [MT.at] at h
    | cons i q => simp [MT.at] at h
  · rintro q ⟨r, h⟩
    cases q with
    | nil => exact Or.inl rfl
    | cons i q => simp [MT.at] at h

theorem opened_kid {m y : MT K V} {a : Nat} {es : List (K × V)} {ks : List (Option Nat)}
    {p : List Nat} {i : Nat} (hp : m.at p = some y) (hi : i < ks.length) :
    IsLink (MT.put (.opened a es (ks.map MT.link)) p m) (p ++ [i]) := by
  refine ⟨ks[i], ?_⟩
  rw [at_put_self hp]
  simp [MT.at, hi]

theorem opened_self {m y : MT K V} {a : Nat} {es : List (K × V)} {ks : List (MT K V)}
    {p : List Nat} (hp : m.at p = some y) : IsOpen (MT.put (.opened a es ks) p m) p := by
  refine ⟨a, es, ks, ?_⟩
  have := at_put_self (x := .opened a es ks) (q := []) hp
  rw [List.append_nil] at this
  rw [this]
  rfl

/-! ## Either direction -/

/-- What the functions of one direction must do. -/
structure MDir (D : Nat) (root : Node K (Nat × V))
    (o : HOps (ND K V) (MS K V) MIter (List Nat × Nat) (List Nat))
    (v : NodeIterOps (NIter (K × (Nat × V)) (Node K (Nat × V))) (K × (Nat × V))
      (Node K (Nat × V))) : Prop where
  empty : o.isEmpty = (mutOps (K := K) (V := V) D).isEmpty
  done : ∀ e, o.done e = .pure ()
  make : o.make = (mutOps D).make
  vkeep : v.keep = nodeOps.keep
  vmake : v.make = nodeOps.make
  vfuel : v.fuel = nodeOps.fuel
  needs : ∀ {e et}, MCore root e et → o.needsLf e = v.needsLf et
  stop : ∀ {e et et'}, MCore root e et → v.nextKid et = some (et', none) →
    ∃ e', o.nextKid e = .pure (e', none) ∧ MCore root e' et' ∧ e'.path = e.path ∧
      pendOf e' = pendOf e
  kid : ∀ {e et et' c}, MCore root e et → v.nextKid et = some (et', some c) →
    ∃ e' q, o.nextKid e = .pure (e', some q) ∧ MCore root e' et' ∧ e'.path = e.path ∧
      subN root q = some c ∧ (∃ nd, subN root e.path = some nd ∧ c ∈ nd.kids) ∧
      (q :: pendOf e').Perm (pendOf e)
  elem : ∀ {e et et' x}, MCore root e et → v.nextElem et = some (et', some x) →
    ∃ e' i nd, o.nextElem e = .pure (e', some (e.path, i)) ∧ MCore root e' et' ∧
      e'.path = e.path ∧ subN root e.path = some nd ∧ nd.elems[i]? = some x ∧ pendOf e' = pendOf e

theorem mutMake_spec {g : Nat → K → V → V} {D : Nat} {root : Node K (Nat × V)} {s : MS K V}
    {L : Multiset (Handle (ND K V))} {q : List Nat} {c : Node K (Nat × V)}
    {f : Nat → K → V → V} (hI : Is f s.tree root L) (hnd : (labs root).Nodup)
    (hd : (vt root).Dep D) (hq : subN root q = some c) (hl : IsLink s.tree q)
    {w wt} (hw : MW root s.tree w wt) (hn : q ∉ pend w) :
    wp ((mutOps D).make s q) L (fun x L' => x.1.count = s.count ∧ Is f x.1.tree root L' ∧
      MW root x.1.tree (x.2 :: w) (nodeOps.make c :: wt)) := by
  obtain ⟨r, hr⟩ := hl
  show wp ((openAt D s.tree q).bind _) _ _
  refine wp_bind (wp_conseq (openAt_spec hI hnd hd hr) ?_)
  rintro ⟨m', n'⟩ L' ⟨c', a, ks, h1, h2, h3, h4, h5⟩
  dsimp only at h3 h4 h5 ⊢
  subst h3 h4
  rw [hq] at h1
  cases h1
  obtain ⟨k1, k2⟩ := open_kinds (x := .opened a (c.elems.map (app f)) (ks.map MT.link)) hr
  have hk : ks.isEmpty = c.kids.isEmpty := by
    rw [Bool.eq_iff_iff, List.isEmpty_iff_length_eq_zero, List.isEmpty_iff_length_eq_zero, h2]
  refine wp_pure ⟨rfl, h5, ⟨.cons ⟨c, hq, ?_, ?_, ?_⟩ hw.core, ?_, ?_, ?_⟩⟩
  · simp
  · exact h2.ge
  · show (⟨c.elems, c.kids, !c.kids.isEmpty, !c.kids.isEmpty⟩ : NIter _ _) = _
    simp only [sl, List.length_map, List.take_length, List.drop_zero, ← h2, hk]
  · intro e he
    rcases List.mem_cons.1 he with rfl | he
    · exact opened_self hr
    · exact k1 _ (hw.opened e he)
  · intro p hp
    rw [pend, List.flatMap_cons, List.mem_append] at hp
    rcases hp with hp | hp
    · obtain ⟨i, -, h6, rfl⟩ := mem_pendOf.1 hp
      exact opened_kid hr h6
    · rcases k2 p (hw.links p hp) with rfl | h
      · exact absurd hp hn
      · exact h
  · rw [pend, List.flatMap_cons, List.nodup_append]
    refine ⟨pendOf_nodup _, hw.nodup, ?_⟩
    rintro p hp p' hp' rfl
    obtain ⟨i, -, h6, rfl⟩ := mem_pendOf.1 hp
    obtain ⟨r', h7⟩ := hw.links _ hp'
    rw [below_link hr (by simp)] at h7
    cases h7

theorem MDir.ok {g : Nat → K → V → V} {D : Nat} {root : Node K (Nat × V)}
    {o : HOps (ND K V) (MS K V) MIter (List Nat × Nat) (List Nat)}
    {v : NodeIterOps (NIter (K × (Nat × V)) (Node K (Nat × V))) (K × (Nat × V))
      (Node K (Nat × V))} (hd : MDir D root o v) (hnd : (labs root).Nodup)
    {n : Nat} (hdep : (vt root).Dep (n + 1)) (hD : (vt root).Dep D) :
    OpsOk (n + 1) o v (MR g root) (MItem root) where
  len h := h.2.2.core.length_eq
  fuel := by
    rintro h s w wt L et ⟨-, -, hw⟩ he
    rw [hd.vfuel]
    obtain ⟨e, nd, h1, h2, h3, rfl⟩ := f2_mem hw.core he
    refine fuel_le ?_
    intro c hc
    have hc : c ∈ nd.kids := List.mem_of_mem_take (List.mem_of_mem_drop hc)
    exact dep_kids (subN_dep hdep h1) c hc
  needs := by
    rintro h s e w et wt L ⟨-, -, hw⟩
    cases hw.core with
    | cons h _ => exact hd.needs h
  stop := by
    rintro h s e w et et' wt L ⟨h1, h2, hw⟩ hk
    cases hw.core with
    | cons hc hcs =>
    obtain ⟨e', h3, h4, h5, h6⟩ := hd.stop hc hk
    simp only [HOps.kidStep, h3, Prog.bind]
    refine wp_pure ⟨s, e', rfl, h1, h2, ⟨.cons h4 hcs, ?_, ?_, ?_⟩⟩
    · intro e1 he1
      rcases List.mem_cons.1 he1 with rfl | he1
      · rw [h5]; exact hw.opened e (by simp)
      · exact hw.opened e1 (by simp [he1])
    · have := hw.links
      simpa only [pend, List.flatMap_cons, h6] using this
    · have := hw.nodup
      simpa only [pend, List.flatMap_cons, h6] using this
  kid := by
    rintro h s e w et et' c wt L ⟨h1, h2, hw⟩ hk
    cases hw.core with
    | cons hc hcs =>
    obtain ⟨e', q, h3, h4, h5, h6, -, h7⟩ := hd.kid hc hk
    have hp : (q :: pend (e' :: w)).Perm (pend (e :: w)) := by
      simp only [pend, List.flatMap_cons]
      exact List.Perm.append_right _ h7
    have hn := hp.nodup_iff.2 hw.nodup
    rw [List.nodup_cons] at hn
    have hw' : MW root s.tree (e' :: w) (et' :: wt) := by
      refine ⟨.cons h4 hcs, ?_, fun p hpp => hw.links p (hp.mem_iff.1 (by simp [hpp])), hn.2⟩
      intro e1 he1
      rcases List.mem_cons.1 he1 with rfl | he1
      · rw [h5]; exact hw.opened e (by simp)
      · exact hw.opened e1 (by simp [he1])
    have hk' := hw'.keep (D := D)
    have hq : q ∉ pend (if (mutOps (K := K) (V := V) D).isEmpty e' then w else e' :: w) := by
      split
      · intro hh; exact hn.1 (by simp only [pend, List.flatMap_cons, List.mem_append]; exact Or.inr hh)
      · exact hn.1
    unfold HOps.kidStep
    rw [h3]
    simp only [Prog.bind, keep_pure o hd.done]
    rw [hd.empty, hd.make, hd.vkeep, hd.vmake]
    refine wp_bind (wp_conseq (mutMake_spec (g := g) h2 hnd hD h6
      (hw.links q (hp.mem_iff.1 (by simp))) hk' hq) ?_)
    rintro x L' ⟨h8, h9, h10⟩
    exact wp_pure ⟨rfl, h8.trans h1, h9, h10⟩
  elem := by
    rintro h s e w et et' x wt L len ⟨h1, h2, hw⟩ hk hl
    cases hw.core with
    | cons hc hcs =>
    obtain ⟨e', i, nd, h3, h4, h5, h6, h7, h8⟩ := hd.elem hc hk
    have hw' : MW root s.tree (e' :: w) (et' :: wt) := by
      refine ⟨.cons h4 hcs, ?_, ?_, ?_⟩
      · intro e1 he1
        rcases List.mem_cons.1 he1 with rfl | he1
        · rw [h5]; exact hw.opened e (by simp)
        · exact hw.opened e1 (by simp [he1])
      · have := hw.links
        simpa only [pend, List.flatMap_cons, h8] using this
      · have := hw.nodup
        simpa only [pend, List.flatMap_cons, h8] using this
    unfold HOps.yieldElem
    rw [h3]
    simp only [Prog.bind, keep_pure o hd.done, if_neg hl]
    rw [hd.empty, hd.vkeep]
    exact wp_pure ⟨rfl, ⟨_, rfl, nd, h6, h7, hw.opened e (by simp)⟩, h1, h2, hw'.keep⟩

theorem mutFront {D : Nat} {root : Node K (Nat × V)} : MDir D root (mutOps D) nodeOps where
  empty := rfl
  done _ := rfl
  make := rfl
  vkeep := rfl
  vmake := rfl
  vfuel := rfl
  needs := by rintro e et ⟨nd, -, -, -, rfl⟩; rfl
  stop := by
    rintro e et et' ⟨nd, h1, h2, h3, rfl⟩ hk
    simp only [nodeOps, borrowedOps] at hk
    split at hk
    · simp only [Option.some.injEq, Prod.mk.injEq, List.head?_eq_none_iff] at hk
      obtain ⟨rfl, h0⟩ := hk
      have h4 : e.ubK ≤ e.lbK := by
        have := sl_isEmpty (lb := e.lbK) h3
        rw [h0] at this
        simpa using this.symm
      refine ⟨{ e with lf := false }, ?_, ⟨nd, h1, h2, h3, ?_⟩, rfl, rfl⟩
      · simp only [mutOps]
        rw [if_pos (by simp [h4]), if_neg (by omega)]
      · simp only [h0]; rfl
    · simp at hk
  kid := by
    rintro e et et' c ⟨nd, h1, h2, h3, rfl⟩ hk
    simp only [nodeOps, borrowedOps] at hk
    split at hk
    · rename_i hc
      simp only [Option.some.injEq, Prod.mk.injEq] at hk
      obtain ⟨rfl, h0⟩ := hk
      have h4 : e.lbK < e.ubK := by
        by_contra h
        rw [sl_empty (by omega)] at h0
        simp at h0
      rw [sl_isEmpty h3] at hc
      rw [sl_head h4] at h0
      refine ⟨{ e with lbK := e.lbK + 1, lf := false }, e.path ++ [e.lbK], ?_,
        ⟨nd, h1, h2, h3, ?_⟩, rfl, subN_kid h1 h0, ⟨nd, h1, List.mem_of_getElem? h0⟩, ?_⟩
      · simp only [mutOps]
        rw [if_pos (by rw [Bool.or_comm]; exact hc), if_pos h4]
      · simp only [sl_tail]
      · have e1 : e.ubK - e.lbK = (e.ubK - (e.lbK + 1)) + 1 := by omega
        simp only [pendOf]
        rw [e1, List.range'_succ]
        exact List.Perm.refl _
    · simp at hk
  elem := by
    rintro e et et' x ⟨nd, h1, h2, h3, rfl⟩ hk
    simp only [nodeOps, borrowedOps] at hk
    split at hk
    · simp at hk
    · rename_i hc
      simp only [Option.some.injEq, Prod.mk.injEq] at hk
      obtain ⟨rfl, h0⟩ := hk
      have h4 : e.lbE < e.ubE := by
        by_contra h
        rw [sl_empty (by omega)] at h0
        simp at h0
      rw [sl_head h4] at h0
      refine ⟨{ e with lbE := e.lbE + 1, lf := decide (e.lbK < e.ubK) }, e.lbE, nd, ?_,
        ⟨nd, h1, h2, h3, ?_⟩, rfl, h1, h0, rfl⟩
      · simp only [mutOps]
        rw [if_neg hc, if_pos h4]
      · simp only [sl_tail, sl_isEmpty h3, ← decide_not, Nat.not_le]

theorem mutBack {D : Nat} {root : Node K (Nat × V)} :
    MDir D root (mutOps D).mirror nodeOps.mirror where
  empty := rfl
  done _ := rfl
  make := rfl
  vkeep := rfl
  vmake := rfl
  vfuel := rfl
  needs := by rintro e et ⟨nd, -, -, -, rfl⟩; rfl
  stop := by
    rintro e et et' ⟨nd, h1, h2, h3, rfl⟩ hk
    simp only [NodeIterOps.mirror, nodeOps, borrowedOps] at hk
    split at hk
    · simp only [Option.some.injEq, Prod.mk.injEq, List.getLast?_eq_none_iff] at hk
      obtain ⟨rfl, h0⟩ := hk
      have h4 : e.ubK ≤ e.lbK := by
        have := sl_isEmpty (lb := e.lbK) h3
        rw [h0] at this
        simpa using this.symm
      refine ⟨{ e with rt := false }, ?_, ⟨nd, h1, h2, h3, ?_⟩, rfl, rfl⟩
      · simp only [HOps.mirror, mutOps]
        rw [if_pos (by simp [h4]), if_neg (by omega)]
      · simp only [h0]; rfl
    · simp at hk
  kid := by
    rintro e et et' c ⟨nd, h1, h2, h3, rfl⟩ hk
    simp only [NodeIterOps.mirror, nodeOps, borrowedOps] at hk
    split at hk
    · rename_i hc
      simp only [Option.some.injEq, Prod.mk.injEq] at hk
      obtain ⟨rfl, h0⟩ := hk
      have h4 : e.lbK < e.ubK := by
        by_contra h
        rw [sl_empty (by omega)] at h0
        simp at h0
      rw [sl_isEmpty h3] at hc
      rw [sl_last h4 h3] at h0
      refine ⟨{ e with ubK := e.ubK - 1, rt := false }, e.path ++ [e.ubK - 1], ?_,
        ⟨nd, h1, h2, by simp only; omega, ?_⟩, rfl, subN_kid h1 h0,
        ⟨nd, h1, List.mem_of_getElem? h0⟩, ?_⟩
      · simp only [HOps.mirror, mutOps]
        rw [if_pos (by rw [Bool.or_comm]; exact hc), if_pos h4]
      · simp only [sl_dropLast h4 h3]
      · have e1 : e.ubK - e.lbK = (e.ubK - 1 - e.lbK) + 1 := by omega
        simp only [pendOf]
        rw [e1, List.range'_concat, List.map_append]
        have e2 : e.lbK + 1 * (e.ubK - 1 - e.lbK) = e.ubK - 1 := by omega
        rw [e2]
        exact (List.perm_append_comm (l₂ := [e.path ++ [e.ubK - 1]])).symm
    · simp at hk
  elem := by
    rintro e et et' x ⟨nd, h1, h2, h3, rfl⟩ hk
    simp only [NodeIterOps.mirror, nodeOps, borrowedOps] at hk
    split at hk
    · simp at hk
    · rename_i hc
      simp only [Option.some.injEq, Prod.mk.injEq] at hk
      obtain ⟨rfl, h0⟩ := hk
      have h4 : e.lbE < e.ubE := by
        by_contra h
        rw [sl_empty (by omega)] at h0
        simp at h0
      rw [sl_last h4 h2] at h0
      refine ⟨{ e with ubE := e.ubE - 1, rt := decide (e.lbK < e.ubK) }, e.ubE - 1, nd, ?_,
        ⟨nd, h1, by simp only; omega, h3, ?_⟩, rfl, h1, h0, rfl⟩
      · simp only [HOps.mirror, mutOps]
        rw [if_neg hc, if_pos h4]
      · simp only [sl_dropLast h4 h2, sl_isEmpty h3, ← decide_not, Nat.not_le]

theorem mutOk {g : Nat → K → V → V} {D : Nat} {root : Node K (Nat × V)} (hnd : (labs root).Nodup)
    {n : Nat} (hdep : (vt root).Dep (n + 1)) (hD : (vt root).Dep D) :
    BothOk (n + 1) (mutOps D) nodeOps (MR g root) (MItem root) where
  front := mutFront.ok hnd hdep hD
  back := mutBack.ok hnd hdep hD
  rev := fun h => ⟨h.1, h.2.1, h.2.2.reverse⟩

/-! ## Writing -/

theorem map_app_set {f f' : Nat → K → V → V} {et : List (K × (Nat × V))} {idx : Nat}
    {x : K × (Nat × V)} (hx : et[idx]? = some x) (hn : (slots et).Nodup)
    (hag : ∀ i, i ≠ x.2.1 → ∀ k v, f i k v = f' i k v) :
    (et.map (app f)).set idx (app f' x) = et.map (app f') := by
  obtain ⟨hi, rfl⟩ := List.getElem?_eq_some_iff.1 hx
  apply List.ext_getElem
  · simp
  · intro j h1 h2
    simp only [List.length_map] at h2
    rw [List.getElem_set]
    split
    · rename_i h; subst h; simp
    · rename_i h
      simp only [List.getElem_map, app]
      rw [hag]
      intro he
      have h3 : (slots et)[j]'(by simpa using h2) = (slots et)[idx]'(by simpa using hi) := by
        simpa [slots] using he
      exact h ((List.Nodup.getElem_inj_iff hn).1 h3).symm

theorem yldM_ok {g : Nat → K → V → V} {root : Node K (Nat × V)} (hnd : (labs root).Nodup) :
    YldOk (yldM g) (fun x => (x.1, x.2.2)) (MR g root) (MItem root) (fun h => (slots h).Nodup) := by
  rintro h s w wt L ⟨p, idx⟩ x ⟨h1, h2, hw⟩ ⟨nd, h3, h4, a, es, ks, h5⟩ hC
  dsimp only at h3 h4 h5
  obtain ⟨c, L1, L2, hc, hI, rfl, hput⟩ := h2.at hnd h5
  rw [h3] at hc
  cases hc
  have hndc := subN_nodup hnd h3
  cases hI with
  | @opened _ _ et _ kt L3 d he hk =>
  have hparts := nd_parts hndc
  simp only [BTree.Node.elems] at h4
  rw [slots, List.map_append, List.nodup_append] at hC
  have hx : x.2.1 ∉ slots h := fun hm => hC.2.2 _ hm _ (by simp) rfl
  have hx' : es[idx]? = some (x.1, x.2.2) := by
    rw [he, List.getElem?_map, h4]
    simp only [Option.map_some, app, updF_not_mem hx]
  have hag : ∀ i, i ≠ x.2.1 → ∀ k v, updF g 0 (slots h) i k v =
      updF g 0 (slots (h ++ [x])) i k v := by
    intro i hi k v
    simp only [slots, List.map_append, List.map_cons, List.map_nil]
    rw [updF_other hi]
  have hnew : ∀ k v, updF g 0 (slots (h ++ [x])) x.2.1 k v = g s.count k v := by
    intro k v
    simp only [slots, List.map_append, List.map_cons, List.map_nil]
    rw [updF_new hx, h1]
    simp
  have hxm : x.2.1 ∈ et.map (·.2.1) := List.mem_map_of_mem (f := (·.2.1)) (List.mem_of_getElem? h4)
  refine ⟨⟨MT.put (.opened a (es.set idx (x.1, g s.count x.1 x.2.2)) ks) p s.tree, s.count + 1⟩,
    ?_, ?_, ?_, ?_⟩
  · simp only [yldM, h5, hx']
  · simp [h1]
  · dsimp only
    refine hput (.opened d ?_ (hk.congr ?_)) ?_
    · have h6 := map_app_set (f := updF g 0 (slots h)) (f' := updF g 0 (slots (h ++ [x]))) h4
        hparts.elems hag
      rw [← h6, he]
      simp only [app, hnew]
    · intro c hc i hi
      refine hag i ?_
      rintro rfl
      exact hparts.cross _ hxm c hc hi
    · intro i _ hi
      refine hag i ?_
      rintro rfl
      exact hi (mem_labs.2 (Or.inl hxm))
  · dsimp only
    refine ⟨hw.core, fun e he => open_put h5 ?_ (hw.opened e he), ?_, hw.nodup⟩
    · rintro q ⟨a', es', ks', hq⟩
      cases q with
      | nil => exact ⟨_, _, _, rfl⟩
      | cons i q => exact ⟨a', es', ks', hq⟩
    · intro q hq
      have hsub : ∀ q, IsLink (MT.opened a es ks) q →
          q = [] ∨ IsLink (.opened a (es.set idx (x.1, g s.count x.1 x.2.2)) ks) q := by
        rintro q ⟨r, hr⟩
        cases q with
        | nil => exact Or.inl rfl
        | cons i q => exact Or.inr ⟨r, hr⟩
      rcases link_put h5 hsub (hw.links q hq) with rfl | h
      · exact absurd ⟨a, es, ks, h5⟩ (link_not_open (hw.links q hq))
      · exact h

/-- A run of a mutable iterator, given the worklist. -/
theorem mutRun_spec {g : Nat → K → V → V} {D n : Nat} {root : Node K (Nat × V)}
    (hnd : (labs root).Nodup) (hdep : (vt root).Dep (n + 1)) (hD : (vt root).Dep D)
    {m : MT K V} {w wt} {len : Nat} {L : Multiset (Handle (ND K V))} {ds : List Bool}
    {ys : List (Option (K × (Nat × V)) × Nat)}
    (hI : Is (updF g 0 []) m root L) (hw : MW root m w wt)
    (hr : nodeOps.run ds ⟨wt, len⟩ = some ys) (hs : (slots (gives ys)).Nodup) :
    wp ((mutOps D).run (yldM g) (n + 1) ds ⟨m, 0⟩ ⟨w, len⟩) L
      (fun x L' => x.2.1 = ys.map (fun p => (p.1.map (fun e => (e.1, e.2.2)), p.2)) ∧
        Is (updF g 0 (slots (gives ys))) x.1.tree root L') := by
  have hy : YldOk (yldM g) (fun x => (x.1, x.2.2)) (MR g root) (MItem root)
    (fun h => (slots h).Nodup) := yldM_ok hnd
  refine wp_conseq (run_ok (mutOk hnd hdep hD) (@hy) ?_ (h := [])
    (jt := ⟨wt, len⟩) rfl ⟨rfl, hI, hw⟩ hr hs) ?_
  · intro a b hab
    rw [slots, List.map_append, List.nodup_append] at hab
    exact hab.1
  · rintro x L' ⟨h1, wt', -, h2, -⟩
    rw [List.nil_append] at h2
    exact ⟨h1, h2⟩

theorem MW.nil (root : Node K (Nat × V)) (m : MT K V) : MW root m [] [] :=
  ⟨.nil, by simp, by simp [pend], by simp [pend]⟩

mutual
/-- Filling a labelled node is rewriting its entries by slot. -/
theorem unl_label (f : Nat → K → V → V) : ∀ (nd : Node K V) (n : Nat),
    unl f (nd.mapIdx (fun i e => (e.1, (i, e.2))) n) =
      nd.mapIdx (fun i e => (e.1, f i e.1 e.2)) n
  | .mk es ks, n => by
    rw [BTree.Node.mapIdx, BTree.Node.mapIdx, unl_mk, (unl_labels f ks es n).1,
      (unl_labels f ks es n).2]
/-- The parts. -/
theorem unl_labels (f : Nat → K → V → V) : ∀ (ks : List (Node K V)) (es : List (K × V)) (n : Nat),
    (BTree.Node.mapIdxE (fun i e => (e.1, (i, e.2))) n ks es).map (app f) =
      BTree.Node.mapIdxE (fun i e => (e.1, f i e.1 e.2)) n ks es ∧
    unls f (BTree.Node.mapIdxK (fun i e => (e.1, (i, e.2))) n ks es) =
      BTree.Node.mapIdxK (fun i e => (e.1, f i e.1 e.2)) n ks es
  | [], es, n => by
    refine ⟨?_, ?_⟩
    · simp only [BTree.Node.mapIdxE, List.map_map]
      rfl
    · simp only [BTree.Node.mapIdxK, unls]
  | c :: ks, [], n => by
    refine ⟨?_, ?_⟩
    · simp only [BTree.Node.mapIdxE, List.map_nil]
    · simp only [BTree.Node.mapIdxK, unls]
      rw [unl_label f c n, (unl_labels f ks [] _).2]
  | c :: ks, e :: es, n => by
    refine ⟨?_, ?_⟩
    · simp only [BTree.Node.mapIdxE, List.map_cons]
      rw [(unl_labels f ks es _).1]
    · simp only [BTree.Node.mapIdxK, unls]
      rw [unl_label f c n, (unl_labels f ks es _).2]
end

mutual
theorem mapIdx_same : ∀ (nd : Node K V) (n : Nat), nd.mapIdx (fun _ e => e) n = nd
  | .mk es ks, n => by
    rw [BTree.Node.mapIdx, (mapIdx_sames ks es n).1, (mapIdx_sames ks es n).2]
theorem mapIdx_sames : ∀ (ks : List (Node K V)) (es : List (K × V)) (n : Nat),
    BTree.Node.mapIdxE (fun _ e => e) n ks es = es ∧
    BTree.Node.mapIdxK (fun _ e => e) n ks es = ks
  | [], es, n => by
    simp only [BTree.Node.mapIdxE, BTree.Node.mapIdxK, and_true]
    exact List.zipIdx_map_fst _ _
  | c :: ks, [], n => by
    simp only [BTree.Node.mapIdxE, BTree.Node.mapIdxK, true_and]
    rw [mapIdx_same c n, (mapIdx_sames ks [] _).2]
  | c :: ks, e :: es, n => by
    simp only [BTree.Node.mapIdxE, BTree.Node.mapIdxK]
    rw [mapIdx_same c n, (mapIdx_sames ks es _).1, (mapIdx_sames ks es _).2]
    exact ⟨rfl, rfl⟩
end

theorem unl_label_nil {g : Nat → K → V → V} (nd : Node K V) :
    unl (updF g 0 []) nd.label = nd := by
  rw [BTree.Node.label, unl_label]
  exact mapIdx_same nd 0

theorem labs_label_nodup (nd : Node K V) : (labs nd.label).Nodup := by
  rw [labs, BTree.Node.label, BTree.Node.mapIdx_toList, List.map_map]
  have : ((fun x : K × (Nat × V) => x.2.1) ∘ fun (x : (K × V) × Nat) => (x.1.1, (x.2, x.1.2))) =
      Prod.snd := rfl
  rw [this, List.zipIdx_map_snd]
  exact List.nodup_range'

/-- The opposite of `unl_dep`. -/
theorem unl_dep' (f : Nat → K → V → V) : ∀ {n : Nat} {nd : Node K (Nat × V)},
    (vt (unl f nd)).Dep n → (vt nd).Dep n
  | 0, nd, h => by obtain ⟨_, h⟩ := dep_pos h; cases h
  | n + 1, .mk es ks, h => by
    rw [unl_mk, dep_mk] at h
    rw [dep_mk]
    intro c hc
    refine unl_dep' f (h (unl f c) ?_)
    rw [unls_map]
    exact List.mem_map_of_mem hc

theorem label_dep {n : Nat} {nd : Node K V} (h : (vt nd).Dep n) : (vt nd.label).Dep n := by
  refine unl_dep' (updF (fun _ _ v => v) 0 []) ?_
  rw [unl_label_nil]
  exact h

/-- `iter_mut` on memory is `iter_mut` on values. -/
theorem iterMutRun_spec {root : Option (Node K V)} {r : Option Nat} {len D n : Nat}
    {g : Nat → K → V → V} {ds : List Bool} {ys : List (Option (K × (Nat × V)) × Nat)}
    (hd : ∀ nd, root = some nd → (vt nd).Dep n) (hD : ∀ nd, root = some nd → (vt nd).Dep D)
    (h : nodeOps.run ds (BTree.iterOf len (root.map Node.label)) = some ys)
    (hs : (slots (gives ys)).Nodup) :
    wp (iterMutRun D n g ds r len) (own r (vtO root)) (fun x L =>
      x.2 = ys.map (fun p => (p.1.map (fun e => (e.1, e.2.2)), p.2)) ∧
      L = own x.1 (vtO (root.map (fun nd =>
        unl (updF g 0 (slots (gives ys))) nd.label)))) := by
  refine wp_root (r := r) (root := root) 0 (add_zero _).symm ?_ ?_
  · rintro rfl rfl
    have h : nodeOps.run ds ⟨[], 0⟩ = some ys := h
    rw [vrun_nil] at h
    cases h
    simp only [iterMutRun, run_nil]
    exact wp_pure ⟨by simp, rfl⟩
  · rintro a nd rfl rfl
    obtain ⟨n, rfl⟩ := dep_pos (hd _ rfl)
    rw [add_zero]
    simp only [iterMutRun]
    have hI : Is (updF g 0 []) (.link (some a)) nd.label (own (some a) (vt nd)) := by
      have := Is.link (f := updF g 0 []) (some a) nd.label
      rwa [unl_label_nil] at this
    have hnd := labs_label_nodup nd
    have hD' := label_dep (hD _ rfl)
    refine wp_bind (wp_conseq (mutMake_spec (g := g) (s := ⟨.link (some a), 0⟩) hI hnd hD'
      (q := []) rfl ⟨_, rfl⟩ (MW.nil _ _) (by simp [pend])) ?_)
    rintro ⟨⟨m, cnt⟩, e⟩ L' ⟨h1, h2, h3⟩
    dsimp only at h1 h2 h3 ⊢
    subst h1
    refine wp_bind (wp_conseq (mutRun_spec hnd (label_dep (hd _ rfl)) hD' h2 h3 h hs) ?_)
    rintro x L' ⟨h4, h5⟩
    refine wp_bind (wp_conseq (close_spec' h5) ?_)
    rintro r _ rfl
    exact wp_pure ⟨h4, rfl⟩

end Verif.BTreeH
