import Verif.BTreeHeap.RangeSpec
import Verif.AvlHeap.MutSpec
import Verif.BTree.Mut
/-!
# The tree as a mutable B-tree iterator leaves it while running
-/
namespace Verif.BTreeH
open Heap
open BTree (Node)
open AvlH (updF)

variable {K V : Type}

/-! ## Slots -/

/-- An entry of slots with the contents `f` of the slots. -/
abbrev app (f : Nat → K → V → V) (e : K × (Nat × V)) : K × V := (e.1, f e.2.1 e.1 e.2.2)

mutual
/-- A node of slots with the contents `f` of the slots. -/
def unl (f : Nat → K → V → V) : Node K (Nat × V) → Node K V
  | .mk es ks => .mk (es.map (app f)) (unls f ks)
/-- The children. -/
def unls (f : Nat → K → V → V) : List (Node K (Nat × V)) → List (Node K V)
  | [] => []
  | c :: cs => unl f c :: unls f cs
end

theorem unls_map (f : Nat → K → V → V) : ∀ ks : List (Node K (Nat × V)), unls f ks = ks.map (unl f)
  | [] => by simp [unls]
  | c :: cs => by simp [unls, unls_map f cs]

theorem unl_mk (f : Nat → K → V → V) (es : List (K × (Nat × V))) (ks : List (Node K (Nat × V))) :
    unl f (.mk es ks) = .mk (es.map (app f)) (unls f ks) := by simp [unl]

@[simp] theorem unl_elems (f : Nat → K → V → V) (nd : Node K (Nat × V)) :
    (unl f nd).elems = nd.elems.map (app f) := by
  obtain ⟨es, ks⟩ := nd; rw [unl_mk]; rfl

@[simp] theorem unl_kids (f : Nat → K → V → V) (nd : Node K (Nat × V)) :
    (unl f nd).kids = unls f nd.kids := by
  obtain ⟨es, ks⟩ := nd; rw [unl_mk]; rfl

theorem unl_dep (f : Nat → K → V → V) : ∀ {n : Nat} {nd : Node K (Nat × V)},
    (vt nd).Dep n → (vt (unl f nd)).Dep n
  | 0, nd, h => by obtain ⟨_, h⟩ := dep_pos h; cases h
  | n + 1, .mk es ks, h => by
    rw [unl_mk, dep_mk]
    rw [dep_mk] at h
    intro c hc
    rw [unls_map] at hc
    obtain ⟨d, hd, rfl⟩ := List.mem_map.1 hc
    exact unl_dep f (h d hd)

/-- The slots of a node. -/
def labs (nd : Node K (Nat × V)) : List Nat := nd.toList.map (·.2.1)

theorem inter_perm : ∀ (ks : List (Node K V)) (es : List (K × V)),
    (BTree.Node.inter ks es).Perm (es ++ ks.flatMap (·.toList))
  | [], es => by simp [BTree.Node.inter]
  | c :: ks, [] => by
    have := inter_perm ks []
    simp only [BTree.Node.inter, List.flatMap_cons, List.nil_append] at this ⊢
    exact this.append_left _
  | c :: ks, e :: es => by
    have := inter_perm ks es
    simp only [BTree.Node.inter, List.flatMap_cons]
    have h1 : (e :: es ++ (c.toList ++ ks.flatMap (·.toList))).Perm
        (c.toList ++ (e :: es ++ ks.flatMap (·.toList))) := by
      rw [← List.append_assoc, ← List.append_assoc]
      exact List.Perm.append_right _ List.perm_append_comm
    refine List.Perm.trans ?_ h1.symm
    exact List.Perm.append_left _ (this.cons e)

theorem labs_perm (es : List (K × (Nat × V))) (ks : List (Node K (Nat × V))) :
    (labs (.mk es ks)).Perm (es.map (·.2.1) ++ ks.flatMap labs) := by
  have h := (inter_perm ks es).map (·.2.1)
  rw [labs, BTree.Node.toList_mk]
  refine h.trans ?_
  rw [List.map_append, List.map_flatMap]
  exact List.Perm.refl _

theorem mem_labs {es : List (K × (Nat × V))} {ks : List (Node K (Nat × V))} {i : Nat} :
    i ∈ labs (.mk es ks) ↔ i ∈ es.map (·.2.1) ∨ ∃ c ∈ ks, i ∈ labs c := by
  rw [(labs_perm es ks).mem_iff, List.mem_append, List.mem_flatMap]

/-- What distinct slots in a node mean for its parts. -/
structure NDParts (es : List (K × (Nat × V))) (ks : List (Node K (Nat × V))) : Prop where
  elems : (es.map (·.2.1)).Nodup
  kid : ∀ c ∈ ks, (labs c).Nodup
  cross : ∀ i ∈ es.map (·.2.1), ∀ c ∈ ks, i ∉ labs c
  kids : ∀ {j k : Nat} {c d : Node K (Nat × V)}, ks[j]? = some c → ks[k]? = some d → j ≠ k →
    ∀ i ∈ labs c, i ∉ labs d

theorem nd_parts {es : List (K × (Nat × V))} {ks : List (Node K (Nat × V))}
    (h : (labs (.mk es ks)).Nodup) : NDParts es ks := by
  rw [(labs_perm es ks).nodup_iff, List.nodup_append] at h
  obtain ⟨h1, h2, h3⟩ := h
  rw [List.nodup_flatMap] at h2
  refine ⟨h1, h2.1, ?_, ?_⟩
  · intro i hi c hc hic
    exact h3 i hi i (List.mem_flatMap.2 ⟨c, hc, hic⟩) rfl
  · intro j k c d hj hk hjk i hi hid
    obtain ⟨hj1, rfl⟩ := List.getElem?_eq_some_iff.1 hj
    obtain ⟨hk1, rfl⟩ := List.getElem?_eq_some_iff.1 hk
    rcases Nat.lt_or_gt_of_ne hjk with hlt | hgt
    · exact List.pairwise_iff_getElem.1 h2.2 j k hj1 hk1 hlt hi hid
    · exact List.pairwise_iff_getElem.1 h2.2 k j hk1 hj1 hgt hid hi

/-! ## Paths in nodes -/

/-- The node at a path. -/
def subN : Node K V → List Nat → Option (Node K V)
  | nd, [] => some nd
  | nd, i :: p => (nd.kids[i]?).bind (fun c => subN c p)

theorem subN_append {nd c : Node K V} {p q : List Nat} (h : subN nd p = some c) :
    subN nd (p ++ q) = subN c q := by
  induction p generalizing nd with
  | nil => simp only [subN, Option.some.injEq] at h; subst h; rfl
  | cons i p ih =>
    simp only [subN, List.cons_append] at h ⊢
    rw [Option.bind_eq_some_iff] at h
    obtain ⟨d, h1, h2⟩ := h
    rw [h1, Option.bind_some]
    exact ih h2

theorem subN_kid {nd c d : Node K V} {p : List Nat} {i : Nat} (h : subN nd p = some c)
    (hd : c.kids[i]? = some d) : subN nd (p ++ [i]) = some d := by
  rw [subN_append h]
  simp only [subN, hd, Option.bind_some]

theorem subN_dep {n : Nat} {nd c : Node K V} {p : List Nat} (hd : (vt nd).Dep n)
    (h : subN nd p = some c) : (vt c).Dep n := by
  induction p generalizing nd with
  | nil => simp only [subN, Option.some.injEq] at h; subst h; exact hd
  | cons i p ih =>
    simp only [subN, Option.bind_eq_some_iff] at h
    obtain ⟨d, h1, h2⟩ := h
    obtain ⟨n, rfl⟩ := dep_pos hd
    exact ih ((dep_kids hd d (List.mem_of_getElem? h1)).mono (by omega)) h2

theorem subN_labs {nd c : Node K (Nat × V)} {p : List Nat} (h : subN nd p = some c) :
    ∀ i ∈ labs c, i ∈ labs nd := by
  induction p generalizing nd with
  | nil => simp only [subN, Option.some.injEq] at h; subst h; exact fun _ h => h
  | cons j p ih =>
    simp only [subN, Option.bind_eq_some_iff] at h
    obtain ⟨d, h1, h2⟩ := h
    obtain ⟨es, ks⟩ := nd
    intro i hi
    exact mem_labs.2 (Or.inr ⟨d, List.mem_of_getElem? h1, ih h2 i hi⟩)

theorem subN_nodup {nd c : Node K (Nat × V)} {p : List Nat} (hnd : (labs nd).Nodup)
    (h : subN nd p = some c) : (labs c).Nodup := by
  induction p generalizing nd with
  | nil => simp only [subN, Option.some.injEq] at h; subst h; exact hnd
  | cons j p ih =>
    simp only [subN, Option.bind_eq_some_iff] at h
    obtain ⟨d, h1, h2⟩ := h
    obtain ⟨es, ks⟩ := nd
    exact ih ((nd_parts hnd).kid d (List.mem_of_getElem? h1)) h2

/-! ## Paths in the tree of the iterator -/

/-- There is a link at the path. -/
def IsLink (m : MT K V) (q : List Nat) : Prop := ∃ r, m.at q = some (.link r)
/-- There is an opened node at the path. -/
def IsOpen (m : MT K V) (q : List Nat) : Prop := ∃ a es ks, m.at q = some (.opened a es ks)

theorem at_append {m : MT K V} {p q : List Nat} :
    m.at (p ++ q) = (m.at p).bind (fun x => x.at q) := by
  induction p generalizing m with
  | nil => simp [MT.at]
  | cons i p ih =>
    cases m with
    | link r => simp [MT.at]
    | opened a es ks =>
      simp only [MT.at, List.cons_append]
      cases ks[i]? with
      | none => rfl
      | some c => exact ih

theorem at_link (r : Option Nat) {q : List Nat} (hq : q ≠ []) :
    (MT.link r : MT K V).at q = none := by
  cases q with
  | nil => exact absurd rfl hq
  | cons i q => rfl

theorem below_link {m : MT K V} {p q : List Nat} {r : Option Nat} (h : m.at p = some (.link r))
    (hq : q ≠ []) : m.at (p ++ q) = none := by
  rw [at_append, h]
  exact at_link r hq

theorem at_put_self {m x y : MT K V} {p q : List Nat} (h : m.at p = some y) :
    (MT.put x p m).at (p ++ q) = x.at q := by
  induction p generalizing m with
  | nil => rfl
  | cons i p ih =>
    cases m with
    | link r => simp [MT.at] at h
    | opened a es ks =>
      simp only [MT.at] at h
      cases hc : ks[i]? with
      | none => rw [hc] at h; simp at h
      | some c =>
        rw [hc] at h
        simp only [MT.put, List.cons_append, MT.at]
        rw [List.getElem?_modify_eq, hc]
        exact ih h

theorem open_put {m x y : MT K V} {p q : List Nat} (h : m.at p = some y)
    (hs : ∀ q, IsOpen y q → IsOpen x q) (ho : IsOpen m q) : IsOpen (MT.put x p m) q := by
  induction p generalizing m q with
  | nil =>
    simp only [MT.at, Option.some.injEq] at h
    subst h
    exact hs q ho
  | cons i p ih =>
    cases m with
    | link r => simp [MT.at] at h
    | opened a es ks =>
      cases q with
      | nil => exact ⟨_, _, _, rfl⟩
      | cons j q =>
        simp only [MT.at] at h
        simp only [MT.put]
        obtain ⟨a', es', ks', ho⟩ := ho
        simp only [MT.at] at ho
        simp only [IsOpen, MT.at]
        by_cases hij : i = j
        · subst hij
          rw [List.getElem?_modify_eq]
          cases hc : ks[i]? with
          | none => rw [hc] at h; simp at h
          | some c =>
            rw [hc] at h ho
            exact ih h ⟨_, _, _, ho⟩
        · rw [List.getElem?_modify_ne _ _ hij]
          exact ⟨_, _, _, ho⟩

theorem link_put {m x y : MT K V} {p q : List Nat} (h : m.at p = some y)
    (hs : ∀ q, IsLink y q → q = [] ∨ IsLink x q) (ho : IsLink m q) :
    q = p ∨ IsLink (MT.put x p m) q := by
  induction p generalizing m q with
  | nil =>
    simp only [MT.at, Option.some.injEq] at h
    subst h
    exact hs q ho
  | cons i p ih =>
    cases m with
    | link r => simp [MT.at] at h
    | opened a es ks =>
      cases q with
      | nil => obtain ⟨r, hr⟩ := ho; simp [MT.at] at hr
      | cons j q =>
        simp only [MT.at] at h
        simp only [MT.put]
        obtain ⟨r, ho⟩ := ho
        simp only [MT.at] at ho
        simp only [IsLink, MT.at]
        by_cases hij : i = j
        · subst hij
          rw [List.getElem?_modify_eq]
          cases hc : ks[i]? with
          | none => rw [hc] at h; simp at h
          | some c =>
            rw [hc] at h ho
            rcases ih h ⟨_, ho⟩ with rfl | h1
            · exact Or.inl rfl
            · exact Or.inr h1
        · rw [List.getElem?_modify_ne _ _ hij]
          exact Or.inr ⟨_, ho⟩

theorem link_not_open {m : MT K V} {q : List Nat} (h1 : IsLink m q) (h2 : IsOpen m q) : False := by
  obtain ⟨r, h1⟩ := h1
  obtain ⟨a, es, ks, h2⟩ := h2
  rw [h1] at h2
  simp at h2

/-! ## What it stands for -/

mutual
/-- The tree stands for a node of slots with contents `f`, and holds the handles. -/
inductive Is (f : Nat → K → V → V) : MT K V → Node K (Nat × V) → Multiset (Handle (ND K V)) → Prop
  | link (r : Option Nat) (nd : Node K (Nat × V)) : Is f (.link r) nd (own r (vt (unl f nd)))
  | opened {a : Nat} {es : List (K × V)} {et : List (K × (Nat × V))} {ks : List (MT K V)}
      {kt : List (Node K (Nat × V))} {L : Multiset (Handle (ND K V))} (d : ND K V) :
    es = et.map (app f) → IsL f ks kt L →
    Is f (.opened a es ks) (.mk et kt) (uown a (.node d []) + L)
/-- The children. -/
inductive IsL (f : Nat → K → V → V) : List (MT K V) → List (Node K (Nat × V)) →
    Multiset (Handle (ND K V)) → Prop
  | nil : IsL f [] [] 0
  | cons {m ms nd nds L1 L2} : Is f m nd L1 → IsL f ms nds L2 →
    IsL f (m :: ms) (nd :: nds) (L1 + L2)
end

theorem IsL.links {f : Nat → K → V → V} : ∀ {rs : List (Option Nat)} {kt : List (Node K (Nat × V))},
    kt.length = rs.length → IsL f (rs.map MT.link) kt (owns rs (vts (unls f kt)))
  | [], [], _ => by simpa [vts, unls] using IsL.nil
  | r :: rs, c :: kt, h => by
    simp only [List.map_cons, vts, unls, owns_cons]
    exact .cons (.link r c) (IsL.links (by simpa using h))

mutual
theorem unl_congr {f f' : Nat → K → V → V} : ∀ {nd : Node K (Nat × V)},
    (∀ i ∈ labs nd, ∀ k v, f i k v = f' i k v) → unl f nd = unl f' nd
  | .mk es ks, h => by
    rw [unl_mk, unl_mk, unls_congr (fun c hc i hi => h i (mem_labs.2 (Or.inr ⟨c, hc, hi⟩)))]
    congr 1
    apply List.map_congr_left
    intro e he
    simp only [app]
    rw [h _ (mem_labs.2 (Or.inl (List.mem_map_of_mem he)))]
theorem unls_congr {f f' : Nat → K → V → V} : ∀ {ks : List (Node K (Nat × V))},
    (∀ c ∈ ks, ∀ i ∈ labs c, ∀ k v, f i k v = f' i k v) → unls f ks = unls f' ks
  | [], _ => by simp [unls]
  | c :: ks, h => by
    rw [unls, unls, unl_congr (h c (by simp)), unls_congr (fun d hd => h d (by simp [hd]))]
end

mutual
theorem Is.congr {f f' : Nat → K → V → V} : ∀ {m : MT K V} {nd : Node K (Nat × V)}
    {L : Multiset (Handle (ND K V))}, Is f m nd L →
    (∀ i ∈ labs nd, ∀ k v, f i k v = f' i k v) → Is f' m nd L
  | .link r, nd, _, .link _ _, h => by rw [unl_congr h]; exact .link r nd
  | .opened a es ks, .mk et kt, _, .opened d he hk, h => by
    refine .opened d ?_ (hk.congr (fun c hc i hi => h i (mem_labs.2 (Or.inr ⟨c, hc, hi⟩))))
    rw [he]
    apply List.map_congr_left
    intro e he
    simp only [app]
    rw [h _ (mem_labs.2 (Or.inl (List.mem_map_of_mem he)))]
theorem IsL.congr {f f' : Nat → K → V → V} : ∀ {ms : List (MT K V)}
    {nds : List (Node K (Nat × V))} {L : Multiset (Handle (ND K V))}, IsL f ms nds L →
    (∀ c ∈ nds, ∀ i ∈ labs c, ∀ k v, f i k v = f' i k v) → IsL f' ms nds L
  | [], [], _, .nil, _ => .nil
  | m :: ms, nd :: nds, _, .cons h1 h2, h =>
    .cons (h1.congr (h nd (by simp))) (h2.congr (fun d hd => h d (by simp [hd])))
end

theorem IsL.get {f : Nat → K → V → V} : ∀ {ms : List (MT K V)} {nds : List (Node K (Nat × V))}
    {L : Multiset (Handle (ND K V))} {j : Nat} {m : MT K V}, IsL f ms nds L → ms[j]? = some m →
    ∃ c L1 L2, nds[j]? = some c ∧ Is f m c L1 ∧ L = L1 + L2 ∧
      ∀ {f' : Nat → K → V → V} {x : MT K V} {L1'}, Is f' x c L1' →
        (∀ k d, nds[k]? = some d → k ≠ j → ∀ i ∈ labs d, ∀ a b, f i a b = f' i a b) →
        ∀ g : MT K V → MT K V, g m = x → IsL f' (ms.modify j g) nds (L1' + L2)
  | _, _, _, 0, m, .cons (m := m0) (ms := ms) (nd := nd) (nds := nds) (L1 := L1) (L2 := L2) h1 h2,
    hj => by
    simp only [List.getElem?_cons_zero, Option.some.injEq] at hj
    subst hj
    refine ⟨nd, L1, L2, rfl, h1, rfl, ?_⟩
    intro f' x L1' hx hag g hg
    simp only [List.modify_zero_cons, hg]
    refine .cons hx (h2.congr ?_)
    intro d hd
    obtain ⟨k, hk, rfl⟩ := List.getElem_of_mem hd
    exact hag (k + 1) nds[k] (by simp [hk]) (by omega)
  | _, _, _, j + 1, m, .cons (m := m0) (ms := ms) (nd := nd) (nds := nds) (L1 := L1) (L2 := L2) h1 h2,
    hj => by
    simp only [List.getElem?_cons_succ] at hj
    obtain ⟨c, L3, L4, h3, h4, rfl, h5⟩ := h2.get hj
    refine ⟨c, L3, L1 + L4, by simpa using h3, h4, by ac_rfl, ?_⟩
    intro f' x L1' hx hag g hg
    simp only [List.modify_succ_cons]
    have h6 := h5 hx (fun k d hd hk => hag (k + 1) d (by simpa using hd) (by omega)) g hg
    have h7 : Is f' m0 nd L1 := h1.congr (hag 0 nd (by simp) (by omega))
    have := IsL.cons h7 h6
    rw [show L1' + (L1 + L4) = L1 + (L1' + L4) by ac_rfl]
    exact this

/-- The part at a path, and how to replace it. -/
theorem Is.at {f : Nat → K → V → V} {p : List Nat} : ∀ {m x : MT K V} {root : Node K (Nat × V)}
    {L : Multiset (Handle (ND K V))}, Is f m root L → (labs root).Nodup → m.at p = some x →
    ∃ c L1 L2, subN root p = some c ∧ Is f x c L1 ∧ L = L1 + L2 ∧
      ∀ {f' : Nat → K → V → V} {x' : MT K V} {L1'}, Is f' x' c L1' →
        (∀ i ∈ labs root, i ∉ labs c → ∀ a b, f i a b = f' i a b) →
        Is f' (MT.put x' p m) root (L1' + L2) := by
  induction p with
  | nil =>
    intro m x root L h _ hx
    simp only [MT.at, Option.some.injEq] at hx
    subst hx
    exact ⟨root, L, 0, rfl, h, (add_zero _).symm, fun h' _ => by rw [add_zero]; exact h'⟩
  | cons j p ih =>
    intro m x root L h hnd hx
    cases h with
    | link r nd => simp [MT.at] at hx
    | @opened a es et ks kt L d he hk =>
      simp only [MT.at] at hx
      cases hc : ks[j]? with
      | none => rw [hc] at hx; simp at hx
      | some m1 =>
        rw [hc] at hx
        have hp := nd_parts hnd
        obtain ⟨c1, L3, L4, h1, h2, rfl, h3⟩ := hk.get hc
        obtain ⟨c, L1, L2, h4, h5, rfl, h6⟩ := ih h2 (hp.kid c1 (List.mem_of_getElem? h1)) hx
        refine ⟨c, L1, uown a (.node d []) + (L2 + L4), ?_, h5, by ac_rfl, ?_⟩
        · simp only [subN, BTree.Node.kids, h1, Option.bind_some, h4]
        · intro f' x' L1' hx' hag
          have hsub := subN_labs h4
          have h7 := h6 hx' (fun i hi hic =>
            hag i (mem_labs.2 (Or.inr ⟨c1, List.mem_of_getElem? h1, hi⟩)) hic)
          have h8 := h3 h7 (fun k d hd hkj i hi => hag i
            (mem_labs.2 (Or.inr ⟨d, List.mem_of_getElem? hd, hi⟩))
            (fun hic => hp.kids hd h1 hkj i hi (hsub i hic))) (MT.put x' p) rfl
          simp only [MT.put]
          have h9 : es = et.map (app f') := by
            rw [he]
            apply List.map_congr_left
            intro e he
            have hm : e.2.1 ∈ et.map (·.2.1) := List.mem_map_of_mem (f := (·.2.1)) he
            simp only [app]
            rw [hag e.2.1 (mem_labs.2 (Or.inl hm))
              (fun hic => hp.cross _ hm c1 (List.mem_of_getElem? h1) (hsub _ hic))]
          have := Is.opened (a := a) d h9 h8
          rw [show L1' + (uown a (.node d []) + (L2 + L4)) =
            uown a (.node d []) + (L1' + L2 + L4) by ac_rfl]
          exact this

mutual
theorem close_spec' {f : Nat → K → V → V} : ∀ {m : MT K V} {nd : Node K (Nat × V)}
    {L : Multiset (Handle (ND K V))}, Is f m nd L →
    wp m.close L (fun r L' => L' = own r (vt (unl f nd)))
  | .link r, nd, _, .link _ _ => by rw [MT.close]; exact wp_pure rfl
  | .opened a es ks, .mk et kt, _, .opened (L := L) d he hk => by
    rw [MT.close]
    refine wp_call (uown a (.node d [])) (closes_spec' hk) (add_comm _ _) ?_
    rintro rs _ ⟨hl, rfl⟩
    wcall Heap.close_spec (a := a) (p := d) (q := es) (ts := vts (unls f kt)) (ks := rs)
      (by simp [unls_map, hl])
    rintro _ _ rfl
    refine wp_forget (a := a) 0 rfl ?_
    rw [add_zero]
    refine wp_pure ?_
    rw [unl_mk, vt_mk, he]
theorem closes_spec' {f : Nat → K → V → V} : ∀ {ms : List (MT K V)} {nds : List (Node K (Nat × V))}
    {L : Multiset (Handle (ND K V))}, IsL f ms nds L →
    wp (MT.closes ms) L (fun rs L' => nds.length = rs.length ∧ L' = owns rs (vts (unls f nds)))
  | [], [], _, .nil => by rw [MT.closes]; exact wp_pure ⟨rfl, by simp [unls, vts]⟩
  | m :: ms, nd :: nds, _, .cons (L1 := L1) (L2 := L2) h1 h2 => by
    rw [MT.closes]
    refine wp_call L2 (close_spec' h1) rfl ?_
    rintro r _ rfl
    refine wp_call (own r (vt (unl f nd))) (closes_spec' h2) (add_comm _ _) ?_
    rintro rs _ ⟨hl, rfl⟩
    refine wp_pure ⟨by simp [hl], ?_⟩
    rw [unls, vts, owns_cons, add_comm]
end

/-- Making the node at a link one's own. -/
theorem openAt_spec {f : Nat → K → V → V} {D : Nat} {m : MT K V} {root : Node K (Nat × V)}
    {L : Multiset (Handle (ND K V))} {p : List Nat} {r : Option Nat} (h : Is f m root L)
    (hnd : (labs root).Nodup) (hd : (vt root).Dep D) (hp : m.at p = some (.link r)) :
    wp (openAt D m p) L (fun x L' => ∃ c a ks, subN root p = some c ∧
      c.kids.length = ks.length ∧ x.2 = ⟨c.elems.map (app f), ks⟩ ∧
      x.1 = MT.put (.opened a (c.elems.map (app f)) (ks.map MT.link)) p m ∧ Is f x.1 root L') := by
  obtain ⟨c, L1, L2, hc, h1, rfl, h2⟩ := h.at hnd hp
  cases h1
  have hdc := unl_dep f (subN_dep hd hc)
  refine wp_own_cases (r := r) (t := vt (unl f c)) L2 rfl ?_ ?_
  · intro _ h; rw [vt_eta] at h; cases h
  · rintro a q ts rfl ht
    rw [← ht]
    unfold openAt
    rw [hp]
    dsimp only
    rw [vt_eta] at hdc ⊢
    wcall wp_makeMut hdc
    rintro a' _ rfl
    wcall open_spec
    rintro _ _ ⟨ks, rfl, hl, rfl⟩
    have hl' : c.kids.length = ks.length := by
      rw [unl_kids, unls_map] at hl
      simpa only [vts_length, List.length_map] using hl
    rw [unl_elems, unl_kids]
    refine wp_pure ⟨c, a', ks, hc, hl', rfl, rfl, ?_⟩
    dsimp only
    obtain ⟨et, kt⟩ := c
    exact h2 (.opened _ rfl (IsL.links hl')) (fun _ _ _ _ _ => rfl)

end Verif.BTreeH
