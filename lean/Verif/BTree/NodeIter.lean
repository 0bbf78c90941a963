import Verif.BTree.Iter
/-!
# `Iter`, `IterMut` and `IntoIter` of `BTreeMap` (btree.rs:1395-1762)
-/
set_option linter.unusedSectionVars false
namespace Verif.BTree
open Node
universe u v
variable {K : Type u} {V : Type v}

mutual
/-- Height of a node (bounds the descent loop). -/
def Node.depth : Node K V → Nat
  | .mk _ ks => Node.depths ks + 1
def Node.depths : List (Node K V) → Nat
  | [] => 0
  | c :: ks => max (Node.depth c) (Node.depths ks)
end

theorem Node.depth_le_depths {c : Node K V} {ks : List (Node K V)} (h : c ∈ ks) :
    c.depth ≤ Node.depths ks := by
  induction ks with
  | nil => simp at h
  | cons d ks ih =>
    rw [Node.depths]
    rcases List.mem_cons.1 h with rfl | h
    · omega
    · have := ih h; omega

theorem Node.depth_kid {n c : Node K V} (h : c ∈ n.kids) : c.depth < n.depth := by
  obtain ⟨es, ks⟩ := n
  have := Node.depth_le_depths h
  rw [Node.depth]
  simp only [kids] at this
  omega

/-- btree.rs:1397-1409 `Iter`, 1436-1464 `IterMut`: `InnerIter` over `BorrowedNodeIter`. -/
def nodeOps : NodeIterOps (NIter (K × V) (Node K V)) (K × V) (Node K V) :=
  borrowedOps Node.elems Node.kids Node.depth

/-- btree.rs:743-760 `iter`, 762-784 `iter_mut`. -/
def iterOf (len : Nat) : Option (Node K V) → InnerIter (NIter (K × V) (Node K V))
  | none => ⟨[], 0⟩
  | some n => ⟨[nodeOps.make n], len⟩

/-! ### `IntoIter` -/

/-- A node each of whose `Arc`s is annotated with whether `Arc::try_unwrap` on it succeeds,
i.e. whether this is the last reference at the time of the call (each `Arc` is unwrapped at
most once, so the annotation covers every interleaving with other owners). -/
inductive ANode (K : Type u) (V : Type v) where
  | mk (own : Bool) (elems : List (K × V)) (kids : List (ANode K V))

namespace ANode
def own : ANode K V → Bool | mk b _ _ => b
def elems : ANode K V → List (K × V) | mk _ es _ => es
def kids : ANode K V → List (ANode K V) | mk _ _ ks => ks

mutual
/-- Without the annotation. -/
def forget : ANode K V → Node K V
  | mk _ es ks => .mk es (forgets ks)
def forgets : List (ANode K V) → List (Node K V)
  | [] => []
  | c :: ks => forget c :: forgets ks
end

theorem forgets_eq (ks : List (ANode K V)) : forgets ks = ks.map forget := by
  induction ks with
  | nil => rfl
  | cons c ks ih => simp [forgets, ih]

@[simp] theorem forget_elems (n : ANode K V) : n.forget.elems = n.elems := by
  obtain ⟨b, es, ks⟩ := n; simp [forget, elems, Node.elems]
@[simp] theorem forget_kids (n : ANode K V) : n.forget.kids = n.kids.map forget := by
  obtain ⟨b, es, ks⟩ := n; simp [forget, kids, Node.kids, forgets_eq]
end ANode

/-- btree.rs:1508-1537 `IntoNodeIter`. -/
inductive IntoErg (K : Type u) (V : Type v) where
  | arcked (n : ANode K V) (lbE ubE lbK ubK : Nat) (lf rt : Bool)
  | owned (e : NIter (K × V) (ANode K V))

/-- btree.rs:1539-1654 `impl NodeIter for IntoNodeIter`, 1665-1698 `make_into_node_iter`.  A
child item is `(true, n)` for `Ok(n)` and `(false, n)` for `Err(n)`.  Indexing out of range
panics; cloning an element yields an equal element. -/
def intoOps : NodeIterOps (IntoErg K V) (K × V) (Bool × ANode K V) where
  isEmpty
    | .arcked _ lbE ubE lbK ubK _ _ => decide (ubE ≤ lbE) && decide (ubK ≤ lbK)
    | .owned e => e.elems.isEmpty && e.kids.isEmpty
  needsLf
    | .arcked _ _ _ _ _ lf _ => lf
    | .owned e => e.lf
  needsRt
    | .arcked _ _ _ _ _ _ rt => rt
    | .owned e => e.rt
  nextElem
    | .arcked n lbE ubE lbK ubK lf rt =>
      if lf then none
      else if lbE < ubE then
        (n.elems[lbE]?).map (fun x =>
          (.arcked n (lbE + 1) ubE lbK ubK (decide (lbK < ubK)) rt, some x))
      else some (.arcked n lbE ubE lbK ubK (decide (lbK < ubK)) rt, none)
    | .owned e =>
      if e.lf then none
      else some (.owned ⟨e.elems.tail, e.kids, !e.kids.isEmpty, e.rt⟩, e.elems.head?)
  nextBackElem
    | .arcked n lbE ubE lbK ubK lf rt =>
      if rt then none
      else if lbE < ubE then
        (n.elems[ubE - 1]?).map (fun x =>
          (.arcked n lbE (ubE - 1) lbK ubK lf (decide (lbK < ubK)), some x))
      else some (.arcked n lbE ubE lbK ubK lf (decide (lbK < ubK)), none)
    | .owned e =>
      if e.rt then none
      else some (.owned ⟨e.elems.dropLast, e.kids, e.lf, !e.kids.isEmpty⟩, e.elems.getLast?)
  nextKid
    | .arcked n lbE ubE lbK ubK lf rt =>
      if lf || decide (lbK = ubK) then
        if lbK < ubK then
          (n.kids[lbK]?).map (fun c => (.arcked n lbE ubE (lbK + 1) ubK false rt, some (false, c)))
        else some (.arcked n lbE ubE lbK ubK false rt, none)
      else none
    | .owned e =>
      if e.lf || e.kids.isEmpty then
        some (.owned ⟨e.elems, e.kids.tail, false, e.rt⟩, e.kids.head?.map (fun c => (c.own, c)))
      else none
  nextBackKid
    | .arcked n lbE ubE lbK ubK lf rt =>
      if rt || decide (lbK = ubK) then
        if lbK < ubK then
          (n.kids[ubK - 1]?).map (fun c =>
            (.arcked n lbE ubE lbK (ubK - 1) lf false, some (false, c)))
        else some (.arcked n lbE ubE lbK ubK lf false, none)
      else none
    | .owned e =>
      if e.rt || e.kids.isEmpty then
        some (.owned ⟨e.elems, e.kids.dropLast, e.lf, false⟩,
          e.kids.getLast?.map (fun c => (c.own, c)))
      else none
  make
    | (true, n) => .owned ⟨n.elems, n.kids, !n.kids.isEmpty, !n.kids.isEmpty⟩
    | (false, n) =>
      .arcked n 0 n.elems.length 0 n.kids.length (!n.kids.isEmpty) (!n.kids.isEmpty)
  fuel
    | .arcked n _ _ lbK ubK _ _ =>
      (((n.kids.take ubK).drop lbK).map (fun c => c.forget.depth)).foldr max 0 + 1
    | .owned e => (e.kids.map (fun c => c.forget.depth)).foldr max 0 + 1

/-- btree.rs:1700-1728 `IntoIter::new`. -/
def intoIterOf (len : Nat) : Option (ANode K V) → InnerIter (IntoErg K V)
  | none => ⟨[], 0⟩
  | some n => ⟨[intoOps.make (n.own, n)], len⟩

/-! ### Proofs -/

theorem inter_ilv : ∀ (ks : List (Node K V)) (es : List (K × V)),
    inter ks es = ilv toList ks es
  | [], es => by simp
  | c :: ks, [] => by simp [inter, ilv, inter_ilv ks []]
  | c :: ks, e :: es => by simp [inter, ilv, inter_ilv ks es]

/-- Shape under which iteration works; `full = false` allows a missing last child. -/
def IterOk (full : Bool) : Nat → Node K V → Prop
  | 0, _ => False
  | h + 1, .mk es ks => es ≠ [] ∧
      (ks = [] ∨ ks.length = es.length + 1 ∨ (full = false ∧ ks.length = es.length)) ∧
      ∀ c ∈ ks, IterOk full h c

theorem Node.Ok.iterOk {N : Nat} (hN : 1 ≤ N) (full : Bool) : ∀ {h lo : Nat} {n : Node K V},
    Node.Ok N lo h n → 1 ≤ lo → IterOk full (h + 1) n := by
  intro h
  induction h with
  | zero =>
    intro lo n hn hlo
    obtain ⟨es, ks⟩ := n
    obtain ⟨rfl, h1, -⟩ := hn
    refine ⟨?_, Or.inl rfl, by simp⟩
    rintro rfl; simp at h1; omega
  | succ h ih =>
    intro lo n hn hlo
    obtain ⟨es, ks⟩ := n
    obtain ⟨hl, h1, -, hk⟩ := hn
    refine ⟨?_, Or.inr (Or.inl hl), fun c hc => ih (hk c hc) hN⟩
    rintro rfl; simp at h1; omega

theorem nodeSpec (full : Bool) :
    NodeSpec full (Node.elems (K := K) (V := V)) Node.kids Node.depth toList
      (fun c => ∃ h, IterOk full h c) where
  ne c h := by
    obtain ⟨h, hc⟩ := h
    obtain ⟨es, ks⟩ := c
    cases h with
    | zero => exact hc.elim
    | succ h => exact hc.1
  len c h := by
    obtain ⟨h, hc⟩ := h
    obtain ⟨es, ks⟩ := c
    cases h with
    | zero => exact hc.elim
    | succ h => exact hc.2.1
  kid c h d hd := by
    refine ⟨?_, Node.depth_kid hd⟩
    obtain ⟨h, hc⟩ := h
    obtain ⟨es, ks⟩ := c
    cases h with
    | zero => exact hc.elim
    | succ h => exact ⟨h, hc.2.2 d hd⟩
  ht_pos c _ := by obtain ⟨es, ks⟩ := c; rw [Node.depth]; omega
  cont_eq c _ := by
    obtain ⟨es, ks⟩ := c
    rw [toList_mk, inter_ilv]; rfl

theorem anodeSpec (full : Bool) :
    NodeSpec full (ANode.elems (K := K) (V := V)) ANode.kids (fun c => c.forget.depth)
      (fun c => toList c.forget) (fun c => ∃ h, IterOk full h c.forget) where
  ne c h := by have := (nodeSpec full).ne c.forget h; rwa [ANode.forget_elems] at this
  len c h := by
    have := (nodeSpec full).len c.forget h
    rw [ANode.forget_elems, ANode.forget_kids] at this
    simpa using this
  kid c h d hd := (nodeSpec full).kid c.forget h d.forget (by
    rw [ANode.forget_kids]; exact List.mem_map_of_mem hd)
  ht_pos c h := (nodeSpec full).ht_pos c.forget h
  cont_eq c h := by
    have := (nodeSpec full).cont_eq c.forget h
    rw [this, ANode.forget_kids, ANode.forget_elems]
    generalize c.kids = ks
    generalize c.elems = es
    induction ks generalizing es with
    | nil => simp
    | cons d ks ih => cases es <;> simp [ilv, ih]

section slice
variable {α : Type _}
theorem slice_head (l : List α) {lb ub : Nat} (h : lb < ub) :
    ((l.take ub).drop lb).head? = l[lb]? := by
  rw [List.head?_drop, List.getElem?_take]; simp [h]
theorem slice_tail (l : List α) {lb ub : Nat} :
    ((l.take ub).drop lb).tail = (l.take ub).drop (lb + 1) := by
  rw [List.tail_drop]
theorem slice_last (l : List α) {lb ub : Nat} (h : lb < ub) (hu : ub ≤ l.length) :
    ((l.take ub).drop lb).getLast? = l[ub - 1]? := by
  rw [List.getLast?_eq_getElem?]
  simp only [List.length_drop, List.length_take, List.getElem?_drop]
  rw [List.getElem?_take]
  have : lb + (min ub l.length - lb - 1) = ub - 1 := by omega
  rw [this, if_pos (by omega)]
theorem slice_init (l : List α) {lb ub : Nat} (h : lb < ub) (hu : ub ≤ l.length) :
    ((l.take ub).drop lb).dropLast = (l.take (ub - 1)).drop lb := by
  rw [List.dropLast_eq_take, List.length_drop, List.length_take, List.drop_take, List.take_take,
    List.drop_take]
  congr 1
  omega
theorem slice_empty (l : List α) {lb ub : Nat} (hu : ub ≤ l.length) :
    ((l.take ub).drop lb).isEmpty = decide (ub ≤ lb) := by
  rw [Bool.eq_iff_iff]; simp; omega
end slice

/-- An `IntoIter` node iterator as a `BorrowedNodeIter`. -/
def IntoErg.view : IntoErg K V → NIter (K × V) (ANode K V)
  | .arcked n lbE ubE lbK ubK lf rt =>
    ⟨(n.elems.take ubE).drop lbE, (n.kids.take ubK).drop lbK, lf, rt⟩
  | .owned e => e

/-- The index ranges are sensible. -/
def IntoErg.Inv : IntoErg K V → Prop
  | .arcked n lbE ubE lbK ubK _ _ =>
    lbE ≤ ubE ∧ ubE ≤ n.elems.length ∧ lbK ≤ ubK ∧ ubK ≤ n.kids.length
  | .owned _ => True

theorem into_sim : Sim (intoOps (K := K) (V := V))
    (borrowedOps ANode.elems ANode.kids (fun c => c.forget.depth)) IntoErg.Inv IntoErg.view
    Prod.snd where
  isEmpty i hi := by
    cases i with
    | owned e => rfl
    | arcked n lbE ubE lbK ubK lf rt =>
      obtain ⟨h1, h2, h3, h4⟩ := hi
      simp only [borrowedOps, intoOps, IntoErg.view, slice_empty _ h2, slice_empty _ h4]
  nextElem i hi := by
    cases i with
    | owned e => simp only [borrowedOps, intoOps, IntoErg.view]; split <;> simp [IntoErg.view]
    | arcked n lbE ubE lbK ubK lf rt =>
      obtain ⟨h1, h2, h3, h4⟩ := hi
      simp only [borrowedOps, intoOps, IntoErg.view, slice_empty _ h4]
      by_cases hl : lf = true
      · simp [hl]
      · simp only [hl, if_false, Bool.false_eq_true]
        have e1 : (!decide (ubK ≤ lbK)) = decide (lbK < ubK) := by
          rw [Bool.eq_iff_iff]; simp
        by_cases hb : lbE < ubE
        · simp only [hb, if_true, slice_head _ hb, slice_tail, e1]
          have : lbE < n.elems.length := by omega
          rw [List.getElem?_eq_getElem this]; simp [IntoErg.view]
        · have e2 : (n.elems.take ubE).drop lbE = [] := by simp; omega
          simp [hb, e2, IntoErg.view, e1]
  nextElem_inv i hi r hr := by
    cases i with
    | owned e => simp only [intoOps] at hr; split at hr <;> simp at hr; subst hr; trivial
    | arcked n lbE ubE lbK ubK lf rt =>
      obtain ⟨h1, h2, h3, h4⟩ := hi
      simp only [intoOps] at hr
      split at hr
      · simp at hr
      · split at hr
        · simp only [Option.map_eq_some_iff] at hr
          obtain ⟨x, -, rfl⟩ := hr
          exact ⟨by omega, h2, h3, h4⟩
        · simp at hr; subst hr; exact ⟨h1, h2, h3, h4⟩
  nextBackElem i hi := by
    cases i with
    | owned e => simp only [borrowedOps, intoOps, IntoErg.view]; split <;> simp [IntoErg.view]
    | arcked n lbE ubE lbK ubK lf rt =>
      obtain ⟨h1, h2, h3, h4⟩ := hi
      simp only [borrowedOps, intoOps, IntoErg.view, slice_empty _ h4]
      by_cases hl : rt = true
      · simp [hl]
      · simp only [hl, if_false, Bool.false_eq_true]
        have e1 : (!decide (ubK ≤ lbK)) = decide (lbK < ubK) := by
          rw [Bool.eq_iff_iff]; simp
        by_cases hb : lbE < ubE
        · simp only [hb, if_true, slice_last _ hb h2, slice_init _ hb h2, e1]
          have : ubE - 1 < n.elems.length := by omega
          rw [List.getElem?_eq_getElem this]; simp [IntoErg.view]
        · have e2 : (n.elems.take ubE).drop lbE = [] := by simp; omega
          simp [hb, e2, IntoErg.view, e1]
  nextBackElem_inv i hi r hr := by
    cases i with
    | owned e => simp only [intoOps] at hr; split at hr <;> simp at hr; subst hr; trivial
    | arcked n lbE ubE lbK ubK lf rt =>
      obtain ⟨h1, h2, h3, h4⟩ := hi
      simp only [intoOps] at hr
      split at hr
      · simp at hr
      · split at hr
        · simp only [Option.map_eq_some_iff] at hr
          obtain ⟨x, -, rfl⟩ := hr
          exact ⟨by omega, by omega, h3, h4⟩
        · simp at hr; subst hr; exact ⟨h1, h2, h3, h4⟩
  nextKid i hi := by
    cases i with
    | owned e =>
      simp only [borrowedOps, intoOps, IntoErg.view, Bool.or_comm e.lf]
      split <;> simp [IntoErg.view, Function.comp_def]
    | arcked n lbE ubE lbK ubK lf rt =>
      obtain ⟨h1, h2, h3, h4⟩ := hi
      simp only [borrowedOps, intoOps, IntoErg.view, slice_empty _ h4]
      have e1 : (decide (ubK ≤ lbK) || lf) = (lf || decide (lbK = ubK)) := by
        cases lf
        · rw [Bool.eq_iff_iff]; simp; omega
        · simp
      rw [e1]
      by_cases hl : (lf || decide (lbK = ubK)) = true
      · simp only [hl, if_true]
        by_cases hb : lbK < ubK
        · simp only [hb, if_true, slice_head _ hb, slice_tail]
          have : lbK < n.kids.length := by omega
          rw [List.getElem?_eq_getElem this]; simp [IntoErg.view]
        · have e2 : (n.kids.take ubK).drop lbK = [] := by simp; omega
          simp [hb, e2, IntoErg.view]
      · simp [hl]
  nextKid_inv i hi r hr := by
    cases i with
    | owned e => simp only [intoOps] at hr; split at hr <;> simp at hr; subst hr; trivial
    | arcked n lbE ubE lbK ubK lf rt =>
      obtain ⟨h1, h2, h3, h4⟩ := hi
      simp only [intoOps] at hr
      split at hr
      · split at hr
        · simp only [Option.map_eq_some_iff] at hr
          obtain ⟨x, -, rfl⟩ := hr
          exact ⟨h1, h2, by omega, h4⟩
        · simp at hr; subst hr; exact ⟨h1, h2, h3, h4⟩
      · simp at hr
  nextBackKid i hi := by
    cases i with
    | owned e =>
      simp only [borrowedOps, intoOps, IntoErg.view, Bool.or_comm e.rt]
      split <;> simp [IntoErg.view, Function.comp_def]
    | arcked n lbE ubE lbK ubK lf rt =>
      obtain ⟨h1, h2, h3, h4⟩ := hi
      simp only [borrowedOps, intoOps, IntoErg.view, slice_empty _ h4]
      have e1 : (decide (ubK ≤ lbK) || rt) = (rt || decide (lbK = ubK)) := by
        cases rt
        · rw [Bool.eq_iff_iff]; simp; omega
        · simp
      rw [e1]
      by_cases hl : (rt || decide (lbK = ubK)) = true
      · simp only [hl, if_true]
        by_cases hb : lbK < ubK
        · simp only [hb, if_true, slice_last _ hb h4, slice_init _ hb h4]
          have : ubK - 1 < n.kids.length := by omega
          rw [List.getElem?_eq_getElem this]; simp [IntoErg.view]
        · have e2 : (n.kids.take ubK).drop lbK = [] := by simp; omega
          simp [hb, e2, IntoErg.view]
      · simp [hl]
  nextBackKid_inv i hi r hr := by
    cases i with
    | owned e => simp only [intoOps] at hr; split at hr <;> simp at hr; subst hr; trivial
    | arcked n lbE ubE lbK ubK lf rt =>
      obtain ⟨h1, h2, h3, h4⟩ := hi
      simp only [intoOps] at hr
      split at hr
      · split at hr
        · simp only [Option.map_eq_some_iff] at hr
          obtain ⟨x, -, rfl⟩ := hr
          exact ⟨h1, h2, by omega, by omega⟩
        · simp at hr; subst hr; exact ⟨h1, h2, h3, h4⟩
      · simp at hr
  needsLf i _ := by cases i <;> rfl
  needsRt i _ := by cases i <;> rfl
  make c := by
    obtain ⟨b, n⟩ := c
    cases b <;> simp [borrowedOps, intoOps, IntoErg.view]
  make_inv c := by
    obtain ⟨b, n⟩ := c
    cases b <;> simp [intoOps, IntoErg.Inv]
  fuel i _ := by cases i <;> rfl

/-- `iter()`/`iter_mut()` under any schedule. -/
theorem iter_run {n : Node K V} {h : Nat} (hn : IterOk true h n) (ds : List Bool) :
    nodeOps.run ds (iterOf n.toList.length (some n)) = some (Spec.dequeRun ds n.toList) := by
  obtain ⟨m1, m2, -⟩ := (nodeSpec true).make_ok (c := n) ⟨h, hn⟩
  have hw : witems toList [(borrowedOps Node.elems Node.kids Node.depth).make n] = toList n := by
    rw [witems_cons, m2]; simp
  have := (nodeSpec (K := K) (V := V) true).run ds (it := iterOf n.toList.length (some n)) 0
    (by simpa [iterOf, nodeOps] using m1) (by simp only [iterOf, nodeOps, hw]; simp)
  simp only [iterOf, nodeOps, hw] at this ⊢
  simpa using this

/-- A `for` loop over `into_iter()`; `len` may be too large, and the last child of a branch
may be missing. -/
theorem into_drain {n : ANode K V} {h : Nat} (hn : IterOk false h n.forget) {len fuel : Nat}
    (hlen : n.forget.toList.length ≤ len) (hf : n.forget.toList.length < fuel) :
    intoOps.drain fuel (intoIterOf len (some n)) = some n.forget.toList := by
  obtain ⟨m1, m2, -⟩ := (anodeSpec false).make_ok (c := n) ⟨h, hn⟩
  have hw : witems (fun c => toList c.forget)
      [(borrowedOps ANode.elems ANode.kids (fun c => c.forget.depth)).make n] = n.forget.toList := by
    rw [witems_cons, m2]; simp
  have e : (intoIterOf len (some n)).map IntoErg.view =
      ⟨[(borrowedOps ANode.elems ANode.kids (fun c => c.forget.depth)).make n], len⟩ := by
    simp only [InnerIter.map, intoIterOf, List.map_cons, List.map_nil, ← into_sim.make]
  rw [← into_sim.drain fuel _ (by
    simp only [intoIterOf, List.mem_singleton, forall_eq]; exact into_sim.make_inv _), e]
  have := (anodeSpec (K := K) (V := V) false).drain fuel (it :=
    ⟨[(borrowedOps ANode.elems ANode.kids (fun c => c.forget.depth)).make n], len⟩)
    (by simpa using m1) (by rw [hw]; exact hlen) (by rw [hw]; exact hf)
  rw [this, hw]

/-- `into_iter()` under any schedule. -/
theorem into_run {n : ANode K V} {h : Nat} (hn : IterOk true h n.forget) (ds : List Bool) :
    intoOps.run ds (intoIterOf n.forget.toList.length (some n)) =
      some (Spec.dequeRun ds n.forget.toList) := by
  obtain ⟨m1, m2, -⟩ := (anodeSpec true).make_ok (c := n) ⟨h, hn⟩
  have hw : witems (fun c => toList c.forget)
      [(borrowedOps ANode.elems ANode.kids (fun c => c.forget.depth)).make n] = n.forget.toList := by
    rw [witems_cons, m2]; simp
  have e : (intoIterOf n.forget.toList.length (some n)).map IntoErg.view =
      ⟨[(borrowedOps ANode.elems ANode.kids (fun c => c.forget.depth)).make n],
        n.forget.toList.length⟩ := by
    simp only [InnerIter.map, intoIterOf, List.map_cons, List.map_nil, ← into_sim.make]
  rw [← into_sim.run ds _ (by
    simp only [intoIterOf, List.mem_singleton, forall_eq]; exact into_sim.make_inv _), e]
  have := (anodeSpec (K := K) (V := V) true).run ds (it :=
    ⟨[(borrowedOps ANode.elems ANode.kids (fun c => c.forget.depth)).make n],
      n.forget.toList.length⟩) 0 (by simpa using m1) (by simp [hw])
  rw [this, hw]; simp

end Verif.BTree
