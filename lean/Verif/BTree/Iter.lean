import Verif.BTree.Shape
/-!
# Model of the B-tree iterators (btree.rs:1211-1762)

`InnerIter` (btree.rs:1332-1393) is generic over the trait `NodeIter` (1225-1239); it is
modelled once, over the record `NodeIterOps` of the trait's methods.  A method that can
panic returns `Option`.  The `while let` loop of `next` descends to a leaf; `fuel` (the
height of what is left) only makes the recursion total, running out of it counts as a
failure.
-/
set_option linter.unusedSectionVars false
namespace Verif.BTree
universe u v w x y

/-- btree.rs:1225-1239 `trait NodeIter`, with `make_node_iter` (1335). `I` is the node
iterator, `E` the elements, `C` the children. -/
structure NodeIterOps (I : Type u) (E : Type v) (C : Type w) where
  isEmpty : I → Bool
  nextElem : I → Option (I × Option E)
  nextBackElem : I → Option (I × Option E)
  nextKid : I → Option (I × Option C)
  nextBackKid : I → Option (I × Option C)
  needsLf : I → Bool
  needsRt : I → Bool
  make : C → I
  fuel : I → Nat

variable {I : Type u} {E : Type v} {C : Type w}

/-- The same node iterator with left and right exchanged. -/
def NodeIterOps.mirror (o : NodeIterOps I E C) : NodeIterOps I E C where
  isEmpty := o.isEmpty
  nextElem := o.nextBackElem
  nextBackElem := o.nextElem
  nextKid := o.nextBackKid
  nextBackKid := o.nextKid
  needsLf := o.needsRt
  needsRt := o.needsLf
  make := o.make
  fuel := o.fuel

/-- btree.rs:1332-1336 `InnerIter`: the deque of node iterators, and `len`. -/
structure InnerIter (I : Type u) where
  work : List I
  len : Nat

/-- Put a node iterator back unless it is exhausted (btree.rs:1347-1349, 1360-1362). -/
def NodeIterOps.keep (o : NodeIterOps I E C) (e : I) (rest : List I) : List I :=
  if o.isEmpty e then rest else e :: rest

/-- btree.rs:1346-1352, the loop of `next`: `erg` is the front of the deque, `rest` the
remainder. -/
def NodeIterOps.descend (o : NodeIterOps I E C) : Nat → I → List I → Option (I × List I)
  | 0, _, _ => none
  | fuel + 1, erg, rest =>
    match o.nextKid erg with
    | none => none
    | some (erg', none) => some (erg', rest)
    | some (erg', some kid) => o.descend fuel (o.make kid) (o.keep erg' rest)

/-- btree.rs:1355-1364, the end of `next`: yield an element of `erg`. -/
def NodeIterOps.yieldElem (o : NodeIterOps I E C) (len : Nat) (erg : I) (rest : List I) :
    Option (InnerIter I × Option E) :=
  match o.nextElem erg with
  | none => none
  | some (_, none) => none                                  -- 1357: `assert!(ret.is_some())`
  | some (erg', some e) =>
    if len = 0 then none else some (⟨o.keep erg' rest, len - 1⟩, some e)

/-- btree.rs:1341-1365 `InnerIter::next`. -/
def NodeIterOps.next (o : NodeIterOps I E C) (it : InnerIter I) :
    Option (InnerIter I × Option E) :=
  match it.work with
  | [] => some (it, none)
  | erg :: rest =>
    if o.needsLf erg then
      match o.descend (o.fuel erg) erg rest with
      | none => none
      | some (erg', rest') => o.yieldElem it.len erg' rest'
    else o.yieldElem it.len erg rest

/-- The iterator with its deque reversed. -/
def InnerIter.rev (it : InnerIter I) : InnerIter I := ⟨it.work.reverse, it.len⟩

/-- btree.rs:1369-1392 `InnerIter::next_back`: the text of `next` with left and right, front
and back exchanged. -/
def NodeIterOps.nextBack (o : NodeIterOps I E C) (it : InnerIter I) :
    Option (InnerIter I × Option E) :=
  (o.mirror.next it.rev).map (fun r => (r.1.rev, r.2))

/-- `next` or `next_back`. -/
def NodeIterOps.step (o : NodeIterOps I E C) (front : Bool) (it : InnerIter I) :
    Option (InnerIter I × Option E) :=
  if front then o.next it else o.nextBack it

/-- A schedule of calls: results, each with `len` after the call. -/
def NodeIterOps.run (o : NodeIterOps I E C) : List Bool → InnerIter I →
    Option (List (Option E × Nat))
  | [], _ => some []
  | d :: ds, it =>
    match o.step d it with
    | none => none
    | some (it', r) => (o.run ds it').map (fun l => (r, it'.len) :: l)

/-- A `for` loop over the iterator: call `next` until it returns `None`. -/
def NodeIterOps.drain (o : NodeIterOps I E C) : Nat → InnerIter I → Option (List E)
  | 0, _ => none
  | fuel + 1, it =>
    match o.next it with
    | none => none
    | some (_, none) => some []
    | some (it', some e) => (o.drain fuel it').map (fun l => e :: l)

/-! ### `BorrowedNodeIter` -/

/-- btree.rs:1246-1251 `BorrowedNodeIter`; the two slice iterators are the lists of what they
have not yielded. -/
structure NIter (E : Type v) (C : Type w) where
  elems : List E
  kids : List C
  lf : Bool
  rt : Bool

/-- btree.rs:1253-1310 `impl NodeIter for BorrowedNodeIter` and `new` (1312-1325). -/
def borrowedOps (elemsOf : C → List E) (kidsOf : C → List C) (ht : C → Nat) :
    NodeIterOps (NIter E C) E C where
  isEmpty e := e.elems.isEmpty && e.kids.isEmpty
  nextElem e :=
    if e.lf then none
    else some (⟨e.elems.tail, e.kids, !e.kids.isEmpty, e.rt⟩, e.elems.head?)
  nextBackElem e :=
    if e.rt then none
    else some (⟨e.elems.dropLast, e.kids, e.lf, !e.kids.isEmpty⟩, e.elems.getLast?)
  nextKid e :=
    if e.kids.isEmpty || e.lf then some (⟨e.elems, e.kids.tail, false, e.rt⟩, e.kids.head?)
    else none
  nextBackKid e :=
    if e.kids.isEmpty || e.rt then
      some (⟨e.elems, e.kids.dropLast, e.lf, false⟩, e.kids.getLast?)
    else none
  needsLf e := e.lf
  needsRt e := e.rt
  make c := ⟨elemsOf c, kidsOf c, !(kidsOf c).isEmpty, !(kidsOf c).isEmpty⟩
  fuel e := (e.kids.map ht).foldr max 0 + 1

/-! ### Simulation -/

variable {J : Type x} {D : Type y}

/-- `view` maps the node iterators `o` to `o'`, preserving every method. -/
structure Sim (o : NodeIterOps I E C) (o' : NodeIterOps J E D) (inv : I → Prop)
    (view : I → J) (vc : C → D) : Prop where
  isEmpty : ∀ i, inv i → o'.isEmpty (view i) = o.isEmpty i
  nextElem : ∀ i, inv i → o'.nextElem (view i) = (o.nextElem i).map (fun r => (view r.1, r.2))
  nextElem_inv : ∀ i, inv i → ∀ r, o.nextElem i = some r → inv r.1
  nextBackElem : ∀ i, inv i →
    o'.nextBackElem (view i) = (o.nextBackElem i).map (fun r => (view r.1, r.2))
  nextBackElem_inv : ∀ i, inv i → ∀ r, o.nextBackElem i = some r → inv r.1
  nextKid : ∀ i, inv i → o'.nextKid (view i) = (o.nextKid i).map (fun r => (view r.1, r.2.map vc))
  nextKid_inv : ∀ i, inv i → ∀ r, o.nextKid i = some r → inv r.1
  nextBackKid : ∀ i, inv i →
    o'.nextBackKid (view i) = (o.nextBackKid i).map (fun r => (view r.1, r.2.map vc))
  nextBackKid_inv : ∀ i, inv i → ∀ r, o.nextBackKid i = some r → inv r.1
  needsLf : ∀ i, inv i → o'.needsLf (view i) = o.needsLf i
  needsRt : ∀ i, inv i → o'.needsRt (view i) = o.needsRt i
  make : ∀ c, o'.make (vc c) = view (o.make c)
  make_inv : ∀ c, inv (o.make c)
  fuel : ∀ i, inv i → o'.fuel (view i) = o.fuel i

/-- The iterator seen through `view`. -/
def InnerIter.map (view : I → J) (it : InnerIter I) : InnerIter J := ⟨it.work.map view, it.len⟩

namespace Sim
variable {o : NodeIterOps I E C} {o' : NodeIterOps J E D} {inv : I → Prop} {view : I → J}
  {vc : C → D}

theorem mirror (s : Sim o o' inv view vc) : Sim o.mirror o'.mirror inv view vc :=
  ⟨s.isEmpty, s.nextBackElem, s.nextBackElem_inv, s.nextElem, s.nextElem_inv, s.nextBackKid,
    s.nextBackKid_inv, s.nextKid, s.nextKid_inv, s.needsRt, s.needsLf, s.make, s.make_inv, s.fuel⟩

theorem keep (s : Sim o o' inv view vc) {i : I} (hi : inv i) (rest : List I) :
    o'.keep (view i) (rest.map view) = (o.keep i rest).map view := by
  simp only [NodeIterOps.keep, s.isEmpty i hi]; split <;> simp

theorem keep_inv {i : I} (hi : inv i) {rest : List I} (hr : ∀ x ∈ rest, inv x) :
    ∀ x ∈ o.keep i rest, inv x := by
  intro x hx
  simp only [NodeIterOps.keep] at hx
  split at hx
  · exact hr x hx
  · rcases List.mem_cons.1 hx with rfl | hx
    · exact hi
    · exact hr x hx

theorem descend (s : Sim o o' inv view vc) : ∀ (n : Nat) (i : I) (rest : List I), inv i →
    (∀ x ∈ rest, inv x) →
    o'.descend n (view i) (rest.map view) =
        (o.descend n i rest).map (fun r => (view r.1, r.2.map view)) ∧
      ∀ r, o.descend n i rest = some r → inv r.1 ∧ ∀ x ∈ r.2, inv x := by
  intro n
  induction n with
  | zero => intro i rest _ _; exact ⟨rfl, by simp [NodeIterOps.descend]⟩
  | succ n ih =>
    intro i rest hi hr
    have h1 := s.nextKid i hi
    have h2 := s.nextKid_inv i hi
    simp only [NodeIterOps.descend, h1]
    cases hk : o.nextKid i with
    | none => simp
    | some r =>
      obtain ⟨i', r⟩ := r
      have hi' := h2 _ hk
      cases r with
      | none => simpa using ⟨hi', hr⟩
      | some c =>
        simp only [Option.map_some]
        rw [s.make, s.keep hi']
        exact ih _ _ (s.make_inv c) (keep_inv hi' hr)

theorem yieldElem (s : Sim o o' inv view vc) (len : Nat) {i : I} {rest : List I} (hi : inv i)
    (hr : ∀ x ∈ rest, inv x) :
    o'.yieldElem len (view i) (rest.map view) =
        (o.yieldElem len i rest).map (fun r => (r.1.map view, r.2)) ∧
      ∀ r, o.yieldElem len i rest = some r → ∀ x ∈ r.1.work, inv x := by
  have h1 := s.nextElem i hi
  have h2 := s.nextElem_inv i hi
  simp only [NodeIterOps.yieldElem, h1]
  cases hk : o.nextElem i with
  | none => simp
  | some r =>
    obtain ⟨i', r⟩ := r
    have hi' := h2 _ hk
    cases r with
    | none => simp
    | some e =>
      simp only [Option.map_some]
      split
      · simp
      · simp only [Option.map_some, InnerIter.map, s.keep hi', Option.some.injEq]
        refine ⟨trivial, ?_⟩
        rintro _ rfl
        exact keep_inv hi' hr

theorem next (s : Sim o o' inv view vc) (it : InnerIter I) (h : ∀ x ∈ it.work, inv x) :
    o'.next (it.map view) = (o.next it).map (fun r => (r.1.map view, r.2)) ∧
      ∀ r, o.next it = some r → ∀ x ∈ r.1.work, inv x := by
  obtain ⟨work, len⟩ := it
  cases work with
  | nil =>
    simp only [InnerIter.map, NodeIterOps.next, List.map_nil, Option.map_some]
    exact ⟨trivial, by rintro r hr; cases hr; simp⟩
  | cons i rest =>
    have hi : inv i := h i (by simp)
    have hr : ∀ x ∈ rest, inv x := fun x hx => h x (by simp [hx])
    simp only [InnerIter.map, NodeIterOps.next, List.map_cons, s.needsLf i hi, s.fuel i hi]
    split
    · obtain ⟨h1, h2⟩ := s.descend (o.fuel i) i rest hi hr
      rw [h1]
      cases hd : o.descend (o.fuel i) i rest with
      | none => simp
      | some r =>
        obtain ⟨i', rest'⟩ := r
        obtain ⟨h3, h4⟩ := h2 _ hd
        exact s.yieldElem len h3 h4
    · exact s.yieldElem len hi hr

theorem nextBack (s : Sim o o' inv view vc) (it : InnerIter I) (h : ∀ x ∈ it.work, inv x) :
    o'.nextBack (it.map view) = (o.nextBack it).map (fun r => (r.1.map view, r.2)) ∧
      ∀ r, o.nextBack it = some r → ∀ x ∈ r.1.work, inv x := by
  have := s.mirror.next it.rev (by simpa [InnerIter.rev] using h)
  have e : (it.map view).rev = it.rev.map view := by simp [InnerIter.rev, InnerIter.map]
  simp only [NodeIterOps.nextBack, e, this.1]
  cases hn : o.mirror.next it.rev with
  | none => simp
  | some r =>
    refine ⟨by simp [InnerIter.rev, InnerIter.map], ?_⟩
    rintro _ hr
    cases hr
    simpa [InnerIter.rev] using this.2 _ hn

theorem run (s : Sim o o' inv view vc) (ds : List Bool) (it : InnerIter I)
    (h : ∀ x ∈ it.work, inv x) : o'.run ds (it.map view) = o.run ds it := by
  induction ds generalizing it with
  | nil => rfl
  | cons d ds ih =>
    have hs : o'.step d (it.map view) = (o.step d it).map (fun r => (r.1.map view, r.2)) ∧
      ∀ r, o.step d it = some r → ∀ x ∈ r.1.work, inv x := by
      cases d
      · exact s.nextBack it h
      · exact s.next it h
    simp only [NodeIterOps.run, hs.1]
    cases hn : o.step d it with
    | none => rfl
    | some r =>
      simp only [Option.map_some]
      rw [ih r.1 (hs.2 _ hn)]; rfl

theorem drain (s : Sim o o' inv view vc) (n : Nat) (it : InnerIter I)
    (h : ∀ x ∈ it.work, inv x) : o'.drain n (it.map view) = o.drain n it := by
  induction n generalizing it with
  | zero => rfl
  | succ n ih =>
    have hs := s.next it h
    simp only [NodeIterOps.drain, hs.1]
    cases hn : o.next it with
    | none => rfl
    | some r =>
      obtain ⟨it', r⟩ := r
      cases r with
      | none => rfl
      | some e => simp only [Option.map_some]; rw [ih it' (hs.2 _ hn)]

end Sim

/-! ### Contents of a node iterator -/

section contents
variable (cont : C → List E)

/-- Children and elements interleaved, a child first. -/
def ilv : List C → List E → List E
  | [], es => es
  | c :: ks, [] => cont c ++ ilv ks []
  | c :: ks, e :: es => cont c ++ e :: ilv ks es

/-- Elements and children interleaved, an element first. -/
def ilvE : List E → List C → List E
  | [], ks => ilv cont ks []
  | e :: es, ks => e :: ilv cont ks es

variable {cont}

@[simp] theorem ilv_nil (es : List E) : ilv cont [] es = es := by cases es <;> rfl
theorem ilv_cons (c : C) (ks es) : ilv cont (c :: ks) es = cont c ++ ilvE cont es ks := by
  cases es <;> simp [ilv, ilvE]
@[simp] theorem ilvE_cons (e : E) (es) (ks : List C) :
    ilvE cont (e :: es) ks = e :: ilv cont ks es := rfl
@[simp] theorem ilvE_nil (es : List E) : ilvE cont es [] = es := by cases es <;> simp [ilvE]

theorem ilv_append {ks1 ks2 : List C} {es1 es2 : List E} (h : ks1.length = es1.length) :
    ilv cont (ks1 ++ ks2) (es1 ++ es2) = ilv cont ks1 es1 ++ ilv cont ks2 es2 := by
  induction ks1 generalizing es1 with
  | nil => cases es1 <;> simp_all
  | cons c ks1 ih =>
    cases es1 with
    | nil => simp at h
    | cons e es1 =>
      simp only [List.length_cons, Nat.add_right_cancel_iff] at h
      simp [ilv_cons, ih h]

theorem ilvE_append {ks1 ks2 : List C} {es1 es2 : List E} (h : ks1.length = es1.length) :
    ilvE cont (es1 ++ es2) (ks1 ++ ks2) = ilvE cont es1 ks1 ++ ilvE cont es2 ks2 := by
  induction es1 generalizing ks1 with
  | nil => cases ks1 <;> simp_all
  | cons e es1 ih =>
    cases ks1 with
    | nil => simp at h
    | cons c ks1 =>
      simp only [List.length_cons, Nat.add_right_cancel_iff] at h
      simp [ilv_cons, ih h]

theorem ilv_reverse_aux : ∀ {ks : List C} {es : List E},
    (ks.length = es.length + 1 →
      (ilv cont ks es).reverse = ilv (fun c => (cont c).reverse) ks.reverse es.reverse) ∧
    (ks.length = es.length →
      (ilv cont ks es).reverse = ilvE (fun c => (cont c).reverse) es.reverse ks.reverse) := by
  intro ks
  induction ks with
  | nil =>
    intro es
    refine ⟨by simp, ?_⟩
    intro h
    have : es = [] := List.length_eq_zero_iff.1 (by simpa using h.symm)
    subst this; simp
  | cons c ks ih =>
    intro es
    cases es with
    | nil =>
      refine ⟨?_, by simp⟩
      intro h
      have : ks = [] := List.length_eq_zero_iff.1 (by simpa using h)
      subst this
      simp [ilv_cons]
    | cons e es =>
      refine ⟨?_, ?_⟩
      · intro h
        have := (@ih es).1 (by simpa using h)
        simp only [ilv_cons, ilvE_cons, List.reverse_append, List.reverse_cons, this]
        have h2 : ks.reverse.length = es.reverse.length + 1 := by simpa using h
        obtain ⟨d, ks', e1⟩ := List.exists_cons_of_length_pos (by omega : 0 < ks.reverse.length)
        rw [e1] at h2 ⊢
        simp only [List.length_cons, Nat.add_right_cancel_iff] at h2
        rw [List.cons_append, ilv_cons, ilv_cons, ilvE_append h2]
        simp [ilv_cons]
      · intro h
        have := (@ih es).2 (by simpa using h)
        simp only [ilv_cons, ilvE_cons, List.reverse_append, List.reverse_cons, this]
        rw [ilvE_append (by simpa using h)]
        simp [ilv_cons]

theorem ilvE_reverse {ks : List C} {es : List E} (h : ks.length = es.length) :
    (ilvE cont es ks).reverse = ilv (fun c => (cont c).reverse) ks.reverse es.reverse := by
  have := (ilv_reverse_aux (cont := fun c => (cont c).reverse) (ks := ks.reverse)
    (es := es.reverse)).2 (by simpa using h)
  simp only [List.reverse_reverse] at this
  rw [← this, List.reverse_reverse]

theorem ilvE_reverse' {ks : List C} {es : List E} (h : ks.length + 1 = es.length) :
    (ilvE cont es ks).reverse = ilvE (fun c => (cont c).reverse) es.reverse ks.reverse := by
  cases es with
  | nil => simp at h
  | cons e es =>
    have h : ks.length = es.length := by simpa using h
    rw [ilvE_cons, List.reverse_cons, (ilv_reverse_aux).2 h, List.reverse_cons]
    have := ilvE_append (cont := fun c => (cont c).reverse) (ks1 := ks.reverse) (ks2 := [])
      (es1 := es.reverse) (es2 := [e]) (by simpa using h)
    simpa using this.symm

variable (cont)

/-- What a node iterator has still to yield (including its children). -/
def NIter.items (e : NIter E C) : List E :=
  if e.lf then ilv cont e.kids e.elems else ilvE cont e.elems e.kids

/-- What a deque of node iterators has still to yield. -/
def witems (w : List (NIter E C)) : List E := w.flatMap (NIter.items cont)

variable {cont}

@[simp] theorem witems_nil : witems cont ([] : List (NIter E C)) = [] := rfl
@[simp] theorem witems_cons (e : NIter E C) (w) :
    witems cont (e :: w) = e.items cont ++ witems cont w := rfl

/-- Well-shaped node iterator.  `full = false` is the weaker condition under which forward
iteration works. -/
def NIter.Ok (full : Bool) (ok : C → Prop) (e : NIter E C) : Prop :=
  (∀ c ∈ e.kids, ok c) ∧
  ((e.kids = [] ∧ e.elems ≠ []) ∨
   (e.kids ≠ [] ∧ ∃ rt' : Bool, e.kids.length + 1 = e.elems.length + e.lf.toNat + rt'.toNat ∧
      (full = true → rt' = e.rt)))

/-- What `next` needs to know about nodes. -/
structure NodeSpec (full : Bool) (elemsOf : C → List E) (kidsOf : C → List C) (ht : C → Nat)
    (cont : C → List E) (ok : C → Prop) : Prop where
  ne : ∀ c, ok c → elemsOf c ≠ []
  len : ∀ c, ok c → kidsOf c = [] ∨ (kidsOf c).length = (elemsOf c).length + 1 ∨
    (full = false ∧ (kidsOf c).length = (elemsOf c).length)
  kid : ∀ c, ok c → ∀ d ∈ kidsOf c, ok d ∧ ht d < ht c
  ht_pos : ∀ c, ok c → 0 < ht c
  cont_eq : ∀ c, ok c → cont c = ilv cont (kidsOf c) (elemsOf c)

variable {full : Bool} {elemsOf : C → List E} {kidsOf : C → List C} {ht : C → Nat} {ok : C → Prop}

theorem NodeSpec.make_ok (s : NodeSpec full elemsOf kidsOf ht cont ok) {c : C} (h : ok c) :
    ((borrowedOps elemsOf kidsOf ht).make c).Ok full ok ∧
      ((borrowedOps elemsOf kidsOf ht).make c).items cont = cont c ∧
      (((borrowedOps elemsOf kidsOf ht).make c).lf = true ∨
        ((borrowedOps elemsOf kidsOf ht).make c).kids = []) := by
  simp only [borrowedOps, NIter.Ok, NIter.items]
  by_cases hk : kidsOf c = []
  · simp only [hk, List.isEmpty_nil, Bool.not_true, Bool.false_eq_true, if_false, ilvE_nil]
    refine ⟨⟨by simp, Or.inl ⟨trivial, s.ne c h⟩⟩, ?_, by simp⟩
    rw [s.cont_eq c h, hk]; simp
  · have he : (kidsOf c).isEmpty = false := by simpa using hk
    simp only [he, Bool.not_false, if_true]
    refine ⟨⟨fun d hd => (s.kid c h d hd).1, Or.inr ⟨hk, ?_⟩⟩, (s.cont_eq c h).symm, by simp⟩
    rcases s.len c h with h1 | h1 | ⟨h0, h1⟩
    · exact absurd h1 hk
    · exact ⟨true, by simp [h1], fun _ => rfl⟩
    · exact ⟨false, by simp [h1], by simp [h0]⟩

theorem keep_ok {o : NodeIterOps (NIter E C) E C}
    (ho : ∀ e, o.isEmpty e = (e.elems.isEmpty && e.kids.isEmpty))
    {e : NIter E C} {rest : List (NIter E C)} (hr : ∀ x ∈ rest, x.Ok full ok)
    (he : (e.elems = [] ∧ e.kids = []) ∨ e.Ok full ok) :
    (∀ x ∈ o.keep e rest, x.Ok full ok) ∧
      witems cont (o.keep e rest) = e.items cont ++ witems cont rest := by
  simp only [NodeIterOps.keep, ho]
  by_cases hb : e.elems = [] ∧ e.kids = []
  · have : (e.elems.isEmpty && e.kids.isEmpty) = true := by simp [hb.1, hb.2]
    rw [if_pos this]
    refine ⟨hr, ?_⟩
    simp [NIter.items, hb.1, hb.2]
  · have : ¬ (e.elems.isEmpty && e.kids.isEmpty) = true := by
      intro hh; apply hb; simpa using hh
    rw [if_neg this]
    refine ⟨?_, by simp⟩
    intro x hx
    rcases List.mem_cons.1 hx with rfl | hx
    · exact he.resolve_left hb
    · exact hr x hx

theorem foldr_max_lt {l : List Nat} {n x : Nat} (h : l.foldr max 0 < n) (hx : x ∈ l) : x < n := by
  induction l with
  | nil => simp at hx
  | cons a l ih =>
    simp only [List.foldr_cons] at h
    rcases List.mem_cons.1 hx with rfl | hx
    · omega
    · exact ih (by omega) hx

theorem foldr_max_lt' {l : List Nat} {n : Nat} (hn : 0 < n) (h : ∀ x ∈ l, x < n) :
    l.foldr max 0 < n := by
  induction l with
  | nil => simpa
  | cons a l ih =>
    simp only [List.foldr_cons]
    have := h a (by simp)
    have := ih (fun x hx => h x (by simp [hx]))
    omega

theorem NodeSpec.descend (s : NodeSpec full elemsOf kidsOf ht cont ok) :
    ∀ (n : Nat) (e : NIter E C) (rest : List (NIter E C)), e.Ok full ok →
      (∀ x ∈ rest, x.Ok full ok) → (e.lf = true ∨ e.kids = []) →
      (e.kids.map ht).foldr max 0 < n →
      ∃ e' rest', (borrowedOps elemsOf kidsOf ht).descend n e rest = some (e', rest') ∧
        e'.Ok full ok ∧ (∀ x ∈ rest', x.Ok full ok) ∧ e'.lf = false ∧ e'.kids = [] ∧
        e'.items cont ++ witems cont rest' = e.items cont ++ witems cont rest := by
  intro n
  induction n with
  | zero => intro e rest _ _ _ h; omega
  | succ n ih =>
    intro e rest he hr hl hf
    obtain ⟨es, ks, lf, rt⟩ := e
    simp only at hl hf
    have hcond : (ks.isEmpty || lf) = true := by
      rcases hl with hl | hl <;> simp [hl]
    simp only [NodeIterOps.descend]
    have e1 : (borrowedOps elemsOf kidsOf ht).nextKid ⟨es, ks, lf, rt⟩ =
        some (⟨es, ks.tail, false, rt⟩, ks.head?) := by
      simp only [borrowedOps, hcond, if_true]
    rw [e1]
    obtain ⟨hko, hsh⟩ := he
    simp only at hko hsh
    cases ks with
    | nil =>
      refine ⟨⟨es, [], false, rt⟩, rest, rfl, ⟨by simp, ?_⟩, hr, rfl, rfl, ?_⟩
      · exact Or.inl ⟨rfl, by simpa using hsh⟩
      · simp [NIter.items]
    | cons c ks =>
      have hlf : lf = true := by simpa using hl
      subst hlf
      have hsh : ∃ rt' : Bool, ks.length + 1 = es.length + rt'.toNat ∧
          (full = true → rt' = rt) := by
        rcases hsh with ⟨h, -⟩ | ⟨-, rt', h1, h2⟩
        · simp at h
        · exact ⟨rt', by simp at h1; omega, h2⟩
      obtain ⟨rt', h1, h2⟩ := hsh
      have hok : ok c := hko c (by simp)
      obtain ⟨m1, m2, m3⟩ := s.make_ok hok
      simp only [List.head?_cons, List.tail_cons]
      have hkeep := keep_ok (cont := cont) (o := borrowedOps elemsOf kidsOf ht) (fun _ => rfl)
        (e := ⟨es, ks, false, rt⟩) hr (by
          by_cases hk : ks = []
          · subst hk
            simp only [List.length_nil] at h1
            by_cases he : es = []
            · exact Or.inl ⟨he, rfl⟩
            · exact Or.inr ⟨by simp, Or.inl ⟨rfl, he⟩⟩
          · exact Or.inr ⟨fun d hd => hko d (by simp [hd]), Or.inr ⟨hk, rt', by simpa using h1, h2⟩⟩)
      have hlt : ht c < n + 1 := foldr_max_lt hf (by simp)
      obtain ⟨e', rest', d1, d2, d3, d4, d5, d6⟩ := ih _ _ m1 hkeep.1 m3 (by
        show ((kidsOf c).map ht).foldr max 0 < n
        have := s.ht_pos c hok
        apply foldr_max_lt' (by omega)
        intro x hx
        simp only [List.mem_map] at hx
        obtain ⟨d, hd, rfl⟩ := hx
        have := (s.kid c hok d hd).2
        omega)
      refine ⟨e', rest', d1, d2, d3, d4, d5, ?_⟩
      rw [d6, hkeep.2, m2]
      simp [NIter.items, ilv_cons]

theorem NodeSpec.yieldElem (_s : NodeSpec full elemsOf kidsOf ht cont ok) {e : NIter E C}
    {rest : List (NIter E C)} (he : e.Ok full ok) (hr : ∀ x ∈ rest, x.Ok full ok)
    (hlf : e.lf = false) {len : Nat} (hlen : (e.items cont ++ witems cont rest).length ≤ len) :
    ∃ x it', (borrowedOps elemsOf kidsOf ht).yieldElem len e rest = some (it', some x) ∧
      (∀ x ∈ it'.work, x.Ok full ok) ∧ it'.len + 1 = len ∧
      e.items cont ++ witems cont rest = x :: witems cont it'.work := by
  obtain ⟨es, ks, lf, rt⟩ := e
  simp only at hlf
  subst hlf
  obtain ⟨hko, hsh⟩ := he
  simp only at hko hsh
  cases es with
  | nil =>
    exfalso
    rcases hsh with ⟨-, h⟩ | ⟨h0, rt', h1, -⟩
    · exact h rfl
    · cases ks with
      | nil => exact h0 rfl
      | cons c ks => cases rt' <;> simp at h1
  | cons x es =>
    have hl0 : len ≠ 0 := by intro h; subst h; simp [NIter.items] at hlen
    have hkeep := keep_ok (cont := cont) (o := borrowedOps elemsOf kidsOf ht) (fun _ => rfl)
      (e := ⟨es, ks, !ks.isEmpty, rt⟩) hr (full := full) (ok := ok) (by
        by_cases hk : ks = []
        · subst hk
          by_cases he : es = []
          · exact Or.inl ⟨he, rfl⟩
          · exact Or.inr ⟨by simp, Or.inl ⟨rfl, he⟩⟩
        · rcases hsh with ⟨h, -⟩ | ⟨-, rt', h1, h2⟩
          · exact absurd h hk
          · have : ks.isEmpty = false := by simpa using hk
            exact Or.inr ⟨hko, Or.inr ⟨hk, rt', by simp [this] at h1 ⊢; omega, h2⟩⟩)
    have e1 : (borrowedOps elemsOf kidsOf ht).nextElem ⟨x :: es, ks, false, rt⟩ =
        some (⟨es, ks, !ks.isEmpty, rt⟩, some x) := rfl
    refine ⟨x, ⟨(borrowedOps elemsOf kidsOf ht).keep ⟨es, ks, !ks.isEmpty, rt⟩ rest, len - 1⟩, ?_,
      hkeep.1, by dsimp only; omega, ?_⟩
    · simp only [NodeIterOps.yieldElem, e1, hl0, if_false]
    · rw [hkeep.2]
      have : ilvE cont (x :: es) ks =
          x :: (NIter.items cont ⟨es, ks, !ks.isEmpty, rt⟩) := by
        cases ks <;> simp [NIter.items]
      have e2 : NIter.items cont ⟨x :: es, ks, false, rt⟩ = ilvE cont (x :: es) ks := rfl
      rw [e2, this]; simp

/-- `next` yields the first remaining element. -/
theorem NodeSpec.next (s : NodeSpec full elemsOf kidsOf ht cont ok) {it : InnerIter (NIter E C)}
    (h : ∀ x ∈ it.work, x.Ok full ok) (hlen : (witems cont it.work).length ≤ it.len) :
    ∃ it', (borrowedOps elemsOf kidsOf ht).next it = some (it', (witems cont it.work).head?) ∧
      (∀ x ∈ it'.work, x.Ok full ok) ∧ witems cont it'.work = (witems cont it.work).tail ∧
      it'.len + (witems cont it.work).length = it.len + (witems cont it'.work).length := by
  obtain ⟨work, len⟩ := it
  cases work with
  | nil => exact ⟨_, rfl, by simp, by simp, by simp⟩
  | cons e rest =>
    have he : e.Ok full ok := h e (by simp)
    have hr : ∀ x ∈ rest, x.Ok full ok := fun x hx => h x (by simp [hx])
    simp only [witems_cons] at hlen ⊢
    simp only [NodeIterOps.next]
    by_cases hlf : e.lf = true
    · have e0 : (borrowedOps elemsOf kidsOf ht).needsLf e = true := hlf
      obtain ⟨e', rest', d1, d2, d3, d4, d5, d6⟩ := s.descend
        ((borrowedOps elemsOf kidsOf ht).fuel e) e rest he hr (Or.inl hlf)
        (by simp [borrowedOps])
      rw [if_pos e0, d1]
      dsimp only
      rw [← d6] at hlen ⊢
      obtain ⟨x, it', y1, y2, y3, y4⟩ := s.yieldElem d2 d3 d4 hlen
      rw [y1, y4]
      exact ⟨it', rfl, y2, rfl, by simp; omega⟩
    · have e0 : ¬ (borrowedOps elemsOf kidsOf ht).needsLf e = true := hlf
      rw [if_neg e0]
      obtain ⟨x, it', y1, y2, y3, y4⟩ := s.yieldElem he hr (by simpa using hlf) hlen
      rw [y1, y4]
      exact ⟨it', rfl, y2, rfl, by simp; omega⟩

/-! ### The other end, by symmetry -/

/-- A node iterator read from the right. -/
def NIter.flip (e : NIter E C) : NIter E C := ⟨e.elems.reverse, e.kids.reverse, e.rt, e.lf⟩

@[simp] theorem NIter.flip_flip (e : NIter E C) : e.flip.flip = e := by
  obtain ⟨a, b, c, d⟩ := e; simp [NIter.flip]

theorem mirror_sim (elemsOf : C → List E) (kidsOf : C → List C) (ht : C → Nat) :
    Sim (borrowedOps elemsOf kidsOf ht).mirror
      (borrowedOps (fun c => (elemsOf c).reverse) (fun c => (kidsOf c).reverse) ht)
      (fun _ => True) NIter.flip id where
  isEmpty e _ := by simp [borrowedOps, NodeIterOps.mirror, NIter.flip]
  nextElem e _ := by
    simp only [borrowedOps, NodeIterOps.mirror, NIter.flip]
    split <;> simp [NIter.flip]
  nextElem_inv := by simp
  nextBackElem e _ := by
    simp only [borrowedOps, NodeIterOps.mirror, NIter.flip]
    split <;> simp [NIter.flip]
  nextBackElem_inv := by simp
  nextKid e _ := by
    simp only [borrowedOps, NodeIterOps.mirror, NIter.flip, List.isEmpty_reverse]
    split <;> simp [NIter.flip]
  nextKid_inv := by simp
  nextBackKid e _ := by
    simp only [borrowedOps, NodeIterOps.mirror, NIter.flip, List.isEmpty_reverse]
    split <;> simp [NIter.flip]
  nextBackKid_inv := by simp
  needsLf e _ := rfl
  needsRt e _ := rfl
  make c := by simp [borrowedOps, NodeIterOps.mirror, NIter.flip]
  make_inv := by simp
  fuel e _ := by
    simp only [borrowedOps, NodeIterOps.mirror, NIter.flip, Nat.add_right_cancel_iff]
    rw [List.map_reverse]
    have : ∀ l : List Nat, l.reverse.foldr max 0 = l.foldr max 0 := by
      intro l
      induction l with
      | nil => rfl
      | cons a l ih =>
        rw [List.reverse_cons, List.foldr_append]
        simp only [List.foldr_cons, List.foldr_nil]
        have : ∀ (l : List Nat) (b : Nat), l.foldr max (max a b) = max a (l.foldr max b) := by
          intro l b
          induction l with
          | nil => rfl
          | cons c l ih2 => simp only [List.foldr_cons, ih2]; omega
        rw [this, ih]
    exact this _

theorem NodeSpec.flip (s : NodeSpec true elemsOf kidsOf ht cont ok) :
    NodeSpec true (fun c => (elemsOf c).reverse) (fun c => (kidsOf c).reverse) ht
      (fun c => (cont c).reverse) ok where
  ne c h := by simpa using s.ne c h
  len c h := by simpa using s.len c h
  kid c h := by simpa using s.kid c h
  ht_pos := s.ht_pos
  cont_eq c h := by
    rcases s.len c h with h1 | h1 | ⟨h1, -⟩
    · simp only [s.cont_eq c h, h1, List.reverse_nil, ilv_nil]
    · conv => lhs; rw [s.cont_eq c h]
      exact ilv_reverse_aux.1 h1
    · simp at h1

theorem NIter.Ok.flip {e : NIter E C} (h : e.Ok true ok) : e.flip.Ok true ok := by
  refine ⟨by simpa [NIter.flip] using h.1, ?_⟩
  rcases h.2 with ⟨h1, h2⟩ | ⟨h1, rt', h2, h3⟩
  · exact Or.inl ⟨by simp [NIter.flip, h1], by simpa [NIter.flip] using h2⟩
  · have := h3 rfl; subst this
    exact Or.inr ⟨by simpa [NIter.flip] using h1, e.lf, by simp [NIter.flip]; omega,
      fun _ => rfl⟩

theorem NIter.Ok.items_flip {e : NIter E C} (h : e.Ok true ok) :
    e.flip.items (fun c => (cont c).reverse) = (e.items cont).reverse := by
  obtain ⟨es, ks, lf, rt⟩ := e
  simp only [NIter.items, NIter.flip]
  rcases h.2 with ⟨h1, h2⟩ | ⟨h1, rt', h2, h3⟩
  · simp only at h1; subst h1; simp
  · have := h3 rfl; subst this
    simp only at h1 h2
    cases lf <;> cases rt' <;> simp at h2 ⊢
    · exact (ilvE_reverse' (by omega)).symm
    · exact (ilvE_reverse (by omega)).symm
    · exact (ilv_reverse_aux.2 (by omega)).symm
    · exact (ilv_reverse_aux.1 (by omega)).symm

theorem witems_flip {w : List (NIter E C)} (h : ∀ e ∈ w, e.Ok true ok) :
    witems (fun c => (cont c).reverse) (w.reverse.map NIter.flip) = (witems cont w).reverse := by
  induction w with
  | nil => rfl
  | cons e w ih =>
    have e1 := (h e (by simp)).items_flip (cont := cont)
    have e2 := ih (fun x hx => h x (by simp [hx]))
    simp only [witems] at e2 ⊢
    simp only [List.reverse_cons, List.map_append, List.map_cons, List.map_nil, List.flatMap_append,
      List.flatMap_cons, List.flatMap_nil, List.append_nil, e2, e1, List.reverse_append]

theorem NodeSpec.nextBack (s : NodeSpec true elemsOf kidsOf ht cont ok)
    {it : InnerIter (NIter E C)} (h : ∀ x ∈ it.work, x.Ok true ok)
    (hlen : (witems cont it.work).length ≤ it.len) :
    ∃ it', (borrowedOps elemsOf kidsOf ht).nextBack it =
        some (it', (witems cont it.work).getLast?) ∧
      (∀ x ∈ it'.work, x.Ok true ok) ∧ witems cont it'.work = (witems cont it.work).dropLast ∧
      it'.len + (witems cont it.work).length = it.len + (witems cont it'.work).length := by
  have hw := witems_flip (cont := cont) h
  have hok : ∀ x ∈ (it.rev.map NIter.flip).work, x.Ok true ok := by
    intro x hx
    simp only [InnerIter.map, InnerIter.rev, List.mem_map, List.mem_reverse] at hx
    obtain ⟨y, hy, rfl⟩ := hx
    exact (h y hy).flip
  obtain ⟨it2, n1, n2, n3, n4⟩ := s.flip.next hok (by
    simp only [InnerIter.map, InnerIter.rev] at hw ⊢; rw [hw]; simpa using hlen)
  have hsim := (mirror_sim elemsOf kidsOf ht).next it.rev (by simp)
  rw [n1] at hsim
  cases hn : (borrowedOps elemsOf kidsOf ht).mirror.next it.rev with
  | none => rw [hn] at hsim; simp at hsim
  | some r =>
    obtain ⟨it3, r⟩ := r
    rw [hn] at hsim
    simp only [Option.map_some, Option.some.injEq, Prod.mk.injEq] at hsim
    obtain ⟨⟨e1, e2⟩, -⟩ := hsim
    subst e1
    have hok3 : ∀ x ∈ it3.work, x.Ok true ok := by
      intro x hx
      have := n2 x.flip (by simp [InnerIter.map]; exact ⟨x, hx, rfl⟩)
      simpa using this.flip
    have hok3' : ∀ x ∈ it3.rev.work, x.Ok true ok := by simpa [InnerIter.rev] using hok3
    have hw3 := witems_flip (cont := cont) hok3'
    simp only [InnerIter.map, InnerIter.rev, List.reverse_reverse] at hw hw3 n3 n4 e2
    rw [hw, hw3] at n3
    rw [hw] at e2
    rw [hw, hw3] at n4
    refine ⟨it3.rev, ?_, hok3', ?_, ?_⟩
    · simp only [NodeIterOps.nextBack, hn, Option.map_some, ← e2, List.head?_reverse]
    · simp only [InnerIter.rev]
      have := congrArg List.reverse n3
      simpa using this
    · simpa [InnerIter.rev] using n4

theorem NodeSpec.step (s : NodeSpec true elemsOf kidsOf ht cont ok) (d : Bool)
    {it : InnerIter (NIter E C)} (h : ∀ x ∈ it.work, x.Ok true ok)
    (hlen : (witems cont it.work).length ≤ it.len) :
    ∃ it', (borrowedOps elemsOf kidsOf ht).step d it =
        some (it', (Spec.dequeStep d (witems cont it.work)).1) ∧
      (∀ x ∈ it'.work, x.Ok true ok) ∧
      witems cont it'.work = (Spec.dequeStep d (witems cont it.work)).2 ∧
      it'.len + (witems cont it.work).length = it.len + (witems cont it'.work).length := by
  cases d
  · exact s.nextBack h hlen
  · exact s.next h hlen

theorem dequeStep_length (d : Bool) {α : Type _} (l : List α) :
    (Spec.dequeStep d l).2.length ≤ l.length := by
  cases d <;> simp [Spec.dequeStep]

/-- Any schedule of calls behaves as on the list of elements. `slack` is the amount by which
`len` exceeds the number of elements left. -/
theorem NodeSpec.run (s : NodeSpec true elemsOf kidsOf ht cont ok) (ds : List Bool)
    {it : InnerIter (NIter E C)} (slack : Nat) (h : ∀ x ∈ it.work, x.Ok true ok)
    (hlen : it.len = (witems cont it.work).length + slack) :
    (borrowedOps elemsOf kidsOf ht).run ds it =
      some ((Spec.dequeRun ds (witems cont it.work)).map (fun r => (r.1, r.2 + slack))) := by
  induction ds generalizing it with
  | nil => rfl
  | cons d ds ih =>
    obtain ⟨it', h1, h2, h3, h4⟩ := s.step d h (by omega)
    have hl : it'.len = (witems cont it'.work).length + slack := by
      rw [hlen] at h4; omega
    simp only [NodeIterOps.run, h1, ih h2 hl, Option.map_some, Spec.dequeRun, List.map_cons, hl, h3]

/-- A `for` loop sees every element, in order. -/
theorem NodeSpec.drain (s : NodeSpec full elemsOf kidsOf ht cont ok) (n : Nat)
    {it : InnerIter (NIter E C)} (h : ∀ x ∈ it.work, x.Ok full ok)
    (hlen : (witems cont it.work).length ≤ it.len) (hn : (witems cont it.work).length < n) :
    (borrowedOps elemsOf kidsOf ht).drain n it = some (witems cont it.work) := by
  induction n generalizing it with
  | zero => omega
  | succ n ih =>
    obtain ⟨it', h1, h2, h3, h4⟩ := s.next h hlen
    simp only [NodeIterOps.drain, h1]
    cases hw : witems cont it.work with
    | nil => rfl
    | cons x xs =>
      rw [hw] at h3 h4 hn
      simp only [List.tail_cons, List.length_cons] at h3 h4 hn
      rw [h3] at h4
      simp only [List.head?_cons]
      rw [ih h2 (by rw [h3]; rw [hw, List.length_cons] at hlen; omega) (by rw [h3]; omega), h3]
      rfl

end contents
end Verif.BTree
