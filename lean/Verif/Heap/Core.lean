import Mathlib.Data.Multiset.Count
import Mathlib.Algebra.Order.Group.Multiset
/-!
# Reference-counted memory

What `Rc<Node>`/`Arc<Node>` are for the collections of the crate: a heap of nodes with reference
counts.  A node has some plain data and a list of links (`Option<Arc<Node>>` or `Arc<Node>`) to
other nodes.

* stack.rs:6-12: data = the element, one link.
* avl.rs:16, 63-71: data = key, value and heights, two links.
* btree.rs:25-40: data = the elements, any number of links.

Programs are sequences of the atomic steps `Op`, with the plan of `Arc`'s documented operations.
Simplifications: weak counts are absent (the crate uses none); an address is never reused;
memory ordering of the atomics is ignored; `Clone` of data returns an equal value.  A step is
*stuck* (`none`) on undefined behaviour: access to a node not allocated, or writing to a node
that is shared.
-/
namespace Verif.Heap

/-- A node in memory. -/
structure Node (P : Type) where
  data : P
  kids : List (Option Nat)

/-- A node with its strong count (`RcBox`, `ArcInner`). -/
structure Cell (P : Type) where
  rc : Nat
  node : Node P

/-- Memory: the cells allocated; addresses from `next` on have not been used yet. -/
structure Mem (P : Type) where
  cells : Nat → Option (Cell P)
  next : Nat

variable {P : Type}

namespace Mem

/-- Memory with nothing allocated. -/
def empty : Mem P := ⟨fun _ => none, 0⟩

/-- Replace what is at `a`. -/
def put (h : Mem P) (a : Nat) (c : Option (Cell P)) : Mem P :=
  { h with cells := fun b => if b = a then c else h.cells b }

/-- Follow the links with the indices given: what a `&Node` borrowed through a handle denotes. -/
def walk (h : Mem P) : Nat → List Nat → Option (Cell P)
  | a, [] => h.cells a
  | a, i :: is =>
    match h.cells a with
    | none => none
    | some c =>
      match c.node.kids[i]? with
      | some (some b) => walk h b is
      | _ => none

/-- The address of the node reached by following the links with the indices given. -/
def addr (h : Mem P) : Nat → List Nat → Option Nat
  | a, [] => some a
  | a, i :: is =>
    match h.cells a with
    | none => none
    | some c =>
      match c.node.kids[i]? with
      | some (some b) => addr h b is
      | _ => none

end Mem

/-- The atomic steps.

* `alloc n`: `Arc::new(n)`; the links in `n` move into the node.
* `read a path`: read through a shared reference reached from the handle `a`.
* `incAt a path i`: `Arc::clone` of a link in a node reached from the handle `a`.
* `inc a`: `Arc::clone` of a handle.
* `isUnique a`: the test for sole ownership in `Arc::get_mut`, `Arc::make_mut`.
* `dec a`: dropping a handle; if it was the last one the node is freed and its contents returned
  (to be dropped, too).
* `tryUnwrap a`: `Arc::try_unwrap`; `none` = `Err`, the handle is still ours.
* `open a`: move the contents out through a `&mut Node`; `close a n`: move contents back in.
  In between the node is exclusively borrowed, so nobody can see that its links are gone.
* `ptrEq a path b path'`: `Arc::ptr_eq` of the link (or handle) reached from `a` by `path` and the
  one reached from `b` by `path'`.  One step: what lies on the way to a borrowed link cannot change
  while it is borrowed. -/
inductive Op (P : Type) where
  | alloc (n : Node P)
  | read (a : Nat) (path : List Nat)
  | incAt (a : Nat) (path : List Nat) (i : Nat)
  | inc (a : Nat)
  | isUnique (a : Nat)
  | dec (a : Nat)
  | tryUnwrap (a : Nat)
  | open (a : Nat)
  | close (a : Nat) (n : Node P)
  | ptrEq (a : Nat) (path : List Nat) (b : Nat) (path' : List Nat)

/-- What a step returns. -/
def Op.Resp : Op P → Type
  | .alloc _ => Nat
  | .read _ _ => Node P
  | .incAt _ _ _ => Option Nat
  | .inc _ => Unit
  | .isUnique _ => Bool
  | .dec _ => Option (Node P)
  | .tryUnwrap _ => Option (Node P)
  | .open _ => Node P
  | .close _ _ => Unit
  | .ptrEq _ _ _ _ => Bool

/-- What a step does; `none` is undefined behaviour. -/
def Op.step : (o : Op P) → Mem P → Option (Mem P × o.Resp)
  | .alloc n, h => some (⟨(h.put h.next (some ⟨1, n⟩)).cells, h.next + 1⟩, h.next)
  | .read a path, h => (h.walk a path).map (fun c => (h, c.node))
  | .incAt a path i, h =>
    match h.walk a path with
    | none => none
    | some c =>
      match c.node.kids[i]? with
      | none => none
      | some none => some (h, none)
      | some (some b) =>
        match h.cells b with
        | none => none
        | some d => some (h.put b (some { d with rc := d.rc + 1 }), some b)
  | .inc a, h =>
    match h.cells a with
    | none => none
    | some c => some (h.put a (some { c with rc := c.rc + 1 }), ())
  | .isUnique a, h =>
    match h.cells a with
    | none => none
    | some c => some (h, decide (c.rc = 1))
  | .dec a, h =>
    match h.cells a with
    | none => none
    | some c =>
      if c.rc = 1 then some (h.put a none, some c.node)
      else some (h.put a (some { c with rc := c.rc - 1 }), none)
  | .tryUnwrap a, h =>
    match h.cells a with
    | none => none
    | some c => if c.rc = 1 then some (h.put a none, some c.node) else some (h, none)
  | .open a, h =>
    match h.cells a with
    | none => none
    | some c =>
      if c.rc = 1 then some (h.put a (some ⟨1, ⟨c.node.data, []⟩⟩), c.node) else none
  | .close a n, h =>
    match h.cells a with
    | none => none
    | some c =>
      if c.rc = 1 ∧ c.node.kids = [] then some (h.put a (some ⟨1, n⟩), ()) else none
  | .ptrEq a path b path', h =>
    match h.addr a path, h.addr b path' with
    | some x, some y => some (h, decide (x = y))
    | _, _ => none

/-- A program: a tree of steps.  `panic` is a Rust panic (or running out of the recursion depth a
program was given). -/
inductive Prog (P : Type) (α : Type) : Type where
  | pure (x : α)
  | panic
  | op (o : Op P) (k : o.Resp → Prog P α)

namespace Prog
variable {α β : Type}

/-- Sequential composition. -/
def bind : Prog P α → (α → Prog P β) → Prog P β
  | .pure x, f => f x
  | .panic, _ => .panic
  | .op o k, f => .op o (fun r => bind (k r) f)

instance : Monad (Prog P) where
  pure := .pure
  bind := bind

/-- Run alone; `none` is undefined behaviour, `some (h, none)` is a panic. -/
def exec : Prog P α → Mem P → Option (Mem P × Option α)
  | .pure x, h => some (h, some x)
  | .panic, h => some (h, none)
  | .op o k, h =>
    match o.step h with
    | none => none
    | some (h', r) => exec (k r) h'

end Prog

/-! ## Values -/

/-- The value a link stands for: nothing, or data with the values of the node's links. -/
inductive VT (P : Type) where
  | nil
  | node (p : P) (kids : List (VT P))

/-- `Rep h r t`: in memory `h` the link `r` stands for the value `t`. -/
inductive Rep (h : Mem P) : Option Nat → VT P → Prop
  | nil : Rep h none .nil
  | node {a : Nat} {c : Cell P} {ts : List (VT P)} (hc : h.cells a = some c)
      (hl : ts.length = c.node.kids.length)
      (hk : ∀ i (h1 : i < c.node.kids.length) (h2 : i < ts.length), Rep h c.node.kids[i] ts[i]) :
      Rep h (some a) (.node c.node.data ts)

/-- A handle held by the program: the link, the value it stands for, and whether it is known to be
the only link to its node. -/
structure Handle (P : Type) where
  ref : Option Nat
  tree : VT P
  uniq : Bool

/-- How many of the handles refer to `a`. -/
def ext (L : Multiset (Handle P)) (a : Nat) : Nat := L.countP (fun e => e.ref = some a)

/-- Number of links to `a` in a cell. -/
def lc (c : Option (Cell P)) (a : Nat) : Nat :=
  match c with
  | none => 0
  | some c => c.node.kids.count (some a)

/-- `f 0 + … + f (n - 1)`. -/
def sumTo (f : Nat → Nat) : Nat → Nat
  | 0 => 0
  | n + 1 => sumTo f n + f n

/-- Number of links to `a` in all nodes. -/
def links (h : Mem P) (a : Nat) : Nat := sumTo (fun b => lc (h.cells b) a) h.next

/-- The invariant: `L` are all the handles there are, and in memory everything is in order. -/
structure Own (h : Mem P) (L : Multiset (Handle P)) : Prop where
  /-- Addresses not used yet are free. -/
  fin : ∀ a, h.next ≤ a → h.cells a = none
  /-- Counts are exact: handles plus links; a node with no reference has been freed. -/
  cnt : ∀ a, match h.cells a with
    | some c => c.rc = ext L a + links h a ∧ 0 < c.rc
    | none => ext L a + links h a = 0
  /-- Every node stands for a (finite) value: no cycles. -/
  val : ∀ a c, h.cells a = some c → ∃ t, Rep h (some a) t
  /-- The handles stand for the values stated. -/
  rep : ∀ e ∈ L, Rep h e.ref e.tree
  /-- Handles known to be sole ones are. -/
  uni : ∀ e ∈ L, e.uniq = true → ∃ a c, e.ref = some a ∧ h.cells a = some c ∧ c.rc = 1

/-! ## Lemmas on sums and counts -/

theorem sumTo_congr {f g : Nat → Nat} {n : Nat} (h : ∀ i < n, f i = g i) :
    sumTo f n = sumTo g n := by
  induction n with
  | zero => rfl
  | succ n ih =>
    rw [sumTo, sumTo, ih (fun i hi => h i (by omega)), h n (by omega)]

theorem sumTo_update {f g : Nat → Nat} {n b : Nat} (hb : b < n) (h : ∀ i, i ≠ b → g i = f i) :
    sumTo g n + f b = sumTo f n + g b := by
  induction n with
  | zero => omega
  | succ n ih =>
    simp only [sumTo]
    by_cases hn : b = n
    · subst hn
      rw [sumTo_congr (f := g) (g := f) (fun i hi => h i (by omega))]
      omega
    · have := ih (by omega)
      have := h n (fun h => hn h.symm)
      omega

theorem le_sumTo {f : Nat → Nat} {n b : Nat} (hb : b < n) : f b ≤ sumTo f n := by
  induction n with
  | zero => omega
  | succ n ih =>
    simp only [sumTo]
    by_cases hn : b = n
    · subst hn; omega
    · have := ih (by omega); omega

theorem sumTo_zero {f : Nat → Nat} {n : Nat} (h : ∀ i < n, f i = 0) : sumTo f n = 0 := by
  induction n with
  | zero => rfl
  | succ n ih => rw [sumTo, ih (fun i hi => h i (by omega)), h n (by omega)]

@[simp] theorem ext_zero (a : Nat) : ext (0 : Multiset (Handle P)) a = 0 := by simp [ext]
theorem ext_add (L M : Multiset (Handle P)) (a : Nat) : ext (L + M) a = ext L a + ext M a := by
  simp [ext, Multiset.countP_add]
theorem ext_singleton (e : Handle P) (a : Nat) :
    ext {e} a = if e.ref = some a then 1 else 0 := by
  rw [ext, ← Multiset.cons_zero, Multiset.countP_cons]; simp

theorem ext_pos {L : Multiset (Handle P)} {e : Handle P} {a : Nat} (he : e ∈ L)
    (hr : e.ref = some a) : 0 < ext L a := by
  rw [ext, Multiset.countP_pos]; exact ⟨e, he, hr⟩

/-- The handle `r` of value `t`; an empty link is no handle at all. -/
def own : Option Nat → VT P → Multiset (Handle P)
  | none, .nil => 0
  | r, t => {⟨r, t, false⟩}

/-- The handle `a`, known to be the sole one. -/
def uown (a : Nat) (t : VT P) : Multiset (Handle P) := {⟨some a, t, true⟩}

/-- Several handles. -/
def owns : List (Option Nat) → List (VT P) → Multiset (Handle P)
  | r :: rs, t :: ts => own r t + owns rs ts
  | _, _ => 0

@[simp] theorem own_nil : own none (.nil : VT P) = 0 := rfl
theorem own_some (a : Nat) (t : VT P) : own (some a) t = {⟨some a, t, false⟩} := rfl
@[simp] theorem owns_nil : owns [] ([] : List (VT P)) = 0 := rfl
@[simp] theorem owns_cons (r : Option Nat) (rs) (t : VT P) (ts) :
    owns (r :: rs) (t :: ts) = own r t + owns rs ts := rfl

theorem ext_own (r : Option Nat) (t : VT P) (a : Nat) :
    ext (own r t) a = if r = some a then 1 else 0 := by
  unfold own
  split
  · simp
  · rw [ext_singleton]

theorem ext_owns {rs : List (Option Nat)} {ts : List (VT P)} (h : ts.length = rs.length) (a : Nat) :
    ext (owns rs ts) a = rs.count (some a) := by
  induction rs generalizing ts with
  | nil => cases ts with
    | nil => simp
    | cons => simp at h
  | cons r rs ih =>
    cases ts with
    | nil => simp at h
    | cons t ts =>
      rw [owns_cons, ext_add, ext_own, ih (by simpa using h), List.count_cons]
      simp only [beq_iff_eq]
      omega

theorem mem_own {r : Option Nat} {t : VT P} {e : Handle P} (h : e ∈ own r t) :
    e = ⟨r, t, false⟩ := by
  unfold own at h
  split at h
  · simp at h
  · simpa using h

theorem mem_owns {rs : List (Option Nat)} {ts : List (VT P)} {e : Handle P} (h : e ∈ owns rs ts) :
    ∃ i, ∃ h1 : i < rs.length, ∃ h2 : i < ts.length, e = ⟨rs[i], ts[i], false⟩ := by
  induction rs generalizing ts with
  | nil => cases ts <;> simp [owns] at h
  | cons r rs ih =>
    cases ts with
    | nil => simp [owns] at h
    | cons t ts =>
      rw [owns_cons, Multiset.mem_add] at h
      rcases h with h | h
      · exact ⟨0, by simp, by simp, mem_own h⟩
      · obtain ⟨i, h1, h2, h3⟩ := ih h
        exact ⟨i + 1, by simpa, by simpa, by simpa using h3⟩

/-- The links of `owns` stand for its values, given that all do. -/
theorem rep_own {h : Mem P} {L : Multiset (Handle P)} {r : Option Nat} {t : VT P}
    (hr : ∀ e ∈ own r t + L, Rep h e.ref e.tree) : Rep h r t := by
  unfold own at hr
  split at hr
  · exact .nil
  · exact hr ⟨r, t, false⟩ (by simp)

theorem rep_owns {h : Mem P} {L : Multiset (Handle P)} {rs : List (Option Nat)} {ts : List (VT P)}
    (hr : ∀ e ∈ owns rs ts + L, Rep h e.ref e.tree) {i : Nat} (h1 : i < rs.length)
    (h2 : i < ts.length) : Rep h rs[i] ts[i] := by
  induction rs generalizing ts i with
  | nil => simp at h1
  | cons r rs ih =>
    cases ts with
    | nil => simp at h2
    | cons t ts =>
      cases i with
      | zero =>
        refine rep_own (L := owns rs ts + L) ?_
        intro e he
        exact hr e (by rw [owns_cons, add_assoc]; exact he)
      | succ i =>
        refine ih ?_ (by simpa using h1) (by simpa using h2)
        intro e he
        refine hr e ?_
        rw [owns_cons, add_assoc]
        exact Multiset.mem_add.2 (Or.inr he)

/-! ## Changing memory -/

@[simp] theorem put_same (h : Mem P) (a : Nat) (c : Option (Cell P)) :
    (h.put a c).cells a = c := by simp [Mem.put]
theorem put_ne (h : Mem P) {a b : Nat} (c : Option (Cell P)) (hb : b ≠ a) :
    (h.put a c).cells b = h.cells b := by simp [Mem.put, hb]

theorem links_put {h : Mem P} {a : Nat} (ha : a < h.next) (c : Option (Cell P)) (x : Nat) :
    links (h.put a c) x + lc (h.cells a) x = links h x + lc c x := by
  have := sumTo_update (f := fun b => lc (h.cells b) x) (g := fun b => lc ((h.put a c).cells b) x)
    ha (fun i hi => by rw [put_ne _ _ hi])
  simp only [put_same] at this
  exact this

theorem links_of_cell {h : Mem P} (hf : ∀ a, h.next ≤ a → h.cells a = none) {a : Nat} {c : Cell P}
    (hc : h.cells a = some c) {b : Nat} (hb : some b ∈ c.node.kids) : 0 < links h b := by
  have ha : a < h.next := by
    by_cases hn : a < h.next
    · exact hn
    · rw [hf a (by omega)] at hc; cases hc
  have := le_sumTo (f := fun x => lc (h.cells x) b) ha
  have h1 : 0 < c.node.kids.count (some b) := List.count_pos_iff.2 hb
  simp only [hc, lc] at this
  have e : links h b = sumTo (fun x => lc (h.cells x) b) h.next := rfl
  unfold lc at e
  omega

/-- Values depend on the nodes alone, not on the counts. -/
theorem Rep.congr {h h' : Mem P} (he : ∀ a, (h'.cells a).map (·.node) = (h.cells a).map (·.node))
    {r : Option Nat} {t : VT P} (hr : Rep h r t) : Rep h' r t := by
  induction hr with
  | nil => exact .nil
  | @node a c ts hc hl hk ih =>
    have := he a
    rw [hc] at this
    cases hc' : h'.cells a with
    | none => simp [hc'] at this
    | some c' =>
      rw [hc'] at this
      simp only [Option.map_some, Option.some.injEq] at this
      rw [← this]
      exact .node hc' (by rw [this]; exact hl) (fun i h1 h2 => by
        simp only [this]
        exact ih i (by rw [← this]; exact h1) h2)

/-- Changing a node nobody links to does not change the value of any other link. -/
theorem Rep.put {h : Mem P} {a : Nat} {c : Option (Cell P)}
    (hn : ∀ b d, h.cells b = some d → some a ∉ d.node.kids) {r : Option Nat} {t : VT P}
    (hr : Rep h r t) (hra : r ≠ some a) : Rep (h.put a c) r t := by
  induction hr with
  | nil => exact .nil
  | @node b d ts hd hl hk ih =>
    refine .node (by rw [put_ne _ _ (fun e => hra (by rw [e])), hd]) hl ?_
    intro i h1 h2
    refine ih i h1 h2 ?_
    intro e
    exact hn b d hd (e ▸ List.getElem_mem h1)

theorem Rep.none_iff {h : Mem P} {t : VT P} (hr : Rep h none t) : t = .nil := by cases hr; rfl
theorem Rep.nil_iff {h : Mem P} {r : Option Nat} (hr : Rep h r .nil) : r = none := by cases hr; rfl

theorem Rep.inv {h : Mem P} {a : Nat} {t : VT P} (hr : Rep h (some a) t) {c : Cell P}
    (hc : h.cells a = some c) : ∃ ts, t = .node c.node.data ts ∧ ts.length = c.node.kids.length ∧
      ∀ i (h1 : i < c.node.kids.length) (h2 : i < ts.length), Rep h c.node.kids[i] ts[i] := by
  cases hr with
  | @node _ c' ts hc' hl hk =>
    rw [hc] at hc'; cases hc'
    exact ⟨ts, rfl, hl, hk⟩

/-- A link stands for one value only. -/
theorem Rep.unique {h : Mem P} {r : Option Nat} {t t' : VT P} (hr : Rep h r t) (hr' : Rep h r t') :
    t = t' := by
  induction hr generalizing t' with
  | nil => exact hr'.none_iff.symm
  | @node a c ts hc hl hk ih =>
    obtain ⟨ts', rfl, hl', hk'⟩ := hr'.inv hc
    congr 1
    refine List.ext_getElem (by omega) ?_
    intro i h1 h2
    exact ih i (by omega) h1 (hk' i (by omega) h2)

namespace Own
variable {h : Mem P} {L F : Multiset (Handle P)}

theorem cell (w : Own h L) {e : Handle P} (he : e ∈ L) {a : Nat} (hr : e.ref = some a) :
    ∃ c, h.cells a = some c := by
  have := w.rep e he
  rw [hr] at this
  generalize e.tree = t at this
  cases this with
  | node hc => exact ⟨_, hc⟩

theorem lt_next (w : Own h L) {a : Nat} {c : Cell P} (hc : h.cells a = some c) : a < h.next := by
  by_cases hn : a < h.next
  · exact hn
  · rw [w.fin a (by omega)] at hc; cases hc

/-- If nobody links to `a`, no node does. -/
theorem no_link (w : Own h L) {a : Nat} (hl : links h a = 0) :
    ∀ b d, h.cells b = some d → some a ∉ d.node.kids := by
  intro b d hd hm
  have := links_of_cell w.fin hd hm
  omega

/-- A sole handle: no other handle and no link. -/
theorem sole (w : Own h L) {a : Nat} {c : Cell P} (hc : h.cells a = some c) (h1 : c.rc = 1)
    (hx : 0 < ext L a) : ext L a = 1 ∧ links h a = 0 := by
  have := w.cnt a
  rw [hc] at this
  omega

theorem congr_cells {h' : Mem P} {L' : Multiset (Handle P)} (w : Own h L)
    (hn : h'.next = h.next)
    (he : ∀ a, (h'.cells a).map (·.node) = (h.cells a).map (·.node))
    (hc : ∀ a c', h'.cells a = some c' → c'.rc = ext L' a + links h a ∧ 0 < c'.rc)
    (hx : ∀ a, h.cells a = none → ext L' a = 0)
    (hr : ∀ e ∈ L', Rep h e.ref e.tree)
    (hu : ∀ e ∈ L', e.uniq = true → ∃ a c, e.ref = some a ∧ h'.cells a = some c ∧ c.rc = 1) :
    Own h' L' := by
  have hlc : ∀ a b, lc (h'.cells b) a = lc (h.cells b) a := by
    intro a b
    have := he b
    cases h1 : h'.cells b <;> cases h2 : h.cells b <;> rw [h1, h2] at this <;>
      simp only [Option.map_some, Option.map_none, Option.some.injEq, reduceCtorEq] at this
    · simp only [lc, this]
  have hlk : ∀ a, links h' a = links h a := by
    intro a
    rw [links, links, hn]
    exact sumTo_congr (fun b _ => hlc a b)
  have hnone : ∀ a, h'.cells a = none ↔ h.cells a = none := by
    intro a
    have := he a
    cases h1 : h'.cells a <;> cases h2 : h.cells a <;> rw [h1, h2] at this <;> simp at this ⊢
  refine ⟨?_, ?_, ?_, fun e m => (hr e m).congr he, hu⟩
  · intro a ha
    exact (hnone a).2 (w.fin a (by rw [← hn]; exact ha))
  · intro a
    rw [hlk]
    cases h1 : h'.cells a with
    | some c => exact hc a c h1
    | none =>
      have h2 := (hnone a).1 h1
      have := w.cnt a
      rw [h2] at this
      have := hx a h2
      simp only at *
      omega
  · intro a c hc'
    cases h2 : h.cells a with
    | none => rw [(hnone a).2 h2] at hc'; cases hc'
    | some c2 =>
      obtain ⟨t, ht⟩ := w.val a c2 h2
      exact ⟨t, ht.congr he⟩

/-- Replacing (or freeing) the node of a handle that nobody links to. -/
theorem modify {a : Nat} {c : Cell P} {oc' : Option (Cell P)} {E E' : Multiset (Handle P)}
    (w : Own h (E + F)) (hc : h.cells a = some c)
    (hl : links h a = 0) (hFa : ext F a = 0)
    (hcnt : ∀ x, x ≠ a → ext E' x + lc oc' x = ext E x + lc (some c) x)
    (hself : lc oc' a = 0)
    (hoc : match oc' with
      | none => ext E' a = 0
      | some c' => c'.rc = ext E' a ∧ 0 < c'.rc ∧ ∃ t, Rep (h.put a oc') (some a) t)
    (hr : ∀ e ∈ E', Rep (h.put a oc') e.ref e.tree)
    (hu : ∀ e ∈ E', e.uniq = true → ∃ x d, e.ref = some x ∧ (h.put a oc').cells x = some d ∧ d.rc = 1) :
    Own (h.put a oc') (E' + F) := by
  have han := w.lt_next hc
  have hnl := w.no_link hl
  have hFne : ∀ e ∈ F, e.ref ≠ some a := by
    intro e he hea
    have := ext_pos he hea
    omega
  have hlc0 : lc (some c) a = 0 := by
    have : some a ∉ c.node.kids := hnl a c hc
    simp only [lc, List.count_eq_zero]; exact this
  refine ⟨?_, ?_, ?_, ?_, ?_⟩
  · intro b hb
    have : b ≠ a := by intro e; subst e; exact absurd hb (by simp [Mem.put]; omega)
    rw [put_ne _ _ this]
    exact w.fin b hb
  · intro x
    have hlk := links_put han oc' x
    rw [hc] at hlk
    by_cases hx : x = a
    · subst hx
      rw [put_same, ext_add, hFa]
      cases oc' with
      | none => simp only at hoc ⊢; omega
      | some c' => simp only at hoc ⊢; omega
    · rw [put_ne _ _ hx]
      have h1 := hcnt x hx
      have h2 := w.cnt x
      rw [ext_add] at h2
      rw [ext_add]
      cases hx : h.cells x with
      | none => rw [hx] at h2; simp only at h2 ⊢; omega
      | some d => rw [hx] at h2; simp only at h2 ⊢; omega
  · intro x d hd
    by_cases hx : x = a
    · subst hx
      rw [put_same] at hd
      subst hd
      exact hoc.2.2
    · rw [put_ne _ _ hx] at hd
      obtain ⟨t, ht⟩ := w.val x d hd
      exact ⟨t, ht.put hnl (by simpa using hx)⟩
  · intro e he
    rcases Multiset.mem_add.1 he with he | he
    · exact hr e he
    · exact (w.rep e (Multiset.mem_add.2 (Or.inr he))).put hnl (hFne e he)
  · intro e he hue
    rcases Multiset.mem_add.1 he with he | he
    · exact hu e he hue
    · obtain ⟨x, d, h1, h2, h3⟩ := w.uni e (Multiset.mem_add.2 (Or.inr he)) hue
      refine ⟨x, d, h1, ?_, h3⟩
      rw [put_ne _ _ (fun e' => hFne e he (by rw [h1, e'])), h2]

end Own

end Verif.Heap
