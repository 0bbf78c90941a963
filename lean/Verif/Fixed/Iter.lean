import Verif.Fixed.Spec
import Verif.BTree.Mut
/-!
# Iterators of the fixed-layout B-tree (src/btree/core.rs:962-1333, src/btree/fixed.rs)

`InnerIter` keeps a deque of node iterators.  Both `next` and `next_back` advance a node
iterator with its `next` (core.rs:1266, 1288), so `NodeIter::next_back` (1009-1019) and
`NodeIntoIter::next_back` (1151-1189) are never called; `Fixed.NodeBack` has them.

The outer `none` is a panic or undefined behaviour.
-/
set_option linter.unusedSectionVars false
namespace Verif.Fixed
open Verif.BTree Verif.BTree.Node
variable {I E C K V : Type}

/-- core.rs:962-965 `IterAction`. -/
inductive Act (E C : Type) where
  | ret (e : E)
  | desc (c : C)

/-- core.rs:967-971 `trait NodeIterator`: `next` and `new`.  `cost` bounds the number of turns
of the loops below. -/
structure NOps (I E C : Type) where
  next : I → Option (I × Option (Act E C))
  make : C → Option I
  cost : I → Nat

/-- core.rs:1238-1242 `InnerIter`. -/
structure Inner (I : Type) where
  work : List I
  len : Nat

namespace NOps
variable (o : NOps I E C)

/-- core.rs:1245-1256 `InnerIter::new`. -/
def start (root : Option C) (len : Nat) : Option (Inner I) :=
  match root with
  | none => some ⟨[], len⟩
  | some c => (o.make c).map (fun i => ⟨[i], len⟩)

/-- core.rs:1265-1278, the loop of `InnerIter::next`; the list is the deque from the front.
Running out of fuel counts as failure. -/
def loop : Nat → List I → Nat → Option (Option E × List I × Nat)
  | 0, _, _ => none
  | _ + 1, [], len => some (none, [], len)
  | f + 1, w :: ws, len =>
    match o.next w with
    | none => none
    | some (w', some (.ret e)) => if len = 0 then none else some (some e, w' :: ws, len - 1)
    | some (w', some (.desc c)) =>
      match o.make c with
      | none => none
      | some i => loop f (i :: w' :: ws) len
    | some (_, none) => loop f ws len

/-- core.rs:1263-1281 `InnerIter::next`; core.rs:1285-1303 `next_back`, the same text with the
back of the deque instead of its front. -/
def step (front : Bool) (it : Inner I) : Option (Option E × Inner I) :=
  let fuel := (it.work.map o.cost).sum + 1
  if front then (o.loop fuel it.work it.len).map (fun r => (r.1, ⟨r.2.1, r.2.2⟩))
  else (o.loop fuel it.work.reverse it.len).map (fun r => (r.1, ⟨r.2.1.reverse, r.2.2⟩))

/-- A schedule of calls: the results, each with `len` (1306-1310) after the call, and the
iterator left. -/
def run : List Bool → Inner I → Option (List (Option E × Nat) × Inner I)
  | [], it => some ([], it)
  | d :: ds, it =>
    match o.step d it with
    | none => none
    | some (r, it') => (run ds it').map (fun x => ((r, it'.len) :: x.1, x.2))

end NOps

/-! ### `NodeIter` -/

mutual
/-- A bound on the work below a node. -/
def nodeCost : Node K V → Nat
  | .mk _ ks => nodeCosts ks + 2
def nodeCosts : List (Node K V) → Nat
  | [] => 0
  | c :: ks => nodeCost c + nodeCosts ks
end

/-- core.rs:973-980 `NodeIter`; the slice iterators are the lists of what they have still to
yield, `keys` and `vals` advancing together. -/
structure NI (K V : Type) where
  es : List (K × V)
  ks : List (Node K V)
  isNext : Bool

/-- core.rs:990-1000 `NodeIter::next`; `new` at 1037-1052 (`NodeIterRef`) and 1061-1082
(`NodeIterMut`).  `keys()` refers to slot 0, which must be initialised. -/
def niOps : NOps (NI K V) (K × V) (Node K V) where
  next w :=
    if w.isNext then
      match w.es with
      | [] => some (⟨[], w.ks, w.ks.isEmpty⟩, none)
      | e :: es => some (⟨es, w.ks, w.ks.isEmpty⟩, some (.ret e))
    else
      match w.ks with
      | [] => some (⟨w.es, [], true⟩, none)
      | c :: ks => some (⟨w.es, ks, true⟩, some (.desc c))
  make n := if n.elems.isEmpty then none else some ⟨n.elems, n.kids, n.kids.isEmpty⟩
  cost w := nodeCosts w.ks + 1

/-! ### `NodeIntoIter` -/

/-- core.rs:1092-1098 `NodeIntoIter`.  `own` tells `Owned` from `Leased`.  A slot of an owned
node is `none` once its contents were moved out.  `ex`, `ee`, `kx`, `ek` are `next_elem_x`,
`end_elems`, `next_kid_x`, `end_kids`. -/
structure II (K V : Type) where
  own : Bool
  es : List (Option (K × V))
  ks : List (Option (ANode K V))
  ex : Nat
  ee : Nat
  kx : Nat
  ek : Nat

/-- `assume_init_read` of an owned slot, or a clone from a leased one; reading a slot that was
moved out, or that is out of bounds, is undefined. -/
def takeSlot {α : Type} (own : Bool) (s : List (Option α)) (i : Nat) :
    Option (α × List (Option α)) :=
  match s[i]? with
  | some (some a) => some (a, if own then s.set i none else s)
  | _ => none

/-- core.rs:1108-1142 `NodeIntoIter::next`, 1197-1211 `new`.  The item carries whether it was
moved out (`true`) or cloned.  A child is descended into as `Owned` if `Arc::try_unwrap`
succeeds (the annotation of the `ANode`); from a leased node it never does, since the child's
`Arc` was just cloned (1121-1122). -/
def iiOps : NOps (II K V) (Bool × (K × V)) (Bool × ANode K V) where
  next w :=
    if w.kx < w.ek ∧ w.kx ≤ w.ex then
      match takeSlot w.own w.ks w.kx with
      | none => none
      | some (c, ks) => some ({w with ks := ks, kx := w.kx + 1}, some (.desc (w.own && c.own, c)))
    else if w.ex < w.ee then
      match takeSlot w.own w.es w.ex with
      | none => none
      | some (e, es) => some ({w with es := es, ex := w.ex + 1}, some (.ret (w.own, e)))
    else some (w, none)
  make c := some ⟨c.1, c.2.elems.map some, c.2.kids.map some, 0, c.2.elems.length, 0,
    c.2.kids.length⟩
  cost w := ((w.ks.drop w.kx).map (fun s => match s with
    | none => 0
    | some c => nodeCost c.forget)).sum + 1

mutual
/-- What dropping a reference to a node destroys: nothing if it is not the last one, otherwise
the elements (core.rs:247-263 `clear`, `drop`) and what dropping its children destroys. -/
def dropNode : ANode K V → List (K × V)
  | .mk own es ks => if own then es ++ dropNodes ks else []
def dropNodes : List (ANode K V) → List (K × V)
  | [] => []
  | c :: ks => dropNode c ++ dropNodes ks
end

/-- `for i in a..b { slots[i].assume_init_drop() }`: the contents dropped and the slots after. -/
def dropSlots {α : Type} : Nat → Nat → List (Option α) → Option (List α × List (Option α))
  | _, 0, s => some ([], s)
  | a, n + 1, s =>
    match takeSlot true s a with
    | none => none
    | some (x, s') => (dropSlots (a + 1) n s').map (fun r => (x :: r.1, r.2))

/-- core.rs:1216-1236 `NodeIntoIter::drop`: the entries destroyed, and the entries lost without
being destroyed (those still in a slot when `len` is set to 0). -/
def II.drop (w : II K V) : Option (List (K × V) × List (K × V)) :=
  if w.own then
    match dropSlots w.ex (w.ee - w.ex) w.es, dropSlots w.kx (w.ek - w.kx) w.ks with
    | some (a, es), some (b, ks) =>
      some (a ++ dropNodes b, es.filterMap id ++ dropNodes (ks.filterMap id))
    | _, _ => none
  else some ([], [])

/-- Dropping an `IntoIter`: its node iterators are dropped. -/
def dropAll : List (II K V) → Option (List (K × V) × List (K × V))
  | [] => some ([], [])
  | w :: ws =>
    match w.drop, dropAll ws with
    | some a, some b => some (a.1 ++ b.1, a.2 ++ b.2)
    | _, _ => none

namespace FMap

/-- fixed.rs:79-84 `iter`. -/
def iter (m : FMap K V) : Option (Inner (NI K V)) := niOps.start m.root m.len

/-- `iter` under a schedule. -/
def iterRun (m : FMap K V) (ds : List Bool) : Option (List (Option (K × V) × Nat)) :=
  match m.iter with
  | none => none
  | some it => (niOps.run ds it).map (·.1)

/-- core.rs:1323-1333 `new_into_iter`, fixed.rs:148-155 `into_iter`. -/
def intoIter (s : Sharing K V) (m : FMap K V) : Option (Inner (II K V)) :=
  iiOps.start (m.root.map (fun n => ((s.annot n).own, s.annot n))) m.len

/-- `into_iter` under a schedule, the iterator being dropped afterwards: the results, the
entries destroyed by the drop and those lost. -/
def intoRun (s : Sharing K V) (m : FMap K V) (ds : List Bool) :
    Option (List (Option (Bool × (K × V)) × Nat) × List (K × V) × List (K × V)) :=
  match m.intoIter s with
  | none => none
  | some it =>
    match iiOps.run ds it with
    | none => none
    | some (ys, it') => (dropAll it'.work).map (fun d => (ys, d))

/-- The map whose values are paired with their slots (see `Verif.BTree.Mut`). -/
def label (m : FMap K V) : FMap K (Nat × V) := ⟨m.root.map Node.label, m.len⟩
/-- The map after storing into slots. -/
def store (slots : List Nat) (w : Nat → V) (m : FMap K V) : FMap K V :=
  ⟨m.root.map (Node.store slots w), m.len⟩

/-- fixed.rs:86-96 `iter_mut` under a schedule, writing `w i` through the reference to slot `i`:
results seen, slots, the map after. -/
def iterMutRun (m : FMap K V) (ds : List Bool) (w : Nat → V) :
    Option (List (Option (K × V) × Nat) × List Nat × FMap K V) :=
  (m.label.iterRun ds).map (fun ys =>
    (Avl.seenOf ys, Avl.slotsOf ys, m.store (Avl.slotsOf ys) w))

end FMap

/-! ### Loops over lawful node iterators -/

/-- A bag consumed in some order: each call yields an element not yet yielded, together with
the number of those left, and `None` exactly when none is left. -/
inductive Spec.Bag {α : Type} : List α → List (Option α × Nat) → Prop
  | nil {l} : Bag l []
  | none {ys} : Bag [] ys → Bag [] ((none, 0) :: ys)
  | some {l l' x ys} : l.Perm (x :: l') → Bag l' ys → Bag l ((some x, l'.length) :: ys)

theorem Spec.Bag.perm {α : Type} {l l' : List α} {ys} (h : Spec.Bag l ys) (hp : l'.Perm l) :
    Spec.Bag l' ys := by
  cases h with
  | nil => exact .nil
  | none h => rw [hp.eq_nil]; exact .none h
  | some h1 h2 => exact .some (hp.trans h1) h2

theorem Spec.Bag.map {α β : Type} (f : α → β) {l : List α} {ys} (h : Spec.Bag l ys) :
    Spec.Bag (l.map f) (ys.map (fun y => (y.1.map f, y.2))) := by
  induction h with
  | nil => exact .nil
  | none _ ih => exact .none ih
  | @some l l' x ys h1 _ ih =>
    have := Spec.Bag.some (l := l.map f) (l' := l'.map f) (x := f x) (h1.map f) ih
    simpa using this

theorem Spec.Bag.yields {α : Type} {l : List α} {ys} (h : Spec.Bag l ys) :
    ∃ rest, (ys.filterMap (·.1) ++ rest).Perm l := by
  induction h with
  | @nil l => exact ⟨l, by simp⟩
  | none _ ih => obtain ⟨r, h⟩ := ih; exact ⟨r, by simpa using h⟩
  | some h1 _ ih =>
    obtain ⟨r, h⟩ := ih
    exact ⟨r, by simpa using (List.Perm.cons _ h).trans h1.symm⟩

/-- What the loops need to know of a node iterator. -/
structure Lawful (o : NOps I E C) (good : I → Prop) (rem : I → List E) : Prop where
  next : ∀ w, good w → match o.next w with
    | none => False
    | some (w', some (.ret e)) => good w' ∧ rem w = e :: rem w'
    | some (w', some (.desc c)) => good w' ∧ ∃ i, o.make c = some i ∧ good i ∧
        rem w = rem i ++ rem w' ∧ o.cost i + o.cost w' < o.cost w
    | some (_, none) => rem w = [] ∧ 0 < o.cost w

section
variable {o : NOps I E C} {good : I → Prop} {rem : I → List E}

theorem Lawful.loop (h : Lawful o good rem) : ∀ {f : Nat} {ws : List I} {len : Nat},
    (∀ w ∈ ws, good w) → len = (ws.flatMap rem).length → (ws.map o.cost).sum < f →
    ∃ ws', o.loop f ws len =
        some ((ws.flatMap rem).head?, ws', (ws.flatMap rem).tail.length) ∧
      (∀ w ∈ ws', good w) ∧ ws'.flatMap rem = (ws.flatMap rem).tail
  | 0, _, _, _, _, hf => by omega
  | f + 1, [], len, hg, hl, hf => ⟨[], by simp [NOps.loop, hl], by simp, by simp⟩
  | f + 1, w :: ws, len, hg, hl, hf => by
    have hw := h.next w (hg w (by simp))
    have hws : ∀ x ∈ ws, good x := fun x hx => hg x (by simp [hx])
    simp only [List.map_cons, List.sum_cons] at hf
    rw [NOps.loop]
    match e : o.next w with
    | none => rw [e] at hw; exact hw.elim
    | some (w', some (.ret x)) =>
      rw [e] at hw
      obtain ⟨h1, h2⟩ := hw
      have h0 : len ≠ 0 := by rw [hl]; simp [h2]
      refine ⟨w' :: ws, ?_, ?_, ?_⟩
      · simp [h0, h2, hl]
      · simp only [List.mem_cons]; rintro x (rfl | hx)
        · exact h1
        · exact hws x hx
      · simp [h2]
    | some (w', some (.desc c)) =>
      rw [e] at hw
      obtain ⟨h1, i, h2, h3, h4, h5⟩ := hw
      have hr : (i :: w' :: ws).flatMap rem = (w :: ws).flatMap rem := by simp [h4]
      obtain ⟨ws', a, b, c'⟩ := Lawful.loop h (f := f) (ws := i :: w' :: ws) (len := len)
        (by
          simp only [List.mem_cons]; rintro x (rfl | rfl | hx)
          · exact h3
          · exact h1
          · exact hws x hx) (by rw [hr]; exact hl)
        (by simp only [List.map_cons, List.sum_cons]; omega)
      rw [hr] at a c'
      exact ⟨ws', by simp only [h2]; exact a, b, c'⟩
    | some (w', none) =>
      rw [e] at hw
      obtain ⟨h1, h2⟩ := hw
      have hr : ws.flatMap rem = (w :: ws).flatMap rem := by simp [h1]
      obtain ⟨ws', a, b, c'⟩ := Lawful.loop h (f := f) (ws := ws) (len := len) hws
        (by rw [hr]; exact hl) (by omega)
      rw [hr] at a c'
      exact ⟨ws', a, b, c'⟩

/-- What an iterator has still to yield, and that `len` counts it. -/
structure Inner.Good (o : NOps I E C) (good : I → Prop) (rem : I → List E) (it : Inner I) :
    Prop where
  all : ∀ w ∈ it.work, good w
  len : it.len = (it.work.flatMap rem).length

theorem Lawful.step_front (h : Lawful o good rem) {it : Inner I} (hi : it.Good o good rem) :
    ∃ it', o.step true it = some ((it.work.flatMap rem).head?, it') ∧ it'.Good o good rem ∧
      it'.work.flatMap rem = (it.work.flatMap rem).tail := by
  obtain ⟨ws', a, b, c⟩ := h.loop hi.all hi.len (Nat.lt_succ_self _)
  refine ⟨⟨ws', (it.work.flatMap rem).tail.length⟩, ?_, ⟨b, by rw [c]⟩, c⟩
  simp only [NOps.step, if_true]
  rw [a]; rfl

theorem flatMap_reverse_perm (ws : List I) (rem : I → List E) :
    (ws.reverse.flatMap rem).Perm (ws.flatMap rem) :=
  (List.reverse_perm ws).flatMap_right rem

theorem Lawful.step_back (h : Lawful o good rem) {it : Inner I} (hi : it.Good o good rem) :
    ∃ it', o.step false it = some ((it.work.reverse.flatMap rem).head?, it') ∧
      it'.Good o good rem ∧
      it'.work.reverse.flatMap rem = (it.work.reverse.flatMap rem).tail := by
  have hp := (flatMap_reverse_perm it.work rem).length_eq
  obtain ⟨ws', a, b, c⟩ := h.loop (ws := it.work.reverse) (len := it.len)
    (f := (it.work.map o.cost).sum + 1)
    (by simpa using hi.all) (by rw [hp]; exact hi.len)
    (by rw [List.map_reverse, List.sum_reverse]; exact Nat.lt_succ_self _)
  refine ⟨⟨ws'.reverse, (it.work.reverse.flatMap rem).tail.length⟩, ?_, ⟨by simpa using b, ?_⟩,
    by simpa using c⟩
  · simp only [NOps.step, Bool.false_eq_true, if_false]
    rw [a]; rfl
  · rw [← c]; exact (flatMap_reverse_perm ws' rem).length_eq.symm

/-- Every schedule yields every element at most once, and misses none. -/
theorem Lawful.run (h : Lawful o good rem) (ds : List Bool) {it : Inner I}
    (hi : it.Good o good rem) : ∃ ys it', o.run ds it = some (ys, it') ∧ it'.Good o good rem ∧
      Spec.Bag (it.work.flatMap rem) ys ∧ ys.length = ds.length ∧
      (ys.filterMap (·.1) ++ it'.work.flatMap rem).Perm (it.work.flatMap rem) := by
  induction ds generalizing it with
  | nil => exact ⟨[], it, rfl, hi, .nil, rfl, by simp⟩
  | cons d ds ih =>
    have key : ∃ (l : List E) (it' : Inner I), l.Perm (it.work.flatMap rem) ∧ o.step d it = some (l.head?, it') ∧
        it'.Good o good rem ∧ (it'.work.flatMap rem).Perm l.tail := by
      cases d with
      | true =>
        obtain ⟨it', a, b, c⟩ := h.step_front hi
        exact ⟨_, it', .refl _, a, b, by rw [c]⟩
      | false =>
        obtain ⟨it', a, b, c⟩ := h.step_back hi
        exact ⟨_, it', flatMap_reverse_perm _ _, a, b,
          (flatMap_reverse_perm _ _).symm.trans (by rw [c])⟩
    obtain ⟨l, it1, hl, e1, hg, ht⟩ := key
    obtain ⟨ys, it2, e2, hg2, hb, hlen, hp⟩ := ih hg
    refine ⟨(l.head?, it1.len) :: ys, it2, by simp [NOps.run, e1, e2], hg2, ?_,
      by simp [hlen], ?_⟩
    · refine Spec.Bag.perm ?_ hl.symm
      cases l with
      | nil =>
        have h0 := ht.eq_nil
        rw [h0] at hb
        rw [hg.len, h0]
        exact .none hb
      | cons x l =>
        have : it1.len = (it1.work.flatMap rem).length := hg.len
        rw [this]
        exact .some (.cons x ht.symm) hb
    · cases l with
      | nil =>
        have h0 := ht.eq_nil
        rw [h0] at hp
        have h1 : it.work.flatMap rem = [] := hl.symm.eq_nil
        rw [h1]; simpa using hp
      | cons x l =>
        exact ((List.Perm.cons x hp).trans (List.Perm.cons x ht)).trans hl

/-- Only `next`: the elements in order. -/
theorem Lawful.run_front (h : Lawful o good rem) (n : Nat) {it : Inner I}
    (hi : it.Good o good rem) : ∃ it', o.run (List.replicate n true) it =
      some (Spec.dequeRun (List.replicate n true) (it.work.flatMap rem), it') ∧
      it'.Good o good rem := by
  induction n generalizing it with
  | zero => exact ⟨it, rfl, hi⟩
  | succ n ih =>
    obtain ⟨it', a, b, c⟩ := h.step_front hi
    obtain ⟨it2, e, hg⟩ := ih b
    refine ⟨it2, ?_, hg⟩
    simp [List.replicate_succ, NOps.run, a, e, Spec.dequeRun, Spec.dequeStep, b.len, c]

/-- Only `next_back`: the elements in the same order again, if the iterator is fresh. -/
theorem Lawful.run_back (h : Lawful o good rem) (n : Nat) {it : Inner I}
    (hi : it.Good o good rem) : ∃ it', o.run (List.replicate n false) it =
      some (Spec.dequeRun (List.replicate n true) (it.work.reverse.flatMap rem), it') ∧
      it'.Good o good rem := by
  induction n generalizing it with
  | zero => exact ⟨it, rfl, hi⟩
  | succ n ih =>
    obtain ⟨it', a, b, c⟩ := h.step_back hi
    obtain ⟨it2, e, hg⟩ := ih b
    refine ⟨it2, ?_, hg⟩
    have hl : it'.len = (it'.work.reverse.flatMap rem).length := by
      rw [b.len]; exact (flatMap_reverse_perm _ _).length_eq.symm
    simp [List.replicate_succ, NOps.run, a, e, Spec.dequeRun, Spec.dequeStep, hl, c]

end

/-! ### `NodeIter` is lawful -/

theorem inter_eq_ilv (ks : List (Node K V)) (es : List (K × V)) :
    inter ks es = ilv toList ks es := by
  induction ks generalizing es with
  | nil => simp [inter]
  | cons c ks ih => cases es <;> simp [inter, ilv, ih]

/-- A child of a well-formed branch. -/
def KidOk (c : Node K V) : Prop := ∃ h, Ok MIN MIN h c

/-- A well-formed state of a `NodeIter`. -/
def NI.Good (w : NI K V) : Prop :=
  (if w.isNext then w.ks = [] ∨ w.ks.length = w.es.length else w.ks.length = w.es.length + 1) ∧
    ∀ c ∈ w.ks, KidOk c

/-- What it has still to yield. -/
def NI.rem (w : NI K V) : List (K × V) :=
  if w.isNext then ilvE toList w.es w.ks else ilv toList w.ks w.es

theorem ok_make {lo h : Nat} {n : Node K V} (hn : Ok MIN lo h n) (hlo : 1 ≤ lo) :
    n.elems ≠ [] ∧ (n.kids = [] ∨ n.kids.length = n.elems.length + 1) ∧
      (∀ c ∈ n.kids, KidOk c) := by
  obtain ⟨es, ks⟩ := n
  have hlen := hn.lo_le
  refine ⟨by intro h0; simp only [elems] at h0 hlen; rw [h0] at hlen; simp at hlen; omega, ?_⟩
  cases h with
  | zero => obtain ⟨rfl, -, -⟩ := hn; simp [kids]
  | succ h =>
    obtain ⟨h0, -, -, h3⟩ := hn
    exact ⟨.inr h0, fun c hc => ⟨h, h3 c hc⟩⟩

theorem niOps_make {lo h : Nat} {n : Node K V} (hn : Ok MIN lo h n) (hlo : 1 ≤ lo) :
    ∃ i, niOps.make n = some i ∧ i.Good ∧ i.rem = n.toList ∧ niOps.cost i + 1 = nodeCost n := by
  obtain ⟨h1, h2, h3⟩ := ok_make hn hlo
  obtain ⟨es, ks⟩ := n
  simp only [elems, kids] at h1 h2 h3
  have h1' : es.isEmpty = false := by simpa using h1
  refine ⟨⟨es, ks, ks.isEmpty⟩, by simp only [niOps, elems, kids, h1']; rfl, ⟨?_, h3⟩, ?_,
    by simp [niOps, nodeCost]⟩
  · rcases h2 with rfl | h2
    · simp
    · cases ks with
      | nil => simp at h2
      | cons => simpa using h2
  · rw [NI.rem, toList_mk, inter_eq_ilv]
    rcases h2 with rfl | h2
    · simp
    · cases ks with
      | nil => simp
      | cons => simp

theorem ni_lawful : Lawful (niOps : NOps (NI K V) _ _) NI.Good NI.rem := by
  constructor
  rintro ⟨es, ks, b⟩ ⟨h1, h2⟩
  simp only at h1 h2
  cases b with
  | true =>
    simp only [if_true] at h1
    cases es with
    | nil =>
      have : ks = [] := by
        rcases h1 with h1 | h1
        · exact h1
        · simpa using h1
      subst this
      simp [niOps, NI.rem]
    | cons e es =>
      simp only [niOps, if_true]
      refine ⟨⟨?_, h2⟩, ?_⟩
      · rcases h1 with rfl | h1
        · simp
        · cases ks with
          | nil => simp at h1
          | cons => simpa using h1
      · rcases h1 with rfl | h1
        · simp [NI.rem]
        · cases ks with
          | nil => simp at h1
          | cons => simp [NI.rem]
  | false =>
    simp only [Bool.false_eq_true, if_false] at h1
    cases ks with
    | nil => simp at h1
    | cons c ks =>
      obtain ⟨h, hc⟩ := h2 c (by simp)
      obtain ⟨i, e1, e2, e3, e4⟩ := niOps_make hc (by omega)
      simp only [niOps, Bool.false_eq_true, if_false]
      refine ⟨⟨?_, fun d hd => h2 d (by simp [hd])⟩, i, e1, e2, ?_, ?_⟩
      · simp only [if_true]; right; simpa using h1
      · simp only [NI.rem, Bool.false_eq_true, if_false, if_true, ilv_cons]
        rw [← e3]; rfl
      · simp only [niOps] at e4
        simp only [nodeCosts]
        omega

/-! ### `NodeIntoIter` is lawful -/

mutual
/-- The entries of a node in order, each with whether `into_iter` owns it; `b` tells whether it
owns the node. -/
def tags (b : Bool) : ANode K V → List (Bool × (K × V))
  | .mk _ es ks => tagsI b ks es
def tagsI (b : Bool) : List (ANode K V) → List (K × V) → List (Bool × (K × V))
  | [], es => es.map (fun e => (b, e))
  | c :: ks, [] => tags (b && c.own) c ++ tagsI b ks []
  | c :: ks, e :: es => tags (b && c.own) c ++ (b, e) :: tagsI b ks es
end

theorem tagsI_eq (b : Bool) (ks : List (ANode K V)) (es : List (K × V)) :
    tagsI b ks es = ilv (fun c => tags (b && c.own) c) ks (es.map (fun e => (b, e))) := by
  induction ks generalizing es with
  | nil => simp [tagsI]
  | cons c ks ih => cases es <;> simp [tagsI, ilv, ih]

mutual
theorem tags_forget (b : Bool) : ∀ n : ANode K V, (tags b n).map (·.2) = n.forget.toList
  | .mk _ es ks => by rw [tags, ANode.forget, toList_mk, tagsI_forget b ks es]
theorem tagsI_forget (b : Bool) : ∀ (ks : List (ANode K V)) (es : List (K × V)),
    (tagsI b ks es).map (·.2) = inter (ANode.forgets ks) es
  | [], es => by simp [tagsI, ANode.forgets, inter, Function.comp_def]
  | c :: ks, [] => by
    simp [tagsI, ANode.forgets, inter, tags_forget _ c, tagsI_forget b ks []]
  | c :: ks, e :: es => by
    simp [tagsI, ANode.forgets, inter, tags_forget _ c, tagsI_forget b ks es]
end

/-- The entries moved out, among tagged ones. -/
def moved (l : List (Bool × (K × V))) : List (K × V) := (l.filter (·.1)).map (·.2)

@[simp] theorem moved_nil : moved ([] : List (Bool × (K × V))) = [] := rfl
@[simp] theorem moved_append (a b : List (Bool × (K × V))) :
    moved (a ++ b) = moved a ++ moved b := by simp [moved]
@[simp] theorem moved_cons (e : K × V) (b : Bool) (l : List (Bool × (K × V))) :
    moved ((b, e) :: l) = (if b then [e] else []) ++ moved l := by
  cases b <;> simp [moved]

mutual
theorem moved_tags_false : ∀ n : ANode K V, moved (tags false n) = []
  | .mk _ es ks => by rw [tags, moved_tagsI_false ks es]
theorem moved_tagsI_false : ∀ (ks : List (ANode K V)) (es : List (K × V)),
    moved (tagsI false ks es) = []
  | [], es => by induction es <;> simp_all [tagsI]
  | c :: ks, [] => by simp [tagsI, moved_tags_false c, moved_tagsI_false ks []]
  | c :: ks, e :: es => by simp [tagsI, moved_tags_false c, moved_tagsI_false ks es]
end

mutual
/-- What `into_iter` owns is what dropping the map would destroy. -/
theorem moved_tags : ∀ n : ANode K V, (moved (tags n.own n)).Perm (dropNode n)
  | .mk own es ks => by
    cases own with
    | false => rw [ANode.own, moved_tags_false]; simp [dropNode]
    | true => rw [ANode.own, tags, dropNode]; simpa using moved_tagsI ks es
theorem moved_tagsI : ∀ (ks : List (ANode K V)) (es : List (K × V)),
    (moved (tagsI true ks es)).Perm (es ++ dropNodes ks)
  | [], es => by
    have : moved (tagsI true ([] : List (ANode K V)) es) = es := by
      induction es with
      | nil => simp [tagsI]
      | cons e es ih => simp only [tagsI, List.map_cons, moved_cons] at ih ⊢; simp [ih]
    rw [this]; simp [dropNodes]
  | c :: ks, [] => by
    have h1 := moved_tags c
    have h2 := moved_tagsI ks []
    simp only [tagsI, moved_append, Bool.true_and, dropNodes, List.nil_append] at h2 ⊢
    exact h1.append h2
  | c :: ks, e :: es => by
    have h1 := moved_tags c
    have h2 := moved_tagsI ks es
    simp only [tagsI, moved_append, moved_cons, Bool.true_and, dropNodes, if_true,
      List.cons_append, List.nil_append] at h2 ⊢
    refine (List.perm_middle).trans (List.Perm.cons e ?_)
    refine (h1.append h2).trans ?_
    rw [← List.append_assoc, ← List.append_assoc]
    exact (List.perm_append_comm).append_right _
end

mutual
theorem dropNode_all : ∀ n : Node K V, (dropNode (ANode.all true n)).Perm n.toList
  | .mk es ks => by
    rw [ANode.all, dropNode, toList_mk]; simpa using dropNodes_alls ks es
theorem dropNodes_alls : ∀ (ks : List (Node K V)) (es : List (K × V)),
    (es ++ dropNodes (ANode.alls true ks)).Perm (inter ks es)
  | [], es => by simp [ANode.alls, dropNodes, inter]
  | c :: ks, [] => by
    simpa [ANode.alls, dropNodes, inter] using (dropNode_all c).append (dropNodes_alls ks [])
  | c :: ks, e :: es => by
    have h1 := dropNode_all c
    have h2 := dropNodes_alls ks es
    simp only [ANode.alls, dropNodes, inter, List.cons_append]
    refine List.Perm.trans (List.Perm.cons e ?_) List.perm_middle.symm
    refine List.Perm.trans ?_ (h1.append h2)
    rw [← List.append_assoc, ← List.append_assoc]
    exact (List.perm_append_comm).append_right _
end

/-- A slot array read up to `x` (and so moved out, if owned), `rem` being left. -/
def SlotsOk {α : Type} (own : Bool) (s : List (Option α)) (x : Nat) (rem : List α) : Prop :=
  ∃ pre, s = pre ++ rem.map some ∧ pre.length = x ∧ (own = true → pre = List.replicate x none)

theorem SlotsOk.take {α : Type} {own : Bool} {s : List (Option α)} {x : Nat} {a : α}
    {rem : List α} (h : SlotsOk own s x (a :: rem)) :
    ∃ s', takeSlot own s x = some (a, s') ∧ SlotsOk own s' (x + 1) rem ∧
      s'.length = s.length := by
  obtain ⟨pre, rfl, rfl, h3⟩ := h
  have e : (pre ++ (a :: rem).map some)[pre.length]? = some (some a) := by simp
  cases own with
  | true =>
    refine ⟨_, by rw [takeSlot, e], ⟨pre ++ [none], ?_, by simp, fun _ => ?_⟩, by simp⟩
    · simp [List.set_append]
    · rw [h3 rfl]; simp [List.replicate_succ']
  | false =>
    refine ⟨_, by rw [takeSlot, e], ⟨pre ++ [some a], ?_, by simp, fun h => by cases h⟩,
      by simp⟩
    simp

theorem SlotsOk.drop {α : Type} {s : List (Option α)} {x : Nat} {rem : List α}
    (h : SlotsOk true s x rem) :
    ∃ s', dropSlots x rem.length s = some (rem, s') ∧ s'.filterMap id = [] := by
  induction rem generalizing s x with
  | nil =>
    obtain ⟨pre, rfl, h2, h3⟩ := h
    refine ⟨_, rfl, ?_⟩
    rw [h3 rfl]; simp
  | cons a rem ih =>
    obtain ⟨s', e, h', -⟩ := h.take
    obtain ⟨s'', e', h''⟩ := ih h'
    exact ⟨s'', by simp [dropSlots, e, e'], h''⟩

/-- A well-formed state of a `NodeIntoIter`, `es` and `ks` being left. -/
structure II.Ok (w : II K V) (es : List (K × V)) (ks : List (ANode K V)) : Prop where
  hes : SlotsOk w.own w.es w.ex es
  hks : SlotsOk w.own w.ks w.kx ks
  hee : w.ee = w.ex + es.length
  hek : w.ek = w.kx + ks.length
  shape : (ks = [] ∧ (w.kx = 0 ∨ w.kx = w.ex + 1 ∧ es = [] )) ∨
    (w.kx = w.ex ∧ ks.length = es.length + 1) ∨ (w.kx = w.ex + 1 ∧ ks.length = es.length)
  kids : ∀ c ∈ ks, KidOk c.forget

/-- What it has still to yield. -/
def II.remOf (w : II K V) (es : List (K × V)) (ks : List (ANode K V)) : List (Bool × (K × V)) :=
  if w.kx ≤ w.ex then ilv (fun c => tags (w.own && c.own) c) ks (es.map (fun e => (w.own, e)))
  else ilvE (fun c => tags (w.own && c.own) c) (es.map (fun e => (w.own, e))) ks

/-- What it has still to yield, read off the slots. -/
def II.rem (w : II K V) : List (Bool × (K × V)) :=
  w.remOf ((w.es.drop w.ex).filterMap id) ((w.ks.drop w.kx).filterMap id)

def II.Good (w : II K V) : Prop := ∃ es ks, w.Ok es ks

theorem SlotsOk.rest {α : Type} {own : Bool} {s : List (Option α)} {x : Nat} {rem : List α}
    (h : SlotsOk own s x rem) : s.drop x = rem.map some := by
  obtain ⟨pre, rfl, rfl, -⟩ := h
  simp

theorem II.Ok.rem_eq {w : II K V} {es ks} (h : w.Ok es ks) : w.rem = w.remOf es ks := by
  rw [II.rem, h.hes.rest, h.hks.rest]
  congr 1 <;> simp [List.filterMap_map]

theorem II.Ok.cost_eq {w : II K V} {es ks} (h : w.Ok es ks) :
    iiOps.cost w = nodeCosts (ks.map ANode.forget) + 1 := by
  simp only [iiOps, h.hks.rest, List.map_map]
  congr 1
  clear h
  induction ks with
  | nil => rfl
  | cons c ks ih => simp [nodeCosts, ih]

theorem slotsOk_new {α : Type} (own : Bool) (l : List α) : SlotsOk own (l.map some) 0 l :=
  ⟨[], rfl, rfl, fun _ => rfl⟩

theorem iiOps_make {lo h : Nat} {b : Bool} {n : ANode K V} (hn : Ok MIN lo h n.forget)
    (hlo : 1 ≤ lo) : ∃ i, iiOps.make (b, n) = some i ∧ i.Good ∧ i.rem = tags b n ∧
      iiOps.cost i + 1 = nodeCost n.forget ∧ i.Ok n.elems n.kids ∧ i.own = b := by
  obtain ⟨h1, h2, h3⟩ := ok_make hn hlo
  obtain ⟨o, es, ks⟩ := n
  simp only [ANode.forget_elems, ANode.forget_kids, ANode.elems, ANode.kids] at h1 h2 h3
  have hok : II.Ok (⟨b, es.map some, ks.map some, 0, es.length, 0, ks.length⟩ : II K V) es ks :=
    ⟨slotsOk_new b es, slotsOk_new b ks, by simp, by simp, by
      rcases h2 with h2 | h2
      · left; simpa using h2
      · right; left; simpa using h2, fun c hc => h3 _ (List.mem_map_of_mem hc)⟩
  refine ⟨_, rfl, ⟨es, ks, hok⟩, ?_, ?_, hok, rfl⟩
  · refine hok.rem_eq.trans ?_
    simp [II.remOf, tags, tagsI_eq]
  · refine (congrArg (· + 1) hok.cost_eq).trans ?_
    simp [ANode.forget, ANode.forgets_eq, nodeCost]

theorem ii_lawful : Lawful (iiOps : NOps (II K V) _ _) II.Good II.rem := by
  constructor
  rintro w ⟨es, ks, h⟩
  simp only [iiOps]
  by_cases hc : w.kx < w.ek ∧ w.kx ≤ w.ex
  · rw [if_pos hc]
    have hek := h.hek
    cases ks with
    | nil => simp at hek; omega
    | cons c ks =>
      obtain ⟨s', e, hs', -⟩ := h.hks.take
      rw [e]
      have hsh : w.kx = w.ex ∧ ks.length = es.length := by
        have := h.shape
        simp only [List.length_cons, reduceCtorEq, false_and, false_or] at this
        omega
      have hok' : II.Ok {w with ks := s', kx := w.kx + 1} es ks :=
        ⟨h.hes, hs', h.hee, by simp only [List.length_cons] at hek ⊢; omega,
          .inr (.inr ⟨by simp only; omega, hsh.2⟩), fun d hd => h.kids d (by simp [hd])⟩
      obtain ⟨ht, hkid⟩ := h.kids c (by simp)
      obtain ⟨i, e1, e2, e3, e4, -⟩ := iiOps_make (b := w.own && c.own) hkid (by omega)
      refine ⟨⟨es, ks, hok'⟩, i, e1, e2, ?_, ?_⟩
      · rw [h.rem_eq, hok'.rem_eq, e3, II.remOf, II.remOf, if_pos hc.2,
          if_neg (by simp only; omega), ilv_cons]
      · have a := h.cost_eq
        have b := hok'.cost_eq
        simp only [iiOps, List.map_cons, nodeCosts] at a b e4 ⊢
        omega
  · rw [if_neg hc]
    have hee := h.hee
    have hek := h.hek
    cases es with
    | nil =>
      rw [if_neg (by simp at hee; omega)]
      have hk : ks = [] := by
        rcases h.shape with h' | h' | h'
        · exact h'.1
        · simp at h'; omega
        · simpa using h'.2
      subst hk
      refine ⟨?_, by omega⟩
      rw [h.rem_eq, II.remOf]; simp
    | cons e es =>
      rw [if_pos (by simp at hee; omega)]
      obtain ⟨s', e', hs', -⟩ := h.hes.take
      rw [e']
      have hok' : II.Ok {w with es := s', ex := w.ex + 1} es ks := by
        refine ⟨hs', h.hks, by simp only [List.length_cons] at hee ⊢; omega, hek, ?_, h.kids⟩
        simp only
        rcases h.shape with ⟨h1, h2⟩ | ⟨h1, h2⟩ | ⟨h1, h2⟩
        · left; refine ⟨h1, .inl ?_⟩
          rcases h2 with h2 | h2
          · exact h2
          · simp at h2
        · simp at h2; omega
        · right; left; simp at h2; omega
      refine ⟨⟨es, ks, hok'⟩, ?_⟩
      rw [h.rem_eq, hok'.rem_eq, II.remOf, II.remOf]
      simp only [List.map_cons]
      rcases h.shape with ⟨rfl, h2⟩ | ⟨h1, h2⟩ | ⟨h1, h2⟩
      · rcases h2 with h2 | h2
        · simp [h2]
        · simp at h2
      · simp at h2; omega
      · rw [if_neg (by omega), if_pos (by omega)]; simp

/-- Dropping a node iterator destroys exactly what it owns and has not given away. -/
theorem II.Good.drop {w : II K V} (h : w.Good) :
    ∃ d, w.drop = some (d, []) ∧ d.Perm (moved w.rem) := by
  obtain ⟨es, ks, h⟩ := h
  cases ho : w.own with
  | false =>
    refine ⟨[], by simp [II.drop, ho], ?_⟩
    rw [h.rem_eq, II.remOf, ho]
    have hcont : ∀ c : ANode K V, tags (false && c.own) c = tags false c := by simp
    simp only [hcont]
    have key := moved_tagsI_false ks es
    rw [tagsI_eq] at key
    simp only [Bool.false_and] at key ⊢
    split
    · rw [key]
    · cases es with
      | nil => simp only [List.map_nil, ilvE] at key ⊢; rw [key]
      | cons e es =>
        simp only [List.map_cons, ilvE_cons, moved_cons]
        have key := moved_tagsI_false ks es
        rw [tagsI_eq] at key
        simp only [Bool.false_and] at key
        rw [key]; simp
  | true =>
    have h1 := h.hes; have h2 := h.hks
    rw [ho] at h1 h2
    obtain ⟨s1, a1, b1⟩ := h1.drop
    obtain ⟨s2, a2, b2⟩ := h2.drop
    have e1 : w.ee - w.ex = es.length := by rw [h.hee]; omega
    have e2 : w.ek - w.kx = ks.length := by rw [h.hek]; omega
    refine ⟨es ++ dropNodes ks, ?_, ?_⟩
    · simp [II.drop, ho, e1, e2, a1, a2, b1, b2, dropNodes]
    · rw [h.rem_eq, II.remOf, ho]
      split
      · rw [← tagsI_eq]; exact (moved_tagsI ks es).symm
      · cases es with
        | nil =>
          have := (moved_tagsI ks ([] : List (K × V))).symm
          rw [tagsI_eq] at this
          simpa [ilvE] using this
        | cons e es =>
          have := (moved_tagsI ks es).symm
          rw [tagsI_eq] at this
          simp only [List.map_cons, ilvE_cons, moved_cons, if_true, List.cons_append,
            List.nil_append]
          exact List.Perm.cons e this

theorem dropAll_good {ws : List (II K V)} (h : ∀ w ∈ ws, w.Good) :
    ∃ d, dropAll ws = some (d, []) ∧ d.Perm (moved (ws.flatMap II.rem)) := by
  induction ws with
  | nil => exact ⟨[], rfl, by simp⟩
  | cons w ws ih =>
    obtain ⟨d1, e1, p1⟩ := (h w (by simp)).drop
    obtain ⟨d2, e2, p2⟩ := ih (fun x hx => h x (by simp [hx]))
    exact ⟨d1 ++ d2, by simp [dropAll, e1, e2], by simpa using p1.append p2⟩

/-! ### The iterators of a map -/

namespace FMap
section
variable {m : FMap K V}

theorem iter_good (h : m.Inv) : ∃ it, m.iter = some it ∧
    it.Good niOps NI.Good NI.rem ∧ it.work.flatMap NI.rem = m.toList ∧
    it.work.reverse.flatMap NI.rem = m.toList := by
  obtain ⟨root, len⟩ := m
  have hl : len = (FMap.toList ⟨root, len⟩).length := h.len
  cases root with
  | none => exact ⟨⟨[], len⟩, rfl, ⟨by simp, hl⟩, rfl, rfl⟩
  | some n =>
    obtain ⟨ht, hn⟩ := h.shape n rfl
    obtain ⟨i, e1, e2, e3, -⟩ := niOps_make hn (Nat.le_refl 1)
    have e : [i].flatMap NI.rem = n.toList := by simp [e3]
    exact ⟨⟨[i], len⟩, by simp [iter, NOps.start, e1],
      ⟨by simpa using e2, by rw [e]; exact hl⟩, e, e⟩

theorem intoIter_good (s : Sharing K V) (h : m.Inv) : ∃ it, m.intoIter s = some it ∧
    it.Good iiOps II.Good II.rem ∧ it.work.reverse.flatMap II.rem = it.work.flatMap II.rem ∧
    (it.work.flatMap II.rem).map (·.2) = m.toList ∧
    (moved (it.work.flatMap II.rem)).Perm
      (match m.root with | none => [] | some n => dropNode (s.annot n)) := by
  obtain ⟨root, len⟩ := m
  have hl : len = (FMap.toList ⟨root, len⟩).length := h.len
  cases root with
  | none => exact ⟨⟨[], len⟩, rfl, ⟨by simp, hl⟩, rfl, rfl, by simp⟩
  | some n =>
    obtain ⟨ht, hn⟩ := h.shape n rfl
    rw [← s.forget_annot n] at hn
    obtain ⟨i, e1, e2, e3, -⟩ := iiOps_make (b := (s.annot n).own) hn (Nat.le_refl 1)
    have e : [i].flatMap II.rem = tags (s.annot n).own (s.annot n) := by simp [e3]
    have ef : (tags (s.annot n).own (s.annot n)).map (·.2) = n.toList := by
      rw [tags_forget, s.forget_annot]
    refine ⟨⟨[i], len⟩, by simp [intoIter, NOps.start, e1],
      ⟨by simpa using e2, ?_⟩, rfl, by rw [e, ef]; rfl, by rw [e]; exact moved_tags _⟩
    rw [e]
    have := congrArg List.length ef
    rw [List.length_map] at this
    rw [this]; exact hl

theorem iterRun_inv (h : m.Inv) (ds : List Bool) :
    ∃ ys, m.iterRun ds = some ys ∧ ys.length = ds.length ∧ Spec.Bag m.toList ys := by
  obtain ⟨it, e, hg, hr, -⟩ := iter_good h
  obtain ⟨ys, it', e', -, hb, hl, -⟩ := ni_lawful.run ds hg
  exact ⟨ys, by simp [iterRun, e, e'], hl, hr ▸ hb⟩

theorem iterRun_front_inv (h : m.Inv) (n : Nat) :
    m.iterRun (List.replicate n true) = some (Spec.dequeRun (List.replicate n true) m.toList) := by
  obtain ⟨it, e, hg, hr, -⟩ := iter_good h
  obtain ⟨it', e', -⟩ := ni_lawful.run_front n hg
  rw [hr] at e'
  simp [iterRun, e, e']

theorem iterRun_back_inv (h : m.Inv) (n : Nat) :
    m.iterRun (List.replicate n false) = some (Spec.dequeRun (List.replicate n true) m.toList) := by
  obtain ⟨it, e, hg, -, hr⟩ := iter_good h
  obtain ⟨it', e', -⟩ := ni_lawful.run_back n hg
  rw [hr] at e'
  simp [iterRun, e, e']

/-- `into_iter` under any schedule, then dropped. -/
theorem intoRun_inv (s : Sharing K V) (h : m.Inv) (ds : List Bool) :
    ∃ ys d, m.intoRun s ds = some (ys, d, []) ∧ ys.length = ds.length ∧
      Spec.Bag m.toList (ys.map (fun y => (y.1.map (·.2), y.2))) ∧
      (moved (ys.filterMap (·.1)) ++ d).Perm
        (match m.root with | none => [] | some n => dropNode (s.annot n)) := by
  obtain ⟨it, e, hg, -, hr, hm⟩ := intoIter_good s h
  obtain ⟨ys, it', e', hg', hb, hl, hp⟩ := ii_lawful.run ds hg
  obtain ⟨d, e'', hd⟩ := dropAll_good hg'.all
  refine ⟨ys, d, by simp [intoRun, e, e', e''], hl, ?_, ?_⟩
  · have := hb.map (·.2)
    rw [hr] at this; exact this
  · refine List.Perm.trans ?_ hm
    refine (List.Perm.append_left _ hd).trans ?_
    rw [← moved_append]
    exact (hp.filter _).map _

theorem intoRun_front_inv (s : Sharing K V) (h : m.Inv) (n : Nat) :
    ∃ ys d, m.intoRun s (List.replicate n true) = some (ys, d, []) ∧
      ys.map (fun y => (y.1.map (·.2), y.2)) =
        Spec.dequeRun (List.replicate n true) m.toList := by
  obtain ⟨it, e, hg, -, hr, -⟩ := intoIter_good s h
  obtain ⟨it', e', hg'⟩ := ii_lawful.run_front n hg
  obtain ⟨d, e'', -⟩ := dropAll_good hg'.all
  refine ⟨_, d, by simp only [intoRun, e, e', e'']; rfl, ?_⟩
  rw [← Avl.dequeRun_map, hr]

theorem intoRun_back_inv (s : Sharing K V) (h : m.Inv) (n : Nat) :
    ∃ ys d, m.intoRun s (List.replicate n false) = some (ys, d, []) ∧
      ys.map (fun y => (y.1.map (·.2), y.2)) =
        Spec.dequeRun (List.replicate n true) m.toList := by
  obtain ⟨it, e, hg, hr', hr, -⟩ := intoIter_good s h
  obtain ⟨it', e', hg'⟩ := ii_lawful.run_back n hg
  obtain ⟨d, e'', -⟩ := dropAll_good hg'.all
  refine ⟨_, d, by simp only [intoRun, e, e', e'']; rfl, ?_⟩
  rw [← Avl.dequeRun_map, hr', hr]

end

variable [Ord K] [Std.TransOrd K] {m : FMap K V}

theorem iterRun_spec (h : m.WF) (ds : List Bool) :
    ∃ ys, m.iterRun ds = some ys ∧ ys.length = ds.length ∧ Spec.Bag m.toList ys :=
  iterRun_inv h.inv ds

theorem iterRun_front (h : m.WF) (n : Nat) :
    m.iterRun (List.replicate n true) = some (Spec.dequeRun (List.replicate n true) m.toList) :=
  iterRun_front_inv h.inv n

theorem iterRun_back (h : m.WF) (n : Nat) :
    m.iterRun (List.replicate n false) = some (Spec.dequeRun (List.replicate n true) m.toList) :=
  iterRun_back_inv h.inv n

/-- `into_iter` under any schedule, then dropped. -/
theorem intoRun_spec (s : Sharing K V) (h : m.WF) (ds : List Bool) :
    ∃ ys d, m.intoRun s ds = some (ys, d, []) ∧ ys.length = ds.length ∧
      Spec.Bag m.toList (ys.map (fun y => (y.1.map (·.2), y.2))) ∧
      (moved (ys.filterMap (·.1)) ++ d).Perm
        (match m.root with | none => [] | some n => dropNode (s.annot n)) :=
  intoRun_inv s h.inv ds

theorem intoRun_front (s : Sharing K V) (h : m.WF) (n : Nat) :
    ∃ ys d, m.intoRun s (List.replicate n true) = some (ys, d, []) ∧
      ys.map (fun y => (y.1.map (·.2), y.2)) =
        Spec.dequeRun (List.replicate n true) m.toList :=
  intoRun_front_inv s h.inv n

theorem intoRun_back (s : Sharing K V) (h : m.WF) (n : Nat) :
    ∃ ys d, m.intoRun s (List.replicate n false) = some (ys, d, []) ∧
      ys.map (fun y => (y.1.map (·.2), y.2)) =
        Spec.dequeRun (List.replicate n true) m.toList :=
  intoRun_back_inv s h.inv n

theorem label_toList (m : FMap K V) :
    m.label.toList = m.toList.zipIdx.map (fun x => (x.1.1, (x.2, x.1.2))) := by
  obtain ⟨root, len⟩ := m
  cases root with
  | none => rfl
  | some n => exact Node.mapIdx_toList _ 0 n

theorem store_toList (m : FMap K V) (slots : List Nat) (w : Nat → V) :
    (m.store slots w).toList =
      m.toList.zipIdx.map (fun x => if x.2 ∈ slots then (x.1.1, w x.2) else x.1) := by
  obtain ⟨root, len⟩ := m
  cases root with
  | none => rfl
  | some n => exact Node.mapIdx_toList _ 0 n

theorem WF.mapIdx {W : Type} (h : m.WF) (g : Nat → K × V → K × W)
    (hg : ∀ i e, (g i e).1 = e.1) :
    (⟨m.root.map (fun n => n.mapIdx g 0), m.len⟩ : FMap K W).WF := by
  obtain ⟨root, len⟩ := m
  cases root with
  | none => exact ⟨by simp [toList, Sorted], h.len, by simp⟩
  | some n =>
    obtain ⟨ht, h1⟩ := h.shape n rfl
    refine wf_some (Node.mapIdx_ok g 0 h1) ?_ ?_
    · refine Sorted.of_keys_sublist (l := n.toList) h.sorted ?_
      rw [Node.mapIdx_keys g hg]; exact List.Sublist.refl _
    · have := h.len
      rw [Node.mapIdx_toList]; simpa [toList] using this

theorem WF.label (h : m.WF) : m.label.WF := h.mapIdx _ (fun _ _ => rfl)
theorem WF.store (h : m.WF) (slots : List Nat) (w : Nat → V) : (m.store slots w).WF :=
  h.mapIdx _ (fun i e => by split <;> rfl)

/-- `iter_mut` under any schedule: distinct slots, each written where its entry is. -/
theorem iterMutRun_spec (h : m.WF) (ds : List Bool) (w : Nat → V) :
    ∃ ys m', Spec.Bag m.toList.zipIdx ys ∧ ys.length = ds.length ∧
      m.iterMutRun ds w = some (ys.map (fun y => (y.1.map (·.1), y.2)),
        ys.filterMap (fun y => y.1.map (·.2)), m') ∧ m'.WF ∧
      (ys.filterMap (fun y => y.1.map (·.2))).Nodup ∧ m'.len = m.len ∧
      m'.toList = m.toList.zipIdx.map (fun x =>
        if x.2 ∈ ys.filterMap (fun y => y.1.map (·.2)) then (x.1.1, w x.2) else x.1) := by
  obtain ⟨zs, e, hl, hb⟩ := iterRun_spec h.label ds
  rw [label_toList] at hb
  have hb' := hb.map (fun x => ((x.1, x.2.2), x.2.1))
  rw [List.map_map] at hb'
  have hid : ((fun x : K × (Nat × V) => ((x.1, x.2.2), x.2.1)) ∘
      fun x : (K × V) × Nat => (x.1.1, (x.2, x.1.2))) = id := rfl
  rw [hid, List.map_id] at hb'
  refine ⟨_, m.store (Avl.slotsOf zs) w, hb', by simpa using hl, ?_, h.store _ _, ?_, rfl, ?_⟩
  · rw [iterMutRun, e, Option.map_some, Avl.seenOf, Avl.slotsOf]
    simp only [List.map_map, List.filterMap_map, Function.comp_def, Option.map_map]
  · obtain ⟨rest, hperm⟩ := hb'.yields
    have h3 := (hperm.map (·.2)).nodup_iff.2 (BTreeMap.nodup_slots m.toList)
    rw [List.map_append] at h3
    have h4 := (List.nodup_append.1 h3).1
    rw [List.map_filterMap] at h4
    exact h4
  · rw [store_toList]
    have : Avl.slotsOf zs = List.filterMap (fun y => Option.map (fun x => x.2) y.1)
        (zs.map (fun y => (y.1.map (fun x => ((x.1, x.2.2), x.2.1)), y.2))) := by
      simp only [Avl.slotsOf, List.filterMap_map, Function.comp_def, Option.map_map]
    rw [this]

end FMap
end Verif.Fixed
