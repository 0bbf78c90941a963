import Verif.FixedHeap.Model
import Verif.BTreeHeap.IterModel
import Verif.Fixed.Iter
/-!
# The iterators of `src/btree/core.rs` on reference-counted memory

As in `Verif.Fixed.Iter`, with node iterators that act on memory.  The two flags of a `NodeIter`
are one: `is_next_back_elem` is only used by `next_back` (core.rs:1009-1019), which is never called.
-/
namespace Verif.FixedH
open Heap BTreeH Fixed
open Fixed (Inner)

variable {P S I E C X K V : Type}

/-- core.rs:967-971 `trait NodeIterator`, with what dropping a node iterator does.  `S` is what
all node iterators of one iterator refer to. -/
structure GOps (P S I E C : Type) where
  next : I → Prog P (I × Option (Act E C))
  make : S → C → Prog P (S × I)
  done : I → Prog P Unit

namespace GOps
variable (o : GOps P S I E C)

/-- core.rs:1265-1278, the loop of `InnerIter::next`; the list is the deque from the front. -/
def loop : Nat → S → List I → Nat → Prog P (S × Option E × List I × Nat)
  | 0, _, _, _ => .panic
  | _ + 1, s, [], len => .pure (s, none, [], len)
  | f + 1, s, w :: ws, len =>
    (o.next w).bind fun x =>
    match x.2 with
    | some (.ret e) => if len = 0 then .panic else .pure (s, some e, x.1 :: ws, len - 1)
    | some (.desc c) => (o.make s c).bind fun y => loop f y.1 (y.2 :: x.1 :: ws) len
    | none => (o.done x.1).bind fun _ => loop f s ws len

/-- core.rs:1263-1281 `InnerIter::next`; core.rs:1285-1303 `next_back`, the same text with the
back of the deque instead of its front. -/
def step (n : Nat) (front : Bool) (s : S) (it : Inner I) : Prog P (S × Option E × Inner I) :=
  if front then
    (o.loop n s it.work it.len).bind fun r => .pure (r.1, r.2.1, ⟨r.2.2.1, r.2.2.2⟩)
  else
    (o.loop n s it.work.reverse it.len).bind fun r =>
    .pure (r.1, r.2.1, ⟨r.2.2.1.reverse, r.2.2.2⟩)

/-- A schedule of calls; `yld` is what the caller does with an item.  The results, each with `len`
(core.rs:1306-1310) after the call, and the iterator left. -/
def run (yld : S → E → Option (S × X)) (n : Nat) :
    List Bool → S → Inner I → Prog P (S × List (Option X × Nat) × Inner I)
  | [], s, it => .pure (s, [], it)
  | d :: ds, s, it =>
    (o.step n d s it).bind fun x =>
    match x.2.1 with
    | none =>
      (run yld n ds x.1 x.2.2).bind fun y => .pure (y.1, (none, x.2.2.len) :: y.2.1, y.2.2)
    | some e =>
      match yld x.1 e with
      | none => .panic
      | some z =>
        (run yld n ds z.1 x.2.2).bind fun y =>
        .pure (y.1, (some z.2, x.2.2.len) :: y.2.1, y.2.2)

end GOps

/-! ## `NodeIter` -/

/-- core.rs:973-980 `NodeIter`: what the slice iterators have still to yield. -/
structure HNI (E C : Type) where
  es : List E
  ks : List C
  isNext : Bool

/-- core.rs:990-1000 `NodeIter::next`. -/
def HNI.next (w : HNI E C) : HNI E C × Option (Act E C) :=
  if w.isNext then
    match w.es with
    | [] => (⟨[], w.ks, w.ks.isEmpty⟩, none)
    | e :: es => (⟨es, w.ks, w.ks.isEmpty⟩, some (.ret e))
  else
    match w.ks with
    | [] => (⟨w.es, [], true⟩, none)
    | c :: ks => (⟨w.es, ks, true⟩, some (.desc c))

/-- core.rs:1034-1053 `NodeIterRef`: a shared reference into the tree of handle `a` is the path
to a node; the elements, which nobody can change meanwhile, are copied. -/
def sharedOps (a : Nat) : GOps (ND K V) Unit (HNI (K × V) (List Nat)) (K × V) (List Nat) where
  next w := .pure w.next
  make _ path :=
    (lift (.read a path)).bind fun (x : HN K V) =>
    if x.data.isEmpty then .panic
    else .pure ((), ⟨x.data, kidPaths path x.kids.length, x.kids.isEmpty⟩)
  done _ := .pure ()

/-- core.rs:1055-1082 `NodeIterMut`: an element is its node's path and its index, a child the
path of its link.  `make` is `Arc::make_mut` (1062). -/
def mutOps (D : Nat) :
    GOps (ND K V) (MS K V) (HNI (List Nat × Nat) (List Nat)) (List Nat × Nat) (List Nat) where
  next w := .pure w.next
  make s path :=
    (openAt D s.tree path).bind fun x =>
    if x.2.data.isEmpty then .panic
    else .pure (⟨x.1, s.count⟩, ⟨(List.range x.2.data.length).map (fun i => (path, i)),
      kidPaths path x.2.kids.length, x.2.kids.isEmpty⟩)
  done _ := .pure ()

/-! ## `NodeIntoIter` -/

/-- core.rs:1085-1098 `OwnedOrLeased`, `NodeIntoIter`: `next_elem_x`, `end_elems`, `next_kid_x`,
`end_kids` and the node.  Of an owned node only the slots not yet moved out are kept. -/
inductive OI (K V : Type) where
  | owned (es : List (K × V)) (ks : List (Option Nat)) (ex ee kx ek : Nat)
  | leased (a : Nat) (ex ee kx ek : Nat)

/-- core.rs:1108-1142 `NodeIntoIter::next`, 1197-1211 `new`, 1214-1236 `drop`. -/
def ownOps (D : Nat) : GOps (ND K V) Unit (OI K V) (K × V) (OKid K V) where
  next
    | .owned es ks ex ee kx ek =>
      if kx < ek ∧ kx ≤ ex then
        match ks with
        | [] => .panic
        | k :: ks => (tryKid k).bind fun c => .pure (.owned es ks ex ee (kx + 1) ek, some (.desc c))
      else if ex < ee then
        match es with
        | [] => .panic
        | e :: es => .pure (.owned es ks (ex + 1) ee kx ek, some (.ret e))
      else .pure (.owned es ks ex ee kx ek, none)
    | .leased a ex ee kx ek =>
      if kx < ek ∧ kx ≤ ex then
        (lift (.incAt a [] kx)).bind fun (r : Option Nat) =>
        (tryKid r).bind fun c => .pure (.leased a ex ee (kx + 1) ek, some (.desc c))
      else if ex < ee then
        (lift (.read a [])).bind fun (x : HN K V) =>
        match x.data[ex]? with
        | none => .panic
        | some e => .pure (.leased a (ex + 1) ee kx ek, some (.ret e))
      else .pure (.leased a ex ee kx ek, none)
  make _
    | .ok n => .pure ((), .owned n.data n.kids 0 n.data.length 0 n.kids.length)
    | .err a =>
      (lift (.read a [])).bind fun (x : HN K V) =>
      .pure ((), .leased a 0 x.data.length 0 x.kids.length)
  done
    | .owned _ ks _ _ _ _ => forAll (drop D) ks
    | .leased a _ _ _ _ => drop D (some a)

/-- core.rs:1323-1333 `new_into_iter`. -/
def intoNew (D : Nat) (r : Option Nat) (len : Nat) : Prog (ND K V) (Inner (OI K V)) :=
  match r with
  | none => .pure ⟨[], len⟩
  | some a =>
    (tryKid (some a)).bind fun c =>
    ((ownOps D).make () c).bind fun e => .pure ⟨[e.2], len⟩

/-- Dropping the iterator: what is left on the deque. -/
def dropWork (D : Nat) : List (OI K V) → Prog (ND K V) Unit
  | [] => .pure ()
  | e :: w => ((ownOps D).done e).bind fun _ => dropWork D w

/-! ## Runs -/

/-- fixed.rs:79-84 `iter`, run under a schedule. -/
def iterRun (n : Nat) (ds : List Bool) (r : Option Nat) (len : Nat) :
    Prog (ND K V) (List (Option (K × V) × Nat)) :=
  match r with
  | none => ((sharedOps 0).run yldN n ds () ⟨[], len⟩).bind fun x => .pure x.2.1
  | some a =>
    ((sharedOps a).make () []).bind fun e =>
    ((sharedOps a).run yldN n ds () ⟨[e.2], len⟩).bind fun x => .pure x.2.1

/-- fixed.rs:148-155 `into_iter`, run under a schedule and then dropped. -/
def intoRun (D n : Nat) (ds : List Bool) (r : Option Nat) (len : Nat) :
    Prog (ND K V) (List (Option (K × V) × Nat)) :=
  (intoNew D r len).bind fun it =>
  ((ownOps D).run yldN n ds () it).bind fun x =>
  (dropWork D x.2.2.work).bind fun _ => .pure x.2.1

/-- fixed.rs:86-96 `iter_mut`, run under a schedule; the caller writes `g j` through the `j`-th
reference.  At the end of all borrows the contents go back where they were. -/
def iterMutRun (D n : Nat) (g : Nat → K → V → V) (ds : List Bool) (r : Option Nat) (len : Nat) :
    Prog (ND K V) (Option Nat × List (Option (K × V) × Nat)) :=
  match r with
  | none =>
    ((mutOps D).run (yldM g) n ds ⟨.link none, 0⟩ ⟨[], len⟩).bind fun x => .pure (none, x.2.1)
  | some a =>
    ((mutOps D).make ⟨.link (some a), 0⟩ []).bind fun e =>
    ((mutOps D).run (yldM g) n ds e.1 ⟨[e.2], len⟩).bind fun x =>
    x.1.tree.close.bind fun r => .pure (r, x.2.1)

end Verif.FixedH
