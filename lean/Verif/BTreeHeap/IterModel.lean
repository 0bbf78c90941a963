import Verif.BTreeHeap.Model
import Verif.BTree.Range
/-!
# The B-tree iterators (btree.rs:1211-2160) on reference-counted memory

`InnerIter` is written once for all kinds of node iterators, as in the code; `S` is what an
iterator keeps besides its deque (only the mutable ones do).
-/
namespace Verif.BTreeH
open Heap
open BTree (InnerIter NIter findRangeEdges getSlice Edges)

variable {K V X : Type} {P S I E C : Type}

/-- btree.rs:1225-1239 `trait NodeIter` with `make_node_iter` (1335); `done` is the drop of a node
iterator. -/
structure HOps (P S I E C : Type) where
  isEmpty : I → Bool
  nextElem : I → Prog P (I × Option E)
  nextBackElem : I → Prog P (I × Option E)
  nextKid : I → Prog P (I × Option C)
  nextBackKid : I → Prog P (I × Option C)
  needsLf : I → Bool
  needsRt : I → Bool
  make : S → C → Prog P (S × I)
  done : I → Prog P Unit

/-- The same with left and right exchanged. -/
def HOps.mirror (o : HOps P S I E C) : HOps P S I E C where
  isEmpty := o.isEmpty
  nextElem := o.nextBackElem
  nextBackElem := o.nextElem
  nextKid := o.nextBackKid
  nextBackKid := o.nextKid
  needsLf := o.needsRt
  needsRt := o.needsLf
  make := o.make
  done := o.done

/-- btree.rs:1347-1349, 1360-1362: `pop_front` (and drop) if exhausted. -/
def HOps.keep (o : HOps P S I E C) (e : I) (rest : List I) : Prog P (List I) :=
  if o.isEmpty e then (o.done e).bind fun _ => .pure rest else .pure (e :: rest)

/-- btree.rs:1346-1351, one round of the loop of `next`; `false` if the loop ends. -/
def HOps.kidStep (o : HOps P S I E C) (s : S) (e : I) (rest : List I) :
    Prog P (Bool × S × I × List I) :=
  (o.nextKid e).bind fun x =>
  match x.2 with
  | none => .pure (false, s, x.1, rest)
  | some k =>
    (o.keep x.1 rest).bind fun rest =>
    (o.make s k).bind fun y => .pure (true, y.1, y.2, rest)

/-- btree.rs:1346-1352, the loop of `next`. -/
def HOps.descend (o : HOps P S I E C) : Nat → S → I → List I → Prog P (S × I × List I)
  | 0, _, _, _ => .panic
  | n + 1, s, e, rest =>
    (o.kidStep s e rest).bind fun x =>
    if x.1 then o.descend n x.2.1 x.2.2.1 x.2.2.2 else .pure x.2

/-- btree.rs:1355-1364, the end of `next`. -/
def HOps.yieldElem (o : HOps P S I E C) (len : Nat) (e : I) (rest : List I) :
    Prog P (InnerIter I × Option E) :=
  (o.nextElem e).bind fun x =>
  match x.2 with
  | none => .panic                                             -- 1357
  | some i =>
    if len = 0 then .panic                                     -- 1358
    else (o.keep x.1 rest).bind fun rest => .pure (⟨rest, len - 1⟩, some i)

/-- btree.rs:1341-1365 `InnerIter::next`; `n` bounds the loop. -/
def HOps.next (o : HOps P S I E C) (n : Nat) (s : S) (it : InnerIter I) :
    Prog P (S × InnerIter I × Option E) :=
  match it.work with
  | [] => .pure (s, it, none)
  | e :: rest =>
    if o.needsLf e then
      (o.descend n s e rest).bind fun x =>
      (o.yieldElem it.len x.2.1 x.2.2).bind fun y => .pure (x.1, y)
    else (o.yieldElem it.len e rest).bind fun y => .pure (s, y)

/-- `next` or (btree.rs:1369-1392) `next_back`, the same text with left and right, front and back
exchanged. -/
def HOps.step (o : HOps P S I E C) (n : Nat) (front : Bool) (s : S) (it : InnerIter I) :
    Prog P (S × InnerIter I × Option E) :=
  if front then o.next n s it
  else (o.mirror.next n s it.rev).bind fun x => .pure (x.1, x.2.1.rev, x.2.2)

/-- A schedule of calls; `yld` is what the caller does with an item.  Each result with the
`len()` reported afterwards. -/
def HOps.run (o : HOps P S I E C) (yld : S → E → Option (S × X)) (n : Nat) : List Bool → S →
    InnerIter I → Prog P (S × List (Option X × Nat) × InnerIter I)
  | [], s, it => .pure (s, [], it)
  | d :: ds, s, it =>
    (o.step n d s it).bind fun x =>
    match x.2.2 with
    | none =>
      (o.run yld n ds x.1 x.2.1).bind fun y => .pure (y.1, (none, x.2.1.len) :: y.2.1, y.2.2)
    | some i =>
      match yld x.1 i with
      | none => .panic
      | some z =>
        (o.run yld n ds z.1 x.2.1).bind fun y =>
        .pure (y.1, (some z.2, x.2.1.len) :: y.2.1, y.2.2)

/-! ## Shared iterators -/

/-- `InnerNodeIter` (btree.rs:1397-1398): a shared reference into the tree of handle `a` is the
path to a node; the elements, which nobody can change meanwhile, are copied. -/
abbrev SIter (K V : Type) := NIter (K × V) (List Nat)

/-- The children of the node at `path`. -/
def kidPaths (path : List Nat) (n : Nat) : List (List Nat) :=
  (List.range n).map (fun i => path ++ [i])

/-- btree.rs:1253-1310 for `Iter`; 1405-1409 `make_node_iter`. -/
def sharedOps (a : Nat) : HOps (ND K V) Unit (SIter K V) (K × V) (List Nat) where
  isEmpty e := e.elems.isEmpty && e.kids.isEmpty
  nextElem e :=
    if e.lf then .panic
    else .pure (⟨e.elems.tail, e.kids, !e.kids.isEmpty, e.rt⟩, e.elems.head?)
  nextBackElem e :=
    if e.rt then .panic
    else .pure (⟨e.elems.dropLast, e.kids, e.lf, !e.kids.isEmpty⟩, e.elems.getLast?)
  nextKid e :=
    if e.kids.isEmpty || e.lf then .pure (⟨e.elems, e.kids.tail, false, e.rt⟩, e.kids.head?)
    else .panic
  nextBackKid e :=
    if e.kids.isEmpty || e.rt then
      .pure (⟨e.elems, e.kids.dropLast, e.lf, false⟩, e.kids.getLast?)
    else .panic
  needsLf e := e.lf
  needsRt e := e.rt
  make _ path :=
    (lift (.read a path)).bind fun (x : HN K V) =>
    .pure ((), ⟨x.data, kidPaths path x.kids.length, !x.kids.isEmpty, !x.kids.isEmpty⟩)
  done _ := .pure ()

/-- The caller just looks at the entry. -/
def yldN (s : S) (e : X) : Option (S × X) := some (s, e)

/-- btree.rs:743-760 `iter`, run under a schedule. -/
def iterRun (n : Nat) (ds : List Bool) (r : Option Nat) (len : Nat) :
    Prog (ND K V) (List (Option (K × V) × Nat)) :=
  match r with
  | none => ((sharedOps 0).run yldN n ds () ⟨[], 0⟩).bind fun x => .pure x.2.1
  | some a =>
    ((sharedOps a).make () []).bind fun e =>
    ((sharedOps a).run yldN n ds () ⟨[e.2], len⟩).bind fun x => .pure x.2.1

/-! ## Owning iterators -/

/-- btree.rs:1508-1537 `IntoNodeIter`. -/
inductive OIter (K V : Type) where
  | arcked (a lbE ubE lbK ubK : Nat) (lf rt : Bool)
  | owned (es : List (K × V)) (ks : List (Option Nat)) (lf rt : Bool)

/-- `Result<Node, Arc<Node>>` (btree.rs:1545). -/
inductive OKid (K V : Type) where
  | ok (n : HN K V)
  | err (a : Nat)

/-- `Arc::try_unwrap`. -/
def tryKid : Option Nat → Prog (ND K V) (OKid K V)
  | none => .panic
  | some a => (lift (.tryUnwrap a)).bind fun
    | some n => .pure (.ok n)
    | none => .pure (.err a)

/-- btree.rs:1539-1654 `impl NodeIter for IntoNodeIter`; 1665-1698 `make_into_node_iter`.  Dropping
an `Arcked` iterator drops its `Arc`; an `Owned` one is only dropped here when it is empty. -/
def ownOps (D : Nat) : HOps (ND K V) Unit (OIter K V) (K × V) (OKid K V) where
  isEmpty
    | .arcked _ lbE ubE lbK ubK _ _ => decide (ubE ≤ lbE) && decide (ubK ≤ lbK)
    | .owned es ks _ _ => es.isEmpty && ks.isEmpty
  nextElem
    | .arcked a lbE ubE lbK ubK lf rt =>
      if lf then .panic
      else if lbE < ubE then
        (lift (.read a [])).bind fun (x : HN K V) =>
        match x.data[lbE]? with
        | none => .panic
        | some e => .pure (.arcked a (lbE + 1) ubE lbK ubK (decide (lbK < ubK)) rt, some e)
      else .pure (.arcked a lbE ubE lbK ubK (decide (lbK < ubK)) rt, none)
    | .owned es ks lf rt =>
      if lf then .panic
      else .pure (.owned es.tail ks (!ks.isEmpty) rt, es.head?)
  nextBackElem
    | .arcked a lbE ubE lbK ubK lf rt =>
      if rt then .panic
      else if lbE < ubE then
        (lift (.read a [])).bind fun (x : HN K V) =>
        match x.data[ubE - 1]? with
        | none => .panic
        | some e => .pure (.arcked a lbE (ubE - 1) lbK ubK lf (decide (lbK < ubK)), some e)
      else .pure (.arcked a lbE ubE lbK ubK lf (decide (lbK < ubK)), none)
    | .owned es ks lf rt =>
      if rt then .panic
      else .pure (.owned es.dropLast ks lf (!ks.isEmpty), es.getLast?)
  nextKid
    | .arcked a lbE ubE lbK ubK lf rt =>
      if lf || lbK == ubK then
        if lbK < ubK then
          (lift (.incAt a [] lbK)).bind fun (r : Option Nat) =>
          match r with
          | none => .panic
          | some c => .pure (.arcked a lbE ubE (lbK + 1) ubK false rt, some (.err c))
        else .pure (.arcked a lbE ubE lbK ubK false rt, none)
      else .panic
    | .owned es ks lf rt =>
      if lf || ks.isEmpty then
        match ks with
        | [] => .pure (.owned es [] false rt, none)
        | k :: ks => (tryKid k).bind fun c => .pure (.owned es ks false rt, some c)
      else .panic
  nextBackKid
    | .arcked a lbE ubE lbK ubK lf rt =>
      if rt || lbK == ubK then
        if lbK < ubK then
          (lift (.incAt a [] (ubK - 1))).bind fun (r : Option Nat) =>
          match r with
          | none => .panic
          | some c => .pure (.arcked a lbE ubE lbK (ubK - 1) lf false, some (.err c))
        else .pure (.arcked a lbE ubE lbK ubK lf false, none)
      else .panic
    | .owned es ks lf rt =>
      if rt || ks.isEmpty then
        match ks.getLast? with
        | none => .pure (.owned es [] lf false, none)
        | some k => (tryKid k).bind fun c => .pure (.owned es ks.dropLast lf false, some c)
      else .panic
  needsLf
    | .arcked _ _ _ _ _ lf _ => lf
    | .owned _ _ lf _ => lf
  needsRt
    | .arcked _ _ _ _ _ _ rt => rt
    | .owned _ _ _ rt => rt
  make _
    | .ok n => .pure ((), .owned n.data n.kids (!n.kids.isEmpty) (!n.kids.isEmpty))
    | .err a =>
      (lift (.read a [])).bind fun (x : HN K V) =>
      .pure ((), .arcked a 0 x.data.length 0 x.kids.length (!x.kids.isEmpty) (!x.kids.isEmpty))
  done
    | .arcked a _ _ _ _ _ _ => drop D (some a)
    | .owned _ ks _ _ => forAll (drop D) ks

/-- btree.rs:1705-1725 `IntoIter::new`. -/
def intoNew (D : Nat) (r : Option Nat) (len : Nat) : Prog (ND K V) (InnerIter (OIter K V)) :=
  match r with
  | none => .pure ⟨[], 0⟩
  | some a =>
    (tryKid (some a)).bind fun c =>
    ((ownOps D).make () c).bind fun e => .pure ⟨[e.2], len⟩

/-- Dropping the iterator: what is left on the deque. -/
def dropWork (D : Nat) : List (OIter K V) → Prog (ND K V) Unit
  | [] => .pure ()
  | e :: w => ((ownOps D).done e).bind fun _ => dropWork D w

/-- btree.rs:1022-1024 `into_iter` (716-735 `into_keys`, `into_values`), run under a schedule and
then dropped. -/
def intoRun (D n : Nat) (ds : List Bool) (r : Option Nat) (len : Nat) :
    Prog (ND K V) (List (Option (K × V) × Nat)) :=
  (intoNew D r len).bind fun it =>
  ((ownOps D).run yldN n ds () it).bind fun x =>
  (dropWork D x.2.2.work).bind fun _ => .pure x.2.1

/-! ## Mutable iterators -/

/-- The tree as a mutable iterator leaves it while running: the nodes it has made its own, with
their contents moved out, and the links below. -/
inductive MT (K V : Type) where
  | link (r : Option Nat)
  | opened (a : Nat) (es : List (K × V)) (kids : List (MT K V))

/-- The part at a path. -/
def MT.at : MT K V → List Nat → Option (MT K V)
  | m, [] => some m
  | .link _, _ :: _ => none
  | .opened _ _ ks, i :: p =>
    match ks[i]? with
    | none => none
    | some c => c.at p

/-- Replace the part at a path. -/
def MT.put (x : MT K V) : List Nat → MT K V → MT K V
  | [], _ => x
  | _ :: _, .link r => .link r
  | i :: p, .opened a es ks => .opened a es (ks.modify i (MT.put x p))

mutual
/-- The end of all borrows: the contents go back where they were. -/
def MT.close : MT K V → Prog (ND K V) (Option Nat)
  | .link r => .pure r
  | .opened a es ks =>
    (MT.closes ks).bind fun rs =>
    (lift (.close a ⟨es, rs⟩)).bind fun _ => .pure (some a)
/-- The children. -/
def MT.closes : List (MT K V) → Prog (ND K V) (List (Option Nat))
  | [] => .pure []
  | m :: ms => (MT.close m).bind fun r => (MT.closes ms).bind fun rs => .pure (r :: rs)
end

/-- What a mutable iterator keeps: the tree, and the number of items yielded. -/
structure MS (K V : Type) where
  tree : MT K V
  count : Nat

/-- `NodeIterMut` (btree.rs:1450-1453): the path to the node, and what is left of its elements
and children. -/
structure MIter where
  path : List Nat
  lbE : Nat
  ubE : Nat
  lbK : Nat
  ubK : Nat
  lf : Bool
  rt : Bool

/-- `Arc::make_mut` of the link at `path`, its contents moved out.  Also the contents. -/
def openAt (D : Nat) (m : MT K V) (path : List Nat) : Prog (ND K V) (MT K V × HN K V) :=
  match m.at path with
  | some (.link (some a)) =>
    (makeMut D a).bind fun a =>
    (lift (.open a)).bind fun x =>
    .pure (MT.put (.opened a x.data (x.kids.map MT.link)) path m, x)
  | _ => .panic

/-- btree.rs:1253-1310 for `IterMut`; 1455-1464 `make_node_iter_mut`.  An element is its node's
path and its index, a child the path of its link. -/
def mutOps (D : Nat) : HOps (ND K V) (MS K V) MIter (List Nat × Nat) (List Nat) where
  isEmpty e := decide (e.ubE ≤ e.lbE) && decide (e.ubK ≤ e.lbK)
  nextElem e :=
    if e.lf then .panic
    else if e.lbE < e.ubE then
      .pure ({ e with lbE := e.lbE + 1, lf := decide (e.lbK < e.ubK) }, some (e.path, e.lbE))
    else .pure ({ e with lf := decide (e.lbK < e.ubK) }, none)
  nextBackElem e :=
    if e.rt then .panic
    else if e.lbE < e.ubE then
      .pure ({ e with ubE := e.ubE - 1, rt := decide (e.lbK < e.ubK) }, some (e.path, e.ubE - 1))
    else .pure ({ e with rt := decide (e.lbK < e.ubK) }, none)
  nextKid e :=
    if e.lf || decide (e.ubK ≤ e.lbK) then
      if e.lbK < e.ubK then
        .pure ({ e with lbK := e.lbK + 1, lf := false }, some (e.path ++ [e.lbK]))
      else .pure ({ e with lf := false }, none)
    else .panic
  nextBackKid e :=
    if e.rt || decide (e.ubK ≤ e.lbK) then
      if e.lbK < e.ubK then
        .pure ({ e with ubK := e.ubK - 1, rt := false }, some (e.path ++ [e.ubK - 1]))
      else .pure ({ e with rt := false }, none)
    else .panic
  needsLf e := e.lf
  needsRt e := e.rt
  make s path :=
    (openAt D s.tree path).bind fun x =>
    .pure (⟨x.1, s.count⟩, ⟨path, 0, x.2.data.length, 0, x.2.kids.length, !x.2.kids.isEmpty,
      !x.2.kids.isEmpty⟩)
  done _ := .pure ()

/-- What the caller does with the `j`-th reference: read the entry and write `g j`. -/
def yldM (g : Nat → K → V → V) (s : MS K V) (i : List Nat × Nat) : Option (MS K V × (K × V)) :=
  match s.tree.at i.1 with
  | some (.opened a es ks) =>
    match es[i.2]? with
    | none => none
    | some e =>
      some (⟨MT.put (.opened a (es.set i.2 (e.1, g s.count e.1 e.2)) ks) i.1 s.tree, s.count + 1⟩, e)
  | _ => none

/-- btree.rs:762-784 `iter_mut` (949-957 `values_mut`), run under a schedule. -/
def iterMutRun (D n : Nat) (g : Nat → K → V → V) (ds : List Bool) (r : Option Nat) (len : Nat) :
    Prog (ND K V) (Option Nat × List (Option (K × V) × Nat)) :=
  match r with
  | none =>
    ((mutOps D).run (yldM g) n ds ⟨.link none, 0⟩ ⟨[], 0⟩).bind fun x => .pure (none, x.2.1)
  | some a =>
    ((mutOps D).make ⟨.link (some a), 0⟩ []).bind fun e =>
    ((mutOps D).run (yldM g) n ds e.1 ⟨[e.2], len⟩).bind fun x =>
    x.1.tree.close.bind fun r => .pure (r, x.2.1)

end Verif.BTreeH
