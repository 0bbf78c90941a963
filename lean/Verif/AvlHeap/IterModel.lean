import Verif.AvlHeap.Model
import Verif.Avl.Iter
/-!
# The AVL iterators (avl.rs:1166-1298, 1534-1697, 1914-2256) on reference-counted memory

`InnerIter` is written once for all kinds of iterator nodes; `des` is `IterNode::destruct`, and
also takes a node apart in the loops of `range` and `range_mut`, where it keeps only the parts
within the bounds.
-/
namespace Verif.AvlH
open Heap
open Avl (lbGe ubLe)

variable {K V : Type} {P S N I : Type}

/-- avl.rs:1915-1918 `IterAction`. -/
inductive HAct (N I : Type) where
  | desc (n : N)
  | ret (i : I)

/-- Push `Descend` if there is a node. -/
def optD : Option N → List (HAct N I)
  | none => []
  | some n => [.desc n]

/-- Push `Return` if there is an item. -/
def optR : Option I → List (HAct N I)
  | none => []
  | some i => [.ret i]

/-- What taking a node apart may do: `S` is what the iterator keeps besides the worklist. -/
abbrev Des (P S N I : Type) := S → N → Prog P (S × Option N × Option I × Option N)

/-- avl.rs:1937-1963 `InnerIter::next` on the worklist (front first). -/
def nextG (des : Des P S N I) : Nat → S → List (HAct N I) →
    Prog P (S × Option (I × List (HAct N I)))
  | _, s, [] => .pure (s, none)
  | _, s, .ret i :: w => .pure (s, some (i, w))
  | 0, _, .desc _ :: _ => .panic
  | n + 1, s, .desc m :: w =>
    (des s m).bind fun x =>
    nextG des n x.1 (optD x.2.1 ++ (optR x.2.2.1 ++ (optD x.2.2.2 ++ w)))

/-- avl.rs:1967-1993 `InnerIter::next_back`, the worklist written back first. -/
def nextBackG (des : Des P S N I) : Nat → S → List (HAct N I) →
    Prog P (S × Option (I × List (HAct N I)))
  | _, s, [] => .pure (s, none)
  | _, s, .ret i :: w => .pure (s, some (i, w))
  | 0, _, .desc _ :: _ => .panic
  | n + 1, s, .desc m :: w =>
    (des s m).bind fun x =>
    nextBackG des n x.1 (optD x.2.2.2 ++ (optR x.2.2.1 ++ (optD x.2.1 ++ w)))

/-- avl.rs:1929-1932 `InnerIter`. -/
structure HIter (N I : Type) where
  work : List (HAct N I)
  len : Nat

/-- `next` or `next_back`, `n` bounding the number of nodes taken apart. -/
def stepG (des : Des P S N I) (n : Nat) (front : Bool) (s : S) (it : HIter N I) :
    Prog P (S × Option I × HIter N I) :=
  match front with
  | true =>
    (nextG des n s it.work).bind fun x =>
    match x.2 with
    | none => .pure (x.1, none, ⟨[], it.len⟩)
    | some y => if it.len = 0 then .panic else .pure (x.1, some y.1, ⟨y.2, it.len - 1⟩)
  | false =>
    (nextBackG des n s it.work.reverse).bind fun x =>
    match x.2 with
    | none => .pure (x.1, none, ⟨[], it.len⟩)
    | some y => if it.len = 0 then .panic else .pure (x.1, some y.1, ⟨y.2.reverse, it.len - 1⟩)

/-- A schedule of calls; `yld` is what the caller does with an item.  Each result with the
`len()` reported afterwards. -/
def runG (des : Des P S N I) (yld : S → I → Option (S × (K × V))) (n : Nat) : List Bool → S → HIter N I →
    Prog P (S × List (Option (K × V) × Nat) × HIter N I)
  | [], s, it => .pure (s, [], it)
  | d :: ds, s, it =>
    (stepG des n d s it).bind fun x =>
    match x.2.1 with
    | none =>
      (runG des yld n ds x.1 x.2.2).bind fun y =>
      .pure (y.1, (none, x.2.2.len) :: y.2.1, y.2.2)
    | some i =>
      match yld x.1 i with
      | none => .panic
      | some z =>
        (runG des yld n ds z.1 x.2.2).bind fun y =>
        .pure (y.1, (some z.2, x.2.2.len) :: y.2.1, y.2.2)

/-- avl.rs:1558-1580, 1640-1662: prune the left side (front first). -/
def pruneG (des : Des P S N I) : Nat → S → List (HAct N I) → Prog P (S × List (HAct N I))
  | _, s, [] => .pure (s, [])
  | _, s, .ret i :: w => .pure (s, .ret i :: w)
  | 0, _, .desc _ :: _ => .panic
  | n + 1, s, .desc m :: w =>
    (des s m).bind fun x =>
    pruneG des n x.1 (optD x.2.1 ++ (optR x.2.2.1 ++ (optD x.2.2.2 ++ w)))

/-- avl.rs:1583-1605, 1665-1689: prune the right side (back first). -/
def pruneBackG (des : Des P S N I) : Nat → S → List (HAct N I) → Prog P (S × List (HAct N I))
  | _, s, [] => .pure (s, [])
  | _, s, .ret i :: w => .pure (s, .ret i :: w)
  | 0, _, .desc _ :: _ => .panic
  | n + 1, s, .desc m :: w =>
    (des s m).bind fun x =>
    pruneBackG des n x.1 (optD x.2.2.2 ++ (optR x.2.2.1 ++ (optD x.2.1 ++ w)))

/-! ## Shared iterators -/

/-- avl.rs:2006-2018 `NormIterNode::destruct`: a shared reference into the tree of handle `a` is
the path to the node.  With bounds: avl.rs:1563-1579, 1588-1604. -/
def desN (a : Nat) (lb ub : Bnd K) : Des (ND K V) Unit (List Nat) (K × V) := fun _ path =>
  (readN a path).bind fun x =>
  .pure ((),
    if x.2.1 && !lbGe lb x.1.key then some (path ++ [0]) else none,
    if lb.okLo x.1.key && ub.okHi x.1.key then some (x.1.key, x.1.val) else none,
    if x.2.2 && !ubLe ub x.1.key then some (path ++ [1]) else none)

/-- The caller just looks at the entry. -/
def yldN (s : Unit) (e : K × V) : Option (Unit × (K × V)) := some (s, e)

/-- avl.rs:1243-1255 `iter`, run under a schedule; `keys`, `values` project the entries. -/
def iterRun (n : Nat) (ds : List Bool) (r : Option Nat) (len : Nat) :
    Prog (ND K V) (List (Option (K × V) × Nat)) :=
  match r with
  | none =>
    (runG (desN 0 .unbounded .unbounded) yldN n ds () ⟨[], len⟩).bind fun x =>
    .pure x.2.1
  | some a =>
    (runG (desN a .unbounded .unbounded) yldN n ds () ⟨[.desc []], len⟩).bind fun x =>
    .pure x.2.1

/-- avl.rs:1534-1613 `range`, run under a schedule. -/
def rangeRun (n : Nat) (lb ub : Bnd K) (ds : List Bool) (r : Option Nat) (len : Nat) :
    Prog (ND K V) (List (Option (K × V) × Nat)) :=
  match r with
  | none =>
    (runG (desN 0 .unbounded .unbounded) yldN n ds () ⟨[], len⟩).bind fun x =>
    .pure x.2.1
  | some a =>
    (pruneG (desN a lb ub) n () [.desc []]).bind fun w =>
    (pruneBackG (desN a lb ub) n () w.2.reverse).bind fun w =>
    (runG (desN a .unbounded .unbounded) yldN n ds () ⟨w.2.reverse, len⟩).bind fun x =>
    .pure x.2.1

/-! ## Owning iterators -/

/-- avl.rs:2150-2155 `IntoIterNode`. -/
inductive OwnN (K V : Type) where
  | arcked (a : Nat)
  | owned (d : ND K V) (l r : Option Nat)

/-- avl.rs:2157-2165 `opt_to_iter_node`. -/
def optToIterNode : Option Nat → Prog (ND K V) (Option (OwnN K V))
  | none => .pure none
  | some a =>
    (lift (.tryUnwrap a)).bind fun
      | some n =>
        match n.kids with
        | [l, r] => .pure (some (.owned n.data l r))
        | _ => .panic
      | none => .pure (some (.arcked a))

/-- avl.rs:2173-2197 `IntoIterNode::destruct`.  In the first case the links are cloned and then
the `Arc` is dropped. -/
def desI (D : Nat) : Des (ND K V) Unit (OwnN K V) (K × V) := fun _ m =>
  match m with
  | .arcked a =>
    (readN a []).bind fun x =>
    (lift (.incAt a [] 0)).bind fun (l : Option Nat) =>
    (lift (.incAt a [] 1)).bind fun (r : Option Nat) =>
    (drop D (some a)).bind fun _ =>
    .pure ((), l.map .arcked, some (x.1.key, x.1.val), r.map .arcked)
  | .owned d l r =>
    (optToIterNode l).bind fun l =>
    (optToIterNode r).bind fun r =>
    .pure ((), l, some (d.key, d.val), r)

/-- Dropping the iterator: what is left on the worklist. -/
def dropWork (D : Nat) : List (HAct (OwnN K V) (K × V)) → Prog (ND K V) Unit
  | [] => .pure ()
  | .ret _ :: w => dropWork D w
  | .desc (.arcked a) :: w => (drop D (some a)).bind fun _ => dropWork D w
  | .desc (.owned _ l r) :: w =>
    (drop D l).bind fun _ => (drop D r).bind fun _ => dropWork D w

/-- avl.rs:2236-2256 `into_iter` (1166-1218 `into_keys`, `into_values`), run under a schedule and
then dropped. -/
def intoRun (D n : Nat) (ds : List Bool) (r : Option Nat) (len : Nat) :
    Prog (ND K V) (List (Option (K × V) × Nat)) :=
  (optToIterNode r).bind fun m =>
  (runG (desI D) yldN n ds () ⟨optD m, len⟩).bind fun x =>
  (dropWork D x.2.2.work).bind fun _ => .pure x.2.1

/-! ## Mutable iterators -/

/-- What a mutable iterator has done so far: the nodes it has taken apart, oldest first (address,
contents, links), and the number of items yielded. -/
structure MS (K V : Type) where
  opened : List (Nat × ND K V × Option Nat × Option Nat)
  count : Nat

/-- A child of a node being taken apart: `Arc::make_mut` if it is to be visited.  Returns the
link, and the node to visit. -/
def mutKid (D : Nat) (keep : Bool) : Option Nat → Prog (ND K V) (Option Nat × Option Nat)
  | none => .pure (none, none)
  | some a =>
    match keep with
    | false => .pure (some a, none)
    | true => (makeMut D a).bind fun a => .pure (some a, some a)

/-- avl.rs:2034-2043 `IterMutNode::destruct`: the node is ours alone; `Arc::make_mut` on its
children.  With bounds: avl.rs:1645-1661, 1670-1688, where only the children kept are made
mutable (the left loop of `range_mut` does the right child first).  An item is the position of its node among the opened ones. -/
def desM (D : Nat) (lb ub : Bnd K) : Des (ND K V) (MS K V) Nat Nat := fun s a =>
  (openN a).bind fun x =>
  (mutKid D (!lbGe lb x.1.key) x.2.1).bind fun l =>
  (mutKid D (!ubLe ub x.1.key) x.2.2).bind fun r =>
  .pure (⟨s.opened ++ [(a, x.1, l.1, r.1)], s.count⟩, l.2,
    if lb.okLo x.1.key && ub.okHi x.1.key then some s.opened.length else none, r.2)

/-- What the caller does with the `j`-th reference: read the entry and write `g j`. -/
def yldM (g : Nat → K → V → V) (s : MS K V) (i : Nat) : Option (MS K V × (K × V)) :=
  match s.opened[i]? with
  | none => none
  | some e =>
    some (⟨s.opened.set i (e.1, { e.2.1 with val := g s.count e.2.1.key e.2.1.val }, e.2.2),
        s.count + 1⟩, (e.2.1.key, e.2.1.val))

/-- The end of all borrows, innermost first. -/
def closeAll : List (Nat × ND K V × Option Nat × Option Nat) → Prog (ND K V) Unit
  | [] => .pure ()
  | e :: es => (closeN e.1 e.2.1 e.2.2.1 e.2.2.2).bind fun _ => closeAll es

/-- avl.rs:1281-1298 `iter_mut` (`values_mut`), run under a schedule. -/
def iterMutRun (D n : Nat) (g : Nat → K → V → V) (ds : List Bool)
    (r : Option Nat) (len : Nat) : Prog (ND K V) (Option Nat × List (Option (K × V) × Nat)) :=
  match r with
  | none =>
    (runG (desM D .unbounded .unbounded) (yldM g) n ds ⟨[], 0⟩ ⟨[], len⟩).bind fun x =>
    .pure (none, x.2.1)
  | some a =>
    (makeMut D a).bind fun a =>
    (runG (desM D .unbounded .unbounded) (yldM g) n ds ⟨[], 0⟩ ⟨[.desc a], len⟩).bind fun x =>
    (closeAll x.1.opened.reverse).bind fun _ => .pure (some a, x.2.1)

/-- avl.rs:1616-1697 `range_mut`, run under a schedule. -/
def rangeMutRun (D n : Nat) (lb ub : Bnd K) (g : Nat → K → V → V)
    (ds : List Bool) (r : Option Nat) (len : Nat) :
    Prog (ND K V) (Option Nat × List (Option (K × V) × Nat)) :=
  match r with
  | none =>
    (runG (desM D .unbounded .unbounded) (yldM g) n ds ⟨[], 0⟩ ⟨[], len⟩).bind fun x =>
    .pure (none, x.2.1)
  | some a =>
    (makeMut D a).bind fun a =>
    (pruneG (desM D lb ub) n ⟨[], 0⟩ [.desc a]).bind fun w =>
    (pruneBackG (desM D lb ub) n w.1 w.2.reverse).bind fun w =>
    (runG (desM D .unbounded .unbounded) (yldM g) n ds w.1 ⟨w.2.reverse, len⟩).bind fun x =>
    (closeAll x.1.opened.reverse).bind fun _ => .pure (some a, x.2.1)

end Verif.AvlH
