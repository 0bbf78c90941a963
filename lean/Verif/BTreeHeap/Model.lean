import Verif.Heap.Wp
import Verif.BTree.Model
/-!
# The nodes of `src/btree.rs` on reference-counted memory

A node in memory has the elements as data and the children as links.  A method on `&mut self` is
a program that takes the contents of the node and returns the new contents; whoever calls it
through an `Arc` moves the contents out and back in (`mutArc`), after `Arc::make_mut`.

The functions on slices of keys and on `Vec`s (`locate`, `vInsert`, …) are those of the model on
values, `Verif.BTree.Model`.  `D` bounds the recursion of dropping a node, the other number that
of the function itself; running out of either counts as a panic.
-/
namespace Verif.BTreeH
open Heap
open BTree.Node (vInsert vRemove vSplitOff vPop locate descIdx)

variable {K V β : Type}

/-- btree.rs:27-31, the field `elems`. -/
abbrev ND (K V : Type) := List (K × V)

/-- The contents of a node. -/
abbrev HN (K V : Type) := Heap.Node (ND K V)

/-- `f(Arc::make_mut(&mut a))`: the `Arc` afterwards, and the result. -/
def mutArc (D : Nat) (a : Nat) (f : HN K V → Prog (ND K V) (HN K V × β)) :
    Prog (ND K V) (Nat × β) :=
  (makeMut D a).bind fun a =>
  (lift (.open a)).bind fun n =>
  (f n).bind fun x =>
  (lift (.close a x.1)).bind fun _ => .pure (a, x.2)

/-- The same on child `i`. -/
def mutKid (D : Nat) (ks : List (Option Nat)) (i : Nat)
    (f : HN K V → Prog (ND K V) (HN K V × β)) : Prog (ND K V) (List (Option Nat) × β) :=
  match ks[i]?.join with
  | none => .panic
  | some a => (mutArc D a f).bind fun x => .pure (ks.set i (some x.1), x.2)

/-- `self.kids[i].elems.len()` (btree.rs:334, 354, 376, 437, 442). -/
def kidLen (ks : List (Option Nat)) (i : Nat) : Prog (ND K V) Nat :=
  match ks[i]?.join with
  | none => .panic
  | some a => (lift (.read a [])).bind fun (n : HN K V) => .pure n.data.length

/-! ## Access -/

/-- btree.rs:91-105 `Node::get_key_value`, on the node at `path` below the handle `a`. -/
def getAt (a : Nat) (p : K → Ordering) : Nat → List Nat → Prog (ND K V) (Option (K × V))
  | 0, _ => .panic
  | n + 1, path =>
    (lift (.read a path)).bind fun (x : HN K V) =>
    if (locate p x.data).2 then .pure x.data[(locate p x.data).1]?
    else if descIdx (locate p x.data).1 x.data x.kids.length < x.kids.length then
      getAt a p n (path ++ [descIdx (locate p x.data).1 x.data x.kids.length])
    else .pure none

/-- btree.rs:575-591, the loop of `contains_key`. -/
def containsAt (a : Nat) (p : K → Ordering) : Nat → List Nat → Prog (ND K V) Bool
  | 0, _ => .panic
  | n + 1, path =>
    (lift (.read a path)).bind fun (x : HN K V) =>
    if (locate p x.data).2 then .pure true
    else if (locate p x.data).1 < x.kids.length then
      containsAt a p n (path ++ [(locate p x.data).1])
    else .pure false

/-- btree.rs:614-617, the loop of `first_key_value`. -/
def firstAt (a : Nat) : Nat → List Nat → Prog (ND K V) (K × V)
  | 0, _ => .panic
  | n + 1, path =>
    (lift (.read a path)).bind fun (x : HN K V) =>
    if 0 < x.kids.length then firstAt a n (path ++ [0])
    else
      match x.data.head? with
      | none => .panic
      | some e => .pure e

/-- btree.rs:805-808, the loop of `last_key_value`. -/
def lastAt (a : Nat) : Nat → List Nat → Prog (ND K V) (Option (K × V))
  | 0, _ => .panic
  | n + 1, path =>
    (lift (.read a path)).bind fun (x : HN K V) =>
    if 0 < x.kids.length then lastAt a n (path ++ [x.kids.length - 1])
    else .pure x.data.getLast?

/-- btree.rs:107-129 `Node::get_mut`, then `g` on the referent. -/
def getMut (D : Nat) (p : K → Ordering) (g : V → V) :
    Nat → HN K V → Prog (ND K V) (HN K V × Bool)
  | 0, _ => .panic
  | n + 1, x =>
    if (locate p x.data).2 then
      .pure (⟨x.data.modify (locate p x.data).1 (fun e => (e.1, g e.2)), x.kids⟩, true)
    else if descIdx (locate p x.data).1 x.data x.kids.length < x.kids.length then
      (mutKid D x.kids (descIdx (locate p x.data).1 x.data x.kids.length)
        (getMut D p g n)).bind fun y => .pure (⟨x.data, y.1⟩, y.2)
    else .pure (x, false)

/-! ## Insertion -/

/-- btree.rs:46-50 `InsertResult`. -/
inductive HIns (K V : Type) where
  | replaced (old : V)
  | split (lhs : Nat) (kv : K × V)
  | absorbed

/-- btree.rs:186-190: the children of an overfull node. -/
def splitKids {α : Type} (N : Nat) (ks : List α) : Option (List α × List α) :=
  if ks.isEmpty then some ([], []) else vSplitOff (N + 1) ks

/-- btree.rs:181-206 `Node::split`. -/
def split (N : Nat) (x : HN K V) : Prog (ND K V) (HN K V × HIns K V) :=
  if x.data.length ≤ 2 * N + 1 then .panic                    -- 182
  else
    match vSplitOff (N + 1) x.data, splitKids N x.kids with    -- 185-190
    | some (es1, es2), some (ks1, ks2) =>
      match vPop es1 with                                      -- 197
      | none => .panic
      | some (mid, es0) =>
        (lift (.alloc ⟨es0, ks1⟩)).bind fun a => .pure (⟨es2, ks2⟩, .split a mid)
    | _, _ => .panic

/-- btree.rs:163-173; `lhs` is the new child, if any. -/
def absorb (N : Nat) (i : Nat) (lhs : Option Nat) (kv : K × V) (x : HN K V) :
    Prog (ND K V) (HN K V × HIns K V) :=
  match vInsert i kv x.data, (match lhs with
      | none => some x.kids
      | some c => vInsert i (some c) x.kids) with
  | some es, some ks =>
    if es.length ≤ 2 * N + 1 then .pure (⟨es, ks⟩, .absorbed) else split N ⟨es, ks⟩
  | _, _ => .panic

/-- btree.rs:160-177: what is done with the result of the child. -/
def afterIns (N : Nat) (i : Nat) (es : List (K × V)) (y : List (Option Nat) × HIns K V) :
    Prog (ND K V) (HN K V × HIns K V) :=
  match y.2 with
  | .split lhs kv => absorb N i (some lhs) kv ⟨es, y.1⟩
  | .replaced o => .pure (⟨es, y.1⟩, .replaced o)
  | .absorbed => .pure (⟨es, y.1⟩, .absorbed)

/-- btree.rs:131-178 `Node::insert`. -/
def ins [Ord K] (N D : Nat) (k : K) (v : V) : Nat → HN K V → Prog (ND K V) (HN K V × HIns K V)
  | 0, _ => .panic
  | n + 1, x =>
    if (locate (compare k) x.data).2 then
      match x.data[(locate (compare k) x.data).1]? with
      | none => .panic
      | some e =>
        .pure (⟨x.data.set (locate (compare k) x.data).1 (k, v), x.kids⟩, .replaced e.2)
    else if (locate (compare k) x.data).1 < x.kids.length then
      (mutKid D x.kids (locate (compare k) x.data).1 (ins N D k v n)).bind
        (afterIns N (locate (compare k) x.data).1 x.data)
    else absorb N (locate (compare k) x.data).1 none (k, v) x

/-! ## Removal -/

/-- btree.rs:338-345: take the first element and the first child, if any. -/
def takeFirst (x : HN K V) : Prog (ND K V) (HN K V × (K × V) × List (Option Nat)) :=
  match vRemove 0 x.data with
  | none => .panic
  | some (kv, es) => .pure (⟨es, x.kids.tail⟩, kv, x.kids.head?.toList)

/-- btree.rs:380-382: take the last element and the last child, if any. -/
def takeLast (x : HN K V) : Prog (ND K V) (HN K V × (K × V) × List (Option Nat)) :=
  match vPop x.data with
  | none => .panic
  | some (kv, es) => .pure (⟨es, x.kids.dropLast⟩, kv, x.kids.getLast?.toList)

/-- btree.rs:358-362. -/
def pushBack (kv : K × V) (c : List (Option Nat)) (x : HN K V) :
    Prog (ND K V) (HN K V × Unit) :=
  .pure (⟨x.data ++ [kv], x.kids ++ c⟩, ())

/-- btree.rs:390-394. -/
def pushFront (kv : K × V) (c : List (Option Nat)) (x : HN K V) :
    Prog (ND K V) (HN K V × Unit) :=
  .pure (⟨kv :: x.data, c ++ x.kids⟩, ())

/-- btree.rs:323-363 `rot_lf`. -/
def rotLf (N D : Nat) (idx : Nat) (x : HN K V) : Prog (ND K V) (HN K V) :=
  (kidLen (V := V) (K := K) x.kids (idx + 1)).bind fun len =>
  if len ≤ N then .panic                                       -- 333-336
  else
    (mutKid D x.kids (idx + 1) takeFirst).bind fun y =>
    match x.data[idx]? with                                    -- 348
    | none => .panic
    | some kv1 =>
      (kidLen (V := V) (K := K) y.1 idx).bind fun len =>
      if N ≤ len then .panic                                   -- 353-356
      else
        (mutKid D y.1 idx (pushBack kv1 y.2.2)).bind fun z =>
        .pure ⟨x.data.set idx y.2.1, z.1⟩

/-- btree.rs:365-395 `rot_rt`. -/
def rotRt (N D : Nat) (idx : Nat) (x : HN K V) : Prog (ND K V) (HN K V) :=
  (kidLen (V := V) (K := K) x.kids idx).bind fun len =>
  if len ≤ N then .panic                                       -- 375-378
  else
    (mutKid D x.kids idx takeLast).bind fun y =>
    match x.data[idx]? with                                    -- 385
    | none => .panic
    | some kv1 =>
      (mutKid D y.1 (idx + 1) (pushFront kv1 y.2.2)).bind fun z =>
      .pure ⟨x.data.set idx y.2.1, z.1⟩

/-- btree.rs:412, 418-424: put the contents of the left child and the separator in front. -/
def prepend (l : HN K V) (kv : K × V) (x : HN K V) : Prog (ND K V) (HN K V × Unit) :=
  .pure (⟨l.data ++ kv :: x.data, l.kids ++ x.kids⟩, ())

/-- btree.rs:398-425 `merge_kids`. -/
def mergeKids (D : Nat) (idx : Nat) (x : HN K V) : Prog (ND K V) (HN K V) :=
  match vRemove idx x.data, vRemove idx x.kids with            -- 404-405
  | some (mid, es), some (some a, ks) =>
    (unwrapOrClone D a).bind fun l =>                          -- 406-409
    (mutKid D ks idx (prepend l mid)).bind fun y => .pure ⟨es, y.1⟩
  | _, _ => .panic

/-- btree.rs:428-449 `rebal`, without the flag. -/
def rebal (N D : Nat) (at_ : Nat) (x : HN K V) : Prog (ND K V) (HN K V) :=
  if x.kids.isEmpty then .panic                                -- 433
  else if 0 < at_ then
    (kidLen (V := V) (K := K) x.kids (at_ - 1)).bind fun len =>
    if N + 1 < len then rotRt N D (at_ - 1) x else mergeKids D (at_ - 1) x
  else
    (kidLen (V := V) (K := K) x.kids (at_ + 1)).bind fun len =>
    if N + 1 < len then rotLf N D at_ x else mergeKids D at_ x

/-- Result of the removals: the entry and `IsUnderPop`. -/
abbrev HRem (K V : Type) := (K × V) × Bool

/-- btree.rs:460-464, 481-485, 505-509, 524-528: rebalance if the child is underpopulated. -/
def afterKid (N D : Nat) (i : Nat) (kv : K × V) (b : Bool) (x : HN K V) :
    Prog (ND K V) (HN K V × HRem K V) :=
  if b then
    (rebal N D i x).bind fun y => .pure (y, kv, decide (y.data.length < N))
  else .pure (x, kv, false)

/-- btree.rs:451-470 `pop_first`. -/
def popFirst (N D : Nat) : Nat → HN K V → Prog (ND K V) (HN K V × HRem K V)
  | 0, _ => .panic
  | n + 1, x =>
    if 0 < x.kids.length then
      (mutKid D x.kids 0 (popFirst N D n)).bind fun y =>
      afterKid N D 0 y.2.1 y.2.2 ⟨x.data, y.1⟩
    else
      match vRemove 0 x.data with
      | none => .panic
      | some (kv, es) => .pure (⟨es, x.kids⟩, kv, decide (es.length < N))

/-- btree.rs:472-491 `pop_last`. -/
def popLast (N D : Nat) : Nat → HN K V → Prog (ND K V) (HN K V × HRem K V)
  | 0, _ => .panic
  | n + 1, x =>
    if 0 < x.kids.length then
      (mutKid D x.kids (x.kids.length - 1) (popLast N D n)).bind fun y =>
      afterKid N D x.data.length y.2.1 y.2.2 ⟨x.data, y.1⟩
    else
      match vPop x.data with
      | none => .panic
      | some (kv, es) => .pure (⟨es, x.kids⟩, kv, decide (es.length < N))

/-- btree.rs:504-509, 537-541: after the child returned; `?` if nothing was found. -/
def afterRm (N D : Nat) (i : Nat) (es : List (K × V))
    (y : List (Option Nat) × Option (HRem K V)) :
    Prog (ND K V) (HN K V × Option (HRem K V)) :=
  match y.2 with
  | none => .pure (⟨es, y.1⟩, none)
  | some r => (afterKid N D i r.1 r.2 ⟨es, y.1⟩).bind fun z => .pure (z.1, some z.2)

/-- btree.rs:523: put the predecessor in place of the element found. -/
def afterPop (N D : Nat) (i : Nat) (es : List (K × V)) (y : List (Option Nat) × HRem K V) :
    Prog (ND K V) (HN K V × Option (HRem K V)) :=
  match es[i]? with
  | none => .panic
  | some old =>
    (afterKid N D i old y.2.2 ⟨es.set i y.2.1, y.1⟩).bind fun z => .pure (z.1, some z.2)

/-- btree.rs:493-543 `Node::remove`. -/
def remove (N D : Nat) (p : K → Ordering) :
    Nat → HN K V → Prog (ND K V) (HN K V × Option (HRem K V))
  | 0, _ => .panic
  | n + 1, x =>
    if (locate p x.data).2 then
      if x.kids.isEmpty then
        match vRemove (locate p x.data).1 x.data with          -- 513
        | none => .panic
        | some (kv, es) => .pure (⟨es, x.kids⟩, some (kv, decide (es.length < N)))
      else
        (mutKid D x.kids (locate p x.data).1 (popLast N D n)).bind  -- 520-522
          (afterPop N D (locate p x.data).1 x.data)
    else if descIdx (locate p x.data).1 x.data x.kids.length < x.kids.length then
      (mutKid D x.kids (descIdx (locate p x.data).1 x.data x.kids.length)
        (remove N D p n)).bind (afterRm N D (locate p x.data).1 x.data)
    else .pure (x, none)                                       -- 502, 535: no child

end Verif.BTreeH
