import Verif.BTreeHeap.Map
import Verif.BTree.Set
import Verif.AvlHeap.Set
/-!
# `BTreeSet` (src/btree/btree_set.rs) on reference-counted memory, and its operations as a machine

A set is a `BTreeMap` with values `()` (12-14).  The operators `&a & &b`, `&a | &b`, `&a ^ &b` and
`&a - &b` (418-440, 535-541) clone both sets and then do the operation of `STwo`.
-/
namespace Verif.BTreeH
open Heap
open BTree (InnerIter BTreeMap BTreeSet QBnd nodeOps)
open Lib (MergeIter)
open Verif.AvlH (SMake STwo SLook SRes elemsOf)

variable {T S Q : Type}

namespace HMap

/-- btree_set.rs:319-330 `take`. -/
def takeElem (N : Nat) (m : HMap) (p : T → Ordering) : Prog (ND T Unit) (HMap × Option T) :=
  (m.containsKey (V := Unit) p).bind fun c =>
  if !c then .pure (m, none)
  else (m.rmAndRebal (BTreeH.remove N m.len p m.len)).bind fun x => .pure (x.1, x.2.map (·.1))

/-- btree_set.rs:267-276 `replace`. -/
def replaceElem [Ord T] (N : Nat) (m : HMap) (x : T) : Prog (ND T Unit) (HMap × Option T) :=
  (m.rmAndRebal (BTreeH.remove N m.len (compare x) m.len)).bind fun y =>
  (y.1.insert N x ()).bind fun z => .pure (z.1, y.2.map (·.1))

/-- `insert` in the body of a loop. -/
def insertElem [Ord T] (N : Nat) (m : HMap) (x : T) : Prog (ND T Unit) (HMap × Bool) :=
  (m.insert N x ()).bind fun y => .pure (y.1, true)

/-- btree_set.rs:456-470 `extend`, 480-486 `from_iter`, with elements that are not in a set. -/
def extendElems [Ord T] (N : Nat) (m : HMap) : List T → Prog (ND T Unit) HMap
  | [] => .pure m
  | x :: xs => (m.insert N x ()).bind fun y => extendElems N y.1 xs

/-- btree_set.rs:284-285, the body of the loop that `extend` runs: `filter` and `insert`.  If the
closure panics the loop ends. -/
def retainElem [Ord T] (N : Nat) (f : S → T → Option (S × Bool)) (x : HMap × Option S)
    (e : T × Unit) : Prog (ND T Unit) ((HMap × Option S) × Bool) :=
  match x.2 with
  | none => .panic
  | some s =>
    match f s e.1 with
    | none => .pure ((x.1, none), false)
    | some (s, true) => (x.1.insert N e.1 ()).bind fun y => .pure ((y.1, some s), true)
    | some (s, false) => .pure ((x.1, some s), true)

/-- btree_set.rs:279-286 `retain`; without a state if the closure panicked. -/
def retainElems [Ord T] (N : Nat) (m : HMap) (f : S → T → Option (S × Bool)) (s : S) :
    Prog (ND T Unit) (HMap × Option S) :=
  m.forEachInto (retainElem N f) (new, some s)

/-- `a.into_iter().filter(|k| b.contains(k) == want).collect()`, then `b` is dropped. -/
def filterBy [Ord T] (N : Nat) (want : Bool) (a b : HMap) : Prog (ND T Unit) HMap :=
  (a.forEachInto (fun s (e : T × Unit) =>
    (b.containsKey (V := Unit) (compare e.1)).bind fun c =>
    if c == want then s.insertElem N e.1 else .pure (s, true)) new).bind fun s =>
  b.drop.bind fun _ => .pure s

/-- btree_set.rs:165-177 `new_diff`. -/
def newDiff [Ord T] (N : Nat) (a b : HMap) : Prog (ND T Unit) HMap :=
  if a.len * 4 < b.len then filterBy N false a b
  else
    b.forEachInto (fun a (e : T × Unit) =>
      (a.remove N (V := Unit) (compare e.1)).bind fun x => .pure (x.1, true)) a

/-- btree_set.rs:180-189 `new_intersection`. -/
def newIntersection [Ord T] (N : Nat) (a b : HMap) : Prog (ND T Unit) HMap :=
  if a.len < b.len then filterBy N true a b else filterBy N true b a

/-- btree_set.rs:192-206 `new_union`. -/
def newUnion [Ord T] (N : Nat) (a b : HMap) : Prog (ND T Unit) HMap :=
  if a.len * 4 ≤ b.len then
    a.forEachInto (fun b (e : T × Unit) =>
      (b.orInsert N e.1 (fun _ => ()) id).bind fun x =>
      if x.2.2 then .pure (x.1, true) else .panic) b
  else b.forEachInto (fun a (e : T × Unit) => a.insertElem N e.1) a

/-- btree_set.rs:219-223. -/
def toggleAll [Ord T] (N : Nat) (a b : HMap) : Prog (ND T Unit) HMap :=
  b.forEachInto (fun a (e : T × Unit) =>
    (a.remove N (V := Unit) (compare e.1)).bind fun x =>
    if x.2.isSome then .pure (x.1, true) else x.1.insertElem N e.1) a

/-- btree_set.rs:209-226 `new_sym_diff`. -/
def newSymDiff [Ord T] (N : Nat) (a b : HMap) : Prog (ND T Unit) HMap :=
  if b.len ≤ a.len then toggleAll N a b else toggleAll N b a

/-- btree_set.rs:358-360 `Iter`: the root it refers to, and the map's iterator. -/
abbrev SetIter (T : Type) := Option Nat × InnerIter (SIter T Unit)

/-- btree_set.rs:141-145 `iter`. -/
def setIter (m : HMap) : Prog (ND T Unit) (SetIter T) :=
  match m.root with
  | none => .pure (none, ⟨[], 0⟩)
  | some a => ((sharedOps a).make () []).bind fun e => .pure (some a, ⟨[e.2], m.len⟩)

/-- btree_set.rs:370-376 `Iter::next`; `n` bounds its loop. -/
def setNext (n : Nat) (i : SetIter T) : Prog (ND T Unit) (Option T × SetIter T) :=
  ((sharedOps (i.1.getD 0)).next n () i.2).bind fun x => .pure (x.2.2.map (·.1), i.1, x.2.1)

/-- btree_set.rs:51-56, 92-97, 300-305, 335-337 with 384-387: the iterator of a lazy set
operation, and what is done with it. -/
def withSetOp {α : Type} (a b : HMap)
    (k : MergeIter (SetIter T) T → Prog (ND T Unit) α) : Prog (ND T Unit) α :=
  a.setIter.bind fun i => b.setIter.bind fun j => k (.new i j)

/-- The first `n` calls of `next` on such an iterator. -/
def setOpRun [Ord T] (F : Nat) (a b : HMap) (n : Nat) : Prog (ND T Unit) (List (Option T)) :=
  withSetOp a b
    (Heap.SetOps.setOpRun (setNext (a.len + b.len + 1)) F (a.len + b.len + 1) n)

/-- `….next().is_none()`. -/
def setOpNone [Ord T] (F : Nat) (a b : HMap) : Prog (ND T Unit) Bool :=
  withSetOp a b fun s =>
    (Heap.SetOps.setOpNext (setNext (T := T) (a.len + b.len + 1)) F (a.len + b.len + 1) s).bind
      fun x => .pure x.1.isNone

/-- btree_set.rs:123-130 `is_subset`. -/
def isSubset (T : Type) [Ord T] (a b : HMap) : Prog (ND T Unit) Bool :=
  if a.len == 0 then .pure true
  else if a.len < b.len then setOpNone 4 a b
  else .pure false

end HMap

/-! ## The operations as a machine -/

/-- Operations on one set. -/
inductive SOne (T S Q : Type) where
  | clone
  | drop
  | clear
  | insert (x : T)
  | remove (q : Q)
  | take (q : Q)
  | replace (x : T)
  | popFirst
  | popLast
  | get (q : Q)
  | contains (q : Q)
  | first
  | last
  | len
  | isEmpty
  /-- a schedule of `next` (`true`) and `next_back` calls -/
  | iter (ds : List Bool)
  | intoIter (ds : List Bool)
  | range (lb ub : QBnd Q) (ds : List Bool)
  | retain (f : S → T → Option (S × Bool)) (s : S)
  | extend (xs : List T)
  | splitOff (q : Q)
  | hash (hLen : S → Nat → S) (hT : S → T → S) (s : S)
  | serialize

/-- The operations on values, by the model of btree_set.rs on values.  How `into_iter` is done
depends on which nodes are shared; here it is done as if none were. -/
def btreeSetV (T S Q : Type) [Ord T] [Ord Q] (N : Nat) (b : T → Q) :
    Machine.Impl Option (BTreeSet T) (SRes T S) (SMake T) (SOne T S Q) STwo (SLook T) where
  make
    | .new => some ([.new], .unit)
    | .fromIter xs => (BTreeSet.fromIter N xs).map fun m => ([m], .unit)
  one m
    | .clone => some (some m, [m], .unit)
    | .drop => some (none, [], .unit)
    | .clear => some (some m.clear, [], .unit)
    | .insert x => (m.insert N x).map fun y => (some y.1, [], .bool y.2)
    | .remove q => (m.remove N (probe b q)).map fun y => (some y.1, [], .bool y.2)
    | .take q => (m.take N (probe b q)).map fun y => (some y.1, [], .elem y.2)
    | .replace x => (m.replace N x).map fun y => (some y.1, [], .elem y.2)
    | .popFirst => (m.popFirst N).map fun y => (some y.1, [], .elem y.2)
    | .popLast => (m.popLast N).map fun y => (some y.1, [], .elem y.2)
    | .get q => some (some m, [], .elem (m.get (probe b q)))
    | .contains q => some (some m, [], .bool (m.contains (probe b q)))
    | .first => m.first.map fun e => (some m, [], .elem e)
    | .last => some (some m, [], .elem m.last)
    | .len => some (some m, [], .nat m.len)
    | .isEmpty => some (some m, [], .bool m.isEmpty)
    | .iter ds => (nodeOps.run ds m.map.iter).map fun l => (some m, [], .items (elemsOf l))
    | .intoIter ds => (BTree.intoOps.run ds (m.map.intoIter .unique)).map fun l =>
        (none, [], .items (elemsOf l))
    | .range lb ub ds =>
        match m.map.range b lb ub with
        | none => some (some m, [], .panicked)
        | some it => (nodeOps.run ds it).map fun l =>
            (some m, [], .list ((elemsOf l).map (·.1)))
    | .retain f s => some (match m.retain N .unique f s with
        | .done s m => (some m, [], .state s)
        | .panicked m => (some m, [], .panicked))
    | .extend xs => (m.extend N xs).map fun m => (some m, [], .unit)
    | .splitOff q => (m.splitOff N .unique (probe b q)).map fun y => (some y.1, [y.2], .unit)
    | .hash hLen hT s => (m.hashSet hLen hT s).map fun s => (some m, [], .state s)
    | .serialize => m.map.serialize.map fun y => (some m, [], .written y.1 (y.2.map (·.1)))
  two l r
    | .append => (l.append N .unique r).map fun x => (some x.1, some x.2, [], .unit)
    | .union => (l.newUnion N .unique .unique r).map fun m => (none, none, [m], .unit)
    | .intersection => (l.newIntersection N .unique .unique r).map fun m =>
        (none, none, [m], .unit)
    | .difference => (l.newDiff N .unique .unique r).map fun m => (none, none, [m], .unit)
    | .symDiff => (l.newSymDiff N .unique .unique r).map fun m => (none, none, [m], .unit)
  look x y
    | .eq eqT => (BTreeSet.eqSet eqT x y).map .bool
    | .partialCmp cmpT => (BTreeSet.partialCmpSet cmpT x y).map .ord
    | .cmp cmpT => (BTreeSet.cmpSet cmpT x y).map fun o => .ord (some o)
    | .setOp F n => (BTreeSet.setOpRun F x y n).map .list
    | .isDisjoint => (BTreeSet.isDisjoint x y).map .bool
    | .isSubset => (BTreeSet.isSubset x y).map .bool
    | .isSuperset => (BTreeSet.isSuperset x y).map .bool

/-- The operations on memory. -/
def btreeSetM (T S Q : Type) [Ord T] [Ord Q] (N : Nat) (b : T → Q) :
    Machine.Impl (Prog (ND T Unit)) HMap (SRes T S) (SMake T) (SOne T S Q) STwo (SLook T) where
  make
    | .new => .pure ([.new], .unit)
    | .fromIter xs => (HMap.new.extendElems N xs).bind fun m => .pure ([m], .unit)
  one m
    | .clone => m.clone.bind fun c => .pure (some m, [c], .unit)
    | .drop => m.drop.bind fun _ => .pure (none, [], .unit)
    | .clear => m.clear.bind fun m => .pure (some m, [], .unit)
    | .insert x => (m.insert N x ()).bind fun y => .pure (some y.1, [], .bool y.2.isNone)
    | .remove q => (m.remove N (probe b q)).bind fun y =>
        .pure (some y.1, [], .bool y.2.isSome)
    | .take q => (m.takeElem N (probe b q)).bind fun y => .pure (some y.1, [], .elem y.2)
    | .replace x => (m.replaceElem N x).bind fun y => .pure (some y.1, [], .elem y.2)
    | .popFirst => (m.popFirst N).bind fun y => .pure (some y.1, [], .elem (y.2.map (·.1)))
    | .popLast => (m.popLast N).bind fun y => .pure (some y.1, [], .elem (y.2.map (·.1)))
    | .get q => (m.getKeyValue (probe b q)).bind fun e =>
        .pure (some m, [], .elem (e.map (·.1)))
    | .contains q => (m.containsKey (probe b q)).bind fun c => .pure (some m, [], .bool c)
    | .first => m.first.bind fun e => .pure (some m, [], .elem (e.map (·.1)))
    | .last => m.last.bind fun e => .pure (some m, [], .elem (e.map (·.1)))
    | .len => .pure (some m, [], .nat m.len)
    | .isEmpty => .pure (some m, [], .bool (m.len == 0))
    | .iter ds => (m.iter ds).bind fun l => .pure (some m, [], .items (elemsOf l))
    | .intoIter ds => (m.intoIter ds).bind fun l => .pure (none, [], .items (elemsOf l))
    | .range lb ub ds => (m.range b lb ub ds).bind fun l =>
        .pure (some m, [], l.elim .panicked fun l => .list ((elemsOf l).map (·.1)))
    | .retain f s => (m.retainElems N f s).bind fun x =>
        .pure (some x.1, [], x.2.elim .panicked .state)
    | .extend xs => (m.extendElems N xs).bind fun m => .pure (some m, [], .unit)
    | .splitOff q => (m.splitOff N (probe b q)).bind fun y => .pure (some y.1, [y.2], .unit)
    | .hash hLen hT s => m.iterList.bind fun l =>
        .pure (some m, [], .state (l.foldl (fun s e => hT s e.1) (hLen s m.len)))
    | .serialize => m.iterList.bind fun l => .pure (some m, [], .written m.len (l.map (·.1)))
  two l r
    | .append => (l.append N r).bind fun m => .pure (some m, some .new, [], .unit)
    | .union => (l.newUnion N r).bind fun m => .pure (none, none, [m], .unit)
    | .intersection => (l.newIntersection N r).bind fun m => .pure (none, none, [m], .unit)
    | .difference => (l.newDiff N r).bind fun m => .pure (none, none, [m], .unit)
    | .symDiff => (l.newSymDiff N r).bind fun m => .pure (none, none, [m], .unit)
  look x y
    | .eq eqT => (x.eqMap (fun e f => eqT e.1 f.1) y).bind fun r => .pure (.bool r)
    | .partialCmp cmpT => x.iterList.bind fun l => y.iterList.bind fun k =>
        .pure (.ord (Spec.lexPartialCmp (fun e f => cmpT e.1 f.1) l k))
    | .cmp cmpT => x.iterList.bind fun l => y.iterList.bind fun k =>
        .pure (.ord (some (Spec.lexCmp (fun e f => cmpT e.1 f.1) l k)))
    | .setOp F n => (x.setOpRun F y n).bind fun l => .pure (.list l)
    | .isDisjoint => (HMap.setOpNone (T := T) 2 x y).bind fun r => .pure (.bool r)
    | .isSubset => (HMap.isSubset T x y).bind fun r => .pure (.bool r)
    | .isSuperset => (HMap.isSubset T y x).bind fun r => .pure (.bool r)

end Verif.BTreeH
