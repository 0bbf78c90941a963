import Verif.BTreeHeap.RangeMutSpec
import Verif.BTree.Mut
import Verif.BTree.Serde
import Verif.Heap.Machine
/-!
# `BTreeMap` on reference-counted memory, and its operations as a machine

A map is its recorded length and the link to its root.  The recursion bounds of the node functions
are taken from the recorded length: no tree is deeper than it has entries.

`Q` is the type of borrowed keys and `b` is `Borrow::borrow`.
-/
namespace Verif.BTreeH
open Heap
open BTree (InnerIter BTreeMap QBnd Sharing nodeOps)
open Verif.Avl (slotsOf seenOf)
open Verif.AvlH (updF)

variable {K V S Q : Type}

/-- btree.rs:546-550 `BTreeMap`. -/
structure HMap where
  len : Nat
  root : Option Nat

/-- btree.rs:1341-1365 with a `for` loop around it: each item of an owning iterator is handed to
the body, which may end the loop early; then the iterator is dropped. -/
def forInto (D n : Nat) (f : S → K × V → Prog (ND K V) (S × Bool)) :
    Nat → InnerIter (OIter K V) → S → Prog (ND K V) S
  | 0, _, _ => .panic
  | k + 1, it, s =>
    ((ownOps D).next n () it).bind fun x =>
    match x.2.2 with
    | none => (dropWork D x.2.1.work).bind fun _ => .pure s
    | some e =>
      (f s e).bind fun y =>
      if y.2 then forInto D n f k x.2.1 y.1
      else (dropWork D x.2.1.work).bind fun _ => .pure y.1

namespace HMap

/-- btree.rs:815-817 `new`, 970-974 `default`. -/
def new : HMap := ⟨0, none⟩

/-- Dropping a map: the compiler drops the field `root`. -/
def drop (m : HMap) : Prog (ND K V) Unit := Heap.drop m.len m.root

/-- btree.rs:546 `#[derive(Clone)]`. -/
def clone (m : HMap) : Prog (ND K V) HMap :=
  (cloneRef m.root).bind fun r => .pure ⟨m.len, r⟩

/-- btree.rs:561-564 `clear`. -/
def clear (m : HMap) : Prog (ND K V) HMap := m.drop.bind fun _ => .pure new

/-- btree.rs:566-592 `contains_key`. -/
def containsKey (m : HMap) (p : K → Ordering) : Prog (ND K V) Bool :=
  match m.root with
  | none => .pure false
  | some a => containsAt a p m.len []

/-- btree.rs:651-660 `get_key_value`. -/
def getKeyValue (m : HMap) (p : K → Ordering) : Prog (ND K V) (Option (K × V)) :=
  match m.root with
  | none => .pure none
  | some a => getAt a p m.len []

/-- btree.rs:612-618 `first_key_value`. -/
def first (m : HMap) : Prog (ND K V) (Option (K × V)) :=
  match m.root with
  | none => .pure none
  | some a => (firstAt a m.len []).bind fun e => .pure (some e)

/-- btree.rs:803-809 `last_key_value`. -/
def last (m : HMap) : Prog (ND K V) (Option (K × V)) :=
  match m.root with
  | none => .pure none
  | some a => lastAt a m.len []

/-- btree.rs:662-671 `get_mut`, then `g` on the referent. -/
def getMut (m : HMap) (p : K → Ordering) (g : V → V) : Prog (ND K V) (HMap × Bool) :=
  match m.root with
  | none => .pure (m, false)
  | some a =>
    (mutArc m.len a (BTreeH.getMut m.len p g m.len)).bind fun x =>
    .pure (⟨m.len, some x.1⟩, x.2)

/-- btree.rs:688-706: what `insert` does with the result of the root, `a` being the root. -/
def afterRoot (len a : Nat) : HIns K V → Prog (ND K V) (HMap × Option V)
  | .replaced o => .pure (⟨len, some a⟩, some o)
  | .split lhs kv =>
    (lift (.alloc ⟨[kv], [some lhs, some a]⟩)).bind fun b => .pure (⟨len + 1, some b⟩, none)
  | .absorbed => .pure (⟨len + 1, some a⟩, none)

/-- btree.rs:683-714 `insert`. -/
def insert [Ord K] (N : Nat) (m : HMap) (k : K) (v : V) : Prog (ND K V) (HMap × Option V) :=
  match m.root with
  | none => (lift (.alloc ⟨[(k, v)], []⟩)).bind fun a => .pure (⟨1, some a⟩, none)
  | some a => (mutArc m.len a (ins N m.len k v m.len)).bind fun x => afterRoot m.len x.1 x.2

/-- btree.rs:829-834 `rm_and_rebal` after the remover has returned an entry.  The last child is
taken out of an empty root: the contents, and the new root if it changes. -/
def shrink (b : Bool) (x : HN K V) : Prog (ND K V) (HN K V × Option (Option Nat)) :=
  if b && x.data.isEmpty then
    if 1 < x.kids.length then .panic
    else .pure (⟨x.data, x.kids.dropLast⟩, some x.kids.getLast?.join)
  else .pure (x, none)

/-- btree.rs:827-834: on the contents of the root. -/
def rmRoot (len : Nat) (remover : HN K V → Prog (ND K V) (HN K V × Option (HRem K V)))
    (x : HN K V) : Prog (ND K V) (HN K V × Option ((K × V) × Option (Option Nat))) :=
  (remover x).bind fun y =>
  match y.2 with
  | none => .pure (y.1, none)                                  -- 827: `?`
  | some r =>
    if len = 0 then .panic                                     -- 829
    else (shrink r.2 y.1).bind fun z => .pure (z.1, some (r.1, z.2))

/-- btree.rs:819-837 `rm_and_rebal`; assigning to `self.root` drops the old root. -/
def rmAndRebal (m : HMap) (remover : HN K V → Prog (ND K V) (HN K V × Option (HRem K V))) :
    Prog (ND K V) (HMap × Option (K × V)) :=
  match m.root with
  | none => .pure (m, none)
  | some a =>
    (mutArc m.len a (rmRoot m.len remover)).bind fun x =>
    match x.2 with
    | none => .pure (⟨m.len, some x.1⟩, none)
    | some (kv, none) => .pure (⟨m.len - 1, some x.1⟩, some kv)
    | some (kv, some r) =>
      (Heap.drop m.len (some x.1)).bind fun _ => .pure (⟨m.len - 1, r⟩, some kv)

/-- btree.rs:839-845 `pop_first`. -/
def popFirst (N : Nat) (m : HMap) : Prog (ND K V) (HMap × Option (K × V)) :=
  m.rmAndRebal fun x => (BTreeH.popFirst N m.len m.len x).bind fun y => .pure (y.1, some y.2)

/-- btree.rs:847-853 `pop_last`. -/
def popLast (N : Nat) (m : HMap) : Prog (ND K V) (HMap × Option (K × V)) :=
  m.rmAndRebal fun x => (BTreeH.popLast N m.len m.len x).bind fun y => .pure (y.1, some y.2)

/-- btree.rs:888-900 `remove`. -/
def remove (N : Nat) (m : HMap) (p : K → Ordering) : Prog (ND K V) (HMap × Option V) :=
  (m.containsKey (V := V) p).bind fun c =>
  if c then
    (m.rmAndRebal (BTreeH.remove N m.len p m.len)).bind fun x => .pure (x.1, x.2.map (·.2))
  else .pure (m, none)

/-- btree.rs:982-992 `extend`, with entries that are not in a map. -/
def extend [Ord K] (N : Nat) (m : HMap) : List (K × V) → Prog (ND K V) HMap
  | [] => .pure m
  | e :: es => (m.insert N e.1 e.2).bind fun x => extend N x.1 es

/-- btree.rs:743-760 `iter` under a schedule. -/
def iter (m : HMap) (ds : List Bool) : Prog (ND K V) (List (Option (K × V) × Nat)) :=
  iterRun m.len ds m.root m.len

/-- btree.rs:1022-1024 `into_iter` under a schedule, then dropped. -/
def intoIter (m : HMap) (ds : List Bool) : Prog (ND K V) (List (Option (K × V) × Nat)) :=
  intoRun m.len (m.len + 1) ds m.root m.len

/-- btree.rs:762-784 `iter_mut` under a schedule. -/
def iterMut (m : HMap) (g : Nat → K → V → V) (ds : List Bool) :
    Prog (ND K V) (HMap × List (Option (K × V) × Nat)) :=
  (iterMutRun m.len m.len g ds m.root m.len).bind fun x => .pure (⟨m.len, x.1⟩, x.2)

/-- btree.rs:855-862, 2003-2036 `range` under a schedule; `none` is a panic. -/
def range [Ord Q] (b : K → Q) (m : HMap) (lb ub : QBnd Q) (ds : List Bool) :
    Prog (ND K V) (Option (List (Option (K × V) × Nat))) :=
  if lb.bad ub then .pure none
  else rangeRun m.len (lb.bnd b) (ub.bnd b) ds m.root m.len

/-- btree.rs:864-873, 2084-2118 `range_mut` under a schedule; no results if it panics. -/
def rangeMut [Ord Q] (b : K → Q) (m : HMap) (lb ub : QBnd Q) (g : Nat → K → V → V)
    (ds : List Bool) : Prog (ND K V) (HMap × Option (List (Option (K × V) × Nat))) :=
  if lb.bad ub then .pure (m, none)
  else
    (rangeMutRun m.len m.len (lb.bnd b) (ub.bnd b) g ds m.root m.len).bind fun x =>
    .pure (⟨m.len, x.1⟩, x.2)

/-- `for e in &m`: everything `iter` yields, until it yields nothing. -/
def iterList (m : HMap) : Prog (ND K V) (List (K × V)) :=
  (m.iter (List.replicate (m.len + 1) true)).bind fun ys => .pure (ys.filterMap (·.1))

/-- `for e in m` with a body. -/
def forEachInto (m : HMap) (f : S → K × V → Prog (ND K V) (S × Bool)) (s : S) :
    Prog (ND K V) S :=
  (intoNew m.len m.root m.len).bind fun it =>
  forInto m.len (m.len + 1) f (m.len + 1) it s

/-- btree.rs:553-559 `append`, 982-992 `extend`; `other` is empty afterwards. -/
def append [Ord K] (N : Nat) (m other : HMap) : Prog (ND K V) HMap :=
  other.forEachInto (fun m e => (m.insert N e.1 e.2).bind fun x => .pure (x.1, true)) m

/-- btree.rs:2296-2306 `From<BTreeMap> for Vec`. -/
def intoVec (m : HMap) : Prog (ND K V) (List (K × V)) :=
  m.forEachInto (fun l e => .pure (l ++ [e], true)) []

/-- btree.rs:912-921, the body of the loop that `collect` runs: `filter_map` and `insert`.  If
the closure panics the loop ends. -/
def retainBody [Ord K] (N : Nat) (f : S → K → V → Option (S × V × Bool)) (x : HMap × Option S)
    (e : K × V) : Prog (ND K V) ((HMap × Option S) × Bool) :=
  match x.2 with
  | none => .panic
  | some s =>
    match f s e.1 e.2 with
    | none => .pure ((x.1, none), false)
    | some (s, v, keep) =>
      if keep then (x.1.insert N e.1 v).bind fun y => .pure ((y.1, some s), true)
      else .pure ((x.1, some s), true)

/-- btree.rs:902-923 `retain`; without a state if the closure panicked, in which case unwinding
drops the new map and `self` is empty. -/
def retain [Ord K] (N : Nat) (m : HMap) (f : S → K → V → Option (S × V × Bool)) (s : S) :
    Prog (ND K V) (HMap × Option S) :=
  (m.forEachInto (retainBody N f) (new, some s)).bind fun x =>
  match x.2 with
  | none => x.1.drop.bind fun _ => .pure (new, none)
  | some s => .pure (x.1, some s)

/-- btree.rs:925-938 `split_off`: `partition` into two maps. -/
def splitOff [Ord K] (N : Nat) (m : HMap) (p : K → Ordering) : Prog (ND K V) (HMap × HMap) :=
  m.forEachInto (fun x e =>
    if p e.1 = .gt then (x.1.insert N e.1 e.2).bind fun y => .pure ((y.1, x.2), true)
    else (x.2.insert N e.1 e.2).bind fun y => .pure ((x.1, y.1), true)) (new, new)

/-- btree.rs:1188-1197 `eq`; the entries are compared after both iterations, not while they
run. -/
def eqMap (eqE : K × V → K × V → Bool) (a b : HMap) : Prog (ND K V) Bool :=
  if a.len == b.len then
    a.iterList.bind fun x => b.iterList.bind fun y =>
    .pure ((x.zip y).all (fun z => eqE z.1 z.2))
  else .pure false

/-- lib.rs:260-270 `Entry::and_modify`. -/
def andModify [Ord K] (m : HMap) (k : K) (g : V → V) : Prog (ND K V) HMap :=
  (m.getMut (compare k) g).bind fun x => .pure x.1

/-- lib.rs:277-287, 316-329 `Entry::or_insert_with_key` and the other `or_…`, then `g` on the
referent: the map, whether the closure was called, whether a reference was obtained (if not,
`unwrap` panics). -/
def orInsert [Ord K] (N : Nat) (m : HMap) (k : K) (d : K → V) (g : V → V) :
    Prog (ND K V) (HMap × Bool × Bool) :=
  (m.containsKey (V := V) (compare k)).bind fun c =>
  if c then
    (m.getMut (compare k) g).bind fun x => .pure (x.1, false, x.2)
  else
    (m.insert N k (d k)).bind fun y =>
    (y.1.getMut (compare k) g).bind fun x => .pure (x.1, true, x.2)

end HMap

/-! ## The operations as a machine -/

/-- Operations that make a map. -/
inductive Make (K V : Type) where
  | new
  | fromIter (es : List (K × V))

/-- Operations on one map.  `ds` is a schedule of `next` (`true`) and `next_back` calls; `g j` is
applied to the referent of the `j`-th reference obtained. -/
inductive One (K V Q S : Type) where
  | clone
  | drop
  | clear
  | insert (k : K) (v : V)
  | remove (q : Q)
  | popFirst
  | popLast
  | getKeyValue (q : Q)
  | get (q : Q)
  | containsKey (q : Q)
  | getMut (q : Q) (g : V → V)
  | first
  | last
  | len
  | isEmpty
  | iter (ds : List Bool)
  | intoIter (ds : List Bool)
  | iterMut (g : Nat → K → V → V) (ds : List Bool)
  | range (lb ub : QBnd Q) (ds : List Bool)
  | rangeMut (lb ub : QBnd Q) (g : Nat → K → V → V) (ds : List Bool)
  | retain (f : S → K → V → Option (S × V × Bool)) (s : S)
  | extend (es : List (K × V))
  | splitOff (q : Q)
  | intoVec
  | serialize
  | orInsert (k : K) (d : K → V) (g : V → V)
  | andModify (k : K) (g : V → V)

/-- Operations on two maps by `&mut`. -/
inductive Two where
  | append

/-- Operations on two maps by shared reference. -/
inductive Look (K V : Type) where
  | eq (eqE : K × V → K × V → Bool)
  | partialCmp (cmpE : K × V → K × V → Option Ordering)
  | cmp (cmpE : K × V → K × V → Ordering)

/-- What a caller sees. -/
inductive Res (K V S : Type) where
  | unit
  | val (o : Option V)
  | entry (o : Option (K × V))
  | bool (b : Bool)
  | nat (n : Nat)
  | ord (o : Option Ordering)
  | items (l : List (Option (K × V) × Nat))
  | state (s : S)
  | written (n : Nat) (l : List (K × V))
  /-- the call panics; the caller may catch that and go on -/
  | panicked
  deriving DecidableEq

/-- The comparison with a borrowed key. -/
abbrev probe [Ord Q] (b : K → Q) (q : Q) : K → Ordering := fun k => compare q (b k)

/-- What a caller of a mutable iterator leaves: the map after a run, given what the run over the
map with numbered slots yields. -/
def written (g : Nat → K → V → V) (m : BTreeMap K V) (ys : List (Option (K × (Nat × V)) × Nat)) :
    BTreeMap K V :=
  ⟨m.len, m.root.map fun n =>
    n.mapIdx (fun i e => (e.1, updF g 0 (slotsOf ys) i e.1 e.2)) 0⟩

/-- The operations on values, by the model of btree.rs on values.  How `into_iter` is done depends
on which nodes are shared; here it is done as if none were. -/
def btreeV (K V S : Type) {Q : Type} [Ord K] [Ord Q] (N : Nat) (b : K → Q) :
    Machine.Impl Option (BTreeMap K V) (Res K V S) (Make K V) (One K V Q S) Two (Look K V) where
  make
    | .new => some ([.new], .unit)
    | .fromIter es => (BTreeMap.fromIter N es).map fun m => ([m], .unit)
  one m
    | .clone => some (some m, [m], .unit)
    | .drop => some (none, [], .unit)
    | .clear => some (some m.clear, [], .unit)
    | .insert k v => (m.insert N k v).map fun x => (some x.1, [], .val x.2)
    | .remove q => (m.remove N (probe b q)).map fun x => (some x.1, [], .val x.2)
    | .popFirst => (m.popFirst N).map fun x => (some x.1, [], .entry x.2)
    | .popLast => (m.popLast N).map fun x => (some x.1, [], .entry x.2)
    | .getKeyValue q => some (some m, [], .entry (m.getKeyValue (probe b q)))
    | .get q => some (some m, [], .val (m.get (probe b q)))
    | .containsKey q => some (some m, [], .bool (m.containsKey (probe b q)))
    | .getMut q g => some (some (m.getMut (probe b q) g).1, [], .bool (m.getMut (probe b q) g).2)
    | .first => m.firstKeyValue.map fun e => (some m, [], .entry e)
    | .last => some (some m, [], .entry m.lastKeyValue)
    | .len => some (some m, [], .nat m.len)
    | .isEmpty => some (some m, [], .bool m.isEmpty)
    | .iter ds => (nodeOps.run ds m.iter).map fun l => (some m, [], .items l)
    | .intoIter ds => (BTree.intoOps.run ds (m.intoIter .unique)).map fun l => (none, [], .items l)
    | .iterMut g ds => (nodeOps.run ds m.label.iter).map fun ys =>
        (some (written g m ys), [], .items (seenOf ys))
    | .range lb ub ds =>
        match m.range b lb ub with
        | none => some (some m, [], .panicked)
        | some it => (nodeOps.run ds it).map fun l => (some m, [], .items l)
    | .rangeMut lb ub g ds =>
        match m.label.range b lb ub with
        | none => some (some m, [], .panicked)
        | some it => (nodeOps.run ds it).map fun ys =>
            (some (written g m ys), [], .items (seenOf ys))
    | .retain f s => some (match m.retain N .unique f s with
        | .done s m => (some m, [], .state s)
        | .panicked m => (some m, [], .panicked))
    | .extend es => (m.extend N es).map fun m => (some m, [], .unit)
    | .splitOff q => (m.splitOff N .unique (probe b q)).map fun x => (some x.1, [x.2], .unit)
    | .intoVec => (m.intoList .unique).map fun l => (none, [], .written l.length l)
    | .serialize => m.serialize.map fun x => (some m, [], .written x.1 x.2)
    | .orInsert k d g =>
        if m.containsKey (compare k) then
          some (some (m.getMut (compare k) g).1, [],
            if (m.getMut (compare k) g).2 then .bool false else .panicked)
        else (m.insert N k (d k)).map fun x =>
          (some (x.1.getMut (compare k) g).1, [],
            if (x.1.getMut (compare k) g).2 then .bool true else .panicked)
    | .andModify k g => some (some (m.getMut (compare k) g).1, [], .unit)
  two l r
    | .append => (l.append N .unique r).map fun x => (some x.1, some x.2, [], .unit)
  look a b
    | .eq eqE => (BTreeMap.eqMap eqE a b).map .bool
    | .partialCmp cmpE => (BTreeMap.partialCmpMap cmpE a b).map .ord
    | .cmp cmpE => (BTreeMap.cmpMap cmpE a b).map fun o => .ord (some o)

/-- The operations on memory. -/
def btreeM (K V S : Type) {Q : Type} [Ord K] [Ord Q] (N : Nat) (b : K → Q) :
    Machine.Impl (Prog (ND K V)) HMap (Res K V S) (Make K V) (One K V Q S) Two (Look K V) where
  make
    | .new => .pure ([.new], .unit)
    | .fromIter es => (HMap.new.extend N es).bind fun m => .pure ([m], .unit)
  one m
    | .clone => m.clone.bind fun c => .pure (some m, [c], .unit)
    | .drop => m.drop.bind fun _ => .pure (none, [], .unit)
    | .clear => m.clear.bind fun m => .pure (some m, [], .unit)
    | .insert k v => (m.insert N k v).bind fun x => .pure (some x.1, [], .val x.2)
    | .remove q => (m.remove N (probe b q)).bind fun x => .pure (some x.1, [], .val x.2)
    | .popFirst => (m.popFirst N).bind fun x => .pure (some x.1, [], .entry x.2)
    | .popLast => (m.popLast N).bind fun x => .pure (some x.1, [], .entry x.2)
    | .getKeyValue q => (m.getKeyValue (probe b q)).bind fun e => .pure (some m, [], .entry e)
    | .get q => (m.getKeyValue (probe b q)).bind fun e => .pure (some m, [], .val (e.map (·.2)))
    | .containsKey q => (m.containsKey (probe b q)).bind fun c => .pure (some m, [], .bool c)
    | .getMut q g => (m.getMut (probe b q) g).bind fun x => .pure (some x.1, [], .bool x.2)
    | .first => m.first.bind fun e => .pure (some m, [], .entry e)
    | .last => m.last.bind fun e => .pure (some m, [], .entry e)
    | .len => .pure (some m, [], .nat m.len)
    | .isEmpty => .pure (some m, [], .bool (m.len == 0))
    | .iter ds => (m.iter ds).bind fun l => .pure (some m, [], .items l)
    | .intoIter ds => (m.intoIter ds).bind fun l => .pure (none, [], .items l)
    | .iterMut g ds => (m.iterMut g ds).bind fun x => .pure (some x.1, [], .items x.2)
    | .range lb ub ds => (m.range b lb ub ds).bind fun l =>
        .pure (some m, [], l.elim .panicked .items)
    | .rangeMut lb ub g ds => (m.rangeMut b lb ub g ds).bind fun x =>
        .pure (some x.1, [], x.2.elim .panicked .items)
    | .retain f s => (m.retain N f s).bind fun x =>
        .pure (some x.1, [], x.2.elim .panicked .state)
    | .extend es => (m.extend N es).bind fun m => .pure (some m, [], .unit)
    | .splitOff q => (m.splitOff N (probe b q)).bind fun x => .pure (some x.1, [x.2], .unit)
    | .intoVec => m.intoVec.bind fun l => .pure (none, [], .written l.length l)
    | .serialize => m.iterList.bind fun l => .pure (some m, [], .written m.len l)
    | .orInsert k d g => (m.orInsert N k d g).bind fun x =>
        .pure (some x.1, [], if x.2.2 then .bool x.2.1 else .panicked)
    | .andModify k g => (m.andModify k g).bind fun m => .pure (some m, [], .unit)
  two l r
    | .append => (l.append N r).bind fun m => .pure (some m, some .new, [], .unit)
  look a b
    | .eq eqE => (a.eqMap eqE b).bind fun r => .pure (.bool r)
    | .partialCmp cmpE => a.iterList.bind fun x => b.iterList.bind fun y =>
        .pure (.ord (Spec.lexPartialCmp cmpE x y))
    | .cmp cmpE => a.iterList.bind fun x => b.iterList.bind fun y =>
        .pure (.ord (some (Spec.lexCmp cmpE x y)))

end Verif.BTreeH
