import Verif.AvlHeap.IterModel
import Verif.AvlHeap.MutSpec
import Verif.Avl.Mut
import Verif.Avl.Serde
import Verif.Heap.Machine
/-!
# `AvlMap` on reference-counted memory, and its operations as a machine

A map is its recorded length and the link to its root.  The recursion bounds of the node functions
are taken from the recorded length: a tree has no more nodes than that (`Ok` below), also after
a `retain` whose closure panicked.

Keys, closures and bounds are unrestricted: nothing here depends on the key order being an order.
-/
namespace Verif.AvlH
open Heap
open Avl (Tree AvlMap iterOf rangeOf seenOf slotsOf)

variable {K V S : Type}

/-- avl.rs:231-234 `AvlMap`. -/
structure HMap where
  len : Nat
  root : Option Nat

namespace HMap

/-- Dropping a map: the compiler drops the field `root`. -/
def drop (m : HMap) : Prog (ND K V) Unit := Heap.drop m.len m.root

/-- avl.rs:230 `#[derive(Clone)]`. -/
def clone (m : HMap) : Prog (ND K V) HMap :=
  (cloneRef m.root).bind fun r => .pure ⟨m.len, r⟩

/-- avl.rs:1009-1012 `clear`. -/
def clear (m : HMap) : Prog (ND K V) HMap := m.drop.bind fun _ => .pure ⟨0, none⟩

/-- avl.rs:1145-1153 `insert`. -/
def insert [Ord K] (m : HMap) (k : K) (v : V) : Prog (ND K V) (HMap × Option V) :=
  (ins (m.len + 1) k v m.len m.root).bind fun x =>
  .pure (⟨m.len + (if x.2.1.isNone then 1 else 0), x.1⟩, x.2.1)

/-- `self.len -= 1` and return: shared by 1503-1531 and 1732-1742. -/
def popWith (len : Nat) (x : Option Nat × Option (K × V) × Bool) :
    Prog (ND K V) (HMap × Option (K × V)) :=
  match x.2.1 with
  | none => .pure (⟨len, x.1⟩, none)
  | some kv => if len = 0 then .panic else .pure (⟨len - 1, x.1⟩, some kv)

/-- avl.rs:1732-1742 `remove_entry`. -/
def removeEntry (m : HMap) (p : K → Ordering) : Prog (ND K V) (HMap × Option (K × V)) :=
  (rm m.len p m.len m.root).bind (popWith m.len)

/-- avl.rs:1503-1511 `pop_first`. -/
def popFirst (m : HMap) : Prog (ND K V) (HMap × Option (K × V)) :=
  (rmLeftmost m.len m.len m.root).bind (popWith m.len)

/-- avl.rs:1523-1531 `pop_last`. -/
def popLast (m : HMap) : Prog (ND K V) (HMap × Option (K × V)) :=
  (rmRightmost m.len m.len m.root).bind (popWith m.len)

/-- avl.rs:1087-1102 `get_key_value`. -/
def getKeyValue (m : HMap) (p : K → Ordering) : Prog (ND K V) (Option (K × V)) :=
  AvlH.getKeyValue m.len p m.root

/-- avl.rs:1116-1133 `get_mut`, then `g` on the referent. -/
def getMut (m : HMap) (p : K → Ordering) (g : V → V) : Prog (ND K V) (HMap × Bool) :=
  (getMutWith m.len p g m.len m.root).bind fun x => .pure (⟨m.len, x.1⟩, x.2)

/-- A merge of two maps, and the length of the result (avl.rs:1004-1005, 1381-1383, 1404-1406,
1464-1466, 1488-1490). -/
def mergeWith [Ord K] (kl kr : Bool) (dec : K × V → K × V → Option (K × V)) (l r : HMap) :
    Prog (ND K V) HMap :=
  (merge (l.len + r.len) kl kr dec l.len l.root r.root).bind fun t =>
  (AvlH.len (l.len + r.len) t).bind fun n => .pure ⟨n, t⟩

/-- avl.rs:930-943 `union`, as used by `append` (998-1006) and `new_union` (1483-1491). -/
def union [Ord K] (l r : HMap) : Prog (ND K V) HMap := mergeWith true true (fun _ r => some r) l r

/-- avl.rs:886-898 `intersect`, as used by `new_intersect` (1399-1407). -/
def intersect [Ord K] (l r : HMap) : Prog (ND K V) HMap :=
  mergeWith false false (fun l _ => some l) l r

/-- avl.rs:900-912 `diff`, as used by `new_diff` (1376-1384). -/
def diff [Ord K] (l r : HMap) : Prog (ND K V) HMap := mergeWith true false (fun _ _ => none) l r

/-- avl.rs:914-927 `sym_diff`, as used by `new_sym_diff` (1459-1467). -/
def symDiff [Ord K] (l r : HMap) : Prog (ND K V) HMap := mergeWith true true (fun _ _ => none) l r

/-- avl.rs:1431-1443 `new_join`; `none` if a `debug_assert!` fails, in which case unwinding
drops both maps. -/
def newJoin [Ord K] (debug : Bool) (l : HMap) (k : K) (v : V) (r : HMap) :
    Prog (ND K V) (Option HMap) :=
  (last l.len l.root).bind fun e =>
  if debug && !(e.all (fun e => compare e.1 k == .lt)) then
    r.drop.bind fun _ => l.drop.bind fun _ => .pure none
  else
    (first r.len r.root).bind fun e =>
    if debug && !(e.all (fun e => compare k e.1 == .lt)) then
      r.drop.bind fun _ => l.drop.bind fun _ => .pure none
    else
      (join (l.len + 1 + r.len) (l.len + r.len) l.root k v r.root).bind fun t =>
      .pure (some ⟨l.len + 1 + r.len, t⟩)

/-- avl.rs:1799-1801, the entry with the key itself goes to the right. -/
def reinsert [Ord K] (D n : Nat) (kv : Option (K × V)) (r : Option Nat) :
    Prog (ND K V) (Option Nat) :=
  match kv with
  | none => .pure r
  | some (k, v) => (ins D k v n r).bind fun x => .pure x.1

/-- avl.rs:1784-1806 `split_off`. -/
def splitOff [Ord K] (m : HMap) (p : K → Ordering) : Prog (ND K V) (HMap × HMap) :=
  (split m.len p m.len m.root).bind fun x =>
  (AvlH.len m.len x.1).bind fun n =>
  if m.len < n then .panic
  else
    (reinsert (m.len + 1) m.len x.2.1 x.2.2).bind fun t =>
    .pure (⟨n, x.1⟩, ⟨m.len - n, t⟩)

/-- avl.rs:1759-1768 `retain`; without a state if the closure panicked. -/
def retain (m : HMap) (f : S → K → V → Option (S × V × Bool)) (s : S) :
    Prog (ND K V) (HMap × Option S) :=
  (AvlH.retain m.len f m.len s m.root).bind fun
  | none => .pure (⟨m.len, none⟩, none)
  | some x => .pure (⟨x.2.2, x.2.1⟩, some x.1)

/-- avl.rs:1864-1868 `for_each`. -/
def forEach (m : HMap) (f : S → K → V → S) (s : S) : Prog (ND K V) S :=
  AvlH.forEach m.len f s m.root

/-- avl.rs:1885-1893 `for_each_mut`. -/
def forEachMut (m : HMap) (f : S → K → V → S × V) (s : S) : Prog (ND K V) (S × HMap) :=
  (AvlH.forEachMut m.len f m.len s m.root).bind fun x => .pure (x.1, ⟨m.len, x.2⟩)

/-- avl.rs:2276-2290 `extend`. -/
def extend [Ord K] (m : HMap) : List (K × V) → Prog (ND K V) HMap
  | [] => .pure m
  | e :: es => (m.insert e.1 e.2).bind fun x => extend x.1 es

/-- avl.rs:1243-1255 `iter` under a schedule. -/
def iter (m : HMap) (ds : List Bool) : Prog (ND K V) (List (Option (K × V) × Nat)) :=
  iterRun (3 * m.len + 1) ds m.root m.len

/-- avl.rs:1534-1613 `range` under a schedule. -/
def range (m : HMap) (lb ub : Bnd K) (ds : List Bool) :
    Prog (ND K V) (List (Option (K × V) × Nat)) :=
  rangeRun (3 * m.len + 1) lb ub ds m.root m.len

/-- avl.rs:2236-2256 `into_iter` under a schedule, then dropped. -/
def intoIter (m : HMap) (ds : List Bool) : Prog (ND K V) (List (Option (K × V) × Nat)) :=
  intoRun m.len (3 * m.len + 1) ds m.root m.len

/-- avl.rs:1281-1298 `iter_mut` under a schedule. -/
def iterMut (m : HMap) (g : Nat → K → V → V) (ds : List Bool) :
    Prog (ND K V) (HMap × List (Option (K × V) × Nat)) :=
  (iterMutRun m.len (3 * m.len + 1) g ds m.root m.len).bind fun x => .pure (⟨m.len, x.1⟩, x.2)

/-- avl.rs:1616-1697 `range_mut` under a schedule. -/
def rangeMut (m : HMap) (lb ub : Bnd K) (g : Nat → K → V → V) (ds : List Bool) :
    Prog (ND K V) (HMap × List (Option (K × V) × Nat)) :=
  (rangeMutRun m.len (3 * m.len + 1) lb ub g ds m.root m.len).bind fun x =>
  .pure (⟨m.len, x.1⟩, x.2)

/-- `for e in &m`: everything `iter` yields, until it yields nothing. -/
def iterList (m : HMap) : Prog (ND K V) (List (K × V)) :=
  (m.iter (List.replicate (m.len + 1) true)).bind fun ys => .pure (ys.filterMap (·.1))

/-- avl.rs:259-268 `eq`; the entries are compared after both iterations, not while they run. -/
def eqMap (eqE : K × V → K × V → Bool) (a b : HMap) : Prog (ND K V) Bool :=
  if a.len == b.len then
    a.iterList.bind fun x => b.iterList.bind fun y =>
    .pure ((x.zip y).all (fun z => eqE z.1 z.2))
  else .pure false

/-- lib.rs:260-270 `Entry::and_modify`. -/
def andModify [Ord K] (m : HMap) (k : K) (g : V → V) : Prog (ND K V) HMap :=
  (m.getMut (compare k) g).bind fun x => .pure x.1

/-- lib.rs:277-287, 316-329 `Entry::or_insert_with_key` and the other `or_…`, then `g` on the
referent: the map, whether the closure was called, whether a reference was obtained (if not,
`unwrap` panics). -/
def orInsert [Ord K] (m : HMap) (k : K) (d : K → V) (g : V → V) :
    Prog (ND K V) (HMap × Bool × Bool) :=
  (m.getKeyValue (V := V) (compare k)).bind fun e =>
  if e.isSome then
    (m.getMut (compare k) g).bind fun x => .pure (x.1, false, x.2)
  else
    (m.insert k (d k)).bind fun y =>
    (y.1.getMut (compare k) g).bind fun x => .pure (x.1, true, x.2)

end HMap

/-! ## The operations as a machine -/

/-- Operations that make a map. -/
inductive Make (K V : Type) where
  | new
  | fromIter (es : List (K × V))

/-- Operations on one map.  `ds` is a schedule of `next` (`true`) and `next_back` calls; `g j` is
applied to the referent of the `j`-th reference obtained.  `p` is the comparison with the key
looked for. -/
inductive One (K V S : Type) where
  | clone
  | drop
  | clear
  | insert (k : K) (v : V)
  | remove (p : K → Ordering)
  | removeEntry (p : K → Ordering)
  | popFirst
  | popLast
  | getKeyValue (p : K → Ordering)
  | get (p : K → Ordering)
  | containsKey (p : K → Ordering)
  | index (p : K → Ordering)
  | getMut (p : K → Ordering) (g : V → V)
  | first
  | last
  | len
  | isEmpty
  | iter (ds : List Bool)
  | intoIter (ds : List Bool)
  | iterMut (g : Nat → K → V → V) (ds : List Bool)
  | range (lb ub : Bnd K) (ds : List Bool)
  | rangeMut (lb ub : Bnd K) (g : Nat → K → V → V) (ds : List Bool)
  | retain (f : S → K → V → Option (S × V × Bool)) (s : S)
  | extend (es : List (K × V))
  | splitOff (p : K → Ordering)
  | forEach (f : S → K → V → S) (s : S)
  | forEachMut (f : S → K → V → S × V) (s : S)
  | hash (hLen : S → Nat → S) (hK : S → K → S) (hV : S → V → S) (s : S)
  | serialize
  | orInsert (k : K) (d : K → V) (g : V → V)
  | andModify (k : K) (g : V → V)

/-- Operations on two maps, by `&mut` or by value. -/
inductive Two (K V : Type) where
  | append
  | union
  | intersect
  | diff
  | symDiff
  | newJoin (debug : Bool) (k : K) (v : V)

/-- Operations on two maps by shared reference. -/
inductive Look (K V : Type) where
  | eq (eqE : K × V → K × V → Bool)
  | partialCmp (cmpE : K × V → K × V → Option Ordering)
  | cmp (cmpE : K × V → K × V → Ordering)

/-- What a caller sees. -/
inductive Res (K V S : Type) where
  | unit
  | val (o : Option V)
  | entry (o : Option (K × V))
  | bool (b : Bool)
  | nat (n : Nat)
  | ord (o : Option Ordering)
  | items (l : List (Option (K × V) × Nat))
  | state (s : S)
  | written (n : Nat) (l : List (K × V))
  /-- the call panics; the caller may catch that and go on -/
  | panicked
  deriving DecidableEq

/-- The operations on values, by the model of avl.rs on values. -/
def avlV (K V S : Type) [Ord K] :
    Machine.Impl Option (AvlMap K V) (Res K V S) (Make K V) (One K V S) (Two K V) (Look K V) where
  make
    | .new => some ([.new], .unit)
    | .fromIter es => (AvlMap.fromIter es).map fun m => ([m], .unit)
  one m
    | .clone => some (some m, [m], .unit)
    | .drop => some (none, [], .unit)
    | .clear => some (some m.clear, [], .unit)
    | .insert k v => (m.insert k v).map fun x => (some x.1, [], .val x.2)
    | .remove p => (m.remove p).map fun x => (some x.1, [], .val x.2)
    | .removeEntry p => (m.removeEntry p).map fun x => (some x.1, [], .entry x.2)
    | .popFirst => m.popFirst.map fun x => (some x.1, [], .entry x.2)
    | .popLast => m.popLast.map fun x => (some x.1, [], .entry x.2)
    | .getKeyValue p => some (some m, [], .entry (m.getKeyValue p))
    | .get p => some (some m, [], .val (m.get p))
    | .containsKey p => some (some m, [], .bool (m.containsKey p))
    | .index p => some (some m, [], (m.index p).elim .panicked fun v => .val (some v))
    | .getMut p g => some (some (m.getMut p g).1, [], .bool (m.getMut p g).2)
    | .first => some (some m, [], .entry m.firstKeyValue)
    | .last => some (some m, [], .entry m.lastKeyValue)
    | .len => some (some m, [], .nat m.len)
    | .isEmpty => some (some m, [], .bool m.isEmpty)
    | .iter ds => (m.iter.run ds).map fun l => (some m, [], .items l)
    | .intoIter ds => (m.iter.run ds).map fun l => (none, [], .items l)
    | .iterMut g ds => ((iterOf m.len (m.root.label 0)).run ds).map fun ys =>
        (some ⟨m.len, unl (updF g 0 (slotsOf ys)) (m.root.label 0)⟩, [], .items (seenOf ys))
    | .range lb ub ds => ((m.range lb ub).run ds).map fun l => (some m, [], .items l)
    | .rangeMut lb ub g ds => ((rangeOf lb ub m.len (m.root.label 0)).run ds).map fun ys =>
        (some ⟨m.len, unl (updF g 0 (slotsOf ys)) (m.root.label 0)⟩, [], .items (seenOf ys))
    | .retain f s => some (match m.retain f s with
        | .done s m => (some m, [], .state s)
        | .panicked m => (some m, [], .panicked))
    | .extend es => (m.extend es).map fun m => (some m, [], .unit)
    | .splitOff p => (m.splitOff p).map fun x => (some x.1, [x.2], .unit)
    | .forEach f s => some (some m, [], .state (m.forEach f s))
    | .forEachMut f s => some (some (m.forEachMut f s).2, [], .state (m.forEachMut f s).1)
    | .hash hLen hK hV s => some (some m, [], .state (m.hashMap hLen hK hV s))
    | .serialize => m.serialize.map fun x => (some m, [], .written x.1 x.2)
    | .orInsert k d g =>
        if m.containsKey (compare k) then
          some (some (m.getMut (compare k) g).1, [],
            if (m.getMut (compare k) g).2 then .bool false else .panicked)
        else (m.insert k (d k)).map fun x =>
          (some (x.1.getMut (compare k) g).1, [],
            if (x.1.getMut (compare k) g).2 then .bool true else .panicked)
    | .andModify k g => some (some (m.getMut (compare k) g).1, [], .unit)
  two l r
    | .append => (l.append r).map fun x => (some x.1, some x.2, [], .unit)
    | .union => (AvlMap.newUnion l r).map fun m => (none, none, [m], .unit)
    | .intersect => (AvlMap.newIntersect l r).map fun m => (none, none, [m], .unit)
    | .diff => (AvlMap.newDiff l r).map fun m => (none, none, [m], .unit)
    | .symDiff => (AvlMap.newSymDiff l r).map fun m => (none, none, [m], .unit)
    | .newJoin debug k v => some ((AvlMap.newJoin debug l k v r).elim (none, none, [], .panicked)
        fun m => (none, none, [m], .unit))
  look a b
    | .eq eqE => (AvlMap.eqMap eqE a b).map .bool
    | .partialCmp cmpE => (AvlMap.partialCmpMap cmpE a b).map .ord
    | .cmp cmpE => (AvlMap.cmpMap cmpE a b).map fun o => .ord (some o)

/-- The operations on memory. -/
def avlM (K V S : Type) [Ord K] :
    Machine.Impl (Prog (ND K V)) HMap (Res K V S) (Make K V) (One K V S) (Two K V) (Look K V) where
  make
    | .new => .pure ([⟨0, none⟩], .unit)
    | .fromIter es => ((⟨0, none⟩ : HMap).extend es).bind fun m => .pure ([m], .unit)
  one m
    | .clone => m.clone.bind fun c => .pure (some m, [c], .unit)
    | .drop => m.drop.bind fun _ => .pure (none, [], .unit)
    | .clear => m.clear.bind fun m => .pure (some m, [], .unit)
    | .insert k v => (m.insert k v).bind fun x => .pure (some x.1, [], .val x.2)
    | .remove p => (m.removeEntry p).bind fun x => .pure (some x.1, [], .val (x.2.map (·.2)))
    | .removeEntry p => (m.removeEntry p).bind fun x => .pure (some x.1, [], .entry x.2)
    | .popFirst => m.popFirst.bind fun x => .pure (some x.1, [], .entry x.2)
    | .popLast => m.popLast.bind fun x => .pure (some x.1, [], .entry x.2)
    | .getKeyValue p => (m.getKeyValue p).bind fun e => .pure (some m, [], .entry e)
    | .get p => (m.getKeyValue p).bind fun e => .pure (some m, [], .val (e.map (·.2)))
    | .containsKey p => (m.getKeyValue p).bind fun e => .pure (some m, [], .bool e.isSome)
    | .index p => (m.getKeyValue p).bind fun e =>
        .pure (some m, [], e.elim .panicked fun e => .val (some e.2))
    | .getMut p g => (m.getMut p g).bind fun x => .pure (some x.1, [], .bool x.2)
    | .first => (AvlH.first m.len m.root).bind fun e => .pure (some m, [], .entry e)
    | .last => (AvlH.last m.len m.root).bind fun e => .pure (some m, [], .entry e)
    | .len => .pure (some m, [], .nat m.len)
    | .isEmpty => .pure (some m, [], .bool (m.len == 0))
    | .iter ds => (m.iter ds).bind fun l => .pure (some m, [], .items l)
    | .intoIter ds => (m.intoIter ds).bind fun l => .pure (none, [], .items l)
    | .iterMut g ds => (m.iterMut g ds).bind fun x => .pure (some x.1, [], .items x.2)
    | .range lb ub ds => (m.range lb ub ds).bind fun l => .pure (some m, [], .items l)
    | .rangeMut lb ub g ds => (m.rangeMut lb ub g ds).bind fun x =>
        .pure (some x.1, [], .items x.2)
    | .retain f s => (m.retain f s).bind fun x =>
        .pure (some x.1, [], x.2.elim .panicked .state)
    | .extend es => (m.extend es).bind fun m => .pure (some m, [], .unit)
    | .splitOff p => (m.splitOff p).bind fun x => .pure (some x.1, [x.2], .unit)
    | .forEach f s => (m.forEach f s).bind fun s => .pure (some m, [], .state s)
    | .forEachMut f s => (m.forEachMut f s).bind fun x => .pure (some x.2, [], .state x.1)
    | .hash hLen hK hV s => (m.forEach (fun s k v => hV (hK s k) v) (hLen s m.len)).bind fun s =>
        .pure (some m, [], .state s)
    | .serialize => m.iterList.bind fun l => .pure (some m, [], .written m.len l)
    | .orInsert k d g => (m.orInsert k d g).bind fun x =>
        .pure (some x.1, [], if x.2.2 then .bool x.2.1 else .panicked)
    | .andModify k g => (m.andModify k g).bind fun m => .pure (some m, [], .unit)
  two l r
    | .append => (l.union r).bind fun m => .pure (some m, some ⟨0, none⟩, [], .unit)
    | .union => (l.union r).bind fun m => .pure (none, none, [m], .unit)
    | .intersect => (l.intersect r).bind fun m => .pure (none, none, [m], .unit)
    | .diff => (l.diff r).bind fun m => .pure (none, none, [m], .unit)
    | .symDiff => (l.symDiff r).bind fun m => .pure (none, none, [m], .unit)
    | .newJoin debug k v => (l.newJoin debug k v r).bind fun o =>
        .pure (o.elim (none, none, [], .panicked) fun m => (none, none, [m], .unit))
  look a b
    | .eq eqE => (a.eqMap eqE b).bind fun r => .pure (.bool r)
    | .partialCmp cmpE => a.iterList.bind fun x => b.iterList.bind fun y =>
        .pure (.ord (Spec.lexPartialCmp cmpE x y))
    | .cmp cmpE => a.iterList.bind fun x => b.iterList.bind fun y =>
        .pure (.ord (some (Spec.lexCmp cmpE x y)))

end Verif.AvlH
