import Verif.AvlHeap.Map
import Verif.Heap.Live
/-!
# `AvlMap`s in use: iterators kept across commands

Other operations, also on maps sharing nodes with the one iterated over, may come between the calls
of an iterator.  While `iter` and `range` iterators live, their map is borrowed: more of them can
be made, and all `&self` operations done.  `iter_mut` and `range_mut` have the map to themselves;
`into_iter` has used it up.

On values an iterator is the list of the entries it has yet to yield.
-/
namespace Verif.AvlH
open Heap Heap.Machine
open Avl (Tree AvlMap iterOf rangeOf items)

variable {K V S : Type}

/-- The operations by `&self`. -/
def One.byRef : One K V S → Bool
  | .clone | .getKeyValue _ | .get _ | .containsKey _ | .index _ | .first | .last | .len
  | .isEmpty | .iter _ | .range _ _ _ | .forEach _ _ | .hash _ _ _ _ | .serialize => true
  | _ => false

/-- Make an iterator. -/
inductive Start (K V : Type) where
  | iter
  | range (lb ub : Bnd K)
  | intoIter
  | iterMut (g : Nat → K → V → V)
  | rangeMut (lb ub : Bnd K) (g : Nat → K → V → V)

/-- Work with the iterators of a map: make another one, `next` (or `next_back`) of number `i`, an
operation on the map by `&self`. -/
inductive Use (K V S : Type) where
  | iter
  | range (lb ub : Bnd K)
  | next (i : Nat) (front : Bool)
  | byRef (c : One K V S)

/-! ## On values -/

/-- A map in use. -/
inductive VLive (K V : Type) where
  | shared (m : AvlMap K V) (its : List (Left (K × V)))
  | owning (it : Left (K × V))
  | excl (m : AvlMap K V) (g : Nat → K → V → V) (it : Left (K × (Nat × V))) (done : List Nat)

/-- The iterator of all entries; the slots of `iter_mut` number the entries. -/
def leftAll {W : Type} (len : Nat) (t : Tree K W) : Left (K × W) :=
  ⟨t.toList, len - t.toList.length⟩

/-- The iterator of the entries in a range. -/
def leftRange {W : Type} (lb ub : Bnd K) (len : Nat) (t : Tree K W) : Left (K × W) :=
  ⟨items (rangeOf lb ub len t).work, len - (items (rangeOf lb ub len t).work).length⟩

/-- Maps in use, on values.  `done` lists the slots written to, in the order of writing. -/
def liveV (K V S : Type) [Ord K] :
    Live Option (AvlMap K V) (VLive K V) (Res K V S) (Start K V) (Use K V S) where
  start m
    | .iter => some (.shared m [leftAll m.len m.root])
    | .range lb ub => some (.shared m [leftRange lb ub m.len m.root])
    | .intoIter => some (.owning (leftAll m.len m.root))
    | .iterMut g => some (.excl m g (leftAll m.len (m.root.label 0)) [])
    | .rangeMut lb ub g => some (.excl m g (leftRange lb ub m.len (m.root.label 0)) [])
  use
    | .shared m its, .iter => some (.shared m (its ++ [leftAll m.len m.root]), [], none)
    | .shared m its, .range lb ub =>
        some (.shared m (its ++ [leftRange lb ub m.len m.root]), [], none)
    | .shared m its, .next i front => some (match its[i]? with
        | none => (.shared m its, [], none)
        | some l => (.shared m (its.set i (l.pop front).2), [],
            some (.items [((l.pop front).1, (l.pop front).2.len)])))
    | .shared m its, .byRef c =>
        if c.byRef then ((avlV K V S).one m c).map fun x => (.shared m its, x.2.1, some x.2.2)
        else some (.shared m its, [], none)
    | .owning l, .next _ front =>
        some (.owning (l.pop front).2, [],
          some (.items [((l.pop front).1, (l.pop front).2.len)]))
    | .excl m g l done, .next _ front =>
        some (.excl m g (l.pop front).2 (done ++ ((l.pop front).1.map (·.2.1)).toList), [],
          some (.items [((l.pop front).1.map (fun e => (e.1, e.2.2)), (l.pop front).2.len)]))
    | j, _ => some (j, [], none)
  stop
    | .shared m _ => some (some m)
    | .owning _ => some none
    | .excl m g _ done => some (some ⟨m.len, unl (updF g 0 done) (m.root.label 0)⟩)
  view
    | .shared m _ => some m
    | _ => none

/-! ## On memory -/

/-- A map in use. -/
inductive HLive (K V : Type) where
  | shared (m : HMap) (its : List (HIter (List Nat) (K × V)))
  | owning (D : Nat) (it : HIter (OwnN K V) (K × V))
  | excl (m : HMap) (g : Nat → K → V → V) (s : MS K V) (it : HIter Nat Nat)

namespace HMap

/-- avl.rs:1243-1255 `iter`. -/
def iterNew (m : HMap) : HIter (List Nat) (K × V) :=
  match m.root with
  | none => ⟨[], m.len⟩
  | some _ => ⟨[.desc []], m.len⟩

/-- avl.rs:1534-1613 `range`. -/
def rangeNew (m : HMap) (lb ub : Bnd K) : Prog (ND K V) (HIter (List Nat) (K × V)) :=
  match m.root with
  | none => .pure ⟨[], m.len⟩
  | some a =>
    (pruneG (desN a lb ub) (3 * m.len + 1) () [.desc []]).bind fun w =>
    (pruneBackG (desN a lb ub) (3 * m.len + 1) () w.2.reverse).bind fun w =>
    .pure ⟨w.2.reverse, m.len⟩

/-- avl.rs:2236-2256 `into_iter`. -/
def intoNew (m : HMap) : Prog (ND K V) (HLive K V) :=
  (optToIterNode m.root).bind fun x => .pure (.owning m.len ⟨optD x, m.len⟩)

/-- avl.rs:1281-1298 `iter_mut`. -/
def iterMutNew (m : HMap) (g : Nat → K → V → V) : Prog (ND K V) (HLive K V) :=
  match m.root with
  | none => .pure (.excl m g ⟨[], 0⟩ ⟨[], m.len⟩)
  | some a =>
    (makeMut m.len a).bind fun a => .pure (.excl ⟨m.len, some a⟩ g ⟨[], 0⟩ ⟨[.desc a], m.len⟩)

/-- avl.rs:1616-1697 `range_mut`. -/
def rangeMutNew (m : HMap) (lb ub : Bnd K) (g : Nat → K → V → V) : Prog (ND K V) (HLive K V) :=
  match m.root with
  | none => .pure (.excl m g ⟨[], 0⟩ ⟨[], m.len⟩)
  | some a =>
    (makeMut m.len a).bind fun a =>
    (pruneG (desM m.len lb ub) (3 * m.len + 1) ⟨[], 0⟩ [.desc a]).bind fun w =>
    (pruneBackG (desM m.len lb ub) (3 * m.len + 1) w.1 w.2.reverse).bind fun w =>
    .pure (.excl ⟨m.len, some a⟩ g w.1 ⟨w.2.reverse, m.len⟩)

end HMap

/-- Maps in use, on memory: avl.rs:1937-1993 `next`, `next_back` one call at a time. -/
def liveM (K V S : Type) [Ord K] :
    Live (Prog (ND K V)) HMap (HLive K V) (Res K V S) (Start K V) (Use K V S) where
  start m
    | .iter => .pure (.shared m [m.iterNew])
    | .range lb ub => (m.rangeNew lb ub).bind fun it => .pure (.shared m [it])
    | .intoIter => m.intoNew
    | .iterMut g => m.iterMutNew g
    | .rangeMut lb ub g => m.rangeMutNew lb ub g
  use
    | .shared m its, .iter => .pure (.shared m (its ++ [m.iterNew]), [], none)
    | .shared m its, .range lb ub => (m.rangeNew lb ub).bind fun it =>
        .pure (.shared m (its ++ [it]), [], none)
    | .shared m its, .next i front =>
        match its[i]? with
        | none => .pure (.shared m its, [], none)
        | some it =>
          (stepG (desN (m.root.getD 0) .unbounded .unbounded) (3 * m.len + 1) front () it).bind fun x =>
          .pure (.shared m (its.set i x.2.2), [], some (.items [(x.2.1, x.2.2.len)]))
    | .shared m its, .byRef c =>
        if c.byRef then ((avlM K V S).one m c).bind fun x => .pure (.shared m its, x.2.1, some x.2.2)
        else .pure (.shared m its, [], none)
    | .owning D it, .next _ front =>
        (stepG (desI D) (3 * D + 1) front () it).bind fun x =>
        .pure (.owning D x.2.2, [], some (.items [(x.2.1, x.2.2.len)]))
    | .excl m g s it, .next _ front =>
        (stepG (desM m.len .unbounded .unbounded) (3 * m.len + 1) front s it).bind fun x =>
        match x.2.1 with
        | none => .pure (.excl m g x.1 x.2.2, [], some (.items [(none, x.2.2.len)]))
        | some i =>
          match yldM g x.1 i with
          | none => .panic
          | some z => .pure (.excl m g z.1 x.2.2, [], some (.items [(some z.2, x.2.2.len)]))
    | j, _ => .pure (j, [], none)
  stop
    | .shared m _ => .pure (some m)
    | .owning D it => (dropWork D it.work).bind fun _ => .pure none
    | .excl m _ s _ => (closeAll s.opened.reverse).bind fun _ => .pure (some m)
  view
    | .shared m _ => some m
    | _ => none

end Verif.AvlH
