import Verif.BTreeHeap.Map
import Verif.Heap.Live
/-!
# `BTreeMap`s in use: iterators kept across commands

As for `AvlMap` (`AvlHeap/Live`).  A `range` or `range_mut` that panics because of its bounds makes
no iterator; the caller may catch the panic and go on.
-/
namespace Verif.BTreeH
open Heap Heap.Machine
open BTree (Node NIter InnerIter BTreeMap QBnd nodeOps witems)
open Verif.AvlH (updF)

variable {K V S Q : Type}

/-- The operations by `&self`. -/
def One.byRef : One K V Q S → Bool
  | .clone | .getKeyValue _ | .get _ | .containsKey _ | .first | .last | .len | .isEmpty
  | .iter _ | .range _ _ _ | .serialize => true
  | _ => false

/-- Make an iterator. -/
inductive Start (K V Q : Type) where
  | iter
  | range (lb ub : QBnd Q)
  | intoIter
  | iterMut (g : Nat → K → V → V)
  | rangeMut (lb ub : QBnd Q) (g : Nat → K → V → V)

/-- Work with the iterators of a map: make another one, `next` (or `next_back`) of number `i`, an
operation on the map by `&self`. -/
inductive Use (K V Q S : Type) where
  | iter
  | range (lb ub : QBnd Q)
  | next (i : Nat) (front : Bool)
  | byRef (c : One K V Q S)

/-! ## On values -/

/-- A map in use. -/
inductive VLive (K V : Type) where
  | shared (m : BTreeMap K V) (its : List (Left (K × V)))
  | owning (it : Left (K × V))
  | excl (m : BTreeMap K V) (g : Nat → K → V → V) (it : Left (K × (Nat × V))) (done : List Nat)

/-- The iterator of all entries. -/
def leftAll {W : Type} (m : BTreeMap K W) : Left (K × W) := ⟨m.abs, m.len - m.abs.length⟩

/-- The iterator of the entries in a range; none if the call panics. -/
def leftRange {W : Type} [Ord Q] (b : K → Q) (m : BTreeMap K W) (lb ub : QBnd Q) :
    Option (Left (K × W)) :=
  (m.range b lb ub).map fun it =>
    ⟨witems Node.toList it.work, m.len - (witems Node.toList it.work).length⟩

/-- The map after writing to the slots in `done`, in that order. -/
def writtenAt (g : Nat → K → V → V) (m : BTreeMap K V) (done : List Nat) : BTreeMap K V :=
  ⟨m.len, m.root.map fun n => n.mapIdx (fun i e => (e.1, updF g 0 done i e.1 e.2)) 0⟩

/-- Maps in use, on values. -/
def liveV (K V S : Type) {Q : Type} [Ord K] [Ord Q] (N : Nat) (b : K → Q) :
    Live Option (BTreeMap K V) (VLive K V) (Res K V S) (Start K V Q) (Use K V Q S) where
  start m
    | .iter => some (.shared m [leftAll m])
    | .range lb ub => some (.shared m (leftRange b m lb ub).toList)
    | .intoIter => some (.owning (leftAll m))
    | .iterMut g => some (.excl m g (leftAll m.label) [])
    | .rangeMut lb ub g => some (match leftRange b m.label lb ub with
        | none => .shared m []
        | some l => .excl m g l [])
  use
    | .shared m its, .iter => some (.shared m (its ++ [leftAll m]), [], none)
    | .shared m its, .range lb ub => some (match leftRange b m lb ub with
        | none => (.shared m its, [], some .panicked)
        | some l => (.shared m (its ++ [l]), [], none))
    | .shared m its, .next i front => some (match its[i]? with
        | none => (.shared m its, [], none)
        | some l => (.shared m (its.set i (l.pop front).2), [],
            some (.items [((l.pop front).1, (l.pop front).2.len)])))
    | .shared m its, .byRef c =>
        if c.byRef then ((btreeV K V S N b).one m c).map fun x => (.shared m its, x.2.1, some x.2.2)
        else some (.shared m its, [], none)
    | .owning l, .next _ front =>
        some (.owning (l.pop front).2, [],
          some (.items [((l.pop front).1, (l.pop front).2.len)]))
    | .excl m g l done, .next _ front =>
        some (.excl m g (l.pop front).2 (done ++ ((l.pop front).1.map (·.2.1)).toList), [],
          some (.items [((l.pop front).1.map (fun e => (e.1, e.2.2)), (l.pop front).2.len)]))
    | j, _ => some (j, [], none)
  stop
    | .shared m _ => some (some m)
    | .owning _ => some none
    | .excl m g _ done => some (some (writtenAt g m done))
  view
    | .shared m _ => some m
    | _ => none

/-! ## On memory -/

/-- A map in use. -/
inductive HLive (K V : Type) where
  | shared (m : HMap) (its : List (InnerIter (SIter K V)))
  | owning (D : Nat) (it : InnerIter (OIter K V))
  | excl (len : Nat) (g : Nat → K → V → V) (s : MS K V) (it : InnerIter MIter)

namespace HMap

/-- btree.rs:743-760 `iter`. -/
def iterNew (m : HMap) : Prog (ND K V) (InnerIter (SIter K V)) :=
  match m.root with
  | none => .pure ⟨[], 0⟩
  | some a => ((sharedOps a).make () []).bind fun e => .pure ⟨[e.2], m.len⟩

/-- btree.rs:855-862, 2003-2036 `range`; `none` is a panic. -/
def rangeNew [Ord Q] (b : K → Q) (m : HMap) (lb ub : QBnd Q) :
    Prog (ND K V) (Option (InnerIter (SIter K V))) :=
  if lb.bad ub then .pure none
  else match m.root with
    | none => .pure (some ⟨[], m.len⟩)
    | some a =>
      (mkWorkH a m.len (lb.bnd b) (ub.bnd b) [] ()).bind fun w =>
      .pure (w.2.map fun w => ⟨w, m.len⟩)

/-- btree.rs:762-784 `iter_mut`. -/
def iterMutNew (m : HMap) (g : Nat → K → V → V) : Prog (ND K V) (HLive K V) :=
  match m.root with
  | none => .pure (.excl m.len g ⟨.link none, 0⟩ ⟨[], 0⟩)
  | some a =>
    ((mutOps m.len).make ⟨.link (some a), 0⟩ []).bind fun e =>
    .pure (.excl m.len g e.1 ⟨[e.2], m.len⟩)

/-- btree.rs:864-873, 2084-2118 `range_mut`.  If it panics the nodes opened so far are closed by
unwinding, and the map is as if no iterator had been made. -/
def rangeMutNew [Ord Q] (b : K → Q) (m : HMap) (lb ub : QBnd Q) (g : Nat → K → V → V) :
    Prog (ND K V) (HLive K V) :=
  if lb.bad ub then .pure (.shared m [])
  else match m.root with
    | none => .pure (.excl m.len g ⟨.link none, 0⟩ ⟨[], m.len⟩)
    | some a =>
      (mkWorkM m.len m.len (lb.bnd b) (ub.bnd b) [] (.link (some a))).bind fun w =>
      match w.2 with
      | none => w.1.close.bind fun r => .pure (.shared ⟨m.len, r⟩ [])
      | some u => .pure (.excl m.len g ⟨w.1, 0⟩ ⟨u, m.len⟩)

end HMap

/-- Maps in use, on memory: btree.rs:1341-1392 `next`, `next_back` one call at a time. -/
def liveM (K V S : Type) {Q : Type} [Ord K] [Ord Q] (N : Nat) (b : K → Q) :
    Live (Prog (ND K V)) HMap (HLive K V) (Res K V S) (Start K V Q) (Use K V Q S) where
  start m
    | .iter => m.iterNew.bind fun it => .pure (.shared m [it])
    | .range lb ub => (m.rangeNew b lb ub).bind fun it => .pure (.shared m it.toList)
    | .intoIter => (intoNew m.len m.root m.len).bind fun it => .pure (.owning m.len it)
    | .iterMut g => m.iterMutNew g
    | .rangeMut lb ub g => m.rangeMutNew b lb ub g
  use
    | .shared m its, .iter => m.iterNew.bind fun it => .pure (.shared m (its ++ [it]), [], none)
    | .shared m its, .range lb ub => (m.rangeNew b lb ub).bind fun
        | none => .pure (.shared m its, [], some .panicked)
        | some it => .pure (.shared m (its ++ [it]), [], none)
    | .shared m its, .next i front =>
        match its[i]? with
        | none => .pure (.shared m its, [], none)
        | some it =>
          ((sharedOps (m.root.getD 0)).step m.len front () it).bind fun x =>
          .pure (.shared m (its.set i x.2.1), [], some (.items [(x.2.2, x.2.1.len)]))
    | .shared m its, .byRef c =>
        if c.byRef then ((btreeM K V S N b).one m c).bind fun x =>
          .pure (.shared m its, x.2.1, some x.2.2)
        else .pure (.shared m its, [], none)
    | .owning D it, .next _ front =>
        ((ownOps D).step (D + 1) front () it).bind fun x =>
        .pure (.owning D x.2.1, [], some (.items [(x.2.2, x.2.1.len)]))
    | .excl len g s it, .next _ front =>
        ((mutOps len).step len front s it).bind fun x =>
        match x.2.2 with
        | none => .pure (.excl len g x.1 x.2.1, [], some (.items [(none, x.2.1.len)]))
        | some i =>
          match yldM g x.1 i with
          | none => .panic
          | some z => .pure (.excl len g z.1 x.2.1, [], some (.items [(some z.2, x.2.1.len)]))
    | j, _ => .pure (j, [], none)
  stop
    | .shared m _ => .pure (some m)
    | .owning D it => (dropWork D it.work).bind fun _ => .pure none
    | .excl len _ s _ => s.tree.close.bind fun r => .pure (some ⟨len, r⟩)
  view
    | .shared m _ => some m
    | _ => none

end Verif.BTreeH
