import Verif.FixedHeap.MutSpec
import Verif.FixedHeap.Remove
import Verif.BTreeHeap.Map
/-!
# `btree::fixed::BTreeMap` on reference-counted memory, and its operations as a machine

A map is its recorded length and the link to its root.  The recursion bounds of the node functions
are taken from the recorded length: no tree is deeper than it has entries, and none has more nodes.

`Q` is the type of borrowed keys and `b` is `Borrow::borrow`; `lin` is the choice of search at
core.rs:72.
-/
namespace Verif.FixedH
open Heap BTreeH Fixed
open Verif.Avl (slotsOf seenOf)
open Verif.AvlH (updF)

variable {K V Q : Type}

namespace FHMap

/-- fixed.rs:17-20 `clear`; fixed.rs:6-10 (`derive(Clone)`, `derive(Default)`), 13-15 `new` and the
drop of a map are as those of btree.rs: `HMap.clone`, `HMap.new`, `HMap.drop`. -/
def clear (m : HMap) : Prog (ND K V) HMap :=
  (Heap.drop m.len m.root).bind fun _ => .pure ⟨0, none⟩

/-- fixed.rs:22-29 `get`. -/
def get (lin : Bool) (m : HMap) (p : K → Ordering) : Prog (ND K V) (Option V) :=
  match m.root with
  | none => .pure none
  | some a => (getAt lin a p m.len []).bind fun e => .pure (e.map (·.2))

/-- fixed.rs:31-40 `get_mut`, followed by a write. -/
def getMut (lin : Bool) (m : HMap) (p : K → Ordering) (g : V → V) :
    Prog (ND K V) (HMap × Bool) :=
  match m.root with
  | none => .pure (m, false)
  | some a => (mutArc m.len a (FixedH.getMut lin m.len p g m.len)).bind fun x =>
      .pure (⟨m.len, some x.1⟩, x.2)

/-- fixed.rs:50-65: what `insert` does with the result of the insertion at the root `a`.
`Node::new_branch` is core.rs:304-315. -/
def afterRoot (len a : Nat) : HIns K V → Prog (ND K V) (HMap × Option V)
  | .absorbed => .pure (⟨len + 1, some a⟩, none)
  | .replaced o => .pure (⟨len, some a⟩, some o)
  | .split lhs kv =>
    match ivPush MAX kv [], (kPush (some lhs) []).bind (kPush (some a)) with
    | some es, some ks => (lift (.alloc ⟨es, ks⟩)).bind fun c => .pure (⟨len + 1, some c⟩, none)
    | _, _ => .panic

/-- fixed.rs:42-73 `insert`. -/
def insert [Ord K] (lin : Bool) (m : HMap) (k : K) (v : V) : Prog (ND K V) (HMap × Option V) :=
  match m.root with
  | none =>
    match ivPush MAX (k, v) [] with                       -- 68, core.rs:298-302 `new_leaf`
    | none => .panic
    | some es => (lift (.alloc ⟨es, []⟩)).bind fun a => .pure (⟨1, some a⟩, none)
  | some a => (mutArc m.len a (ins lin m.len k v m.len)).bind fun x => afterRoot m.len x.1 x.2

/-- fixed.rs:114-116: the last child is taken out of an empty root (core.rs:335-337 `pop_child`):
the contents, and the new root if it changes. -/
def shrink (b : Bool) (x : HN K V) : Prog (ND K V) (HN K V × Option (Option Nat)) :=
  if b && x.data.isEmpty then
    if x.kids.isEmpty then .pure (x, some none)
    else
      match kPop x.kids with
      | none => .panic
      | some (c, ks) => .pure (⟨x.data, ks⟩, some c)
  else .pure (x, none)

/-- fixed.rs:110-116: on the contents of the root. -/
def rmRoot (len : Nat) (remover : HN K V → Prog (ND K V) (HN K V × Option (HRem K V)))
    (x : HN K V) : Prog (ND K V) (HN K V × Option ((K × V) × Option (Option Nat))) :=
  (remover x).bind fun y =>
  match y.2 with
  | none => .pure (y.1, none)                             -- 110: `?`
  | some r =>
    if len = 0 then .panic                                -- 112
    else (shrink r.2 y.1).bind fun z => .pure (z.1, some (r.1, z.2))

/-- fixed.rs:102-119 `rm_and_rebal`; assigning to `self.root` drops the old root. -/
def rmAndRebal (m : HMap) (remover : HN K V → Prog (ND K V) (HN K V × Option (HRem K V))) :
    Prog (ND K V) (HMap × Option (K × V)) :=
  match m.root with
  | none => .pure (m, none)
  | some a =>
    (mutArc m.len a (rmRoot m.len remover)).bind fun x =>
    match x.2 with
    | none => .pure (⟨m.len, some x.1⟩, none)
    | some (kv, none) => .pure (⟨m.len - 1, some x.1⟩, some kv)
    | some (kv, some r) =>
      (Heap.drop m.len (some x.1)).bind fun _ => .pure (⟨m.len - 1, r⟩, some kv)

/-- fixed.rs:121-133 `remove`. -/
def remove (lin : Bool) (m : HMap) (p : K → Ordering) : Prog (ND K V) (HMap × Option V) :=
  (rmAndRebal m (FixedH.remove lin m.len p m.len)).bind fun x => .pure (x.1, x.2.map (·.2))

/-- fixed.rs:157-167 `extend`. -/
def extend [Ord K] (lin : Bool) (m : HMap) : List (K × V) → Prog (ND K V) HMap
  | [] => .pure m
  | e :: es => (insert lin m e.1 e.2).bind fun x => extend lin x.1 es

/-- fixed.rs:79-84 `iter` under a schedule. -/
def iter (m : HMap) (ds : List Bool) : Prog (ND K V) (List (Option (K × V) × Nat)) :=
  iterRun (2 * m.len + 1) ds m.root m.len

/-- fixed.rs:148-155 `into_iter` under a schedule, then dropped. -/
def intoIter (m : HMap) (ds : List Bool) : Prog (ND K V) (List (Option (K × V) × Nat)) :=
  intoRun m.len (2 * m.len + 1) ds m.root m.len

/-- fixed.rs:86-96 `iter_mut` under a schedule. -/
def iterMut (m : HMap) (g : Nat → K → V → V) (ds : List Bool) :
    Prog (ND K V) (HMap × List (Option (K × V) × Nat)) :=
  (iterMutRun m.len (2 * m.len + 1) g ds m.root m.len).bind fun x => .pure (⟨m.len, x.1⟩, x.2)

end FHMap

/-! ## The machine -/

/-- Operations on one map.  `ds` is a schedule of `next` (`true`) and `next_back` calls; `g j` is
applied to the referent of the `j`-th reference obtained. -/
inductive FOne (K V Q : Type) where
  | clone
  | drop
  | clear
  | insert (k : K) (v : V)
  | remove (q : Q)
  | get (q : Q)
  | getMut (q : Q) (g : V → V)
  | len
  | isEmpty
  | iter (ds : List Bool)
  | intoIter (ds : List Bool)
  | iterMut (g : Nat → K → V → V) (ds : List Bool)
  | extend (es : List (K × V))

/-- What a caller sees.  No operation takes a closure with a state. -/
abbrev FRes (K V : Type) := Res K V Unit

/-- What a caller of `iter_mut` leaves: the map after a run, given what the run over the map with
numbered slots yields. -/
def written (g : Nat → K → V → V) (m : FMap K V) (ys : List (Option (K × (Nat × V)) × Nat)) :
    FMap K V :=
  ⟨m.root.map fun n => n.mapIdx (fun i e => (e.1, updF g 0 (slotsOf ys) i e.1 e.2)) 0, m.len⟩

/-- The operations on values, by the model of fixed.rs on values.  How `into_iter` is done depends
on which nodes are shared; here it is done as if none were.  There are no operations on two maps
(`Empty`). -/
def fixedV (K V : Type) {Q : Type} [Ord K] [Ord Q] (lin : Bool) (b : K → Q) :
    Machine.Impl Option (FMap K V) (FRes K V) (Make K V) (FOne K V Q) Empty Empty where
  make
    | .new => some ([.new], .unit)
    | .fromIter es => (FMap.fromIter lin es).map fun m => ([m], .unit)
  one m
    | .clone => some (some m, [m], .unit)
    | .drop => some (none, [], .unit)
    | .clear => some (some m.clear, [], .unit)
    | .insert k v => (m.insert lin k v).map fun x => (some x.1, [], .val x.2)
    | .remove q => (m.remove lin (probe b q)).map fun x => (some x.1, [], .val x.2)
    | .get q => (m.get lin (probe b q)).map fun o => (some m, [], .val o)
    | .getMut q g => (m.getMut lin (probe b q) g).map fun x => (some x.1, [], .bool x.2)
    | .len => some (some m, [], .nat m.len)
    | .isEmpty => some (some m, [], .bool m.isEmpty)
    | .iter ds => (m.iterRun ds).map fun l => (some m, [], .items l)
    | .intoIter ds => (m.intoRun .unique ds).map fun r =>
        (none, [], .items (r.1.map fun y => (y.1.map (·.2), y.2)))
    | .iterMut g ds => (m.label.iterRun ds).map fun ys =>
        (some (written g m ys), [], .items (seenOf ys))
    | .extend es => (m.extend lin es).map fun m => (some m, [], .unit)
  two _ _ c := nomatch c
  look _ _ c := nomatch c

/-- The operations on memory. -/
def fixedM (K V : Type) {Q : Type} [Ord K] [Ord Q] (lin : Bool) (b : K → Q) :
    Machine.Impl (Prog (ND K V)) HMap (FRes K V) (Make K V) (FOne K V Q) Empty Empty where
  make
    | .new => .pure ([.new], .unit)
    | .fromIter es => (FHMap.extend lin .new es).bind fun m => .pure ([m], .unit)
  one m
    | .clone => m.clone.bind fun c => .pure (some m, [c], .unit)
    | .drop => m.drop.bind fun _ => .pure (none, [], .unit)
    | .clear => (FHMap.clear m).bind fun m => .pure (some m, [], .unit)
    | .insert k v => (FHMap.insert lin m k v).bind fun x => .pure (some x.1, [], .val x.2)
    | .remove q => (FHMap.remove lin m (probe b q)).bind fun x => .pure (some x.1, [], .val x.2)
    | .get q => (FHMap.get lin m (probe b q)).bind fun o => .pure (some m, [], .val o)
    | .getMut q g => (FHMap.getMut lin m (probe b q) g).bind fun x =>
        .pure (some x.1, [], .bool x.2)
    | .len => .pure (some m, [], .nat m.len)
    | .isEmpty => .pure (some m, [], .bool (m.len == 0))
    | .iter ds => (FHMap.iter m ds).bind fun l => .pure (some m, [], .items l)
    | .intoIter ds => (FHMap.intoIter m ds).bind fun l => .pure (none, [], .items l)
    | .iterMut g ds => (FHMap.iterMut m g ds).bind fun x => .pure (some x.1, [], .items x.2)
    | .extend es => (FHMap.extend lin m es).bind fun m => .pure (some m, [], .unit)
  two _ _ c := nomatch c
  look _ _ c := nomatch c

end Verif.FixedH
