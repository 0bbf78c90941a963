import Verif.Avl.Reach
import Verif.BTree.Reach
/-!
# The operations common to `AvlMap` and `BTreeMap`, as one machine over numbered maps

`Op1` are the operations on one map, `Op2` those on two; `Res` is what a caller sees.  `avl1`,
`avl2` dispatch to the model of avl.rs, `btree1`, `btree2` to the model of btree.rs.  A program
is a list of operations on numbered maps, all of which start out empty (`new`).

Closures are values: `g`, `d`, `f` are total functions of the data they are given (stateful
closures of `retain` are treated in C09, C10 and C25).  `Q` is the borrowed form of the key,
`b : K → Q` is `Borrow::borrow`; ranges are given by bounds on `Q`.
-/
namespace Verif.Lib.Api
open Std Verif.Avl Verif.BTree
variable {K V Q : Type}

/-- Operations on one map; `ds` is a schedule of `next` (`true`) and `next_back` calls, `w n` is
the value written through the `n`th reference handed out, counted in key order. -/
inductive Op1 (K V Q : Type) where
  | clear
  | insert (k : K) (v : V)
  | remove (q : Q)
  | popFirst
  | popLast
  | getKeyValue (q : Q)
  | get (q : Q)
  | containsKey (q : Q)
  | getMut (q : Q) (g : V → V)
  | first
  | last
  | len
  | isEmpty
  | iter (ds : List Bool)
  | intoIter (ds : List Bool)
  | iterMut (ds : List Bool) (w : Nat → V)
  | range (lo hi : QBnd Q) (ds : List Bool)
  | rangeMut (lo hi : QBnd Q) (ds : List Bool) (w : Nat → V)
  | retain (f : K → V → V × Bool)
  | extend (es : List (K × V))
  | entryOrInsert (k : K) (d : K → V) (g : V → V)
  | entryAndModify (k : K) (g : V → V)
  | serialize
  | deserialize (debug : Bool) (usizeMax : Nat) (hint : Option Nat) (es : List (K × V)) (err : Bool)

/-- Operations on two different maps. -/
inductive Op2 (K V Q : Type) where
  /-- `b = a.clone()` -/
  | clone
  /-- `a.append(&mut b)` -/
  | append
  /-- `b = a.split_off(q)` -/
  | splitOff (q : Q)
  /-- `a == b`, given `==` on entries -/
  | eq (eqE : K × V → K × V → Bool)
  /-- `a.cmp(&b)`, given `cmp` on entries -/
  | cmp (cmpE : K × V → K × V → Ordering)

/-- What the caller of an operation sees.  Range iterators also report a `len` that overcounts;
it is left out here (C12, C23). -/
inductive Res (K V : Type) where
  | unit
  | val (o : Option V)
  | entry (o : Option (K × V))
  | bool (b : Bool)
  | nat (n : Nat)
  | ord (o : Ordering)
  /-- what an iterator yields, with `len()` after every call -/
  | items (l : List (Option (K × V) × Nat))
  /-- what an iterator yields -/
  | seen (l : List (Option (K × V)))
  /-- the keys the closure given to an entry operation was called with -/
  | called (l : List K)
  /-- announced length and entries written -/
  | written (x : Nat × List (K × V))
  deriving DecidableEq

/-- The model of avl.rs; `none` is a panic. -/
def avl1 [Ord K] [Ord Q] (b : K → Q) (m : AvlMap K V) :
    Op1 K V Q → Option (AvlMap K V × Res K V)
  | .clear => some (m.clear, .unit)
  | .insert k v => (m.insert k v).map (fun x => (x.1, .val x.2))
  | .remove q => (m.remove (fun k => compare q (b k))).map (fun x => (x.1, .val x.2))
  | .popFirst => m.popFirst.map (fun x => (x.1, .entry x.2))
  | .popLast => m.popLast.map (fun x => (x.1, .entry x.2))
  | .getKeyValue q => some (m, .entry (m.getKeyValue (fun k => compare q (b k))))
  | .get q => some (m, .val (m.get (fun k => compare q (b k))))
  | .containsKey q => some (m, .bool (m.containsKey (fun k => compare q (b k))))
  | .getMut q g =>
    let x := m.getMut (fun k => compare q (b k)) g
    some (x.1, .bool x.2)
  | .first => some (m, .entry m.firstKeyValue)
  | .last => some (m, .entry m.lastKeyValue)
  | .len => some (m, .nat m.len)
  | .isEmpty => some (m, .bool m.isEmpty)
  | .iter ds => (m.iter.run ds).map (fun l => (m, .items l))
  | .intoIter ds => (m.iter.run ds).map (fun l => (.new, .items l))
  | .iterMut ds w => (m.iterMutRun ds w).map (fun x => (x.2.2, .items x.1))
  | .range lo hi ds =>
    ((m.range (lo.bnd b) (hi.bnd b)).run ds).map (fun l => (m, .seen (l.map (·.1))))
  | .rangeMut lo hi ds w =>
    (m.rangeMutRun (lo.bnd b) (hi.bnd b) ds w).map (fun x => (x.2.2, .seen (x.1.map (·.1))))
  | .retain f =>
    match m.retain (σ := Unit) (fun _ k v => some ((), f k v)) () with
    | .done _ m' => some (m', .unit)
    | .panicked _ => none
  | .extend es => (m.extend es).map (fun x => (x, .unit))
  | .entryOrInsert k d g =>
    ((avlTrait K V).orInsertWithKey (σ := List K) m k (fun s k => (s ++ [k], d k)) [] g).map
      (fun x => (x.2, .called x.1))
  | .entryAndModify k g => some ((avlTrait K V).andModify m k g, .unit)
  | .serialize => m.serialize.map (fun x => (m, .written x))
  | .deserialize debug u hint es err =>
    (Avl.deserialize debug u hint es err).map (fun r =>
      match r with
      | .error _ => (m, .bool false)
      | .ok m' => (m', .bool true))

/-- The model of avl.rs on two maps. -/
def avl2 [Ord K] [Ord Q] (b : K → Q) (m m2 : AvlMap K V) :
    Op2 K V Q → Option (AvlMap K V × AvlMap K V × Res K V)
  | .clone => some (m, m, .unit)
  | .append => (m.append m2).map (fun x => (x.1, x.2, .unit))
  | .splitOff q => (m.splitOff (fun k => compare q (b k))).map (fun x => (x.1, x.2, .unit))
  | .eq eqE => (AvlMap.eqMap eqE m m2).map (fun r => (m, m2, .bool r))
  | .cmp cmpE => (AvlMap.cmpMap cmpE m m2).map (fun r => (m, m2, .ord r))

/-- The model of btree.rs; `o` says which nodes are shared with other maps. -/
def btree1 [Ord K] [Ord Q] (N : Nat) (b : K → Q) (o : Sharing K V) (m : BTreeMap K V) :
    Op1 K V Q → Option (BTreeMap K V × Res K V)
  | .clear => some (m.clear, .unit)
  | .insert k v => (m.insert N k v).map (fun x => (x.1, .val x.2))
  | .remove q => (m.remove N (fun k => compare q (b k))).map (fun x => (x.1, .val x.2))
  | .popFirst => (m.popFirst N).map (fun x => (x.1, .entry x.2))
  | .popLast => (m.popLast N).map (fun x => (x.1, .entry x.2))
  | .getKeyValue q => some (m, .entry (m.getKeyValue (fun k => compare q (b k))))
  | .get q => some (m, .val (m.get (fun k => compare q (b k))))
  | .containsKey q => some (m, .bool (m.containsKey (fun k => compare q (b k))))
  | .getMut q g =>
    let x := m.getMut (fun k => compare q (b k)) g
    some (x.1, .bool x.2)
  | .first => m.firstKeyValue.map (fun x => (m, .entry x))
  | .last => some (m, .entry m.lastKeyValue)
  | .len => some (m, .nat m.len)
  | .isEmpty => some (m, .bool m.isEmpty)
  | .iter ds => (nodeOps.run ds m.iter).map (fun l => (m, .items l))
  | .intoIter ds => (intoOps.run ds (m.intoIter o)).map (fun l => (.new, .items l))
  | .iterMut ds w => (m.iterMutRun ds w).map (fun x => (x.2.2, .items x.1))
  | .range lo hi ds =>
    match m.range b lo hi with
    | none => none
    | some it => (nodeOps.run ds it).map (fun l => (m, .seen (l.map (·.1))))
  | .rangeMut lo hi ds w =>
    (m.rangeMutRun b lo hi ds w).map (fun x => (x.2.2, .seen (x.1.map (·.1))))
  | .retain f =>
    match m.retain (σ := Unit) N o (fun _ k v => some ((), f k v)) () with
    | .done _ m' => some (m', .unit)
    | .panicked _ => none
  | .extend es => (m.extend N es).map (fun x => (x, .unit))
  | .entryOrInsert k d g =>
    ((btreeTrait K V N).orInsertWithKey (σ := List K) m k (fun s k => (s ++ [k], d k)) [] g).map
      (fun x => (x.2, .called x.1))
  | .entryAndModify k g => some ((btreeTrait K V N).andModify m k g, .unit)
  | .serialize => m.serialize.map (fun x => (m, .written x))
  | .deserialize debug u hint es err =>
    (BTree.deserialize N debug u hint es err).map (fun r =>
      match r with
      | .error _ => (m, .bool false)
      | .ok m' => (m', .bool true))

/-- The model of btree.rs on two maps. -/
def btree2 [Ord K] [Ord Q] (N : Nat) (b : K → Q) (o : Sharing K V) (m m2 : BTreeMap K V) :
    Op2 K V Q → Option (BTreeMap K V × BTreeMap K V × Res K V)
  | .clone => some (m, m, .unit)
  | .append => (m.append N o m2).map (fun x => (x.1, x.2, .unit))
  | .splitOff q => (m.splitOff N o (fun k => compare q (b k))).map (fun x => (x.1, x.2, .unit))
  | .eq eqE => (BTreeMap.eqMap eqE m m2).map (fun r => (m, m2, .bool r))
  | .cmp cmpE => (BTreeMap.cmpMap cmpE m m2).map (fun r => (m, m2, .ord r))

/-- One operation of a program. -/
inductive Op (K V Q : Type) where
  | one (i : Nat) (op : Op1 K V Q)
  | two (i j : Nat) (op : Op2 K V Q)

/-- An implementation: what the operations do, the `n`th step of a program being told `n`. -/
structure Impl (K V Q M : Type) where
  new : M
  one : Nat → M → Op1 K V Q → Option (M × Res K V)
  two : Nat → M → M → Op2 K V Q → Option (M × M × Res K V)

/-- AvlMap. -/
def avl [Ord K] [Ord Q] (b : K → Q) : Impl K V Q (AvlMap K V) where
  new := .new
  one _ m op := avl1 b m op
  two _ m m2 op := avl2 b m m2 op

/-- BTreeMap with some `N`; `o n` says what is shared at step `n`. -/
def btree [Ord K] [Ord Q] (N : Nat) (b : K → Q) (o : Nat → Sharing K V) :
    Impl K V Q (BTreeMap K V) where
  new := .new
  one n m op := btree1 N b (o n) m op
  two n m m2 op := btree2 N b (o n) m m2 op

/-- The maps after storing `m` as number `i`. -/
def put {M : Type} (st : Nat → M) (i : Nat) (m : M) : Nat → M :=
  fun x => if x = i then m else st x

/-- One step: the maps afterwards and the result. -/
def step {M : Type} (I : Impl K V Q M) (n : Nat) (st : Nat → M) :
    Op K V Q → Option ((Nat → M) × Res K V)
  | .one i op => (I.one n (st i) op).map (fun x => (put st i x.1, x.2))
  | .two i j op => (I.two n (st i) (st j) op).map (fun x =>
      (put (put st i x.1) j x.2.1, x.2.2))

/-- The results of a program and all the maps, after every step; `none` if some step panics. -/
def run {M : Type} (I : Impl K V Q M) (n : Nat) (st : Nat → M) :
    List (Op K V Q) → Option (List (Res K V × (Nat → M)))
  | [] => some []
  | op :: ops =>
    match step I n st op with
    | none => none
    | some (st', r) => (run I (n + 1) st' ops).map (fun t => (r, st') :: t)

/-- The bounds are in order, and not both excluded and equal: `BTreeMap::range` accepts them
whatever the map holds. -/
def RangeOk [Ord Q] : QBnd Q → QBnd Q → Prop
  | .unbounded, _ => True
  | _, .unbounded => True
  | .excluded a, .excluded b => compare a b = .lt
  | .included a, .included b => compare a b ≠ .gt
  | .included a, .excluded b => compare a b ≠ .gt
  | .excluded a, .included b => compare a b ≠ .gt

/-- The operations on which the two maps agree.  Maps named in one operation differ (they are
`&mut`); ranges are as above; the deserializer does not claim `usize::MAX` entries (C32). -/
def Op.Ok [Ord Q] : Op K V Q → Prop
  | .one _ (.range lo hi _) => RangeOk lo hi
  | .one _ (.rangeMut lo hi _ _) => RangeOk lo hi
  | .one _ (.deserialize _ u hint _ _) => ∀ n, hint = some n → n < u
  | .one _ _ => True
  | .two i j _ => i ≠ j

end Verif.Lib.Api
