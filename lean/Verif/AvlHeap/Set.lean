import Verif.AvlHeap.Map
import Verif.Avl.Set
import Verif.Heap.SetOps
/-!
# `AvlSet` (src/avl/avl_set.rs) on reference-counted memory, and its operations as a machine

A set is the map it wraps.  Keys are looked up by a borrowed form: `Q` is its type, `b` is
`Borrow::borrow`.
-/
namespace Verif.AvlH
open Heap
open Avl (Tree AvlMap AvlSet)
open Avl.AvlSet (Seek)
open Lib (MergeIter)

variable {T S Q : Type}

namespace HMap

/-- avl_set.rs:393-404 `take`. -/
def take (m : HMap) (p : T → Ordering) : Prog (ND T Unit) (HMap × Option T) :=
  (rm m.len p m.len m.root).bind fun x =>
  match x.2.1 with
  | none => .pure (⟨m.len, x.1⟩, none)
  | some kv => if m.len = 0 then .panic else .pure (⟨m.len - 1, x.1⟩, some kv.1)

/-- avl_set.rs:314-322 `replace`. -/
def replace [Ord T] (m : HMap) (x : T) : Prog (ND T Unit) (HMap × Option T) :=
  (m.take (compare x)).bind fun y =>
  (y.1.insert x ()).bind fun z => .pure (z.1, y.2)

/-! ### `retain` -/

/-- A child in avl_set.rs:335-340, 346-351: `make_mut`, then `try_unwrap`, then the recursive call
`go` on the contents.  (Should `try_unwrap` fail, the child is dropped and skipped.) -/
def dfsKid (D : Nat) (go : ND T Unit × Option Nat × Option Nat → S → HMap →
    Prog (ND T Unit) (HMap × Option S)) (r : Option Nat) (s : S) (acc : HMap) :
    Prog (ND T Unit) (HMap × Option S) :=
  match r with
  | none => .pure (acc, some s)
  | some a =>
    (makeMut D a).bind fun a =>
    (lift (.tryUnwrap a)).bind fun (y : Option (Heap.Node (ND T Unit))) =>
    match y with
    | none => (Heap.drop D (some a)).bind fun _ => .pure (acc, some s)
    | some x =>
      match x.kids with
      | [l, r] => go (x.data, l, r) s acc
      | _ => .panic

/-- avl_set.rs:342-344: keep the element or not. -/
def dfsKeep [Ord T] (acc : HMap) (k : T) (b : Bool) : Prog (ND T Unit) HMap :=
  if b then (acc.insert k ()).bind fun z => .pure z.1 else .pure acc

/-- avl_set.rs:330-352 `dfs`, on the contents of a node.  The result is `acc` and the closure's
state; without a state if the closure panicked, in which case unwinding has dropped the right
child. -/
def dfs [Ord T] (D : Nat) (f : S → T → Option (S × Bool)) : Nat →
    ND T Unit × Option Nat × Option Nat → S → HMap → Prog (ND T Unit) (HMap × Option S)
  | 0, _, _, _ => .panic
  | n + 1, x, s, acc =>
    (dfsKid D (dfs D f n) x.2.1 s acc).bind fun y =>
    match y.2 with
    | none => (Heap.drop D x.2.2).bind fun _ => .pure (y.1, none)
    | some s1 =>
      match f s1 x.1.key with
      | none => (Heap.drop D x.2.2).bind fun _ => .pure (y.1, none)
      | some z => (dfsKeep y.1 x.1.key z.2).bind fun acc => dfsKid D (dfs D f n) x.2.2 z.1 acc

/-- avl_set.rs:325-360 `retain`; without a state if the closure panicked: then `acc` is dropped,
and the set is left without root. -/
def retainSet [Ord T] (m : HMap) (f : S → T → Option (S × Bool)) (s : S) :
    Prog (ND T Unit) (HMap × Option S) :=
  match m.root with
  | none => .pure (m, some s)
  | some a =>
    (makeMut m.len a).bind fun a =>
    (lift (.tryUnwrap a)).bind fun (y : Option (Heap.Node (ND T Unit))) =>
    match y with
    | none => .panic
    | some x =>
      match x.kids with
      | [l, r] =>
        (dfs m.len f m.len (x.data, l, r) s ⟨0, none⟩).bind fun y =>
        match y.2 with
        | none => y.1.drop.bind fun _ => .pure (⟨m.len, none⟩, none)
        | some s => .pure (y.1, some s)
      | _ => .panic

/-! ### The iterators of two sets -/

/-- avl_set.rs:445-451 `Iter::next`, the iterator being the root of the tree with the state of
`avl::Iter`; `n` bounds the number of nodes taken apart. -/
def setNext (n : Nat) (i : Option Nat × HIter (List Nat) (T × Unit)) :
    Prog (ND T Unit) (Option T × Option Nat × HIter (List Nat) (T × Unit)) :=
  (stepG (desN (i.1.getD 0) .unbounded .unbounded) n true () i.2).bind fun x =>
  .pure (x.2.1.map (·.1), i.1, x.2.2)

/-- avl_set.rs:197-201 `iter`. -/
def setIter (m : HMap) : Option Nat × HIter (List Nat) (T × Unit) :=
  match m.root with
  | none => (none, ⟨[], m.len⟩)
  | some a => (some a, ⟨[.desc []], m.len⟩)

/-- avl_set.rs:48-53, 81-86, 374-379, 409-411: the iterator of two sets. -/
def setOp (a b : HMap) : MergeIter (Option Nat × HIter (List Nat) (T × Unit)) T :=
  .new a.setIter b.setIter

/-- The first `n` calls of `next` on it, with the flags `F`. -/
def setOpRun [Ord T] (F : Nat) (a b : HMap) (n : Nat) : Prog (ND T Unit) (List (Option T)) :=
  Heap.SetOps.setOpRun (setNext (3 * (a.len + b.len) + 1)) F (a.len + b.len + 1) n (setOp a b)

/-- avl_set.rs:89-94 `is_disjoint`. -/
def isDisjoint [Ord T] (a b : HMap) : Prog (ND T Unit) Bool :=
  (Heap.SetOps.setOpNext (setNext (T := T) (3 * (a.len + b.len) + 1)) 2 (a.len + b.len + 1)
    (setOp a b)).bind fun x => .pure x.1.isNone

/-! ### `is_subset` -/

/-- `rhs.left.is_none()` (avl_set.rs:150, 159, 174, 185). -/
def noLeftAt (b : Nat) (path : List Nat) : Prog (ND T Unit) Bool :=
  (readN b path).bind fun y => .pure !y.2.1

/-- avl_set.rs:158-160, 173-175: push the right child of the node at `path`, if there is one. -/
def pushRtAt (b : Nat) (path : List Nat) (has : Bool) (w : List (List Nat × Bool)) :
    Prog (ND T Unit) (List (List Nat × Bool)) :=
  if has then
    (noLeftAt (T := T) b (path ++ [1])).bind fun nl => .pure ((path ++ [1], nl) :: w)
  else .pure w

/-- avl_set.rs:132-178, the search for the key of the node at `lp` of the tree `a` in the tree
`b`.  The references on the stack `w` (last element first) are paths. -/
def seekAt [Ord T] (a : Nat) (lp : List Nat) (key : T) (b : Nat) :
    Nat → List (List Nat × Bool) → Prog (ND T Unit) (Seek (List (List Nat × Bool)))
  | 0, _ => .panic
  | _ + 1, [] => .pure .fail
  | fuel + 1, (rp, done) :: w =>
    (lift (.ptrEq a lp b rp)).bind fun (r : Bool) =>
    if r then .pure (.same w)
    else
      (readN b rp).bind fun x =>
      match compare key x.1.key with
      | .lt =>
        if done then .pure .fail
        else if x.2.1 then
          (noLeftAt b (rp ++ [0])).bind fun nl =>
          seekAt a lp key b fuel ((rp ++ [0], nl) :: (rp, true) :: w)
        else .panic -- unwrap
      | .eq => (pushRtAt b rp x.2.2 w).bind fun w => .pure (.found w)
      | .gt => (pushRtAt b rp x.2.2 w).bind fun w => seekAt a lp key b fuel w

/-- What `has_all` does with a child (avl_set.rs:124-128, 162-166). -/
def hasKid (go : List Nat → List (List Nat × Bool) →
    Prog (ND T Unit) (Bool × List (List Nat × Bool))) (has : Bool) (path : List Nat)
    (w : List (List Nat × Bool)) : Prog (ND T Unit) (Bool × List (List Nat × Bool)) :=
  if has then go path w else .pure (true, w)

/-- avl_set.rs:112-181 `has_all`. -/
def hasAllAt [Ord T] (a b fuel : Nat) : Nat → List Nat → List (List Nat × Bool) →
    Prog (ND T Unit) (Bool × List (List Nat × Bool))
  | 0, _, _ => .panic
  | n + 1, lp, w =>
    (readN a lp).bind fun x =>
    (hasKid (hasAllAt a b fuel n) x.2.1 (lp ++ [0]) w).bind fun y =>
    if y.1 then
      (seekAt a lp x.1.key b fuel y.2).bind fun
      | .fail => .pure (false, y.2)
      | .same w2 => .pure (true, w2)
      | .found w2 => hasKid (hasAllAt a b fuel n) x.2.2 (lp ++ [1]) w2
    else .pure (false, y.2)

/-- avl_set.rs:102-186 `is_subset`; `none` if a root is missing that should be there (`unwrap`,
183-184). -/
def isSubset [Ord T] (a b : HMap) : Prog (ND T Unit) (Option Bool) :=
  if a.len == 0 then .pure (some true)
  else if b.len < a.len then .pure (some false)
  else
    match a.root, b.root with
    | some x, some y =>
      (noLeftAt (T := T) y []).bind fun nl =>
      (hasAllAt x y (2 * b.len + 1) a.len [] [([], nl)]).bind fun z => .pure (some z.1)
    | _, _ => .pure none

end HMap

/-! ## The operations as a machine -/

/-- Operations that make a set. -/
inductive SMake (T : Type) where
  | new
  | fromIter (xs : List T)

/-- Operations on one set. -/
inductive SOne (T S Q : Type) where
  | clone
  | drop
  | clear
  | insert (x : T)
  | remove (q : Q)
  | take (q : Q)
  | replace (x : T)
  | popFirst
  | popLast
  | get (q : Q)
  | contains (q : Q)
  | first
  | last
  | len
  | isEmpty
  /-- `n` calls of `next` -/
  | iter (n : Nat)
  | intoIter (n : Nat)
  /-- a schedule of `next` (`true`) and `next_back` calls -/
  | range (lb ub : Bnd T) (ds : List Bool)
  | retain (f : S → T → Option (S × Bool)) (s : S)
  | extend (xs : List T)
  | splitOff (q : Q)
  | hash (hLen : S → Nat → S) (hT : S → T → S) (s : S)
  | serialize

/-- Operations on two sets, by `&mut` or by value. -/
inductive STwo where
  | append
  | union
  | intersection
  | difference
  | symDiff

/-- Operations on two sets by shared reference. -/
inductive SLook (T : Type) where
  | eq (eqT : T → T → Bool)
  | partialCmp (cmpT : T → T → Option Ordering)
  | cmp (cmpT : T → T → Ordering)
  /-- `n` calls of `next` on `difference` (`F = 0b100`), `intersection` (`0b010`), `union`
  (`0b111`), `symmetric_difference` (`0b101`) -/
  | setOp (F n : Nat)
  | isDisjoint
  | isSubset
  | isSuperset

/-- What a caller sees. -/
inductive SRes (T S : Type) where
  | unit
  | elem (o : Option T)
  | bool (b : Bool)
  | nat (n : Nat)
  | ord (o : Option Ordering)
  /-- results of an iterator, each with the `len()` reported afterwards -/
  | items (l : List (Option T × Nat))
  | list (l : List (Option T))
  | state (s : S)
  | written (n : Nat) (l : List T)
  /-- the call panics; the caller may catch that and go on -/
  | panicked
  deriving DecidableEq

/-- The elements among what an iterator of the map returned. -/
def elemsOf (l : List (Option (T × Unit) × Nat)) : List (Option T × Nat) :=
  l.map fun y => (y.1.map (·.1), y.2)

/-- The key looked for, compared with an element. -/
abbrev borrowed [Ord Q] (b : T → Q) (q : Q) : T → Ordering := fun k => compare q (b k)

/-- The operations on values, by the model of avl_set.rs on values; `Arc::ptr_eq` never says that
two nodes are the same. -/
def avlSetV (T S Q : Type) [Ord T] [Ord Q] (b : T → Q) :
    Machine.Impl Option (AvlSet T) (SRes T S) (SMake T) (SOne T S Q) STwo (SLook T) where
  make
    | .new => some ([.new], .unit)
    | .fromIter xs => (AvlSet.fromIter xs).map fun m => ([m], .unit)
  one m
    | .clone => some (some m, [m], .unit)
    | .drop => some (none, [], .unit)
    | .clear => some (some m.clear, [], .unit)
    | .insert x => (m.insert x).map fun y => (some y.1, [], .bool y.2)
    | .remove q => (m.remove (borrowed b q)).map fun y => (some y.1, [], .bool y.2)
    | .take q => (m.take (borrowed b q)).map fun y => (some y.1, [], .elem y.2)
    | .replace x => (m.replace x).map fun y => (some y.1, [], .elem y.2)
    | .popFirst => m.popFirst.map fun y => (some y.1, [], .elem y.2)
    | .popLast => m.popLast.map fun y => (some y.1, [], .elem y.2)
    | .get q => some (some m, [], .elem (m.get (borrowed b q)))
    | .contains q => some (some m, [], .bool (m.contains (borrowed b q)))
    | .first => some (some m, [], .elem m.first)
    | .last => some (some m, [], .elem m.last)
    | .len => some (some m, [], .nat m.len)
    | .isEmpty => some (some m, [], .bool m.isEmpty)
    | .iter n => (m.map.iter.run (List.replicate n true)).map fun l =>
        (some m, [], .items (elemsOf l))
    | .intoIter n => (m.map.iter.run (List.replicate n true)).map fun l =>
        (none, [], .items (elemsOf l))
    | .range lb ub ds => ((m.map.range lb ub).run ds).map fun l =>
        (some m, [], .list ((elemsOf l).map (·.1)))
    | .retain f s => some (match m.retain f s with
        | .done s m => (some m, [], .state s)
        | .panicked m => (some m, [], .panicked))
    | .extend xs => (m.extend xs).map fun m => (some m, [], .unit)
    | .splitOff q => (m.splitOff (borrowed b q)).map fun y => (some y.1, [y.2], .unit)
    | .hash hLen hT s => (m.hashSet hLen hT s).map fun s => (some m, [], .state s)
    | .serialize => m.map.serialize.map fun y => (some m, [], .written y.1 (y.2.map (·.1)))
  two l r
    | .append => (l.append r).map fun x => (some x.1, some x.2, [], .unit)
    | .union => (l.newUnion r).map fun m => (none, none, [m], .unit)
    | .intersection => (l.newIntersection r).map fun m => (none, none, [m], .unit)
    | .difference => (l.newDiff r).map fun m => (none, none, [m], .unit)
    | .symDiff => (l.newSymDiff r).map fun m => (none, none, [m], .unit)
  look x y
    | .eq eqT => (AvlSet.eqSet eqT x y).map .bool
    | .partialCmp cmpT => (AvlSet.partialCmpSet cmpT x y).map .ord
    | .cmp cmpT => (AvlSet.cmpSet cmpT x y).map fun o => .ord (some o)
    | .setOp F n => (AvlSet.setOpRun F x y n).map .list
    | .isDisjoint => (AvlSet.isDisjoint x y).map .bool
    | .isSubset => some ((AvlSet.isSubset (fun _ _ _ => false) x y).elim .panicked .bool)
    | .isSuperset => some ((AvlSet.isSuperset (fun _ _ _ => false) x y).elim .panicked .bool)

/-- The operations on memory. -/
def avlSetM (T S Q : Type) [Ord T] [Ord Q] (b : T → Q) :
    Machine.Impl (Prog (ND T Unit)) HMap (SRes T S) (SMake T) (SOne T S Q) STwo (SLook T) where
  make
    | .new => .pure ([⟨0, none⟩], .unit)
    | .fromIter xs => ((⟨0, none⟩ : HMap).extend (xs.map fun x => (x, ()))).bind fun m =>
        .pure ([m], .unit)
  one m
    | .clone => m.clone.bind fun c => .pure (some m, [c], .unit)
    | .drop => m.drop.bind fun _ => .pure (none, [], .unit)
    | .clear => m.clear.bind fun m => .pure (some m, [], .unit)
    | .insert x => (m.insert x ()).bind fun y => .pure (some y.1, [], .bool y.2.isNone)
    | .remove q => (m.removeEntry (borrowed b q)).bind fun y =>
        .pure (some y.1, [], .bool (y.2.map (·.2)).isSome)
    | .take q => (m.take (borrowed b q)).bind fun y => .pure (some y.1, [], .elem y.2)
    | .replace x => (m.replace x).bind fun y => .pure (some y.1, [], .elem y.2)
    | .popFirst => m.popFirst.bind fun y => .pure (some y.1, [], .elem (y.2.map (·.1)))
    | .popLast => m.popLast.bind fun y => .pure (some y.1, [], .elem (y.2.map (·.1)))
    | .get q => (m.getKeyValue (borrowed b q)).bind fun e =>
        .pure (some m, [], .elem (e.map (·.1)))
    | .contains q => (m.getKeyValue (borrowed b q)).bind fun e =>
        .pure (some m, [], .bool (e.map (·.2)).isSome)
    | .first => (AvlH.first m.len m.root).bind fun e => .pure (some m, [], .elem (e.map (·.1)))
    | .last => (AvlH.last m.len m.root).bind fun e => .pure (some m, [], .elem (e.map (·.1)))
    | .len => .pure (some m, [], .nat m.len)
    | .isEmpty => .pure (some m, [], .bool (m.len == 0))
    | .iter n => (m.iter (List.replicate n true)).bind fun l =>
        .pure (some m, [], .items (elemsOf l))
    | .intoIter n => (m.intoIter (List.replicate n true)).bind fun l =>
        .pure (none, [], .items (elemsOf l))
    | .range lb ub ds => (m.range lb ub ds).bind fun l =>
        .pure (some m, [], .list ((elemsOf l).map (·.1)))
    | .retain f s => (m.retainSet f s).bind fun x =>
        .pure (some x.1, [], x.2.elim .panicked .state)
    | .extend xs => (m.extend (xs.map fun x => (x, ()))).bind fun m => .pure (some m, [], .unit)
    | .splitOff q => (m.splitOff (borrowed b q)).bind fun y => .pure (some y.1, [y.2], .unit)
    | .hash hLen hT s => m.iterList.bind fun l =>
        .pure (some m, [], .state (l.foldl (fun s e => hT s e.1) (hLen s m.len)))
    | .serialize => m.iterList.bind fun l => .pure (some m, [], .written m.len (l.map (·.1)))
  two l r
    | .append => (l.union r).bind fun m => .pure (some m, some ⟨0, none⟩, [], .unit)
    | .union => (l.union r).bind fun m => .pure (none, none, [m], .unit)
    | .intersection => (l.intersect r).bind fun m => .pure (none, none, [m], .unit)
    | .difference => (l.diff r).bind fun m => .pure (none, none, [m], .unit)
    | .symDiff => (l.symDiff r).bind fun m => .pure (none, none, [m], .unit)
  look x y
    | .eq eqT => (x.eqMap (fun e f => eqT e.1 f.1) y).bind fun r => .pure (.bool r)
    | .partialCmp cmpT => x.iterList.bind fun l => y.iterList.bind fun k =>
        .pure (.ord (Spec.lexPartialCmp (fun e f => cmpT e.1 f.1) l k))
    | .cmp cmpT => x.iterList.bind fun l => y.iterList.bind fun k =>
        .pure (.ord (some (Spec.lexCmp (fun e f => cmpT e.1 f.1) l k)))
    | .setOp F n => (x.setOpRun F y n).bind fun l => .pure (.list l)
    | .isDisjoint => (HMap.isDisjoint (T := T) x y).bind fun r => .pure (.bool r)
    | .isSubset => (HMap.isSubset (T := T) x y).bind fun o => .pure (o.elim .panicked .bool)
    | .isSuperset => (HMap.isSubset (T := T) y x).bind fun o => .pure (o.elim .panicked .bool)

end Verif.AvlH
