import Verif.Fixed.Reach
/-!
# How far the pointers of the fixed-layout B-tree reach (src/btree/core.rs)

`Verif.Fixed.Model` checks that a slot read is initialised and that an array bound is kept.  The
rules of the language ask more: a pointer may be used only for the memory of the reference it was
derived from.  The accessors of `InlineVec` take a reference to slot 0 and make a slice of `len`
slots out of it.  Here every pointer carries its *reach*, the number of slots from the start of
the array that it may access, and each function of the model has a version that is `none` also
when a reach is exceeded.  What the rules are exactly is not settled; `Rule` gives the variants.

Keys and values are taken to occupy memory (for a type of size zero, such as the `()` that are
the values of the vector of children, every access is in reach).  Functions that use none of the
accessors (`insert`, `push`, `pop`, `remove` and `clone` of `InlineVec`, `Splitter`) go through
`as_mut_ptr` of the whole array or index it, and are as in `Verif.Fixed.Model`.
-/
set_option linter.unusedVariables false
namespace Verif.Fixed
open Verif.BTree Verif.BTree.Node
variable {K V α β : Type}

/-- What limits the reach of a pointer derived from a reference. -/
structure Rule where
  /-- a reference to one slot reaches that slot only -/
  one : Bool
  /-- a reference to a slice reaches the elements of the slice only -/
  slice : Bool

/-- Stacked Borrows (the default of Miri). -/
def Rule.stacked : Rule := ⟨true, true⟩
/-- Stacked Borrows, if the accessors were changed to start from `self.keys.as_ptr()`. -/
def Rule.repaired : Rule := ⟨false, true⟩
/-- The whole array can be reached from a reference to a part (as in Tree Borrows). -/
def Rule.whole : Rule := ⟨false, false⟩

/-- `self.keys[0].assume_init_ref()` or `assume_init_mut()`, made a pointer (core.rs:117, 125,
134, 138, 193, 200): slot 0 must exist and be initialised. -/
def elemPtr (r : Rule) : Slots α → Option Nat
  | some a :: s => some (if r.one then 1 else s.length + 1)
  | _ => none

/-- `std::slice::from_raw_parts(p, n)` and `from_raw_parts_mut`, `reach` being that of `p`; the
result is the reach of the slice. -/
def rawParts (r : Rule) (n reach : Nat) : Option Nat :=
  if n ≤ reach then some (if r.slice then n else reach) else none

/-- core.rs:115-120 `keys`, 123-128 `keys_mut`. -/
def IVec.keysPtr (r : Rule) (x : IVec α β) : Option Nat :=
  (elemPtr r x.keys).bind (rawParts r x.len)

/-- core.rs:191-196 `vals`, 198-203 `vals_mut`. -/
def IVec.valsPtr (r : Rule) (x : IVec α β) : Option Nat :=
  (elemPtr r x.vals).bind (rawParts r x.len)

/-- core.rs:611-623, in `merge_kids`: the elements of `y` are copied behind those of `x`, through
the start of the slices. -/
def IVec.appendP (r : Rule) (N : Nat) (x y : IVec α β) : Option (IVec α β) := do
  let lk ← x.keysPtr r
  let rk ← y.keysPtr r
  if y.len ≤ rk ∧ x.len + y.len ≤ lk then do
    let lv ← x.valsPtr r
    let rv ← y.valsPtr r
    if y.len ≤ rv ∧ x.len + y.len ≤ lv then x.append N y else none
  else none

/-- May `keys()` be called on the elements `es`? -/
def keysOk (r : Rule) (es : List (K × V)) : Bool :=
  ((IVec.load MAX es).bind (IVec.keysPtr r)).isSome

/-- May `vals()` be called on the elements `es`? -/
def valsOk (r : Rule) (es : List (K × V)) : Bool :=
  ((IVec.load MAX es).bind (IVec.valsPtr r)).isSome

/-- core.rs:347-353 `kids`, `kids_mut`: nothing is accessed in a leaf. -/
def kidsOk (r : Rule) (ks : List α) : Bool :=
  ks.isEmpty || ((IVec.load KIDS (unit ks)).bind (IVec.keysPtr r)).isSome

/-- `appendP` on contents. -/
def ivAppendP (r : Rule) (N : Nat) (l l' : List (α × β)) : Option (List (α × β)) := do
  let x ← IVec.load N l
  let y ← IVec.load N l'
  let x ← x.appendP r N y
  x.unload

/-! ### The functions of `core.rs` -/

/-- core.rs:66-87 `search_keys`. -/
def searchKeysP (r : Rule) (lin : Bool) (p : K → Ordering) (es : List (K × V)) :
    Option (Nat × Bool) :=
  if keysOk r es then searchKeys lin p es else none

mutual
/-- core.rs:367-377 `get`. -/
def getP (r : Rule) (lin : Bool) (p : K → Ordering) : Node K V → Option (Option (K × V))
  | mk es ks =>
    match searchKeysP r lin p es with
    | none => none
    | some (i, true) => if keysOk r es && valsOk r es then (es[i]?).map some else none
    | some (i, false) => if kidsOk r ks then getAtP r lin p i ks else none
/-- `get` on child `i`. -/
def getAtP (r : Rule) (lin : Bool) (p : K → Ordering) :
    Nat → List (Node K V) → Option (Option (K × V))
  | _, [] => some none
  | 0, c :: _ => getP r lin p c
  | i + 1, _ :: ks => getAtP r lin p i ks
end

mutual
/-- core.rs:379-389 `get_mut`, followed by a write. -/
def getMutP (r : Rule) (lin : Bool) (p : K → Ordering) (g : V → V) :
    Node K V → Option (Node K V × Bool)
  | mk es ks =>
    match searchKeysP r lin p es with
    | none => none
    | some (i, true) =>
      if valsOk r es then (es[i]?).map (fun e => (mk (es.set i (e.1, g e.2)) ks, true)) else none
    | some (i, false) =>
      if kidsOk r ks then
        match getMutAtP r lin p g i ks with
        | none => some (mk es ks, false)
        | some none => none
        | some (some (c, b)) => some (mk es (ks.set i c), b)
      else none
/-- `get_mut` on child `i`. -/
def getMutAtP (r : Rule) (lin : Bool) (p : K → Ordering) (g : V → V) :
    Nat → List (Node K V) → Option (Option (Node K V × Bool))
  | _, [] => none
  | 0, c :: _ => some (getMutP r lin p g c)
  | i + 1, _ :: ks => getMutAtP r lin p g i ks
end

mutual
/-- core.rs:391-424 `insert`. -/
def insP [Ord K] (r : Rule) (lin : Bool) (k : K) (v : V) : Node K V → Option (InsRes K V)
  | mk es ks =>
    match searchKeysP r lin (compare k) es with
    | none => none
    | some (i, true) =>
      if keysOk r es && valsOk r es then
        match es[i]? with
        | none => none
        | some e => some (.replaced e.2 (mk (es.set i (k, v)) ks))
      else none
    | some (i, false) =>
      if kidsOk r ks then
        match insAtP r lin k v i ks with
        | none => absorb i none (k, v) es ks
        | some none => none
        | some (some (.split lhs kv c)) => absorb i (some lhs) kv es (ks.set i c)
        | some (some (.replaced o c)) => some (.replaced o (mk es (ks.set i c)))
        | some (some (.absorbed c)) => some (.absorbed (mk es (ks.set i c)))
      else none
/-- `insert` on child `i`. -/
def insAtP [Ord K] (r : Rule) (lin : Bool) (k : K) (v : V) :
    Nat → List (Node K V) → Option (Option (InsRes K V))
  | _, [] => none
  | 0, c :: _ => some (insP r lin k v c)
  | i + 1, _ :: ks => insAtP r lin k v i ks
end

/-- core.rs:518-551 `rot_lf`: `child_mut`, `key_mut`, `val_mut`. -/
def rotLfP (r : Rule) (idx : Nat) (es : List (K × V)) (ks : List (Node K V)) :
    Option (Node K V) :=
  if kidsOk r ks && keysOk r es && valsOk r es then rotLf idx es ks else none

/-- core.rs:553-583 `rot_rt`: `child_mut`, `key_mut`, `val_mut`. -/
def rotRtP (r : Rule) (idx : Nat) (es : List (K × V)) (ks : List (Node K V)) :
    Option (Node K V) :=
  if kidsOk r ks && keysOk r es && valsOk r es then rotRt idx es ks else none

/-- core.rs:586-641 `merge_kids`. -/
def mergeKidsP (r : Rule) (at_ : Nat) (es : List (K × V)) (ks : List (Node K V)) :
    Option (Node K V) :=
  if ks.isEmpty then none
  else
    match kRemove (at_ + 1) ks with
    | none => none
    | some (mk res rks, ks') => do
      let (mid, es') ← ivRemove MAX at_ es
      if kidsOk r ks' then                                -- 603
        match ks'[at_]? with
        | none => none
        | some (mk les lks) => do
          let les' ← ivPush MAX mid les
          let les'' ← ivAppendP r MAX les' res
          let lks' ← joinKids lks rks
          pure (mk es' (ks'.set at_ (mk les'' lks')))
      else none

/-- core.rs:644-672 `rebal`, without the flag. -/
def rebalP (r : Rule) (at_ : Nat) (es : List (K × V)) (ks : List (Node K V)) :
    Option (Node K V) :=
  if ks.isEmpty || !kidsOk r ks then none
  else if kidLen ks at_ ≠ some (MIN - 1) then none
  else if 0 < at_ then
    match kidLen ks (at_ - 1) with
    | none => none
    | some len =>
      if MAX - MIN < len then rotRtP r (at_ - 1) es ks else mergeKidsP r (at_ - 1) es ks
  else
    match kidLen ks (at_ + 1) with
    | none => none
    | some len => if MAX - MIN < len then rotLfP r at_ es ks else mergeKidsP r at_ es ks

/-- core.rs:683-687, 718-722, 729: rebalance if the child reported `b`. -/
def afterKidP (r : Rule) (i : Nat) (kv : K × V) (b : Bool) (es : List (K × V))
    (ks : List (Node K V)) : Option (RemRes K V) :=
  if b then (rebalP r i es ks).map (fun n => (kv, under MIN n, n))
  else some (kv, false, mk es ks)

mutual
/-- core.rs:674-693 `pop_greatest`; `last_child_mut` is 325-333. -/
def popGreatestP (r : Rule) : Node K V → Option (RemRes K V)
  | mk es ks =>
    if kidsOk r ks then
      match popGreatestAtP r ks with
      | none =>
        match ivPop MAX es with
        | none => none
        | some (kv, es') => some (kv, decide (es'.length < MIN), mk es' [])
      | some none => none
      | some (some (kv, b, c)) => afterKidP r es.length kv b es (ks.set (ks.length - 1) c)
    else none
/-- `pop_greatest` on the last child. -/
def popGreatestAtP (r : Rule) : List (Node K V) → Option (Option (RemRes K V))
  | [] => none
  | [c] => some (popGreatestP r c)
  | _ :: c :: ks => popGreatestAtP r (c :: ks)
end

/-- `pop_greatest` on child `i`. -/
def popGreatestKidP (r : Rule) : Nat → List (Node K V) → Option (Option (RemRes K V))
  | _, [] => none
  | 0, c :: _ => some (popGreatestP r c)
  | i + 1, _ :: ks => popGreatestKidP r i ks

mutual
/-- core.rs:695-732 `remove`: outer `none` = panic or undefined, inner `none` = not found. -/
def removeP (r : Rule) (lin : Bool) (p : K → Ordering) : Node K V → Option (Option (RemRes K V))
  | mk es ks =>
    match searchKeysP r lin p es with
    | none => none
    | some (i, true) =>
      if ks.isEmpty then
        match ivRemove MAX i es with
        | none => none
        | some (kv, es') => some (some (kv, decide (es'.length < MIN), mk es' ks))
      else if kidsOk r ks then
        match popGreatestKidP r i ks with
        | none => none
        | some none => none
        | some (some (kv, b, c)) =>
          if keysOk r es && valsOk r es then
            match es[i]? with
            | none => none
            | some old => (afterKidP r i old b (es.set i kv) (ks.set i c)).map some
          else none
      else none
    | some (i, false) =>
      if kidsOk r ks then
        match removeAtP r lin p i ks with
        | none => some none
        | some none => none
        | some (some none) => some none
        | some (some (some (kv, b, c))) => (afterKidP r i kv b es (ks.set i c)).map some
      else none
/-- `remove` on child `i`. -/
def removeAtP (r : Rule) (lin : Bool) (p : K → Ordering) : Nat → List (Node K V) →
    Option (Option (Option (RemRes K V)))
  | _, [] => none
  | 0, c :: _ => some (removeP r lin p c)
  | i + 1, _ :: ks => removeAtP r lin p i ks
end

/-- core.rs:1037-1052 `NodeIterRef::new` and 1061-1082 `NodeIterMut::new`. -/
def niOpsP (r : Rule) : NOps (NI K V) (K × V) (Node K V) where
  next := niOps.next
  make n := if kidsOk r n.kids && keysOk r n.elems && valsOk r n.elems then niOps.make n else none
  cost := niOps.cost

/-- core.rs:1197-1211 `NodeIntoIter::new`, which calls `kids()`. -/
def iiOpsP (r : Rule) : NOps (II K V) (Bool × (K × V)) (Bool × ANode K V) where
  next := iiOps.next
  make c := if kidsOk r c.2.kids then iiOps.make c else none
  cost := iiOps.cost

/-! ### The map (src/btree/fixed.rs) -/

namespace FMap

/-- fixed.rs:22-29 `get`. -/
def getP (r : Rule) (lin : Bool) (m : FMap K V) (p : K → Ordering) : Option (Option V) :=
  match m.root with
  | none => some none
  | some n => (Fixed.getP r lin p n).map (fun r => r.map (·.2))

/-- fixed.rs:31-40 `get_mut`, followed by a write. -/
def getMutP (r : Rule) (lin : Bool) (m : FMap K V) (p : K → Ordering) (g : V → V) :
    Option (FMap K V × Bool) :=
  match m.root with
  | none => some (m, false)
  | some n => (Fixed.getMutP r lin p g n).map (fun r => (⟨some r.1, m.len⟩, r.2))

/-- fixed.rs:42-73 `insert`. -/
def insertP [Ord K] (r : Rule) (lin : Bool) (m : FMap K V) (k : K) (v : V) :
    Option (FMap K V × Option V) :=
  match m.root with
  | none =>
    match ivPush MAX (k, v) [] with
    | none => none
    | some es => some (⟨some (Node.mk es []), 1⟩, none)
  | some n =>
    match insP r lin k v n with
    | none => none
    | some (.absorbed n') => some (⟨some n', m.len + 1⟩, none)
    | some (.replaced o n') => some (⟨some n', m.len⟩, some o)
    | some (.split lhs kv n') =>
      match ivPush MAX kv [], (kPush lhs []).bind (kPush n') with
      | some es, some ks => some (⟨some (Node.mk es ks), m.len + 1⟩, none)
      | _, _ => none

/-- fixed.rs:121-133 `remove`. -/
def removeP (r : Rule) (lin : Bool) (m : FMap K V) (p : K → Ordering) :
    Option (FMap K V × Option V) :=
  match m.root with
  | none => some (m, none)
  | some n =>
    (m.rmAndRebal (Fixed.removeP r lin p n)).map (fun r => (r.1, r.2.map (·.2)))

/-- fixed.rs:79-85 `iter`, then calls of `next` (`true`) and `next_back` (`false`). -/
def iterRunP (r : Rule) (m : FMap K V) (ds : List Bool) :
    Option (List (Option (K × V) × Nat)) :=
  ((niOpsP r).start m.root m.len).bind (fun it => ((niOpsP r).run ds it).map (·.1))

/-- core.rs:1323-1333 `new_into_iter`, fixed.rs:148-155 `into_iter`, then calls, then dropping. -/
def intoRunP (r : Rule) (s : Sharing K V) (m : FMap K V) (ds : List Bool) :
    Option (List (Option (Bool × (K × V)) × Nat) × List (K × V) × List (K × V)) :=
  match (iiOpsP r).start (m.root.map (fun n => ((s.annot n).own, s.annot n))) m.len with
  | none => none
  | some it =>
    match (iiOpsP r).run ds it with
    | none => none
    | some (ys, it') => (dropAll it'.work).map (fun d => (ys, d))

end FMap

end Verif.Fixed
