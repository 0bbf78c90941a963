import Verif.BTreeHeap.Model
import Verif.Fixed.Model
/-!
# The nodes of `src/btree/core.rs` on reference-counted memory

As for `btree.rs` (`Verif.BTreeHeap.Model`): a node in memory has the elements as data and the
children as links, `kids = None` being the empty list of links; a method on `&mut self` takes
the contents of the node and returns the new contents.  The `InlineVec` operations are those of
`Verif.Fixed.InlineVec`, on arrays of slots, the `Kids` being arrays of links.
-/
namespace Verif.FixedH
open Heap BTreeH Fixed
open BTree.Node (locate)

variable {K V : Type}

/-! ## Access -/

/-- core.rs:367-377 `get`, on the node at `path` below the handle `a`. -/
def getAt (lin : Bool) (a : Nat) (p : K → Ordering) :
    Nat → List Nat → Prog (ND K V) (Option (K × V))
  | 0, _ => .panic
  | n + 1, path =>
    (lift (.read a path)).bind fun (x : HN K V) =>
    match searchKeys lin p x.data with
    | none => .panic
    | some (i, true) =>
      match x.data[i]? with
      | none => .panic
      | some e => .pure (some e)
    | some (i, false) =>
      if i < x.kids.length then getAt lin a p n (path ++ [i]) else .pure none

/-- core.rs:379-389 `get_mut`, followed by a write `g` through the reference. -/
def getMut (lin : Bool) (D : Nat) (p : K → Ordering) (g : V → V) :
    Nat → HN K V → Prog (ND K V) (HN K V × Bool)
  | 0, _ => .panic
  | n + 1, x =>
    match searchKeys lin p x.data with
    | none => .panic
    | some (i, true) =>
      match x.data[i]? with
      | none => .panic
      | some e => .pure (⟨x.data.set i (e.1, g e.2), x.kids⟩, true)
    | some (i, false) =>
      if i < x.kids.length then
        (mutKid D x.kids i (getMut lin D p g n)).bind fun y => .pure (⟨x.data, y.1⟩, y.2)
      else .pure (x, false)

/-! ## Insertion -/

/-- core.rs:426-442 `ins_no_split`. -/
def insNoSplit (i : Nat) (lhs : Option Nat) (kv : K × V) (x : HN K V) :
    Prog (ND K V) (HN K V × HIns K V) :=
  if x.data.length < MAX ∧ i ≤ x.data.length ∧ (!x.kids.isEmpty) = lhs.isSome then
    match ivInsert MAX i kv x.data with
    | none => .panic
    | some es =>
      match lhs with
      | none => .pure (⟨es, x.kids⟩, .absorbed)
      | some a =>
        match kInsert i (some a) x.kids with
        | none => .panic
        | some ks => .pure (⟨es, ks⟩, .absorbed)
  else .panic

/-- core.rs:450-515 `ins_split`.  The code allocates the node first and fills it through
`Arc::get_mut`; nothing else is done to the memory in between. -/
def insSplitH (i : Nat) (lhs : Option Nat) (kv : K × V) (x : HN K V) :
    Prog (ND K V) (HN K V × HIns K V) :=
  match insSplit i (lhs.map some) kv x.data x.kids with
  | none => .panic
  | some (div, (les, lks), (res, rks)) =>
    (lift (.alloc ⟨les, lks⟩)).bind fun a => .pure (⟨res, rks⟩, .split a div)

/-- core.rs:415-421: absorb a new separator. -/
def absorb (i : Nat) (lhs : Option Nat) (kv : K × V) (x : HN K V) :
    Prog (ND K V) (HN K V × HIns K V) :=
  if x.data.length < MAX then insNoSplit i lhs kv x else insSplitH i lhs kv x

/-- core.rs:413: return the result of the child unless it split. -/
def afterIns (i : Nat) (es : List (K × V)) (y : List (Option Nat) × HIns K V) :
    Prog (ND K V) (HN K V × HIns K V) :=
  match y.2 with
  | .split lhs kv => absorb i (some lhs) kv ⟨es, y.1⟩
  | .replaced o => .pure (⟨es, y.1⟩, .replaced o)
  | .absorbed => .pure (⟨es, y.1⟩, .absorbed)

/-- core.rs:391-424 `insert`. -/
def ins [Ord K] (lin : Bool) (D : Nat) (k : K) (v : V) :
    Nat → HN K V → Prog (ND K V) (HN K V × HIns K V)
  | 0, _ => .panic
  | n + 1, x =>
    match searchKeys lin (compare k) x.data with
    | none => .panic
    | some (i, true) =>
      match x.data[i]? with
      | none => .panic
      | some e => .pure (⟨x.data.set i (k, v), x.kids⟩, .replaced e.2)
    | some (i, false) =>
      if i < x.kids.length then
        (mutKid D x.kids i (ins lin D k v n)).bind (afterIns i x.data)
      else absorb i none (k, v) x

/-! ## Removal -/

/-- core.rs:532-536: take the first element and the first child, if any. -/
def takeFirst (x : HN K V) : Prog (ND K V) (HN K V × (K × V) × Option (Option Nat)) :=
  match ivRemove MAX 0 x.data with
  | none => .panic
  | some (kv, es) =>
    if x.kids.isEmpty then .pure (⟨es, []⟩, kv, none)
    else
      match kRemove 0 x.kids with
      | none => .panic
      | some (c, ks) => .pure (⟨es, ks⟩, kv, some c)

/-- core.rs:568-570: take the last element and the last child, if any. -/
def takeLast (x : HN K V) : Prog (ND K V) (HN K V × (K × V) × Option (Option Nat)) :=
  match ivPop MAX x.data with
  | none => .panic
  | some (kv, es) =>
    if x.kids.isEmpty then .pure (⟨es, []⟩, kv, none)
    else
      match kPop x.kids with
      | none => .panic
      | some (c, ks) => .pure (⟨es, ks⟩, kv, some c)

/-- core.rs:547-550. -/
def pushBack (kv : K × V) (c : Option (Option Nat)) (x : HN K V) :
    Prog (ND K V) (HN K V × Unit) :=
  match ivPush MAX kv x.data with
  | none => .panic
  | some es =>
    match c with
    | none => .pure (⟨es, x.kids⟩, ())
    | some c =>
      if x.kids.isEmpty then .panic
      else
        match kPush c x.kids with
        | none => .panic
        | some ks => .pure (⟨es, ks⟩, ())

/-- core.rs:579-582. -/
def pushFront (kv : K × V) (c : Option (Option Nat)) (x : HN K V) :
    Prog (ND K V) (HN K V × Unit) :=
  match ivInsert MAX 0 kv x.data with
  | none => .panic
  | some es =>
    match c with
    | none => .pure (⟨es, x.kids⟩, ())
    | some c =>
      if x.kids.isEmpty then .panic
      else
        match kInsert 0 c x.kids with
        | none => .panic
        | some ks => .pure (⟨es, ks⟩, ())

/-- core.rs:518-551 `rot_lf`. -/
def rotLf (D : Nat) (idx : Nat) (x : HN K V) : Prog (ND K V) (HN K V) :=
  (kidLen (V := V) (K := K) x.kids (idx + 1)).bind fun len =>
  if len ≤ MIN then .panic
  else
    (mutKid D x.kids (idx + 1) takeFirst).bind fun y =>
    match x.data[idx]? with
    | none => .panic
    | some kv1 =>
      (kidLen (V := V) (K := K) y.1 idx).bind fun len =>
      if MIN ≤ len then .panic
      else
        (mutKid D y.1 idx (pushBack kv1 y.2.2)).bind fun z =>
        .pure ⟨x.data.set idx y.2.1, z.1⟩

/-- core.rs:553-583 `rot_rt`. -/
def rotRt (D : Nat) (idx : Nat) (x : HN K V) : Prog (ND K V) (HN K V) :=
  (kidLen (V := V) (K := K) x.kids idx).bind fun len =>
  if len ≤ MIN then .panic
  else
    (mutKid D x.kids idx takeLast).bind fun y =>
    match x.data[idx]? with
    | none => .panic
    | some kv1 =>
      (mutKid D y.1 (idx + 1) (pushFront kv1 y.2.2)).bind fun z =>
      .pure ⟨x.data.set idx y.2.1, z.1⟩

/-- core.rs:608-639: push the separator and append the contents of the right node.  What is left
of it is dropped (at the end of `merge_kids`): nothing, unless the left node is a leaf. -/
def append (D : Nat) (kv : K × V) (r : HN K V) (x : HN K V) : Prog (ND K V) (HN K V × Unit) :=
  match (ivPush MAX kv x.data).bind (fun es => ivAppend MAX es r.data) with
  | none => .panic
  | some es =>
    if x.kids.isEmpty then (forAll (drop D) r.kids).bind fun _ => .pure (⟨es, []⟩, ())
    else if r.kids.isEmpty then .panic
    else
      match kAppend x.kids r.kids with
      | none => .panic
      | some ks => .pure (⟨es, ks⟩, ())

/-- core.rs:586-641 `merge_kids`. -/
def mergeKids (D : Nat) (at_ : Nat) (x : HN K V) : Prog (ND K V) (HN K V) :=
  if x.kids.isEmpty then .panic
  else
    match kRemove (at_ + 1) x.kids with
    | some (some a, ks) =>
      (unwrapOrClone D a).bind fun r =>
      match ivRemove MAX at_ x.data with
      | none => .panic
      | some (mid, es) =>
        (mutKid D ks at_ (append D mid r)).bind fun y => .pure ⟨es, y.1⟩
    | _ => .panic

/-- core.rs:644-672 `rebal`, without the flag. -/
def rebal (D : Nat) (at_ : Nat) (x : HN K V) : Prog (ND K V) (HN K V) :=
  if x.kids.isEmpty then .panic
  else
    (kidLen (V := V) (K := K) x.kids at_).bind fun len =>
    if len ≠ MIN - 1 then .panic
    else if 0 < at_ then
      (kidLen (V := V) (K := K) x.kids (at_ - 1)).bind fun len =>
      if MAX - MIN < len then rotRt D (at_ - 1) x else mergeKids D (at_ - 1) x
    else
      (kidLen (V := V) (K := K) x.kids (at_ + 1)).bind fun len =>
      if MAX - MIN < len then rotLf D at_ x else mergeKids D at_ x

/-- core.rs:683-687, 718-722, 729: rebalance if the child reported `b`. -/
def afterKid (D : Nat) (i : Nat) (kv : K × V) (b : Bool) (x : HN K V) :
    Prog (ND K V) (HN K V × HRem K V) :=
  if b then
    (rebal D i x).bind fun y => .pure (y, kv, decide (y.data.length < MIN))
  else .pure (x, kv, false)

/-- core.rs:674-693 `pop_greatest`. -/
def popGreatest (D : Nat) : Nat → HN K V → Prog (ND K V) (HN K V × HRem K V)
  | 0, _ => .panic
  | n + 1, x =>
    if 0 < x.kids.length then
      (mutKid D x.kids (x.kids.length - 1) (popGreatest D n)).bind fun y =>
      afterKid D x.data.length y.2.1 y.2.2 ⟨x.data, y.1⟩
    else
      match ivPop MAX x.data with
      | none => .panic
      | some (kv, es) => .pure (⟨es, x.kids⟩, kv, decide (es.length < MIN))

/-- core.rs:729-730: after the child returned; `?` if nothing was found. -/
def afterRm (D : Nat) (i : Nat) (es : List (K × V))
    (y : List (Option Nat) × Option (HRem K V)) :
    Prog (ND K V) (HN K V × Option (HRem K V)) :=
  match y.2 with
  | none => .pure (⟨es, y.1⟩, none)
  | some r => (afterKid D i r.1 r.2 ⟨es, y.1⟩).bind fun z => .pure (z.1, some z.2)

/-- core.rs:713-722: put the predecessor in place of the element found. -/
def afterPop (D : Nat) (i : Nat) (es : List (K × V)) (y : List (Option Nat) × HRem K V) :
    Prog (ND K V) (HN K V × Option (HRem K V)) :=
  match es[i]? with
  | none => .panic
  | some old =>
    (afterKid D i old y.2.2 ⟨es.set i y.2.1, y.1⟩).bind fun z => .pure (z.1, some z.2)

/-- core.rs:695-732 `remove`. -/
def remove (lin : Bool) (D : Nat) (p : K → Ordering) :
    Nat → HN K V → Prog (ND K V) (HN K V × Option (HRem K V))
  | 0, _ => .panic
  | n + 1, x =>
    match searchKeys lin p x.data with
    | none => .panic
    | some (i, true) =>
      if x.kids.isEmpty then
        match ivRemove MAX i x.data with
        | none => .panic
        | some (kv, es) => .pure (⟨es, x.kids⟩, some (kv, decide (es.length < MIN)))
      else
        (mutKid D x.kids i (popGreatest D n)).bind (afterPop D i x.data)
    | some (i, false) =>
      if i < x.kids.length then
        (mutKid D x.kids i (remove lin D p n)).bind (afterRm D i x.data)
      else .pure (x, none)

end Verif.FixedH
