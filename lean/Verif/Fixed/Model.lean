import Verif.Fixed.InlineVec
import Verif.BTree.Remove
/-!
# Model of the fixed-layout B-tree (src/btree/core.rs, src/btree/fixed.rs)

A node is `BTree.Node`: the contents of the two `InlineVec`s, `kids = None` being the empty
list of children.  (A `Some` holding no children occurs only in nodes about to be discarded:
the right node of `merge_kids` and a root after `pop_child`.)  Every operation on an
`InlineVec` runs on arrays of slots (`Verif.Fixed.InlineVec`): its arrays are loaded with the
contents, the spare slots being uninitialised, and the contents are read back.  The other
simplifications are those of `Verif.BTree.Model`.

The outer `none` is a panic or undefined behaviour.
-/
set_option linter.unusedVariables false
namespace Verif.Fixed
open Verif.BTree Verif.BTree.Node
variable {K V : Type}

/-! ### Search -/

/-- `slice::binary_search_by` (std), the loop; `f i` compares the search key with key `i`.
`cmp == Greater` there is `p k = .lt` here. -/
def bsLoop (f : Nat → Option Ordering) : Nat → Nat → Nat → Option Nat
  | 0, _, _ => none
  | fuel + 1, base, size =>
    if 1 < size then
      match f (base + size / 2) with
      | none => none
      | some o =>
        bsLoop f fuel (if o = .lt then base else base + size / 2) (size - size / 2)
    else some base

/-- `slice::binary_search_by` on a slice that is not empty. -/
def bsearch (f : Nat → Option Ordering) (n : Nat) : Option (Nat × Bool) :=
  match bsLoop f (n + 1) 0 n with
  | none => none
  | some base =>
    match f base with
    | none => none
    | some .eq => some (base, true)
    | some .gt => some (base + 1, false)
    | some .lt => some (base, false)

/-- core.rs:66-87 `search_keys`.  `lin` is the comparison of sizes at line 72.  `keys()`
(115-120) refers to slot 0, which must be initialised. -/
def searchKeys (lin : Bool) (p : K → Ordering) (es : List (K × V)) : Option (Nat × Bool) :=
  if es.isEmpty then none
  else if lin then some (locate p es)
  else bsearch (fun i => (es[i]?).map (fun e => p e.1)) es.length

mutual
/-- core.rs:367-377 `get`. -/
def get (lin : Bool) (p : K → Ordering) : Node K V → Option (Option (K × V))
  | mk es ks =>
    match searchKeys lin p es with
    | none => none
    | some (i, true) => (es[i]?).map some
    | some (i, false) => getAt lin p i ks
/-- `get` on child `i`; `None` if there is none. -/
def getAt (lin : Bool) (p : K → Ordering) : Nat → List (Node K V) → Option (Option (K × V))
  | _, [] => some none
  | 0, c :: _ => get lin p c
  | i + 1, _ :: ks => getAt lin p i ks
end

mutual
/-- core.rs:379-389 `get_mut`, followed by a write `g` through the reference. -/
def getMut (lin : Bool) (p : K → Ordering) (g : V → V) : Node K V → Option (Node K V × Bool)
  | mk es ks =>
    match searchKeys lin p es with
    | none => none
    | some (i, true) =>
      (es[i]?).map (fun e => (mk (es.set i (e.1, g e.2)) ks, true))
    | some (i, false) =>
      match getMutAt lin p g i ks with
      | none => some (mk es ks, false)
      | some none => none
      | some (some (c, b)) => some (mk es (ks.set i c), b)
/-- `get_mut` on child `i`. -/
def getMutAt (lin : Bool) (p : K → Ordering) (g : V → V) :
    Nat → List (Node K V) → Option (Option (Node K V × Bool))
  | _, [] => none
  | 0, c :: _ => some (getMut lin p g c)
  | i + 1, _ :: ks => getMutAt lin p g i ks
end

/-! ### Insertion -/

/-- core.rs:426-442 `ins_no_split`. -/
def insNoSplit (idx : Nat) (kid : Option (Node K V)) (kv : K × V) (es : List (K × V))
    (ks : List (Node K V)) : Option (InsRes K V) :=
  if es.length < MAX ∧ idx ≤ es.length ∧ (!ks.isEmpty) = kid.isSome then
    match ivInsert MAX idx kv es with
    | none => none
    | some es' =>
      match kid with
      | none => some (.absorbed (mk es' ks))
      | some c =>
        match kInsert idx c ks with
        | none => none
        | some ks' => some (.absorbed (mk es' ks'))
  else none

/-- core.rs:415-421: absorb a new separator. -/
def absorb (idx : Nat) (kid : Option (Node K V)) (kv : K × V) (es : List (K × V))
    (ks : List (Node K V)) : Option (InsRes K V) :=
  if es.length < MAX then insNoSplit idx kid kv es ks
  else
    match insSplit idx kid kv es ks with
    | none => none
    | some (div, (les, lks), (res, rks)) => some (.split (mk les lks) div (mk res rks))

mutual
/-- core.rs:391-424 `insert`. -/
def ins [Ord K] (lin : Bool) (k : K) (v : V) : Node K V → Option (InsRes K V)
  | mk es ks =>
    match searchKeys lin (compare k) es with
    | none => none
    | some (i, true) =>
      match es[i]? with
      | none => none
      | some e => some (.replaced e.2 (mk (es.set i (k, v)) ks))
    | some (i, false) =>
      match insAt lin k v i ks with
      | none => absorb i none (k, v) es ks
      | some none => none
      | some (some (.split lhs kv c)) => absorb i (some lhs) kv es (ks.set i c)
      | some (some (.replaced o c)) => some (.replaced o (mk es (ks.set i c)))
      | some (some (.absorbed c)) => some (.absorbed (mk es (ks.set i c)))
/-- `insert` on child `i`. -/
def insAt [Ord K] (lin : Bool) (k : K) (v : V) :
    Nat → List (Node K V) → Option (Option (InsRes K V))
  | _, [] => none
  | 0, c :: _ => some (ins lin k v c)
  | i + 1, _ :: ks => insAt lin k v i ks
end

/-! ### Removal -/

/-- `right.kids.as_mut().map(|b| b.remove(0))` (core.rs:536). -/
def takeFirst (ks : List (Node K V)) : Option (Option (Node K V) × List (Node K V)) :=
  if ks.isEmpty then some (none, []) else (kRemove 0 ks).map (fun r => (some r.1, r.2))

/-- `left.kids.as_mut().map(|b| b.pop())` (core.rs:570). -/
def takeLast (ks : List (Node K V)) : Option (Option (Node K V) × List (Node K V)) :=
  if ks.isEmpty then some (none, []) else (kPop ks).map (fun r => (some r.1, r.2))

/-- core.rs:548-550: `left.kids.as_mut().unwrap().push(c)` if there is a `c`. -/
def pushKid (c : Option (Node K V)) (ks : List (Node K V)) : Option (List (Node K V)) :=
  match c with
  | none => some ks
  | some c => if ks.isEmpty then none else kPush c ks

/-- core.rs:580-582: `right.kids.as_mut().unwrap().insert(0, c)` if there is a `c`. -/
def insKid0 (c : Option (Node K V)) (ks : List (Node K V)) : Option (List (Node K V)) :=
  match c with
  | none => some ks
  | some c => if ks.isEmpty then none else kInsert 0 c ks

/-- core.rs:518-551 `rot_lf`. -/
def rotLf (idx : Nat) (es : List (K × V)) (ks : List (Node K V)) : Option (Node K V) :=
  match ks[idx + 1]? with
  | none => none
  | some (mk res rks) =>
    if res.length ≤ MIN then none
    else do
      let (kv2, res') ← ivRemove MAX 0 res
      let (c, rks') ← takeFirst rks
      let kv1 ← es[idx]?
      match ks[idx]? with
      | none => none
      | some (mk les lks) =>
        if MIN ≤ les.length then none
        else do
          let les' ← ivPush MAX kv1 les
          let lks' ← pushKid c lks
          pure (mk (es.set idx kv2) ((ks.set (idx + 1) (mk res' rks')).set idx (mk les' lks')))

/-- core.rs:553-583 `rot_rt`. -/
def rotRt (idx : Nat) (es : List (K × V)) (ks : List (Node K V)) : Option (Node K V) :=
  match ks[idx]? with
  | none => none
  | some (mk les lks) =>
    if les.length ≤ MIN then none
    else do
      let (kv0, les') ← ivPop MAX les
      let (c, lks') ← takeLast lks
      let kv1 ← es[idx]?
      match ks[idx + 1]? with
      | none => none
      | some (mk res rks) => do
        let res' ← ivInsert MAX 0 kv1 res
        let rks' ← insKid0 c rks
        pure (mk (es.set idx kv0) ((ks.set idx (mk les' lks')).set (idx + 1) (mk res' rks')))

/-- core.rs:625-639: the children of the right node are appended to those of the left. -/
def joinKids (lks rks : List (Node K V)) : Option (List (Node K V)) :=
  if lks.isEmpty then some []
  else if rks.isEmpty then none
  else kAppend lks rks

/-- core.rs:586-641 `merge_kids`. -/
def mergeKids (at_ : Nat) (es : List (K × V)) (ks : List (Node K V)) : Option (Node K V) :=
  if ks.isEmpty then none
  else
    match kRemove (at_ + 1) ks with
    | none => none
    | some (mk res rks, ks') => do
      let (mid, es') ← ivRemove MAX at_ es
      match ks'[at_]? with
      | none => none
      | some (mk les lks) => do
        let les' ← ivPush MAX mid les
        let les'' ← ivAppend MAX les' res
        let lks' ← joinKids lks rks
        pure (mk es' (ks'.set at_ (mk les'' lks')))

/-- core.rs:644-672 `rebal`, without the flag. -/
def rebal (at_ : Nat) (es : List (K × V)) (ks : List (Node K V)) : Option (Node K V) :=
  if ks.isEmpty then none
  else if kidLen ks at_ ≠ some (MIN - 1) then none
  else if 0 < at_ then
    match kidLen ks (at_ - 1) with
    | none => none
    | some len => if MAX - MIN < len then rotRt (at_ - 1) es ks else mergeKids (at_ - 1) es ks
  else
    match kidLen ks (at_ + 1) with
    | none => none
    | some len => if MAX - MIN < len then rotLf at_ es ks else mergeKids at_ es ks

/-- core.rs:683-687, 718-722, 729: rebalance if the child reported `b`. -/
def afterKid (i : Nat) (kv : K × V) (b : Bool) (es : List (K × V)) (ks : List (Node K V)) :
    Option (RemRes K V) :=
  if b then (rebal i es ks).map (fun n => (kv, under MIN n, n))
  else some (kv, false, mk es ks)

mutual
/-- core.rs:674-693 `pop_greatest`. -/
def popGreatest : Node K V → Option (RemRes K V)
  | mk es ks =>
    match popGreatestAt ks with
    | none =>
      match ivPop MAX es with
      | none => none
      | some (kv, es') => some (kv, decide (es'.length < MIN), mk es' [])
    | some none => none
    | some (some (kv, b, c)) => afterKid es.length kv b es (ks.set (ks.length - 1) c)
/-- `pop_greatest` on the last child. -/
def popGreatestAt : List (Node K V) → Option (Option (RemRes K V))
  | [] => none
  | [c] => some (popGreatest c)
  | _ :: c :: ks => popGreatestAt (c :: ks)
end

/-- `pop_greatest` on child `i`. -/
def popGreatestKid : Nat → List (Node K V) → Option (Option (RemRes K V))
  | _, [] => none
  | 0, c :: _ => some (popGreatest c)
  | i + 1, _ :: ks => popGreatestKid i ks

mutual
/-- core.rs:695-732 `remove`: outer `none` = panic, inner `none` = not found. -/
def remove (lin : Bool) (p : K → Ordering) : Node K V → Option (Option (RemRes K V))
  | mk es ks =>
    match searchKeys lin p es with
    | none => none
    | some (i, true) =>
      if ks.isEmpty then
        match ivRemove MAX i es with
        | none => none
        | some (kv, es') => some (some (kv, decide (es'.length < MIN), mk es' ks))
      else
        match popGreatestKid i ks with
        | none => none
        | some none => none
        | some (some (kv, b, c)) =>
          match es[i]? with
          | none => none
          | some old => (afterKid i old b (es.set i kv) (ks.set i c)).map some
    | some (i, false) =>
      match removeAt lin p i ks with
      | none => some none
      | some none => none
      | some (some none) => some none
      | some (some (some (kv, b, c))) => (afterKid i kv b es (ks.set i c)).map some
/-- `remove` on child `i`. -/
def removeAt (lin : Bool) (p : K → Ordering) : Nat → List (Node K V) →
    Option (Option (Option (RemRes K V)))
  | _, [] => none
  | 0, c :: _ => some (remove lin p c)
  | i + 1, _ :: ks => removeAt lin p i ks
end

/-! ### The map (src/btree/fixed.rs) -/

/-- fixed.rs:7-10 `struct BTreeMap`. -/
structure FMap (K V : Type) where
  root : Option (Node K V)
  len : Nat

namespace FMap

/-- fixed.rs:13-15 `new`. -/
def new : FMap K V := ⟨none, 0⟩

/-- fixed.rs:17-20 `clear`. -/
def clear (_ : FMap K V) : FMap K V := ⟨none, 0⟩

/-- fixed.rs:22-29 `get`. -/
def get (lin : Bool) (m : FMap K V) (p : K → Ordering) : Option (Option V) :=
  match m.root with
  | none => some none
  | some n => (Fixed.get lin p n).map (fun r => r.map (·.2))

/-- fixed.rs:31-40 `get_mut`, followed by a write. -/
def getMut (lin : Bool) (m : FMap K V) (p : K → Ordering) (g : V → V) :
    Option (FMap K V × Bool) :=
  match m.root with
  | none => some (m, false)
  | some n => (Fixed.getMut lin p g n).map (fun r => (⟨some r.1, m.len⟩, r.2))

/-- fixed.rs:42-73 `insert`. -/
def insert [Ord K] (lin : Bool) (m : FMap K V) (k : K) (v : V) :
    Option (FMap K V × Option V) :=
  match m.root with
  | none =>
    match ivPush MAX (k, v) [] with                       -- 68, core.rs:298-302 `new_leaf`
    | none => none
    | some es => some (⟨some (Node.mk es []), 1⟩, none)
  | some n =>
    match ins lin k v n with
    | none => none
    | some (.absorbed n') => some (⟨some n', m.len + 1⟩, none)
    | some (.replaced o n') => some (⟨some n', m.len⟩, some o)
    | some (.split lhs kv n') =>                          -- 59-61, core.rs:304-315 `new_branch`
      match ivPush MAX kv [], (kPush lhs []).bind (kPush n') with
      | some es, some ks => some (⟨some (Node.mk es ks), m.len + 1⟩, none)
      | _, _ => none

/-- fixed.rs:75-77 `is_empty`. -/
def isEmpty (m : FMap K V) : Bool := m.len == 0

/-- fixed.rs:102-119 `rm_and_rebal`, after the remover; `pop_child` is core.rs:335-337. -/
def rmAndRebal (m : FMap K V) (r : Option (Option (RemRes K V))) :
    Option (FMap K V × Option (K × V)) :=
  match r with
  | none => none
  | some none => some (m, none)
  | some (some (kv, b, n)) =>
    if m.len = 0 then none                                -- 112: `self.len -= 1`
    else if b && n.elems.isEmpty then                     -- 114
      if n.kids.isEmpty then some (⟨none, m.len - 1⟩, some kv)
      else (kPop n.kids).map (fun c => (⟨some c.1, m.len - 1⟩, some kv))
    else some (⟨some n, m.len - 1⟩, some kv)

/-- fixed.rs:121-133 `remove`. -/
def remove (lin : Bool) (m : FMap K V) (p : K → Ordering) : Option (FMap K V × Option V) :=
  match m.root with
  | none => some (m, none)
  | some n =>
    (m.rmAndRebal (Fixed.remove lin p n)).map (fun r => (r.1, r.2.map (·.2)))

/-- fixed.rs:157-167 `extend`. -/
def extend [Ord K] (lin : Bool) : FMap K V → List (K × V) → Option (FMap K V)
  | m, [] => some m
  | m, e :: es =>
    match m.insert lin e.1 e.2 with
    | none => none
    | some (m', _) => extend lin m' es

/-- fixed.rs:169-179 `from_iter`. -/
def fromIter [Ord K] (lin : Bool) (es : List (K × V)) : Option (FMap K V) := extend lin new es

end FMap
end Verif.Fixed
