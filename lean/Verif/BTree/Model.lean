import Verif.Spec.Basic
/-!
# Model of `src/btree.rs`: nodes and their operations

`N` is the const parameter (`MIN_OCCUPANCY`); `MAX_OCCUPANCY` is `2 * N + 1`
(btree.rs:54-56).  Simplifications, for the whole file:

* `Arc<Node>` is the node's value.  `Arc::make_mut` and `Arc::try_unwrap`-or-clone yield the
  same value whether or not the node is shared; sharing is the subject of `Verif.Heap`.
* A panic (failed `assert!`, `unwrap` of `None`, index out of bounds, arithmetic overflow) is
  the outer `none`.
* Comparisons with the search key are a probe `p k = key.cmp(k.borrow())`.
* `&mut` results are modelled by applying the caller's write.
* Descent into the `i`-th child is written as a second function recursing along the list of
  children, so that all definitions are structural (and evaluate).
-/
set_option linter.unusedVariables false
namespace Verif.BTree
universe u v
variable {K : Type u} {V : Type v}

/-- btree.rs:27-31 `struct Node`. -/
inductive Node (K : Type u) (V : Type v) where
  | mk (elems : List (K × V)) (kids : List (Node K V))

namespace Node

/-- The field `elems` (btree.rs:29). -/
@[simp] def elems : Node K V → List (K × V)
  | mk es _ => es

/-- The field `kids` (btree.rs:30). -/
@[simp] def kids : Node K V → List (Node K V)
  | mk _ ks => ks

/-! ### `Vec` operations that can panic (standard library) -/

/-- `Vec::insert`: panics if `i > len`. -/
def vInsert {α} (i : Nat) (x : α) (l : List α) : Option (List α) :=
  if i ≤ l.length then some (l.take i ++ x :: l.drop i) else none

/-- `Vec::remove`: panics if `i ≥ len`; the element and the rest. -/
def vRemove {α} (i : Nat) (l : List α) : Option (α × List α) :=
  match l[i]? with
  | none => none
  | some x => some (x, l.take i ++ l.drop (i + 1))

/-- `Vec::split_off`: panics if `i > len`. -/
def vSplitOff {α} (i : Nat) (l : List α) : Option (List α × List α) :=
  if i ≤ l.length then some (l.take i, l.drop i) else none

/-- `Vec::pop`. -/
def vPop {α} (l : List α) : Option (α × List α) :=
  match l.getLast? with
  | none => none
  | some x => some (x, l.dropLast)

/-! ### Search within a node -/

/-- The scan of the keys of a node common to btree.rs:96-102, 113-123, 139-151, 499-531 and
576-583: the index at which it stops, and whether it stopped at an equal key. -/
def locate (p : K → Ordering) : List (K × V) → Nat × Bool
  | [] => (0, false)
  | e :: es =>
    match p e.1 with
    | .gt => ((locate p es).1 + 1, (locate p es).2)
    | .eq => (0, true)
    | .lt => (0, false)

/-- The child `get_key_value`, `get_mut` and `remove` descend to: child `i` if the scan
stopped at an element, and otherwise (`for` loop finished) the *last* child
(btree.rs:98/104, 115/126, 502/535). -/
def descIdx (i : Nat) (es : List (K × V)) (nKids : Nat) : Nat :=
  if i < es.length then i else nKids - 1

mutual
/-- btree.rs:91-105 `Node::get_key_value`. -/
def get (p : K → Ordering) : Node K V → Option (K × V)
  | mk es ks =>
    if (locate p es).2 then es[(locate p es).1]?
    else getAt p (descIdx (locate p es).1 es ks.length) ks
/-- `get` on child `i`; `None` if there is none. -/
def getAt (p : K → Ordering) : Nat → List (Node K V) → Option (K × V)
  | _, [] => none
  | 0, c :: _ => get p c
  | i + 1, _ :: ks => getAt p i ks
end

mutual
/-- btree.rs:566-592 `contains_key`: its own loop, which always uses child `i`. -/
def contains (p : K → Ordering) : Node K V → Bool
  | mk es ks =>
    if (locate p es).2 then true else containsAt p (locate p es).1 ks
def containsAt (p : K → Ordering) : Nat → List (Node K V) → Bool
  | _, [] => false
  | 0, c :: _ => contains p c
  | i + 1, _ :: ks => containsAt p i ks
end

mutual
/-- btree.rs:107-129 `Node::get_mut`, followed by a write `g` through the reference; the
flag tells whether a reference was returned. -/
def getMut (p : K → Ordering) (g : V → V) : Node K V → Node K V × Bool
  | mk es ks =>
    if (locate p es).2 then
      (mk (es.modify (locate p es).1 (fun e => (e.1, g e.2))) ks, true)
    else
      let r := getMutAt p g (descIdx (locate p es).1 es ks.length) ks
      (mk es r.1, r.2)
def getMutAt (p : K → Ordering) (g : V → V) : Nat → List (Node K V) → List (Node K V) × Bool
  | _, [] => ([], false)
  | 0, c :: ks => ((getMut p g c).1 :: ks, (getMut p g c).2)
  | i + 1, c :: ks => (c :: (getMutAt p g i ks).1, (getMutAt p g i ks).2)
end

/-! ### Insertion -/

/-- btree.rs:46-50 `InsertResult`, together with the node after the call.  `Split` always
carries a node here: the `None` of line 158 is consumed within `insert` itself. -/
inductive InsRes (K : Type u) (V : Type v) where
  | replaced (old : V) (n : Node K V)
  | split (lhs : Node K V) (kv : K × V) (n : Node K V)
  | absorbed (n : Node K V)

/-- btree.rs:181-206 `Node::split`: the new node holds the *lower* half. -/
def split (N : Nat) (es : List (K × V)) (ks : List (Node K V)) : Option (InsRes K V) :=
  if es.length ≤ 2 * N + 1 then none            -- 182
  else
    match vSplitOff (N + 1) es with             -- 185
    | none => none
    | some (es1, es2) =>
      match (if ks.isEmpty then some ([], []) else vSplitOff (N + 1) ks) with -- 186-190
      | none => none
      | some (ks1, ks2) =>
        match vPop es1 with                     -- 197
        | none => none
        | some (mid, es0) => some (.split (mk es0 ks1) mid (mk es2 ks2))

/-- btree.rs:163-173, with `child = lhs` (`none` in a leaf). -/
def absorb (N : Nat) (i : Nat) (lhs : Option (Node K V)) (kv : K × V) (es : List (K × V))
    (ks : List (Node K V)) : Option (InsRes K V) :=
  match vInsert i kv es with
  | none => none
  | some es' =>
    match (match lhs with
      | none => some ks
      | some c => vInsert i c ks) with
    | none => none
    | some ks' =>
      if es'.length ≤ 2 * N + 1 then some (.absorbed (mk es' ks')) else split N es' ks'

mutual
/-- btree.rs:131-178 `Node::insert`. -/
def ins [Ord K] (N : Nat) (k : K) (v : V) : Node K V → Option (InsRes K V)
  | mk es ks =>
    if (locate (compare k) es).2 then
      match es[(locate (compare k) es).1]? with
      | none => none
      | some e => some (.replaced e.2 (mk (es.set (locate (compare k) es).1 (k, v)) ks))
    else
      match insAt N k v (locate (compare k) es).1 ks with
      | none => absorb N (locate (compare k) es).1 none (k, v) es ks
      | some none => none
      | some (some (.split lhs kv c)) =>
        absorb N (locate (compare k) es).1 (some lhs) kv es (ks.set (locate (compare k) es).1 c)
      | some (some (.replaced o c)) =>
        some (.replaced o (mk es (ks.set (locate (compare k) es).1 c)))
      | some (some (.absorbed c)) => some (.absorbed (mk es (ks.set (locate (compare k) es).1 c)))
/-- `ins` on child `i`; outer `none` if there is none. -/
def insAt [Ord K] (N : Nat) (k : K) (v : V) : Nat → List (Node K V) → Option (Option (InsRes K V))
  | _, [] => none
  | 0, c :: _ => some (ins N k v c)
  | i + 1, _ :: ks => insAt N k v i ks
end

/-! ### Removal -/

/-- btree.rs:323-363 `rot_lf`. -/
def rotLf (N : Nat) (idx : Nat) (es : List (K × V)) (ks : List (Node K V)) : Option (Node K V) :=
  match ks[idx + 1]? with
  | none => none                                       -- 331 (and the assert of 328)
  | some (mk res rks) =>
    if res.length ≤ N then none                        -- 333-336
    else
      match vRemove 0 res with                         -- 340
      | none => none
      | some (kv2, res') =>
        match es[idx]? with                            -- 348
        | none => none
        | some kv1 =>
          match ks[idx]? with                          -- 352
          | none => none
          | some (mk les lks) =>
            if N ≤ les.length then none                -- 353-356
            else
              some (mk (es.set idx kv2)
                ((ks.set (idx + 1) (mk res' rks.tail)).set idx
                  (mk (les ++ [kv1]) (lks ++ rks.head?.toList))))

/-- btree.rs:365-395 `rot_rt`. -/
def rotRt (N : Nat) (idx : Nat) (es : List (K × V)) (ks : List (Node K V)) : Option (Node K V) :=
  match ks[idx]? with
  | none => none                                       -- 374 (and the assert of 370)
  | some (mk les lks) =>
    if les.length ≤ N then none                        -- 375-378
    else
      match vPop les with                              -- 381
      | none => none
      | some (kv0, les') =>
        match es[idx]? with                            -- 385
        | none => none
        | some kv1 =>
          match ks[idx + 1]? with                      -- 389
          | none => none
          | some (mk res rks) =>
            some (mk (es.set idx kv0)
              ((ks.set idx (mk les' lks.dropLast)).set (idx + 1)
                (mk (kv1 :: res) (lks.getLast?.toList ++ rks))))

/-- btree.rs:398-425 `merge_kids`. -/
def mergeKids (idx : Nat) (es : List (K × V)) (ks : List (Node K V)) : Option (Node K V) :=
  match vRemove idx es with                            -- 404
  | none => none
  | some (mid, es') =>
    match vRemove idx ks with                          -- 405
    | none => none
    | some (mk les lks, ks') =>
      match ks'[idx]? with                             -- 415
      | none => none
      | some (mk res rks) =>
        some (mk es' (ks'.set idx (mk (les ++ mid :: res) (lks ++ rks))))

/-- `self.kids[i].elems.len()` (btree.rs:437, 442); panics if there is no such child. -/
def kidLen (ks : List (Node K V)) (i : Nat) : Option Nat := ks[i]?.map (fun c => c.elems.length)

/-- btree.rs:428-449 `rebal`, without the flag (which is `elems.len() < N` of the result).
`merge_threshold = MAX - MIN = N + 1`. -/
def rebal (N : Nat) (at_ : Nat) (es : List (K × V)) (ks : List (Node K V)) : Option (Node K V) :=
  if ks.isEmpty then none                              -- 433
  else if 0 < at_ then
    match kidLen ks (at_ - 1) with
    | none => none
    | some len => if N + 1 < len then rotRt N (at_ - 1) es ks else mergeKids (at_ - 1) es ks
  else
    match kidLen ks (at_ + 1) with
    | none => none
    | some len => if N + 1 < len then rotLf N at_ es ks else mergeKids at_ es ks

/-- The flag `IsUnderPop(self.elems.len() < MIN_OCCUPANCY)`. -/
def under (N : Nat) (n : Node K V) : Bool := decide (n.elems.length < N)

/-- Result of the removals: the entry, `IsUnderPop`, and the node after the call. -/
abbrev RemRes (K : Type u) (V : Type v) := (K × V) × Bool × Node K V

/-- btree.rs:505-509, 460-464, 481-485: after a child reported `b`, rebalance at `i` if
needed. -/
def afterKid (N : Nat) (i : Nat) (kv : K × V) (b : Bool) (es : List (K × V))
    (ks : List (Node K V)) : Option (RemRes K V) :=
  if b then (rebal N i es ks).map (fun n => (kv, under N n, n))
  else some (kv, false, mk es ks)

mutual
/-- btree.rs:451-470 `pop_first` (it never returns `None`; outer `none` = panic of
`Vec::remove(0)`). -/
def popFirst (N : Nat) : Node K V → Option (RemRes K V)
  | mk es ks =>
    match popFirstAt N ks with
    | none =>
      match vRemove 0 es with
      | none => none
      | some (kv, es') => some (kv, decide (es'.length < N), mk es' [])
    | some none => none
    | some (some (kv, b, c)) => afterKid N 0 kv b es (ks.set 0 c)
/-- `pop_first` on the first child. -/
def popFirstAt (N : Nat) : List (Node K V) → Option (Option (RemRes K V))
  | [] => none
  | c :: _ => some (popFirst N c)
end

mutual
/-- btree.rs:472-491 `pop_last`. -/
def popLast (N : Nat) : Node K V → Option (RemRes K V)
  | mk es ks =>
    match popLastAt N ks with
    | none =>
      match vPop es with
      | none => none
      | some (kv, es') => some (kv, decide (es'.length < N), mk es' [])
    | some none => none
    | some (some (kv, b, c)) => afterKid N es.length kv b es (ks.set (ks.length - 1) c)
/-- `pop_last` on the last child. -/
def popLastAt (N : Nat) : List (Node K V) → Option (Option (RemRes K V))
  | [] => none
  | [c] => some (popLast N c)
  | _ :: c :: ks => popLastAt N (c :: ks)
end

mutual
/-- `pop_last` on child `i`. -/
def popLastKid (N : Nat) : Nat → List (Node K V) → Option (Option (RemRes K V))
  | _, [] => none
  | 0, c :: _ => some (popLast N c)
  | i + 1, _ :: ks => popLastKid N i ks
end

mutual
/-- btree.rs:493-543 `Node::remove`: outer `none` = panic, inner `none` = not found. -/
def remove (N : Nat) (p : K → Ordering) : Node K V → Option (Option (RemRes K V))
  | mk es ks =>
    if (locate p es).2 then
      if ks.isEmpty then
        match vRemove (locate p es).1 es with          -- 513
        | none => none
        | some (kv, es') => some (some (kv, decide (es'.length < N), mk es' ks))
      else
        match popLastKid N (locate p es).1 ks with     -- 520-522
        | none => none
        | some none => none
        | some (some (kv, b, c)) =>
          match es[(locate p es).1]? with              -- 523
          | none => none
          | some old =>
            (afterKid N (locate p es).1 old b (es.set (locate p es).1 kv)
              (ks.set (locate p es).1 c)).map some
    else
      match removeAt N p (descIdx (locate p es).1 es ks.length) ks with
      | none => some none                              -- 502, 535: no child
      | some none => none
      | some (some none) => some none                  -- 504, 537: `?`
      | some (some (some (kv, b, c))) =>
        (afterKid N (locate p es).1 kv b es
          (ks.set (descIdx (locate p es).1 es ks.length) c)).map some
/-- `remove` on child `i`. -/
def removeAt (N : Nat) (p : K → Ordering) : Nat → List (Node K V) →
    Option (Option (Option (RemRes K V)))
  | _, [] => none
  | 0, c :: _ => some (remove N p c)
  | i + 1, _ :: ks => removeAt N p i ks
end

/-! ### Ends -/

mutual
/-- btree.rs:612-618 `first_key_value`, the loop and the final `key(0)`, `val(0)`; outer `none`
= index panic. -/
def first : Node K V → Option (K × V)
  | mk es ks => match firstAt ks with
    | none => es.head?
    | some r => r
def firstAt : List (Node K V) → Option (Option (K × V))
  | [] => none
  | c :: _ => some (first c)
end

mutual
/-- btree.rs:803-809 `last_key_value`. -/
def last : Node K V → Option (K × V)
  | mk es ks => match lastAt ks with
    | none => es.getLast?
    | some r => r
def lastAt : List (Node K V) → Option (Option (K × V))
  | [] => none
  | [c] => some (last c)
  | _ :: c :: ks => lastAt (c :: ks)
end

end Node

open Node

/-! ## The map -/

/-- btree.rs:546-550 `struct BTreeMap`. -/
structure BTreeMap (K : Type u) (V : Type v) where
  len : Nat
  root : Option (Node K V)

namespace BTreeMap

/-- btree.rs:815-817 `new`, 970-974 `default`. -/
def new : BTreeMap K V := ⟨0, none⟩

/-- btree.rs:561-564 `clear`. -/
def clear (_ : BTreeMap K V) : BTreeMap K V := ⟨0, none⟩

/-- btree.rs:566-592 `contains_key`. -/
def containsKey (m : BTreeMap K V) (p : K → Ordering) : Bool :=
  match m.root with
  | none => false
  | some n => n.contains p

/-- btree.rs:651-660 `get_key_value`. -/
def getKeyValue (m : BTreeMap K V) (p : K → Ordering) : Option (K × V) :=
  m.root.bind (fun n => n.get p)

/-- btree.rs:631-637 `get`. -/
def get (m : BTreeMap K V) (p : K → Ordering) : Option V := (m.getKeyValue p).map (·.2)

/-- btree.rs:662-671 `get_mut`, followed by a write. -/
def getMut (m : BTreeMap K V) (p : K → Ordering) (g : V → V) : BTreeMap K V × Bool :=
  match m.root with
  | none => (m, false)
  | some n => (⟨m.len, some (n.getMut p g).1⟩, (n.getMut p g).2)

/-- btree.rs:612-618 `first_key_value`; outer `none` = panic. -/
def firstKeyValue (m : BTreeMap K V) : Option (Option (K × V)) :=
  match m.root with
  | none => some none
  | some n => n.first.map some

/-- btree.rs:803-809 `last_key_value` (cannot panic). -/
def lastKeyValue (m : BTreeMap K V) : Option (K × V) := m.root.bind Node.last

/-- btree.rs:683-714 `insert`. -/
def insert [Ord K] (N : Nat) (m : BTreeMap K V) (k : K) (v : V) :
    Option (BTreeMap K V × Option V) :=
  match m.root with
  | none => some (⟨1, some (.mk [(k, v)] [])⟩, none)
  | some n =>
    match n.ins N k v with
    | none => none
    | some (.replaced o n') => some (⟨m.len, some n'⟩, some o)
    | some (.split lhs kv n') => some (⟨m.len + 1, some (.mk [kv] [lhs, n'])⟩, none)
    | some (.absorbed n') => some (⟨m.len + 1, some n'⟩, none)

/-- btree.rs:738-740 `is_empty`. -/
def isEmpty (m : BTreeMap K V) : Bool := m.len == 0

/-- btree.rs:829-834: shrink the root. -/
def shrink (b : Bool) (n : Node K V) : Option (Option (Node K V)) :=
  if b && n.elems.isEmpty then
    if 1 < n.kids.length then none else some n.kids.getLast?
  else some (some n)

/-- btree.rs:819-837 `rm_and_rebal`. -/
def rmAndRebal (m : BTreeMap K V) (remover : Node K V → Option (Option (RemRes K V))) :
    Option (BTreeMap K V × Option (K × V)) :=
  match m.root with
  | none => some (m, none)
  | some n =>
    match remover n with
    | none => none
    | some none => some (m, none)
    | some (some (kv, b, n')) =>
      if m.len = 0 then none                     -- 829: `len -= 1`
      else
        match shrink b n' with
        | none => none
        | some r => some (⟨m.len - 1, r⟩, some kv)

/-- btree.rs:839-845 `pop_first`. -/
def popFirst (N : Nat) (m : BTreeMap K V) : Option (BTreeMap K V × Option (K × V)) :=
  m.rmAndRebal (fun n => (n.popFirst N).map some)

/-- btree.rs:847-853 `pop_last`. -/
def popLast (N : Nat) (m : BTreeMap K V) : Option (BTreeMap K V × Option (K × V)) :=
  m.rmAndRebal (fun n => (n.popLast N).map some)

/-- btree.rs:888-900 `remove`. -/
def remove (N : Nat) (m : BTreeMap K V) (p : K → Ordering) : Option (BTreeMap K V × Option V) :=
  if m.containsKey p then
    (m.rmAndRebal (fun n => n.remove N p)).map (fun x => (x.1, x.2.map (·.2)))
  else some (m, none)

/-- btree.rs:982-992 `extend`. -/
def extend [Ord K] (N : Nat) : BTreeMap K V → List (K × V) → Option (BTreeMap K V)
  | m, [] => some m
  | m, e :: es =>
    match m.insert N e.1 e.2 with
    | none => none
    | some (m', _) => extend N m' es

/-- btree.rs:1007-1017 `from_iter`, 996-1005 `From<[_; M]>`. -/
def fromIter [Ord K] (N : Nat) (es : List (K × V)) : Option (BTreeMap K V) := extend N new es

end BTreeMap
end Verif.BTree
