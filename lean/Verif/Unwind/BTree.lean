import Verif.Unwind.Core
import Verif.BTree.Reach
/-!
# `BTreeMap` (src/btree.rs) when `Clone` panics

Every node that an operation makes its own by `Arc::make_mut` (or by `Arc::try_unwrap` and
`clone`) goes through `c` once: `true` means that the node was shared and that its `Clone`
panicked.  A node that the same operation has already copied is not asked again.  Which nodes are
shared is left open, so `c` stands for any sharing whatever.

A node that was copied has the contents it had before.
-/
set_option linter.unusedVariables false
namespace Verif.BTree
open Verif.Wild Verif.Unwind Std
universe w
variable {σ : Type w} {K V : Type}

namespace Node

/-- `Arc::make_mut` of a child, and `f` on what it gives. -/
def owning {R : Type} (c : Cl σ K V) (f : Node K V → σ → Option (Ends (Node K V) R × σ))
    (n : Node K V) (s : σ) : Option (Ends (Node K V) R × σ) :=
  match c n.elems s with
  | (true, s) => some (.unwound n, s)
  | (false, s) => f n s

mutual
/-- btree.rs:107-129 `Node::get_mut`, and a write. -/
def getMutC (c : Cl σ K V) (p : K → Ordering) (g : V → V) :
    Node K V → σ → Ends (Node K V) (Node K V × Bool) × σ
  | mk es ks, s =>
    if (locate p es).2 then
      (.done (mk (es.modify (locate p es).1 (fun e => (e.1, g e.2))) ks, true), s)
    else
      match getMutAtC c p g (descIdx (locate p es).1 es ks.length) ks s with
      | (.unwound ks', s) => (.unwound (mk es ks'), s)
      | (.done (ks', b), s) => (.done (mk es ks', b), s)
/-- `get_mut` on child `i`. -/
def getMutAtC (c : Cl σ K V) (p : K → Ordering) (g : V → V) :
    Nat → List (Node K V) → σ → Ends (List (Node K V)) (List (Node K V) × Bool) × σ
  | _, [], s => (.done ([], false), s)
  | 0, n :: ks, s =>
    match c n.elems s with
    | (true, s) => (.unwound (n :: ks), s)
    | (false, s) =>
      match getMutC c p g n s with
      | (.unwound n', s) => (.unwound (n' :: ks), s)
      | (.done (n', b), s) => (.done (n' :: ks, b), s)
  | i + 1, n :: ks, s =>
    match getMutAtC c p g i ks s with
    | (.unwound ks', s) => (.unwound (n :: ks'), s)
    | (.done (ks', b), s) => (.done (n :: ks', b), s)
end

mutual
/-- btree.rs:131-178 `Node::insert`. -/
def insC [Ord K] (N : Nat) (c : Cl σ K V) (k : K) (v : V) :
    Node K V → σ → Option (Ends (Node K V) (InsRes K V) × σ)
  | mk es ks, s =>
    if (locate (compare k) es).2 then
      match es[(locate (compare k) es).1]? with
      | none => none
      | some e => some (.done (.replaced e.2 (mk (es.set (locate (compare k) es).1 (k, v)) ks)), s)
    else
      match insAtC N c k v (locate (compare k) es).1 ks s with
      | none => (absorb N (locate (compare k) es).1 none (k, v) es ks).map (fun r => (.done r, s))
      | some none => none
      | some (some (.unwound n, s)) =>
        some (.unwound (mk es (ks.set (locate (compare k) es).1 n)), s)
      | some (some (.done (.split lhs kv n), s)) =>
        (absorb N (locate (compare k) es).1 (some lhs) kv es
          (ks.set (locate (compare k) es).1 n)).map (fun r => (.done r, s))
      | some (some (.done (.replaced o n), s)) =>
        some (.done (.replaced o (mk es (ks.set (locate (compare k) es).1 n))), s)
      | some (some (.done (.absorbed n), s)) =>
        some (.done (.absorbed (mk es (ks.set (locate (compare k) es).1 n))), s)
/-- `insert` on child `i` (157); `none` if there is none. -/
def insAtC [Ord K] (N : Nat) (c : Cl σ K V) (k : K) (v : V) : Nat → List (Node K V) → σ →
    Option (Option (Ends (Node K V) (InsRes K V) × σ))
  | _, [], _ => none
  | 0, n :: _, s =>
    match c n.elems s with
    | (true, s) => some (some (.unwound n, s))
    | (false, s) => some (insC N c k v n s)
  | i + 1, _ :: ks, s => insAtC N c k v i ks s
end

/-- btree.rs:323-363 `rot_lf`: `make_mut` of the right child (338) comes before any change; the left
child is the one the removal came from and has been copied. -/
def rotLfC (N : Nat) (c : Cl σ K V) (idx : Nat) (es : List (K × V)) (ks : List (Node K V)) (s : σ) :
    Option (Ends (Node K V) (Node K V) × σ) :=
  match ks[idx + 1]? with
  | none => none
  | some (mk res rks) =>
    if res.length ≤ N then none
    else
      match c res s with
      | (true, s) => some (.unwound (mk es ks), s)
      | (false, s) => (rotLf N idx es ks).map (fun n => (.done n, s))

/-- btree.rs:365-395 `rot_rt`: `make_mut` of the left child (380) comes before any change; the right
child is the one the removal came from. -/
def rotRtC (N : Nat) (c : Cl σ K V) (idx : Nat) (es : List (K × V)) (ks : List (Node K V)) (s : σ) :
    Option (Ends (Node K V) (Node K V) × σ) :=
  match ks[idx]? with
  | none => none
  | some (mk les lks) =>
    if les.length ≤ N then none
    else
      match c les s with
      | (true, s) => some (.unwound (mk es ks), s)
      | (false, s) => (rotRt N idx es ks).map (fun n => (.done n, s))

/-- btree.rs:398-425 `merge_kids`: the separator (404) and the left child (405) are taken out before
either child is copied (408, 416).  `lsh`, `rsh`: the left, the right child may be shared. -/
def mergeKidsC (c : Cl σ K V) (lsh rsh : Bool) (idx : Nat) (es : List (K × V))
    (ks : List (Node K V)) (s : σ) : Option (Ends (Node K V) (Node K V) × σ) :=
  match vRemove idx es with
  | none => none
  | some (mid, es') =>
    match vRemove idx ks with
    | none => none
    | some (mk les lks, ks') =>
      match cloneIf c lsh les s with
      | (true, s) => some (.unwound (mk es' ks'), s)
      | (false, s) =>
        match ks'[idx]? with
        | none => none
        | some (mk res rks) =>
          match cloneIf c rsh res s with
          | (true, s) => some (.unwound (mk es' ks'), s)
          | (false, s) =>
            some (.done (mk es' (ks'.set idx (mk (les ++ mid :: res) (lks ++ rks)))), s)

/-- btree.rs:428-449 `rebal`; child `at_` has been copied. -/
def rebalC (N : Nat) (c : Cl σ K V) (at_ : Nat) (es : List (K × V)) (ks : List (Node K V)) (s : σ) :
    Option (Ends (Node K V) (Node K V) × σ) :=
  if ks.isEmpty then none
  else if 0 < at_ then
    match kidLen ks (at_ - 1) with
    | none => none
    | some len =>
      if N + 1 < len then rotRtC N c (at_ - 1) es ks s
      else mergeKidsC c true false (at_ - 1) es ks s
  else
    match kidLen ks (at_ + 1) with
    | none => none
    | some len =>
      if N + 1 < len then rotLfC N c at_ es ks s else mergeKidsC c false true at_ es ks s

/-- btree.rs:505-509, 460-464, 481-485. -/
def afterKidC (N : Nat) (c : Cl σ K V) (i : Nat) (kv : K × V) (b : Bool) (es : List (K × V))
    (ks : List (Node K V)) (s : σ) : Option (Ends (Node K V) (RemRes K V) × σ) :=
  if b then
    match rebalC N c i es ks s with
    | none => none
    | some (.unwound n, s) => some (.unwound n, s)
    | some (.done n, s) => some (.done (kv, under N n, n), s)
  else some (.done (kv, false, mk es ks), s)

mutual
/-- btree.rs:451-470 `pop_first`. -/
def popFirstC (N : Nat) (c : Cl σ K V) : Node K V → σ → Option (Ends (Node K V) (RemRes K V) × σ)
  | mk es ks, s =>
    match popFirstAtC N c ks s with
    | none =>
      match vRemove 0 es with
      | none => none
      | some (kv, es') => some (.done (kv, decide (es'.length < N), mk es' []), s)
    | some none => none
    | some (some (.unwound n, s)) => some (.unwound (mk es (ks.set 0 n)), s)
    | some (some (.done (kv, b, n), s)) => afterKidC N c 0 kv b es (ks.set 0 n) s
/-- `pop_first` on the first child. -/
def popFirstAtC (N : Nat) (c : Cl σ K V) :
    List (Node K V) → σ → Option (Option (Ends (Node K V) (RemRes K V) × σ))
  | [], _ => none
  | n :: _, s =>
    match c n.elems s with
    | (true, s) => some (some (.unwound n, s))
    | (false, s) => some (popFirstC N c n s)
end

mutual
/-- btree.rs:472-491 `pop_last`. -/
def popLastC (N : Nat) (c : Cl σ K V) : Node K V → σ → Option (Ends (Node K V) (RemRes K V) × σ)
  | mk es ks, s =>
    match popLastAtC N c ks s with
    | none =>
      match vPop es with
      | none => none
      | some (kv, es') => some (.done (kv, decide (es'.length < N), mk es' []), s)
    | some none => none
    | some (some (.unwound n, s)) => some (.unwound (mk es (ks.set (ks.length - 1) n)), s)
    | some (some (.done (kv, b, n), s)) =>
      afterKidC N c es.length kv b es (ks.set (ks.length - 1) n) s
/-- `pop_last` on the last child. -/
def popLastAtC (N : Nat) (c : Cl σ K V) :
    List (Node K V) → σ → Option (Option (Ends (Node K V) (RemRes K V) × σ))
  | [], _ => none
  | [n], s =>
    match c n.elems s with
    | (true, s) => some (some (.unwound n, s))
    | (false, s) => some (popLastC N c n s)
  | _ :: n :: ks, s => popLastAtC N c (n :: ks) s
end

mutual
/-- btree.rs:493-543 `Node::remove`. -/
def removeC (N : Nat) (c : Cl σ K V) (p : K → Ordering) :
    Node K V → σ → Option (Ends (Node K V) (Option (RemRes K V)) × σ)
  | mk es ks, s =>
    if (locate p es).2 then
      if ks.isEmpty then
        match vRemove (locate p es).1 es with
        | none => none
        | some (kv, es') => some (.done (some (kv, decide (es'.length < N), mk es' ks)), s)
      else
        match ks[(locate p es).1]? with
        | none => none
        | some n =>
          match owning c (popLastC N c) n s with
          | none => none
          | some (.unwound n, s) => some (.unwound (mk es (ks.set (locate p es).1 n)), s)
          | some (.done (kv, b, n), s) =>
            match es[(locate p es).1]? with
            | none => none
            | some old =>
              match afterKidC N c (locate p es).1 old b (es.set (locate p es).1 kv)
                (ks.set (locate p es).1 n) s with
              | none => none
              | some (.unwound n, s) => some (.unwound n, s)
              | some (.done r, s) => some (.done (some r), s)
    else
      match removeAtC N c p (descIdx (locate p es).1 es ks.length) ks s with
      | none => some (.done none, s)
      | some none => none
      | some (some (.unwound n, s)) =>
        some (.unwound (mk es (ks.set (descIdx (locate p es).1 es ks.length) n)), s)
      | some (some (.done none, s)) => some (.done none, s)
      | some (some (.done (some (kv, b, n)), s)) =>
        match afterKidC N c (locate p es).1 kv b es
          (ks.set (descIdx (locate p es).1 es ks.length) n) s with
        | none => none
        | some (.unwound n, s) => some (.unwound n, s)
        | some (.done r, s) => some (.done (some r), s)
/-- `remove` on child `i`. -/
def removeAtC (N : Nat) (c : Cl σ K V) (p : K → Ordering) : Nat → List (Node K V) → σ →
    Option (Option (Ends (Node K V) (Option (RemRes K V)) × σ))
  | _, [], _ => none
  | 0, n :: _, s =>
    match c n.elems s with
    | (true, s) => some (some (.unwound n, s))
    | (false, s) => some (removeC N c p n s)
  | i + 1, _ :: ks, s => removeAtC N c p i ks s
end

end Node
open Node

namespace BTreeMap

/-- btree.rs:662-671 `get_mut`, and a write. -/
def getMutC (c : Cl σ K V) (p : K → Ordering) (g : V → V) (m : BTreeMap K V) (s : σ) :
    Option (Ends (BTreeMap K V) (BTreeMap K V × Bool) × σ) :=
  match m.root with
  | none => some (.done (m, false), s)
  | some n =>
    match c n.elems s with
    | (true, s) => some (.unwound m, s)
    | (false, s) =>
      match n.getMutC c p g s with
      | (.unwound n, s) => some (.unwound ⟨m.len, some n⟩, s)
      | (.done (n, b), s) => some (.done (⟨m.len, some n⟩, b), s)

/-- btree.rs:683-714 `insert`. -/
def insertC [Ord K] (N : Nat) (c : Cl σ K V) (k : K) (v : V) (m : BTreeMap K V) (s : σ) :
    Option (Ends (BTreeMap K V) (BTreeMap K V × Option V) × σ) :=
  match m.root with
  | none => some (.done (⟨1, some (.mk [(k, v)] [])⟩, none), s)
  | some n =>
    match owning c (insC N c k v) n s with
    | none => none
    | some (.unwound n, s) => some (.unwound ⟨m.len, some n⟩, s)
    | some (.done (.absorbed n'), s) => some (.done (⟨m.len + 1, some n'⟩, none), s)
    | some (.done (.replaced o n'), s) => some (.done (⟨m.len, some n'⟩, some o), s)
    | some (.done (.split lhs kv n'), s) =>
      some (.done (⟨m.len + 1, some (.mk [kv] [lhs, n'])⟩, none), s)

/-- btree.rs:819-837 `rm_and_rebal`: `len` (829) is changed only after the remover has returned. -/
def rmAndRebalC (c : Cl σ K V) (m : BTreeMap K V)
    (remover : Node K V → σ → Option (Ends (Node K V) (Option (RemRes K V)) × σ)) (s : σ) :
    Option (Ends (BTreeMap K V) (BTreeMap K V × Option (K × V)) × σ) :=
  match m.root with
  | none => some (.done (m, none), s)
  | some n =>
    match owning c remover n s with
    | none => none
    | some (.unwound n, s) => some (.unwound ⟨m.len, some n⟩, s)
    | some (.done r, s) => (m.rmAndRebal (fun _ => some r)).map (fun x => (.done x, s))

/-- A remover that always finds something. -/
def always {R : Type} : Option (Ends (Node K V) R × σ) → Option (Ends (Node K V) (Option R) × σ)
  | none => none
  | some (.unwound n, s) => some (.unwound n, s)
  | some (.done r, s) => some (.done (some r), s)

/-- btree.rs:888-900 `remove` (the entry is kept), 839-845 `pop_first`, 847-853 `pop_last`. -/
def takeC (N : Nat) (c : Cl σ K V) (w : Which K) (m : BTreeMap K V) (s : σ) :
    Option (Ends (BTreeMap K V) (BTreeMap K V × Option (K × V)) × σ) :=
  match w with
  | .key p =>
    if m.containsKey p then m.rmAndRebalC c (removeC N c p) s else some (.done (m, none), s)
  | .first => m.rmAndRebalC c (fun n s => always (popFirstC N c n s)) s
  | .last => m.rmAndRebalC c (fun n s => always (popLastC N c n s)) s

/-- The operations of `BTreeMap`; a clone is equal to the map. -/
def kit [Ord K] (N : Nat) : Kit σ K V (BTreeMap K V) (Which K) :=
  ⟨new, id, insertC N, getMutC, takeC N⟩

/-- What the removal does when nothing panics. -/
def take (N : Nat) (w : Which K) (m : BTreeMap K V) : Option (BTreeMap K V × Option (K × V)) :=
  match w with
  | .key p => if m.containsKey p then m.rmAndRebal (fun n => n.remove N p) else some (m, none)
  | .first => m.popFirst N
  | .last => m.popLast N

end BTreeMap
end Verif.BTree
