import Verif.Unwind.Core
import Verif.Fixed.Reach
/-!
# The fixed-layout B-tree (src/btree/core.rs, src/btree/fixed.rs) when `Clone` panics

As in `Verif.Unwind.BTree`: every node that an operation makes its own goes through `c` once, where
`true` means that the node was shared and that its `Clone` panicked.  `InlineVec::clone`
(core.rs:211-222) that panics half-way leaks what it has cloned and changes nothing else.
-/
set_option linter.unusedVariables false
namespace Verif.Fixed
open Verif.BTree Verif.BTree.Node Verif.Wild Verif.Unwind
universe w
variable {σ : Type w} {K V : Type}

/-- `Arc::make_mut` of a node, and `f` on what it gives. -/
def owning {R : Type} (c : Cl σ K V) (f : Node K V → σ → Option (Ends (Node K V) R × σ))
    (n : Node K V) (s : σ) : Option (Ends (Node K V) R × σ) :=
  match c n.elems s with
  | (true, s) => some (.unwound n, s)
  | (false, s) => f n s

mutual
/-- core.rs:379-389 `get_mut`, followed by a write `g` through the reference. -/
def getMutC (lin : Bool) (c : Cl σ K V) (p : K → Ordering) (g : V → V) :
    Node K V → σ → Option (Ends (Node K V) (Node K V × Bool) × σ)
  | mk es ks, s =>
    match searchKeys lin p es with
    | none => none
    | some (i, true) => (es[i]?).map (fun e => (.done (mk (es.set i (e.1, g e.2)) ks, true), s))
    | some (i, false) =>
      match getMutAtC lin c p g i ks s with
      | none => some (.done (mk es ks, false), s)
      | some none => none
      | some (some (.unwound n, s)) => some (.unwound (mk es (ks.set i n)), s)
      | some (some (.done (n, b), s)) => some (.done (mk es (ks.set i n), b), s)
/-- `get_mut` on child `i` (387). -/
def getMutAtC (lin : Bool) (c : Cl σ K V) (p : K → Ordering) (g : V → V) : Nat → List (Node K V) → σ →
    Option (Option (Ends (Node K V) (Node K V × Bool) × σ))
  | _, [], _ => none
  | 0, n :: _, s =>
    match c n.elems s with
    | (true, s) => some (some (.unwound n, s))
    | (false, s) => some (getMutC lin c p g n s)
  | i + 1, _ :: ks, s => getMutAtC lin c p g i ks s
end

mutual
/-- core.rs:391-424 `insert`. -/
def insC [Ord K] (lin : Bool) (c : Cl σ K V) (k : K) (v : V) :
    Node K V → σ → Option (Ends (Node K V) (InsRes K V) × σ)
  | mk es ks, s =>
    match searchKeys lin (compare k) es with
    | none => none
    | some (i, true) =>
      match es[i]? with
      | none => none
      | some e => some (.done (.replaced e.2 (mk (es.set i (k, v)) ks)), s)
    | some (i, false) =>
      match insAtC lin c k v i ks s with
      | none => (absorb i none (k, v) es ks).map (fun r => (.done r, s))
      | some none => none
      | some (some (.unwound n, s)) => some (.unwound (mk es (ks.set i n)), s)
      | some (some (.done (.split lhs kv n), s)) =>
        (absorb i (some lhs) kv es (ks.set i n)).map (fun r => (.done r, s))
      | some (some (.done (.replaced o n), s)) =>
        some (.done (.replaced o (mk es (ks.set i n))), s)
      | some (some (.done (.absorbed n), s)) => some (.done (.absorbed (mk es (ks.set i n))), s)
/-- `insert` on child `i` (409). -/
def insAtC [Ord K] (lin : Bool) (c : Cl σ K V) (k : K) (v : V) : Nat → List (Node K V) → σ →
    Option (Option (Ends (Node K V) (InsRes K V) × σ))
  | _, [], _ => none
  | 0, n :: _, s =>
    match c n.elems s with
    | (true, s) => some (some (.unwound n, s))
    | (false, s) => some (insC lin c k v n s)
  | i + 1, _ :: ks, s => insAtC lin c k v i ks s
end

/-- core.rs:518-551 `rot_lf`: `make_mut` of the right child comes before any change; the left child
is the one the removal came from and has been copied. -/
def rotLfC (c : Cl σ K V) (idx : Nat) (es : List (K × V)) (ks : List (Node K V)) (s : σ) :
    Option (Ends (Node K V) (Node K V) × σ) :=
  match ks[idx + 1]? with
  | none => none
  | some (mk res rks) =>
    if res.length ≤ MIN then none
    else
      match c res s with
      | (true, s) => some (.unwound (mk es ks), s)
      | (false, s) => (rotLf idx es ks).map (fun n => (.done n, s))

/-- core.rs:553-583 `rot_rt`: `make_mut` of the left child (568) comes before any change; the right
child is the one the removal came from. -/
def rotRtC (c : Cl σ K V) (idx : Nat) (es : List (K × V)) (ks : List (Node K V)) (s : σ) :
    Option (Ends (Node K V) (Node K V) × σ) :=
  match ks[idx]? with
  | none => none
  | some (mk les lks) =>
    if les.length ≤ MIN then none
    else
      match c les s with
      | (true, s) => some (.unwound (mk es ks), s)
      | (false, s) => (rotRt idx es ks).map (fun n => (.done n, s))

/-- core.rs:586-641 `merge_kids`: the right child is taken out (595) before it is copied (598), and
the separator (601) before the left child is copied (604).  `lsh`, `rsh`: the left, the right child
may be shared. -/
def mergeKidsC (c : Cl σ K V) (lsh rsh : Bool) (at_ : Nat) (es : List (K × V))
    (ks : List (Node K V)) (s : σ) : Option (Ends (Node K V) (Node K V) × σ) :=
  if ks.isEmpty then none
  else
    match kRemove (at_ + 1) ks with
    | none => none
    | some (mk res rks, ks') =>
      match cloneIf c rsh res s with
      | (true, s) => some (.unwound (mk es ks'), s)
      | (false, s) =>
        match ivRemove MAX at_ es with
        | none => none
        | some (mid, es') =>
          match ks'[at_]? with
          | none => none
          | some (mk les lks) =>
            match cloneIf c lsh les s with
            | (true, s) => some (.unwound (mk es' ks'), s)
            | (false, s) => (mergeKids at_ es ks).map (fun n => (.done n, s))

/-- core.rs:644-672 `rebal`; child `at_` has been copied. -/
def rebalC (c : Cl σ K V) (at_ : Nat) (es : List (K × V)) (ks : List (Node K V)) (s : σ) :
    Option (Ends (Node K V) (Node K V) × σ) :=
  if ks.isEmpty then none
  else if kidLen ks at_ ≠ some (MIN - 1) then none
  else if 0 < at_ then
    match kidLen ks (at_ - 1) with
    | none => none
    | some len =>
      if MAX - MIN < len then rotRtC c (at_ - 1) es ks s
      else mergeKidsC c true false (at_ - 1) es ks s
  else
    match kidLen ks (at_ + 1) with
    | none => none
    | some len =>
      if MAX - MIN < len then rotLfC c at_ es ks s else mergeKidsC c false true at_ es ks s

/-- core.rs:683-687, 718-722, 729. -/
def afterKidC (c : Cl σ K V) (i : Nat) (kv : K × V) (b : Bool) (es : List (K × V))
    (ks : List (Node K V)) (s : σ) : Option (Ends (Node K V) (RemRes K V) × σ) :=
  if b then
    match rebalC c i es ks s with
    | none => none
    | some (.unwound n, s) => some (.unwound n, s)
    | some (.done n, s) => some (.done (kv, under MIN n, n), s)
  else some (.done (kv, false, mk es ks), s)

mutual
/-- core.rs:674-693 `pop_greatest`. -/
def popGreatestC (c : Cl σ K V) : Node K V → σ → Option (Ends (Node K V) (RemRes K V) × σ)
  | mk es ks, s =>
    match popGreatestAtC c ks s with
    | none =>
      match ivPop MAX es with
      | none => none
      | some (kv, es') => some (.done (kv, decide (es'.length < MIN), mk es' []), s)
    | some none => none
    | some (some (.unwound n, s)) => some (.unwound (mk es (ks.set (ks.length - 1) n)), s)
    | some (some (.done (kv, b, n), s)) =>
      afterKidC c es.length kv b es (ks.set (ks.length - 1) n) s
/-- `pop_greatest` on the last child. -/
def popGreatestAtC (c : Cl σ K V) :
    List (Node K V) → σ → Option (Option (Ends (Node K V) (RemRes K V) × σ))
  | [], _ => none
  | [n], s =>
    match c n.elems s with
    | (true, s) => some (some (.unwound n, s))
    | (false, s) => some (popGreatestC c n s)
  | _ :: n :: ks, s => popGreatestAtC c (n :: ks) s
end

mutual
/-- core.rs:695-732 `remove`: inner `none` = not found. -/
def removeC (lin : Bool) (c : Cl σ K V) (p : K → Ordering) :
    Node K V → σ → Option (Ends (Node K V) (Option (RemRes K V)) × σ)
  | mk es ks, s =>
    match searchKeys lin p es with
    | none => none
    | some (i, true) =>
      if ks.isEmpty then
        match ivRemove MAX i es with
        | none => none
        | some (kv, es') => some (.done (some (kv, decide (es'.length < MIN), mk es' ks)), s)
      else
        match ks[i]? with
        | none => none
        | some n =>
          match owning c (popGreatestC c) n s with
          | none => none
          | some (.unwound n, s) => some (.unwound (mk es (ks.set i n)), s)
          | some (.done (kv, b, n), s) =>
            match es[i]? with
            | none => none
            | some old =>
              match afterKidC c i old b (es.set i kv) (ks.set i n) s with
              | none => none
              | some (.unwound n, s) => some (.unwound n, s)
              | some (.done r, s) => some (.done (some r), s)
    | some (i, false) =>
      match removeAtC lin c p i ks s with
      | none => some (.done none, s)
      | some none => none
      | some (some (.unwound n, s)) => some (.unwound (mk es (ks.set i n)), s)
      | some (some (.done none, s)) => some (.done none, s)
      | some (some (.done (some (kv, b, n)), s)) =>
        match afterKidC c i kv b es (ks.set i n) s with
        | none => none
        | some (.unwound n, s) => some (.unwound n, s)
        | some (.done r, s) => some (.done (some r), s)
/-- `remove` on child `i` (727). -/
def removeAtC (lin : Bool) (c : Cl σ K V) (p : K → Ordering) : Nat → List (Node K V) → σ →
    Option (Option (Ends (Node K V) (Option (RemRes K V)) × σ))
  | _, [], _ => none
  | 0, n :: _, s =>
    match c n.elems s with
    | (true, s) => some (some (.unwound n, s))
    | (false, s) => some (removeC lin c p n s)
  | i + 1, _ :: ks, s => removeAtC lin c p i ks s
end

namespace FMap

/-- fixed.rs:31-40 `get_mut`, followed by a write. -/
def getMutC (lin : Bool) (c : Cl σ K V) (p : K → Ordering) (g : V → V) (m : FMap K V) (s : σ) :
    Option (Ends (FMap K V) (FMap K V × Bool) × σ) :=
  match m.root with
  | none => some (.done (m, false), s)
  | some n =>
    match owning c (Fixed.getMutC lin c p g) n s with
    | none => none
    | some (.unwound n, s) => some (.unwound ⟨some n, m.len⟩, s)
    | some (.done (n, b), s) => some (.done (⟨some n, m.len⟩, b), s)

/-- fixed.rs:42-73 `insert`. -/
def insertC [Ord K] (lin : Bool) (c : Cl σ K V) (k : K) (v : V) (m : FMap K V) (s : σ) :
    Option (Ends (FMap K V) (FMap K V × Option V) × σ) :=
  match m.root with
  | none =>
    match ivPush MAX (k, v) [] with
    | none => none
    | some es => some (.done (⟨some (Node.mk es []), 1⟩, none), s)
  | some n =>
    match owning c (insC lin c k v) n s with
    | none => none
    | some (.unwound n, s) => some (.unwound ⟨some n, m.len⟩, s)
    | some (.done (.absorbed n'), s) => some (.done (⟨some n', m.len + 1⟩, none), s)
    | some (.done (.replaced o n'), s) => some (.done (⟨some n', m.len⟩, some o), s)
    | some (.done (.split lhs kv n'), s) =>
      match ivPush MAX kv [], (kPush lhs []).bind (kPush n') with
      | some es, some ks => some (.done (⟨some (Node.mk es ks), m.len + 1⟩, none), s)
      | _, _ => none

/-- fixed.rs:121-133 `remove`; the key is kept in the result.  `len` (112) is changed only after the
remover has returned. -/
def takeC (lin : Bool) (c : Cl σ K V) (p : K → Ordering) (m : FMap K V) (s : σ) :
    Option (Ends (FMap K V) (FMap K V × Option (K × V)) × σ) :=
  match m.root with
  | none => some (.done (m, none), s)
  | some n =>
    match owning c (Fixed.removeC lin c p) n s with
    | none => none
    | some (.unwound n, s) => some (.unwound ⟨some n, m.len⟩, s)
    | some (.done none, s) => some (.done (m, none), s)
    | some (.done (some r), s) => (m.rmAndRebal (some (some r))).map (fun x => (.done x, s))

/-- The operations of the map; a clone is equal to it. -/
def kit [Ord K] (lin : Bool) : Kit σ K V (FMap K V) (K → Ordering) :=
  ⟨new, id, insertC lin, getMutC lin, takeC lin⟩

/-- What the removal does when nothing panics. -/
def take (lin : Bool) (p : K → Ordering) (m : FMap K V) : Option (FMap K V × Option (K × V)) :=
  match m.root with
  | none => some (m, none)
  | some n => m.rmAndRebal (Fixed.remove lin p n)

end FMap
end Verif.Fixed
