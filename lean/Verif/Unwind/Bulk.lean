import Verif.Unwind.AvlAlone
import Verif.Unwind.BTreeSpec
import Verif.Unwind.Into
/-!
# `append`, `retain` and `split_off` when `Clone` panics

The functions of `AvlMap` take whole trees by value, so a panic drops all that they were working on:
they end with `unwound ()` and leave nothing.  What the maps hold then depends on the callers
(`SMap.appendC`, `SMap.splitOffC`, `SMap.retainC`), which take the roots out first.

Those of `BTreeMap` take the entries out of the map one by one with `into_iter` and put them into
another.

Simplifications: `Drop` does not panic; the closure of `retain` does not panic (C24 has that).  The
clone of a value alone and of a key alone (avl.rs:710, 713) are each a step of `Cl`.
-/
set_option linter.unusedVariables false
namespace Verif.Unwind
open Verif.Wild
universe w
variable {σ : Type w} {K V : Type}

/-- One computation after another; the first may be unwound. -/
def andThen {U A B : Type} (x : Option (Ends U A × σ)) (f : A → σ → Option (Ends U B × σ)) :
    Option (Ends U B × σ) :=
  match x with
  | none => none
  | some (.unwound u, s) => some (.unwound u, s)
  | some (.done a, s) => f a s

/-- What is left behind is dropped, too. -/
def lost {U A : Type} : Option (Ends U A × σ) → Option (Ends Unit A × σ)
  | none => none
  | some (.unwound _, s) => some (.unwound (), s)
  | some (.done a, s) => some (.done a, s)

/-- Copies the entry of a node that is shared. -/
def copyIf (c : Cl σ K V) (sh : Bool) (e : K × V) (s : σ) : Option (Ends Unit Unit × σ) :=
  match cloneIf c sh [e] s with
  | (true, s) => some (.unwound (), s)
  | (false, s) => some (.done (), s)

end Verif.Unwind

namespace Verif.Avl
open Verif.Wild Verif.Unwind
universe w
variable {σ : Type w} {K V : Type}

namespace STree

/-- avl.rs:105-107, 317-319 `height`. -/
def height (t : STree K V) : Int := t.erase.height

/-- avl.rs:74-92 `Node::new`/`opt_new`. -/
def mk (k : K) (v : V) (l r : STree K V) : STree K V := node false k v l.height r.height l r

/-- avl.rs:719-757 `join_rt`, with the assertion of line 725 and the `make_mut` of 729. -/
def joinRtC (c : Cl σ K V) (k : K) (v : V) (right : STree K V) (up : Bool) :
    STree K V → σ → Option (Ends Unit (STree K V) × σ)
  | nil, _ => none
  | node sh lk lv lh rh l x, s =>
    if (node sh lk lv lh rh l x).height > right.height + 1 then
      andThen (copyIf c (sh || up) (lk, lv) s) fun _ s =>
        if x.height ≤ right.height + 1 then
          if Tree.isBal ((mk k v (x.shareIf (sh || up)) right).height - lh) then
            some (.done (node false lk lv lh (mk k v (x.shareIf (sh || up)) right).height
              (l.shareIf (sh || up)) (mk k v (x.shareIf (sh || up)) right)), s)
          else
            andThen (lost (rotRtC c (mk k v (x.shareIf (sh || up)) right) s)) fun y s =>
              andThen (lost (rotLfC c (node false lk lv lh
                (if y.2 then (mk k v (x.shareIf (sh || up)) right).height - 1
                  else (mk k v (x.shareIf (sh || up)) right).height)
                (l.shareIf (sh || up)) y.1) s)) fun z s => some (.done z.1, s)
        else
          andThen (joinRtC c k v right (sh || up) x s) fun t1 s =>
            if Tree.isBal (t1.height - lh) then
              some (.done (node false lk lv lh t1.height (l.shareIf (sh || up)) t1), s)
            else
              andThen (lost (rotLfC c (node false lk lv lh t1.height (l.shareIf (sh || up)) t1) s))
                fun z s => some (.done z.1, s)
    else none

/-- avl.rs:759-798 `join_lf`, with the assertions of lines 765 and 785. -/
def joinLfC (c : Cl σ K V) (k : K) (v : V) (left : STree K V) (up : Bool) :
    STree K V → σ → Option (Ends Unit (STree K V) × σ)
  | nil, _ => none
  | node sh rk rv lh rh x r, s =>
    if (node sh rk rv lh rh x r).height > left.height + 1 then
      andThen (copyIf c (sh || up) (rk, rv) s) fun _ s =>
        if x.height ≤ left.height + 1 then
          if Tree.isBal (rh - (mk k v left (x.shareIf (sh || up))).height) then
            some (.done (node false rk rv (mk k v left (x.shareIf (sh || up))).height rh
              (mk k v left (x.shareIf (sh || up))) (r.shareIf (sh || up))), s)
          else
            andThen (lost (rotLfC c (mk k v left (x.shareIf (sh || up))) s)) fun y s =>
              andThen (lost (rotRtC c (node false rk rv
                (if y.2 then (mk k v left (x.shareIf (sh || up))).height - 1
                  else (mk k v left (x.shareIf (sh || up))).height)
                rh y.1 (r.shareIf (sh || up))) s)) fun z s =>
                  match z.1.bal? with
                  | none => none
                  | some b => if Tree.isBal b then some (.done z.1, s) else none
        else
          andThen (joinLfC c k v left (sh || up) x s) fun t1 s =>
            if Tree.isBal (rh - t1.height) then
              some (.done (node false rk rv t1.height rh t1 (r.shareIf (sh || up))), s)
            else
              andThen (lost (rotRtC c (node false rk rv t1.height rh t1 (r.shareIf (sh || up))) s))
                fun z s => some (.done z.1, s)
    else none

/-- avl.rs:802-816 `join`. -/
def joinC (c : Cl σ K V) (l : STree K V) (k : K) (v : V) (r : STree K V) (s : σ) :
    Option (Ends Unit (STree K V) × σ) :=
  if r.height - l.height < -1 then joinRtC c k v r false l s
  else if r.height - l.height > 1 then joinLfC c k v l false r s
  else some (.done (mk k v l r), s)

/-- avl.rs:818-833 `join2`. -/
def join2C (c : Cl σ K V) (l : STree K V) (kv : Option (K × V)) (r : STree K V) (s : σ) :
    Option (Ends Unit (STree K V) × σ) :=
  match kv with
  | some (k, v) => joinC c l k v r s
  | none =>
    if l.isNil then some (.done r, s)
    else if r.isNil then some (.done l, s)
    else
      andThen (lost (rmLeftmostC c false r s)) fun x s =>
        match x.2.1 with
        | none => none
        | some (k, v) => joinC c l k v x.1 s

/-- avl.rs:945-979 `split`; a shared node is cloned (963). -/
def splitC (c : Cl σ K V) (p : K → Ordering) (up : Bool) :
    STree K V → σ → Option (Ends Unit (STree K V × Option (K × V) × STree K V) × σ)
  | nil, s => some (.done (nil, none, nil), s)
  | node sh k v _ _ l r, s =>
    andThen (copyIf c (sh || up) (k, v) s) fun _ s =>
      match p k with
      | .eq => some (.done (l.shareIf (sh || up), some (k, v), r.shareIf (sh || up)), s)
      | .lt =>
        andThen (splitC c p (sh || up) l s) fun x s =>
          andThen (joinC c x.2.2 k v (r.shareIf (sh || up)) s) fun t s =>
            some (.done (x.1, x.2.1, t), s)
      | .gt =>
        andThen (splitC c p (sh || up) r s) fun x s =>
          andThen (joinC c (l.shareIf (sh || up)) k v x.1 s) fun t s =>
            some (.done (t, x.2.1, x.2.2), s)

/-- avl.rs:856-884 `Merger::merge`; a shared node of the first tree is cloned (871-874). -/
def mergeC [Ord K] (c : Cl σ K V) (keepL keepR : Bool) (dec : K × V → K × V → Option (K × V))
    (up : Bool) : STree K V → STree K V → σ → Option (Ends Unit (STree K V) × σ)
  | nil, t2, s => some (.done (if keepR then t2 else nil), s)
  | node sh k v lh rh l r, t2, s =>
    if t2.isNil then
      some (.done (if keepL then (node sh k v lh rh l r).shareIf up else nil), s)
    else
      andThen (copyIf c (sh || up) (k, v) s) fun _ s =>
        andThen (splitC c (compare k) false t2 s) fun x s =>
          andThen (mergeC c keepL keepR dec (sh || up) l x.1 s) fun l' s =>
            andThen (mergeC c keepL keepR dec (sh || up) r x.2.2 s) fun r' s =>
              join2C c l' (match x.2.1 with
                | none => if keepL then some (k, v) else none
                | some e2 => dec (k, v) e2) r' s

/-- avl.rs:930-942 `union`. -/
def unionC [Ord K] (c : Cl σ K V) (t1 t2 : STree K V) (s : σ) : Option (Ends Unit (STree K V) × σ) :=
  mergeC c true true (fun _ r => some r) false t1 t2 s

/-- avl.rs:697-717 `retain`.  The node stays as it is: its value is cloned (710), and its key if it
is kept (713), whether it is shared or not. -/
def retainC {τ : Type} (c : Cl σ K V) (f : τ → K → V → τ × V × Bool) :
    STree K V → τ → σ → Option (Ends Unit (τ × STree K V × Nat) × σ)
  | nil, t, s => some (.done (t, nil, 0), s)
  | node _ k v _ _ l r, t, s =>
    andThen (retainC c f l t s) fun x s =>
      andThen (retainC c f r x.1 s) fun y s =>
        andThen (copyIf c true (k, v) s) fun _ s =>
          if (f y.1 k v).2.2 then
            andThen (copyIf c true (k, v) s) fun _ s =>
              andThen (joinC c x.2.1 k (f y.1 k v).2.1 y.2.1 s) fun z s =>
                some (.done ((f y.1 k v).1, z, x.2.2 + y.2.2 + 1), s)
          else
            andThen (join2C c x.2.1 none y.2.1 s) fun z s =>
              some (.done ((f y.1 k v).1, z, x.2.2 + y.2.2), s)

end STree

namespace SMap

/-- avl.rs:998-1006 `append`: both roots are taken before `union` is called (1003), and both lengths
are set after it (1004-1005). -/
def appendC [Ord K] (c : Cl σ K V) (m other : SMap K V) (s : σ) :
    Option (Ends (SMap K V × SMap K V) (SMap K V × SMap K V) × σ) :=
  match STree.unionC c m.root other.root s with
  | none => none
  | some (.unwound _, s) => some (.unwound (⟨m.len, .nil⟩, ⟨other.len, .nil⟩), s)
  | some (.done t, s) => some (.done (⟨t.erase.size, t⟩, ⟨0, .nil⟩), s)

/-- avl.rs:1759-1768 `retain`: the root is taken (1765), the length set at the end (1767). -/
def retainC {τ : Type} (c : Cl σ K V) (m : SMap K V) (f : τ → K → V → τ × V × Bool) (t : τ)
    (s : σ) : Option (Ends (SMap K V) (τ × SMap K V) × σ) :=
  match m.root.retainC c f t s with
  | none => none
  | some (.unwound _, s) => some (.unwound ⟨m.len, .nil⟩, s)
  | some (.done (t, r, n), s) => some (.done (t, ⟨n, r⟩), s)

/-- avl.rs:1784-1806 `split_off`.  The root is taken (1790); after the split the map has its part
and its length (1795-1796), so a panic in `ins` (1799) leaves those. -/
def splitOffC [Ord K] (c : Cl σ K V) (m : SMap K V) (p : K → Ordering) (s : σ) :
    Option (Ends (SMap K V) (SMap K V × SMap K V) × σ) :=
  match m.root.splitC c p false s with
  | none => none
  | some (.unwound _, s) => some (.unwound ⟨m.len, .nil⟩, s)
  | some (.done (lhs, kv, rhs), s) =>
    if m.len < lhs.erase.size then none
    else
      match kv with
      | none => some (.done (⟨lhs.erase.size, lhs⟩, ⟨m.len - lhs.erase.size, rhs⟩), s)
      | some (k, v) =>
        match rhs.insC c k v false s with
        | none => none
        | some (.unwound _, s) => some (.unwound ⟨lhs.erase.size, lhs⟩, s)
        | some (.done x, s) =>
          some (.done (⟨lhs.erase.size, lhs⟩, ⟨m.len - lhs.erase.size, x.1⟩), s)

end SMap
end Verif.Avl

namespace Verif.BTree
open Verif.Wild Verif.Unwind
universe w
variable {σ : Type w} {K V : Type}

namespace BTreeMap

/-- `Iterator::fold` over `into_iter` (btree.rs:1341-1365): `f` is what is done with an entry; a
panic in `next` drops the iterator.  `fuel` exceeds the number of entries. -/
def feedC {A : Type} (c : Cl σ K V) (f : A → K × V → σ → Option (Ends A A × σ)) :
    Nat → InnerIter (IntoErg K V) → A → σ → Option (Ends A A × σ)
  | 0, _, _, _ => none
  | fuel + 1, it, a, s =>
    match BTreeInto.nextC intoOps c it s with
    | none => none
    | some (.unwound _, s) => some (.unwound a, s)
    | some (.done (none, _), s) => some (.done a, s)
    | some (.done (some e, it), s) =>
      match f a e s with
      | none => none
      | some (.unwound a, s) => some (.unwound a, s)
      | some (.done a, s) => feedC c f fuel it a s

/-- `insert` without its result. -/
def putC [Ord K] (N : Nat) (c : Cl σ K V) (m : BTreeMap K V) (e : K × V) (s : σ) :
    Option (Ends (BTreeMap K V) (BTreeMap K V) × σ) :=
  Kit.res (m.insertC N c e.1 e.2 s)

/-- btree.rs:553-559 `append`: `other` is taken (558), `self` extended (978-987).  What the two maps
are, after a panic and otherwise. -/
def appendC [Ord K] (N : Nat) (c : Cl σ K V) (o : Sharing K V) (m other : BTreeMap K V) (s : σ) :
    Option (Ends (BTreeMap K V × BTreeMap K V) (BTreeMap K V × BTreeMap K V) × σ) :=
  match feedC c (putC N c) (other.len + 1) (other.intoIter o) m s with
  | none => none
  | some (.unwound m, s) => some (.unwound (m, new), s)
  | some (.done m, s) => some (.done (m, new), s)

/-- btree.rs:913-921: what the closure of `filter_map` and `collect` do with an entry. -/
def keepC [Ord K] {τ : Type} (N : Nat) (c : Cl σ K V) (f : τ → K → V → τ × V × Bool)
    (a : τ × BTreeMap K V) (e : K × V) (s : σ) :
    Option (Ends (τ × BTreeMap K V) (τ × BTreeMap K V) × σ) :=
  if (f a.1 e.1 e.2).2.2 then
    match putC N c a.2 (e.1, (f a.1 e.1 e.2).2.1) s with
    | none => none
    | some (.unwound m, s) => some (.unwound ((f a.1 e.1 e.2).1, m), s)
    | some (.done m, s) => some (.done ((f a.1 e.1 e.2).1, m), s)
  else some (.done ((f a.1 e.1 e.2).1, a.2), s)

/-- btree.rs:902-923 `retain`: the map is taken (911) and assigned when the new one is complete; the
new one is dropped by a panic. -/
def retainC [Ord K] {τ : Type} (N : Nat) (c : Cl σ K V) (o : Sharing K V) (m : BTreeMap K V)
    (f : τ → K → V → τ × V × Bool) (t : τ) (s : σ) :
    Option (Ends (BTreeMap K V) (τ × BTreeMap K V) × σ) :=
  match feedC c (keepC N c f) (m.len + 1) (m.intoIter o) (t, new) s with
  | none => none
  | some (.unwound _, s) => some (.unwound new, s)
  | some (.done x, s) => some (.done x, s)

/-- btree.rs:933-934: what `partition` does with an entry. -/
def sortC [Ord K] (N : Nat) (c : Cl σ K V) (p : K → Ordering) (a : BTreeMap K V × BTreeMap K V)
    (e : K × V) (s : σ) :
    Option (Ends (BTreeMap K V × BTreeMap K V) (BTreeMap K V × BTreeMap K V) × σ) :=
  if p e.1 = .gt then
    match putC N c a.1 e s with
    | none => none
    | some (.unwound m, s) => some (.unwound (m, a.2), s)
    | some (.done m, s) => some (.done (m, a.2), s)
  else
    match putC N c a.2 e s with
    | none => none
    | some (.unwound m, s) => some (.unwound (a.1, m), s)
    | some (.done m, s) => some (.done (a.1, m), s)

/-- btree.rs:925-938 `split_off`: likewise, into two maps. -/
def splitOffC [Ord K] (N : Nat) (c : Cl σ K V) (o : Sharing K V) (m : BTreeMap K V)
    (p : K → Ordering) (s : σ) :
    Option (Ends (BTreeMap K V) (BTreeMap K V × BTreeMap K V) × σ) :=
  match feedC c (sortC N c p) (m.len + 1) (m.intoIter o) (new, new) s with
  | none => none
  | some (.unwound _, s) => some (.unwound new, s)
  | some (.done x, s) => some (.done x, s)

end BTreeMap
end Verif.BTree
