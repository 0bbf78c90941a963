import Verif.Unwind.Core
/-!
# `AvlMap` (src/avl.rs) when `Clone` panics

A tree here carries at each node the mark `sh`: the link to the node is not the only one.  A copy
of a node is not shared, but the nodes below it are from then on (`shareIf`).  A mark says nothing
of who else holds the node.

Simplifications: as in `Verif.Avl.Model` and `Verif.Unwind.Core`.
-/
set_option linter.unusedVariables false
namespace Verif.Avl
open Verif.Wild Verif.Unwind
universe w
variable {σ : Type w} {K V : Type}

/-- `Tree` (avl.rs:15, 63-71) with the mark of shared nodes. -/
inductive STree (K V : Type) where
  | nil
  | node (sh : Bool) (k : K) (v : V) (lh rh : Int) (l r : STree K V)
  deriving DecidableEq, Repr

namespace STree

/-- The tree without the marks. -/
def erase : STree K V → Tree K V
  | nil => .nil
  | node _ k v lh rh l r => .node k v lh rh l.erase r.erase

/-- One more link to the tree, if `b`. -/
def shareIf (b : Bool) : STree K V → STree K V
  | nil => nil
  | node sh k v lh rh l r => node (sh || b) k v lh rh l r

/-- A tree without a shared node. -/
def ofTree : Tree K V → STree K V
  | .nil => nil
  | .node k v lh rh l r => node false k v lh rh (ofTree l) (ofTree r)

def isNil : STree K V → Bool
  | nil => true
  | node .. => false

/-- avl.rs:349-377 `rot_lf`.  The root is taken (354) before `make_mut` of its child (360); the root
itself is not shared (512). -/
def rotLfC (c : Cl σ K V) : STree K V → σ → Option (Ends (STree K V) (STree K V × Bool) × σ)
  | node false ka va alh _ x (node sh kb vb blh brh y z), s =>
    match cloneIf c sh [(kb, vb)] s with
    | (true, s) => some (.unwound nil, s)
    | (false, s) =>
      some (.done (node false kb vb (max alh blh + 1) brh (node false ka va alh blh x (y.shareIf sh))
        (z.shareIf sh), !(brh - blh == 0)), s)
  | _, _ => none

/-- avl.rs:423-454 `rot_rt`. -/
def rotRtC (c : Cl σ K V) : STree K V → σ → Option (Ends (STree K V) (STree K V × Bool) × σ)
  | node false ka va _ arh (node sh kb vb blh brh x y) z, s =>
    match cloneIf c sh [(kb, vb)] s with
    | (true, s) => some (.unwound nil, s)
    | (false, s) =>
      some (.done (node false kb vb blh (max brh arh + 1) (x.shareIf sh)
        (node false ka va brh arh (y.shareIf sh) z), !(brh - blh == 0)), s)
  | _, _ => none

/-- avl.rs:379-421 `rot_rt_lf`. -/
def rotRtLfC (c : Cl σ K V) : STree K V → σ → Option (Ends (STree K V) (STree K V × Bool) × σ)
  | node false ka va alh _ x (node sb kb vb _ brh (node sc kc vc clh crh y z) w), s =>
    match cloneIf c sb [(kb, vb)] s with
    | (true, s) => some (.unwound nil, s)
    | (false, s) =>
      match cloneIf c (sc || sb) [(kc, vc)] s with
      | (true, s) => some (.unwound nil, s)
      | (false, s) =>
        some (.done (node false kc vc (max alh clh + 1) (max crh brh + 1)
          (node false ka va alh clh x (y.shareIf (sc || sb)))
          (node false kb vb crh brh (z.shareIf (sc || sb)) (w.shareIf sb)), true), s)
  | _, _ => none

/-- avl.rs:456-493 `rot_lf_rt`. -/
def rotLfRtC (c : Cl σ K V) : STree K V → σ → Option (Ends (STree K V) (STree K V × Bool) × σ)
  | node false ka va _ arh (node sb kb vb blh _ x (node sc kc vc clh crh y z)) w, s =>
    match cloneIf c sb [(kb, vb)] s with
    | (true, s) => some (.unwound nil, s)
    | (false, s) =>
      match cloneIf c (sc || sb) [(kc, vc)] s with
      | (true, s) => some (.unwound nil, s)
      | (false, s) =>
        some (.done (node false kc vc (max blh clh + 1) (max crh arh + 1)
          (node false kb vb blh clh (x.shareIf sb) (y.shareIf (sc || sb)))
          (node false ka va crh arh (z.shareIf (sc || sb)) w), true), s)
  | _, _ => none

/-- avl.rs:95-97 `bal`. -/
def bal? : STree K V → Option Int
  | nil => none
  | node _ _ _ lh rh _ _ => some (rh - lh)

/-- avl.rs:496-508 `rebal_lf_to_rt`; `Arc::get_mut(..).unwrap()` (501) panics on a shared root. -/
def rebalLfToRtC (c : Cl σ K V) (t : STree K V) (s : σ) :
    Option (Ends (STree K V) (STree K V × Bool) × σ) :=
  match t with
  | node false _ _ _ _ l _ =>
    match l.bal? with
    | none => none
    | some b => if b ≤ 0 then rotRtC c t s else rotLfRtC c t s
  | _ => none

/-- avl.rs:511-523 `rebal_rt_to_lf`. -/
def rebalRtToLfC (c : Cl σ K V) (t : STree K V) (s : σ) :
    Option (Ends (STree K V) (STree K V × Bool) × σ) :=
  match t with
  | node false _ _ _ _ _ r =>
    match r.bal? with
    | none => none
    | some b => if b ≥ 0 then rotLfC c t s else rotRtLfC c t s
  | _ => none

/-- avl.rs:549-555. -/
def afterInsLfC (c : Cl σ K V) (k : K) (v : V) (lh rh : Int) (l r : STree K V) (taller : Bool)
    (s : σ) : Option (Ends (STree K V) (STree K V × Bool) × σ) :=
  let lh := lh + (if taller then 1 else 0)
  if taller && decide (rh - lh < -1) then
    match rebalLfToRtC c (node false k v lh rh l r) s with
    | none => none
    | some (.unwound t, s) => some (.unwound t, s)
    | some (.done x, s) => some (.done (x.1, false), s)
  else some (.done (node false k v lh rh l r, taller && decide (rh - lh < 0)), s)

/-- avl.rs:560-566. -/
def afterInsRtC (c : Cl σ K V) (k : K) (v : V) (lh rh : Int) (l r : STree K V) (taller : Bool)
    (s : σ) : Option (Ends (STree K V) (STree K V × Bool) × σ) :=
  let rh := rh + (if taller then 1 else 0)
  if taller && decide (rh - lh > 1) then
    match rebalRtToLfC c (node false k v lh rh l r) s with
    | none => none
    | some (.unwound t, s) => some (.unwound t, s)
    | some (.done x, s) => some (.done (x.1, false), s)
  else some (.done (node false k v lh rh l r, taller && decide (rh - lh > 0)), s)

/-- avl.rs:527-569 `ins`; `up`: the parent was copied, which made one more link to this node. -/
def insC [Ord K] (c : Cl σ K V) (k : K) (v : V) (up : Bool) :
    STree K V → σ → Option (Ends (STree K V) (STree K V × Option V × Bool) × σ)
  | nil, s => some (.done (node false k v 0 0 nil nil, none, true), s)
  | node sh nk nv lh rh l r, s =>
    match cloneIf c (sh || up) [(nk, nv)] s with
    | (true, s) => some (.unwound (node (sh || up) nk nv lh rh l r), s)
    | (false, s) =>
      match compare k nk with
      | .eq => some (.done (node false k v lh rh (l.shareIf (sh || up)) (r.shareIf (sh || up)),
          some nv, false), s)
      | .lt =>
        match insC c k v (sh || up) l s with
        | none => none
        | some (.unwound l', s) =>
          some (.unwound (node false nk nv lh rh l' (r.shareIf (sh || up))), s)
        | some (.done (l', old, taller), s) =>
          match afterInsLfC c nk nv lh rh l' (r.shareIf (sh || up)) taller s with
          | none => none
          | some (.unwound t, s) => some (.unwound t, s)
          | some (.done x, s) => some (.done (x.1, old, x.2), s)
      | .gt =>
        match insC c k v (sh || up) r s with
        | none => none
        | some (.unwound r', s) =>
          some (.unwound (node false nk nv lh rh (l.shareIf (sh || up)) r'), s)
        | some (.done (r', old, taller), s) =>
          match afterInsRtC c nk nv lh rh (l.shareIf (sh || up)) r' taller s with
          | none => none
          | some (.unwound t, s) => some (.unwound t, s)
          | some (.done x, s) => some (.done (x.1, old, x.2), s)

/-- avl.rs:585-590, 641-646. -/
def afterRmLfC (c : Cl σ K V) (k : K) (v : V) (lh rh : Int) (l r : STree K V) (shorter : Bool)
    (s : σ) : Option (Ends (STree K V) (STree K V × Bool) × σ) :=
  let lh := lh - (if shorter then 1 else 0)
  if shorter && decide (rh - lh > 1) then rebalRtToLfC c (node false k v lh rh l r) s
  else some (.done (node false k v lh rh l r, shorter && decide (rh - lh = 0)), s)

/-- avl.rs:612-617, 651-656, 685-691. -/
def afterRmRtC (c : Cl σ K V) (k : K) (v : V) (lh rh : Int) (l r : STree K V) (shorter : Bool)
    (s : σ) : Option (Ends (STree K V) (STree K V × Bool) × σ) :=
  let rh := rh - (if shorter then 1 else 0)
  if shorter && decide (rh - lh < -1) then rebalLfToRtC c (node false k v lh rh l r) s
  else some (.done (node false k v lh rh l r, shorter && decide (rh - lh = 0)), s)

/-- avl.rs:573-596 `rm_leftmost`. -/
def rmLeftmostC (c : Cl σ K V) (up : Bool) :
    STree K V → σ → Option (Ends (STree K V) (STree K V × Option (K × V) × Bool) × σ)
  | nil, s => some (.done (nil, none, false), s)
  | node sh k v lh rh l r, s =>
    match cloneIf c (sh || up) [(k, v)] s with
    | (true, s) => some (.unwound (node (sh || up) k v lh rh l r), s)
    | (false, s) =>
      if l.isNil then some (.done (r.shareIf (sh || up), some (k, v), true), s)
      else
        match rmLeftmostC c (sh || up) l s with
        | none => none
        | some (.unwound l', s) =>
          some (.unwound (node false k v lh rh l' (r.shareIf (sh || up))), s)
        | some (.done (l', kv, shorter), s) =>
          match afterRmLfC c k v lh rh l' (r.shareIf (sh || up)) shorter s with
          | none => none
          | some (.unwound t, s) => some (.unwound t, s)
          | some (.done x, s) => some (.done (x.1, kv, x.2), s)

/-- avl.rs:600-623 `rm_rightmost`. -/
def rmRightmostC (c : Cl σ K V) (up : Bool) :
    STree K V → σ → Option (Ends (STree K V) (STree K V × Option (K × V) × Bool) × σ)
  | nil, s => some (.done (nil, none, false), s)
  | node sh k v lh rh l r, s =>
    match cloneIf c (sh || up) [(k, v)] s with
    | (true, s) => some (.unwound (node (sh || up) k v lh rh l r), s)
    | (false, s) =>
      if r.isNil then some (.done (l.shareIf (sh || up), some (k, v), true), s)
      else
        match rmRightmostC c (sh || up) r s with
        | none => none
        | some (.unwound r', s) =>
          some (.unwound (node false k v lh rh (l.shareIf (sh || up)) r'), s)
        | some (.done (r', kv, shorter), s) =>
          match afterRmRtC c k v lh rh (l.shareIf (sh || up)) r' shorter s with
          | none => none
          | some (.unwound t, s) => some (.unwound t, s)
          | some (.done x, s) => some (.done (x.1, kv, x.2), s)

/-- avl.rs:660-694: the `Equal` arm of `rm`, after `make_mut`. -/
def rmHereC (c : Cl σ K V) (b : Bool) (k : K) (v : V) (lh rh : Int) (l r : STree K V) (s : σ) :
    Option (Ends (STree K V) (STree K V × Option (K × V) × Bool) × σ) :=
  if l.isNil then some (.done (r.shareIf b, some (k, v), true), s)
  else if r.isNil then some (.done (l.shareIf b, some (k, v), true), s)
  else
    match rmLeftmostC c b r s with
    | none => none
    | some (.unwound r', s) => some (.unwound (node false k v lh rh (l.shareIf b) r'), s)
    | some (.done (_, none, _), s) => none
    | some (.done (r', some (sk, sv), shorter), s) =>
      match afterRmRtC c sk sv lh rh (l.shareIf b) r' shorter s with
      | none => none
      | some (.unwound t, s) => some (.unwound t, s)
      | some (.done x, s) => some (.done (x.1, some (k, v), x.2), s)

/-- avl.rs:627-695 `rm`. -/
def rmC (c : Cl σ K V) (p : K → Ordering) (up : Bool) :
    STree K V → σ → Option (Ends (STree K V) (STree K V × Option (K × V) × Bool) × σ)
  | nil, s => some (.done (nil, none, false), s)
  | node sh k v lh rh l r, s =>
    match cloneIf c (sh || up) [(k, v)] s with
    | (true, s) => some (.unwound (node (sh || up) k v lh rh l r), s)
    | (false, s) =>
      match p k with
      | .lt =>
        match rmC c p (sh || up) l s with
        | none => none
        | some (.unwound l', s) =>
          some (.unwound (node false k v lh rh l' (r.shareIf (sh || up))), s)
        | some (.done (l', kv, shorter), s) =>
          match afterRmLfC c k v lh rh l' (r.shareIf (sh || up)) shorter s with
          | none => none
          | some (.unwound t, s) => some (.unwound t, s)
          | some (.done x, s) => some (.done (x.1, kv, x.2), s)
      | .gt =>
        match rmC c p (sh || up) r s with
        | none => none
        | some (.unwound r', s) =>
          some (.unwound (node false k v lh rh (l.shareIf (sh || up)) r'), s)
        | some (.done (r', kv, shorter), s) =>
          match afterRmRtC c k v lh rh (l.shareIf (sh || up)) r' shorter s with
          | none => none
          | some (.unwound t, s) => some (.unwound t, s)
          | some (.done x, s) => some (.done (x.1, kv, x.2), s)
      | .eq => rmHereC c (sh || up) k v lh rh l r s

/-- avl.rs:1116-1133 `get_mut`, followed by a write `g` through the reference. -/
def getMutC (c : Cl σ K V) (p : K → Ordering) (g : V → V) (up : Bool) :
    STree K V → σ → Ends (STree K V) (STree K V × Bool) × σ
  | nil, s => (.done (nil, false), s)
  | node sh k v lh rh l r, s =>
    match cloneIf c (sh || up) [(k, v)] s with
    | (true, s) => (.unwound (node (sh || up) k v lh rh l r), s)
    | (false, s) =>
      match p k with
      | .lt =>
        match getMutC c p g (sh || up) l s with
        | (.unwound l', s) => (.unwound (node false k v lh rh l' (r.shareIf (sh || up))), s)
        | (.done (l', b), s) => (.done (node false k v lh rh l' (r.shareIf (sh || up)), b), s)
      | .eq => (.done (node false k (g v) lh rh (l.shareIf (sh || up)) (r.shareIf (sh || up)), true), s)
      | .gt =>
        match getMutC c p g (sh || up) r s with
        | (.unwound r', s) => (.unwound (node false k v lh rh (l.shareIf (sh || up)) r'), s)
        | (.done (r', b), s) => (.done (node false k v lh rh (l.shareIf (sh || up)) r', b), s)

end STree
end Verif.Avl
