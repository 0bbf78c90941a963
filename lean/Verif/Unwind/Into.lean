import Verif.Unwind.AvlMap
import Verif.BTree.Map
import Verif.Fixed.Iter
/-!
# `into_iter` when `Clone` panics

The consuming iterators move the entries out of a node that nothing else refers to, and clone them
out of one that is shared.  If the clone panics and the panic is caught, the iterator is still there
and can be called again.

`Ev` is what a call shows: `got r len` that it returned `r` with `len()` (of `ExactSizeIterator`)
being `len` afterwards; `unwound len` that `Clone` panicked; `crashed` that the crate itself
panicked, or undefined behaviour.  Nothing is said about calls after `crashed`.

Simplifications: `Drop` does not panic.  The clone of an entry is one step of `Cl`; `into_keys` and
`into_values` (avl.rs:1166-1218) clone only one half of it, which `Cl` being arbitrary covers.
-/
set_option linter.unusedVariables false
set_option linter.unusedSectionVars false
namespace Verif.Unwind
open Verif.Wild
universe w
variable {σ : Type w} {K V : Type}

/-- What a call of `next` or `next_back` shows. -/
inductive Ev (α : Type) where
  | got (r : Option α) (len : Nat)
  | unwound (len : Nat)
  | crashed
  deriving DecidableEq, Repr

/-- A schedule of calls, `true` for `next`, each panic of `Clone` being caught; `step` is a call and
`len` the method. -/
def evs {I α : Type} (len : I → Nat)
    (step : Bool → I → σ → Option (Ends I (Option α × I) × σ)) : List Bool → I → σ → List (Ev α)
  | [], _, _ => []
  | d :: ds, it, s =>
    match step d it s with
    | none => [.crashed]
    | some (.unwound it, s) => .unwound (len it) :: evs len step ds it s
    | some (.done (r, it), s) => .got r (len it) :: evs len step ds it s

/-! ### `AvlMap` -/

namespace AvlInto
open Verif.Avl

/-- avl.rs:1915-1918 `IterAction` over `IntoIterNode` (2158-2163).  `arc` tells `Arcked` from
`Owned`. -/
inductive CAct (K V : Type) where
  | desc (arc : Bool) (t : STree K V)
  | ret (e : K × V)

/-- avl.rs:2165-2173 `opt_to_iter_node` for the child of an `Owned` node or the root: `Arcked` if
`Arc::try_unwrap` fails; 2189, 2191: the child of an `Arcked` node is `Arcked`.  Pushed if there is
one (1950-1952, 1956-1958). -/
def pushC (arc : Bool) : STree K V → List (CAct K V) → List (CAct K V)
  | .nil, w => w
  | .node sh k v lh rh l r, w => .desc (arc || sh) (.node sh k v lh rh l r) :: w

/-- Number of nodes. -/
def nodes : STree K V → Nat
  | .nil => 0
  | .node _ _ _ _ _ l r => nodes l + nodes r + 1

/-- Termination measure. -/
def csize : List (CAct K V) → Nat
  | [] => 0
  | .desc _ t :: w => 3 * nodes t + 1 + csize w
  | .ret _ :: w => 1 + csize w

theorem csize_pushC (arc : Bool) (t : STree K V) (w) :
    csize (pushC arc t w) ≤ 3 * nodes t + 1 + csize w := by
  cases t <;> simp [pushC, csize]

/-- avl.rs:1937-1963 `InnerIter::next` and 1967-1993 `next_back`, the deque written from the end
that is worked on; `destruct` (2182-2207) clones the entry of an `Arcked` node (2190).  The action
has been popped (1940), so it is gone if that panics, and `len` is as it was. -/
def nextC (c : Cl σ K V) (front : Bool) : List (CAct K V) → σ →
    Ends (List (CAct K V)) (Option (K × V) × List (CAct K V)) × σ
  | [], s => (.done (none, []), s)
  | .ret x :: w, s => (.done (some x, w), s)
  | .desc _ .nil :: w, s => nextC c front w s -- `Descend` always holds a node; no counterpart
  | .desc arc (.node _ k v _ _ l r) :: w, s =>
    match cloneIf c arc [(k, v)] s with
    | (true, s) => (.unwound w, s)
    | (false, s) =>
      nextC c front (if front then pushC arc l (.ret (k, v) :: pushC arc r w)
        else pushC arc r (.ret (k, v) :: pushC arc l w)) s
termination_by w _ => csize w
decreasing_by
  · simp [csize]
  · have h1 := csize_pushC arc r w
    have h2 := csize_pushC arc l (.ret (k, v) :: pushC arc r w)
    have h3 := csize_pushC arc l w
    have h4 := csize_pushC arc r (.ret (k, v) :: pushC arc l w)
    simp only [csize, nodes] at *
    split <;> omega

/-- avl.rs:1929-1932 `InnerIter`. -/
structure It (K V : Type) where
  work : List (CAct K V)
  len : Nat

/-- One call; `self.len -= 1` (1943, 1973) panics at zero. -/
def step (c : Cl σ K V) (d : Bool) (it : It K V) (s : σ) :
    Option (Ends (It K V) (Option (K × V) × It K V) × σ) :=
  let back := fun w : List (CAct K V) => if d then w else w.reverse
  match nextC c d (back it.work) s with
  | (.unwound w, s) => some (.unwound ⟨back w, it.len⟩, s)
  | (.done (none, w), s) => some (.done (none, ⟨back w, it.len⟩), s)
  | (.done (some x, w), s) =>
    if it.len = 0 then none else some (.done (some x, ⟨back w, it.len - 1⟩), s)

/-- avl.rs:2240-2255 `into_iter`. -/
def start (m : SMap K V) : It K V := ⟨pushC false m.root [], m.len⟩

/-- `into_iter` under a schedule of calls. -/
def run (c : Cl σ K V) (m : SMap K V) (ds : List Bool) (s : σ) : List (Ev (K × V)) :=
  evs It.len (step c) ds (start m) s

end AvlInto

/-! ### `BTreeMap` -/

namespace BTreeInto
open Verif.BTree

/-- Elements of an `Arcked` node are cloned (btree.rs:1578, 1600). -/
def cloned : IntoErg K V → Bool
  | .arcked .. => true
  | .owned _ => false

variable {C : Type}

/-- btree.rs:1355-1364, the end of `next`.  `next_elem` (1566-1587) sets the flag and moves the
index before it clones, and the pop (1360-1362) and `self.len -= 1` (1358) come after it. -/
def yieldC (o : NodeIterOps (IntoErg K V) (K × V) C) (c : Cl σ K V) (len : Nat) (erg : IntoErg K V)
    (rest : List (IntoErg K V)) (s : σ) :
    Option (Ends (InnerIter (IntoErg K V)) (Option (K × V) × InnerIter (IntoErg K V)) × σ) :=
  match o.nextElem erg with
  | none => none
  | some (_, none) => none
  | some (erg', some e) =>
    match cloneIf c (cloned erg) [e] s with
    | (true, s) => some (.unwound ⟨erg' :: rest, len⟩, s)
    | (false, s) =>
      if len = 0 then none else some (.done (some e, ⟨o.keep erg' rest, len - 1⟩), s)

/-- btree.rs:1341-1365 `InnerIter::next` on `IntoNodeIter`; the descent clones no elements. -/
def nextC (o : NodeIterOps (IntoErg K V) (K × V) C) (c : Cl σ K V) (it : InnerIter (IntoErg K V))
    (s : σ) :
    Option (Ends (InnerIter (IntoErg K V)) (Option (K × V) × InnerIter (IntoErg K V)) × σ) :=
  match it.work with
  | [] => some (.done (none, it), s)
  | erg :: rest =>
    if o.needsLf erg then
      match o.descend (o.fuel erg) erg rest with
      | none => none
      | some (erg', rest') => yieldC o c it.len erg' rest' s
    else yieldC o c it.len erg rest s

/-- An outcome with the deque reversed. -/
def flip : Ends (InnerIter (IntoErg K V)) (Option (K × V) × InnerIter (IntoErg K V)) →
    Ends (InnerIter (IntoErg K V)) (Option (K × V) × InnerIter (IntoErg K V))
  | .unwound it => .unwound it.rev
  | .done r => .done (r.1, r.2.rev)

/-- One call; btree.rs:1369-1392 `next_back` is the text of `next` with left and right exchanged. -/
def step (c : Cl σ K V) (d : Bool) (it : InnerIter (IntoErg K V)) (s : σ) :
    Option (Ends (InnerIter (IntoErg K V)) (Option (K × V) × InnerIter (IntoErg K V)) × σ) :=
  if d then nextC intoOps c it s
  else (nextC intoOps.mirror c it.rev s).map (fun x => (flip x.1, x.2))

/-- `into_iter` (btree.rs:1700-1728) under a schedule of calls. -/
def run (c : Cl σ K V) (m : BTreeMap K V) (o : Sharing K V) (ds : List Bool) (s : σ) :
    List (Ev (K × V)) :=
  evs InnerIter.len (step c) ds (m.intoIter o) s

end BTreeInto

/-! ### `fixed::BTreeMap` -/

namespace FixedInto
open Verif.Fixed
open Verif.BTree (ANode Sharing)

/-- core.rs:1108-1148 `NodeIntoIter::next`: a leased entry is cloned (1136-1137) before
`next_elem_x` moves (1140). -/
def nextC (c : Cl σ K V) (w : II K V) (s : σ) :
    Option (Ends (II K V) (II K V × Option (Act (Bool × (K × V)) (Bool × ANode K V))) × σ) :=
  if w.kx < w.ek ∧ w.kx ≤ w.ex then
    match takeSlot w.own w.ks w.kx with
    | none => none
    | some (n, ks) =>
      some (.done ({w with ks := ks, kx := w.kx + 1}, some (.desc (w.own && n.own, n))), s)
  else if w.ex < w.ee then
    match takeSlot w.own w.es w.ex with
    | none => none
    | some (e, es) =>
      match cloneIf c (!w.own) [e] s with
      | (true, s) => some (.unwound w, s)
      | (false, s) => some (.done ({w with es := es, ex := w.ex + 1}, some (.ret (w.own, e))), s)
  else some (.done (w, none), s)

/-- core.rs:1265-1278, the loop of `InnerIter::next`; the node iterator is worked on in place
(1265 `front_mut`). -/
def loopC (c : Cl σ K V) : Nat → List (II K V) → Nat → σ →
    Option (Ends (List (II K V) × Nat) (Option (Bool × (K × V)) × List (II K V) × Nat) × σ)
  | 0, _, _, _ => none
  | _ + 1, [], len, s => some (.done (none, [], len), s)
  | f + 1, w :: ws, len, s =>
    match nextC c w s with
    | none => none
    | some (.unwound w', s) => some (.unwound (w' :: ws, len), s)
    | some (.done (w', some (.ret e)), s) =>
      if len = 0 then none else some (.done (some e, w' :: ws, len - 1), s)
    | some (.done (w', some (.desc n)), s) =>
      match iiOps.make n with
      | none => none
      | some i => loopC c f (i :: w' :: ws) len s
    | some (.done (_, none), s) => loopC c f ws len s

/-- core.rs:1263-1281 `InnerIter::next`; core.rs:1285-1303 `next_back`, the same text with the back
of the deque instead of its front. -/
def step (c : Cl σ K V) (d : Bool) (it : Inner (II K V)) (s : σ) :
    Option (Ends (Inner (II K V)) (Option (Bool × (K × V)) × Inner (II K V)) × σ) :=
  let back := fun w : List (II K V) => if d then w else w.reverse
  match loopC c ((it.work.map iiOps.cost).sum + 1) (back it.work) it.len s with
  | none => none
  | some (.unwound (w, len), s) => some (.unwound ⟨back w, len⟩, s)
  | some (.done (r, w, len), s) => some (.done (r, ⟨back w, len⟩), s)

/-- The iterator after a schedule, if nothing crashed. -/
def after (c : Cl σ K V) : List Bool → Inner (II K V) → σ → Option (Inner (II K V))
  | [], it, _ => some it
  | d :: ds, it, s =>
    match step c d it s with
    | none => none
    | some (.unwound it, s) => after c ds it s
    | some (.done (_, it), s) => after c ds it s

/-- `into_iter` (core.rs:1323-1333, fixed.rs:148-155) under a schedule of calls; `true` marks the
entries that were moved out, not cloned. -/
def run (c : Cl σ K V) (m : FMap K V) (o : Sharing K V) (ds : List Bool) (s : σ) :
    List (Ev (Bool × (K × V))) :=
  match m.intoIter o with
  | none => [.crashed]
  | some it => evs Inner.len (step c) ds it s

/-- What dropping the iterator after the schedule destroys, and what it loses. -/
def dropped (c : Cl σ K V) (m : FMap K V) (o : Sharing K V) (ds : List Bool) (s : σ) :
    Option (List (K × V) × List (K × V)) :=
  match m.intoIter o with
  | none => none
  | some it =>
    match after c ds it s with
    | none => none
    | some it => dropAll it.work

end FixedInto
end Verif.Unwind
