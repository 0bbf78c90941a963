import Verif.Unwind.OwnInto
import Verif.Unwind.MutSpec
import Verif.BTree.Mut
/-!
# Mutable iteration over a `BTreeMap` when `Clone` panics

`iter_mut` (with `values_mut`) and `range_mut` of src/btree.rs.  As in `Verif.BTree.Mut`, the
iterator runs over the tree whose values are paired with their slots, a `&mut` reference is the
slot, and what the caller wrote is stored afterwards.  Here a node is marked with whether the link
to it is the only one (`ANode`); `make_mut` clones the node otherwise, and the links to its
children are then not the only ones.  The caller goes on after a panic of `Clone`.
-/
set_option linter.unusedVariables false
namespace Verif.Unwind
open Verif.Wild
universe w
variable {σ : Type w} {K V : Type}

namespace BTreeMut
open Verif.BTree

variable {I E C : Type}

/-- btree.rs:1346-1352, the loop of `next`; `mk` says whether `make_mut` of the link to a child
panics (1461).  The child has been taken from its parent by then (1346), and the parent popped if
that is exhausted (1347-1349). -/
def descendC (o : NodeIterOps I E C) (mk : C → σ → Bool × σ) :
    Nat → I → List I → σ → Option (Ends (List I) (I × List I) × σ)
  | 0, _, _, _ => none
  | fuel + 1, erg, rest, s =>
    match o.nextKid erg with
    | none => none
    | some (erg', none) => some (.done (erg', rest), s)
    | some (erg', some kid) =>
      match mk kid s with
      | (true, s) => some (.unwound (o.keep erg' rest), s)
      | (false, s) => descendC o mk fuel (o.make kid) (o.keep erg' rest) s

/-- btree.rs:1355-1364, the end of `next`; nothing is cloned. -/
def yieldC (o : NodeIterOps I E C) (len : Nat) (erg : I) (rest : List I) (s : σ) :
    Option (Ends (InnerIter I) (Option E × InnerIter I) × σ) :=
  (o.yieldElem len erg rest).map fun r => (.done (r.2, r.1), s)

/-- btree.rs:1341-1365 `InnerIter::next` on `NodeIterMut`. -/
def nextC (o : NodeIterOps I E C) (mk : C → σ → Bool × σ) (it : InnerIter I) (s : σ) :
    Option (Ends (InnerIter I) (Option E × InnerIter I) × σ) :=
  match it.work with
  | [] => some (.done (none, it), s)
  | erg :: rest =>
    if o.needsLf erg then
      match descendC o mk (o.fuel erg) erg rest s with
      | none => none
      | some (.unwound w, s) => some (.unwound ⟨w, it.len⟩, s)
      | some (.done (erg', rest'), s) => yieldC o it.len erg' rest' s
    else yieldC o it.len erg rest s

/-- An outcome with the deque reversed. -/
def flip : Ends (InnerIter I) (Option E × InnerIter I) → Ends (InnerIter I) (Option E × InnerIter I)
  | .unwound it => .unwound it.rev
  | .done r => .done (r.1, r.2.rev)

/-- One call; btree.rs:1369-1392 `next_back` is the text of `next` with left and right exchanged. -/
def stepC (o : NodeIterOps I E C) (mk : C → σ → Bool × σ) (d : Bool) (it : InnerIter I) (s : σ) :
    Option (Ends (InnerIter I) (Option E × InnerIter I) × σ) :=
  if d then nextC o mk it s
  else (nextC o.mirror mk it.rev s).map fun x => (flip x.1, x.2)

/-- The link is not the only one. -/
def disown : ANode K V → ANode K V
  | .mk _ es ks => .mk false es ks

/-- The children of a node after `make_mut`. -/
def mutKids (n : ANode K V) : List (ANode K V) := if n.own then n.kids else n.kids.map disown

/-- btree.rs:1455-1464 `make_node_iter_mut`, the iterator that it makes. -/
def mutOps : NodeIterOps (NIter (K × V) (ANode K V)) (K × V) (ANode K V) :=
  borrowedOps ANode.elems mutKids (fun c => c.forget.depth)

/-- btree.rs:1461 `Arc::make_mut`: a node is cloned unless the link is the only one. -/
def mkC (c : Cl σ K V) (n : ANode K V) (s : σ) : Bool × σ := cloneIf c (!n.own) n.elems s

mutual
/-- btree.rs:1940-1996 `make_mut_worklist` on a node (compare `mkWork`), with `make_mut` of the link
to it (1952); `up`: the node above has been copied.  `none` is a panic by the crate itself. -/
def mkWorkC (c : Cl σ K V) : Bool → Bnd K → Bnd K → ANode K V → σ →
    Option (Ends Unit (List (NIter (K × V) (ANode K V))) × σ)
  | up, lb, ub, .mk own es ks, s =>
    let ed := findRangeEdges lb ub es
    match cloneIf c (up || !own) es s with
    | (true, s) => some (.unwound (), s)
    | (false, s) =>
      if ed.lbE ≤ ed.ubE ∧ ed.ubE ≤ es.length then
        let elems := (es.take ed.ubE).drop ed.lbE
        let kids := getSlice (if up || !own then ks.map disown else ks) ed.lbK ed.ubK
        match
          (if ed.lp && !kids.isEmpty then
            if kids.length == 1 && ed.rp then
              if elems.isEmpty then mkWorkAtC c (up || !own) lb ub ed.lbK ks s else none
            else mkWorkAtC c (up || !own) lb .unbounded ed.lbK ks s
          else some (.done [], s)) with
        | none => none
        | some (.unwound _, s) => some (.unwound (), s)
        | some (.done w1, s) =>
          let kids1 := if ed.lp then kids.tail else kids
          let kids2 := if ed.rp then kids1.dropLast else kids1
          let erg :=
            if elems.isEmpty && kids2.isEmpty then []
            else [⟨elems, kids2, !ed.lp && decide (ed.lbE = ed.lbK),
              !ed.rp && decide (ed.ubE < ed.ubK)⟩]
          match
            (if ed.rp && !kids1.isEmpty then
              mkWorkAtC c (up || !own) (if ed.lp then .unbounded else lb) ub (ed.ubK - 1) ks s
            else some (.done [], s)) with
          | none => none
          | some (.unwound _, s) => some (.unwound (), s)
          | some (.done w2, s) => some (.done (w1 ++ erg ++ w2), s)
      else none
/-- The recursive calls, on the child at an index. -/
def mkWorkAtC (c : Cl σ K V) : Bool → Bnd K → Bnd K → Nat → List (ANode K V) → σ →
    Option (Ends Unit (List (NIter (K × V) (ANode K V))) × σ)
  | _, _, _, _, [], s => some (.done [], s)
  | up, lb, ub, 0, n :: _, s => mkWorkC c up lb ub n s
  | up, lb, ub, i + 1, _ :: ks, s => mkWorkAtC c up lb ub i ks s
end

/-- `Clone` does not see the slots. -/
def unl (c : Cl σ K V) : Cl σ K (Nat × V) := fun es s => c (es.map fun e => (e.1, e.2.2)) s

/-- The mutable iterators, over entries with their slots. -/
abbrev MIter (K V : Type) := InnerIter (NIter (K × (Nat × V)) (ANode K (Nat × V)))

/-- btree.rs:762-784 `iter_mut` (949-957 `values_mut`).  A panic leaves the map as it was, but for
the links: nothing has been written. -/
def iterMutC (c : Cl σ K V) (m : BTreeMap K V) (o : Sharing K (Nat × V)) (s : σ) :
    Ends Unit (MIter K V) × σ :=
  match m.label.root with
  | none => (.done ⟨[], 0⟩, s)
  | some n =>
    match mkC (unl c) (o.annot n) s with
    | (true, s) => (.unwound (), s)
    | (false, s) => (.done ⟨[mutOps.make (o.annot n)], m.len⟩, s)

/-- btree.rs:864-873 `range_mut`, 2084-2118 `RangeMut::new`; `none` is a panic by the crate itself. -/
def rangeMutC {Q : Type} [Ord Q] (c : Cl σ K V) (f : K → Q) (m : BTreeMap K V)
    (o : Sharing K (Nat × V)) (lb ub : QBnd Q) (s : σ) : Option (Ends Unit (MIter K V) × σ) :=
  if lb.bad ub then none
  else
    match m.label.root with
    | none => some (.done ⟨[], m.len⟩, s)
    | some n =>
      match mkWorkC (unl c) false (lb.bnd f) (ub.bnd f) (o.annot n) s with
      | none => none
      | some (.unwound _, s) => some (.unwound (), s)
      | some (.done w, s) => some (.done ⟨w, m.len⟩, s)

/-- The calls on an iterator. -/
def step (c : Cl σ K V) : Bool → MIter K V → σ →
    Option (Ends (MIter K V) (Option (K × (Nat × V)) × MIter K V) × σ) :=
  stepC mutOps (mkC (unl c))

/-- The slots handed out. -/
def slots (xs : List (Ev (K × (Nat × V)))) : List Nat := xs.filterMap fun x => x.item.map (·.2.1)

end BTreeMut
end Verif.Unwind
