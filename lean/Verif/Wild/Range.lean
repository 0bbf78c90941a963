import Verif.Wild.Honest
import Verif.BTree.Range
import Verif.Avl.Iter
/-!
# `range` and `range_mut` under lawless comparisons

As in `Verif.Wild.Core`: an outer `none` is a panic by the crate itself, `unwound` one of a comparison.
Both functions only read until they return the iterator, and what they have built when unwound is
dropped; the iterators compare nothing.
-/
set_option linter.unusedVariables false
namespace Verif.BTree
open Verif.Wild Node
universe w
variable {σ : Type w} {K V : Type}

/-- A bound with its comparison (`bd_k.cmp(k)`). -/
inductive WBnd (σ : Type w) (K : Type) where
  | unbounded
  | included (c : Cmp σ K)
  | excluded (c : Cmp σ K)

/-- btree.rs:1777-1791 `cmp_bd`. -/
def cmpBdW : WBnd σ K → K → σ → Option BdOrd × σ
  | .unbounded, _, s => (some .unbounded, s)
  | .excluded c, k, s =>
    match c k s with
    | (none, s) => (none, s)
    | (some .lt, s) => (some .less, s)
    | (some .eq, s) => (some (.equal false), s)
    | (some .gt, s) => (some .greater, s)
  | .included c, k, s =>
    match c k s with
    | (none, s) => (none, s)
    | (some .lt, s) => (some .less, s)
    | (some .eq, s) => (some (.equal true), s)
    | (some .gt, s) => (some .greater, s)

/-- btree.rs:1822-1850, the left edge (see `findL`). -/
def findLW (lb : WBnd σ K) : Nat → List (K × V) → σ →
    Option ((Nat × Nat × Bool) × Nat × List (K × V)) × σ
  | i, [], s => (some ((i, i, true), i, []), s)
  | i, e :: es, s =>
    match cmpBdW lb e.1 s with
    | (none, s) => (none, s)
    | (some .unbounded, s) => (some ((0, 0, false), i, e :: es), s)
    | (some .less, s) => (some ((i, i, true), i, e :: es), s)
    | (some (.equal isIn), s) => (some ((i + (!isIn).toNat, i + 1, false), i, e :: es), s)
    | (some .greater, s) => findLW lb (i + 1) es s

/-- btree.rs:1852-1879, the right edge (see `findR`). -/
def findRW (len : Nat) (ub : WBnd σ K) : Nat → List (K × V) → σ → Option (Nat × Nat × Bool) × σ
  | _, [], s => (some (len, len + 1, true), s)
  | i, e :: es, s =>
    match cmpBdW ub e.1 s with
    | (none, s) => (none, s)
    | (some .unbounded, s) => (some (len, len + 1, false), s)
    | (some .less, s) => (some (i, i + 1, true), s)
    | (some (.equal isIn), s) => (some (i + isIn.toNat, i + 1, false), s)
    | (some .greater, s) => findRW len ub (i + 1) es s

/-- btree.rs:1803-1882 `find_range_edges`. -/
def edgesW (lb ub : WBnd σ K) (es : List (K × V)) (s : σ) : Option Edges × σ :=
  match findLW lb 0 es s with
  | (none, s) => (none, s)
  | (some l, s) =>
    match findRW es.length ub l.2.1 l.2.2 s with
    | (none, s) => (none, s)
    | (some r, s) => (some ⟨l.1.1, l.1.2.1, l.1.2.2, r.1, r.2.1, r.2.2⟩, s)

mutual
/-- btree.rs:1884-1938 `make_worklist`, 1940-1996 `make_mut_worklist` (see `mkWork`). -/
def mkWorkW : WBnd σ K → WBnd σ K → Node K V → σ →
    Option (Ends Unit (List (NIter (K × V) (Node K V))) × σ)
  | lb, ub, .mk es ks, s =>
    match edgesW lb ub es s with
    | (none, s) => some (.unwound (), s)
    | (some ed, s) =>
      if ed.lbE ≤ ed.ubE ∧ ed.ubE ≤ es.length then
        let elems := (es.take ed.ubE).drop ed.lbE
        let kids := getSlice ks ed.lbK ed.ubK
        match
          (if ed.lp && !kids.isEmpty then
            if kids.length == 1 && ed.rp then
              if elems.isEmpty then mkWorkAtW lb ub ed.lbK ks s else none
            else mkWorkAtW lb .unbounded ed.lbK ks s
          else some (.done [], s)) with
        | none => none
        | some (.unwound _, s) => some (.unwound (), s)
        | some (.done w1, s) =>
          let kids1 := if ed.lp then kids.tail else kids
          let kids2 := if ed.rp then kids1.dropLast else kids1
          let erg :=
            if elems.isEmpty && kids2.isEmpty then []
            else [⟨elems, kids2, !ed.lp && decide (ed.lbE = ed.lbK),
              !ed.rp && decide (ed.ubE < ed.ubK)⟩]
          match
            (if ed.rp && !kids1.isEmpty then
              mkWorkAtW (if ed.lp then .unbounded else lb) ub (ed.ubK - 1) ks s
            else some (.done [], s)) with
          | none => none
          | some (.unwound _, s) => some (.unwound (), s)
          | some (.done w2, s) => some (.done (w1 ++ erg ++ w2), s)
      else none
/-- The same for the `i`th of some nodes. -/
def mkWorkAtW : WBnd σ K → WBnd σ K → Nat → List (Node K V) → σ →
    Option (Ends Unit (List (NIter (K × V) (Node K V))) × σ)
  | _, _, _, [], s => some (.done [], s)
  | lb, ub, 0, c :: _, s => mkWorkW lb ub c s
  | lb, ub, i + 1, _ :: ks, s => mkWorkAtW lb ub i ks s
end

/-- The bound is there. -/
def WBnd.given : WBnd σ K → Bool
  | .unbounded => false
  | _ => true

/-- btree.rs:855-862 `range`, 2003-2036 `Range::new`; 864-873 `range_mut`, 2084-2118
`RangeMut::new`.  `lt` is `k2 < k1`, asked if both bounds are given (2011-2019). -/
def BTreeMap.rangeW (lt : σ → Option Bool × σ) (m : BTreeMap K V) (lb ub : WBnd σ K) (s : σ) :
    Option (Ends Unit (InnerIter (NIter (K × V) (Node K V))) × σ) :=
  match (if lb.given && ub.given then lt s else (some false, s)) with
  | (none, s) => some (.unwound (), s)
  | (some true, _) => none
  | (some false, s) =>
    match m.root with
    | none => some (.done ⟨[], m.len⟩, s)
    | some n =>
      match mkWorkW lb ub n s with
      | none => none
      | some (.unwound _, s) => some (.unwound (), s)
      | some (.done w, s) => some (.done ⟨w, m.len⟩, s)

end Verif.BTree

namespace Verif.Avl
open Verif.Wild
universe w
variable {σ : Type w} {K V : Type}

/-- The comparisons that `range` makes with the key of a node: `k <= n.key` for the upper bound
(avl.rs:1565, 1601), `k >= n.key` for the lower one (1576, 1590), and `range.contains(n.key)` (1570, 1595).
`none` is a panic.  A bound that is missing gives the constant `false` in the first two. -/
structure Tests (σ : Type w) (K : Type) where
  ubLe : K → σ → Option Bool × σ
  lbGe : K → σ → Option Bool × σ
  holds : K → σ → Option Bool × σ

/-- Ask only if there is a child (`if let Some(rt) = n.right`, avl.rs:1563, 1574, 1588, 1599). -/
def askW (t : Tree K V) (c : K → σ → Option Bool × σ) (k : K) (s : σ) : Option Bool × σ :=
  match t with
  | .nil => (some true, s)
  | _ => c k s

/-- avl.rs:1563-1579, the body of the left-pruning loop (see `pruneStepL`). -/
def pruneStepLW (t : Tests σ K) (k : K) (v : V) (l r : Tree K V) (w : List (Act K V)) (s : σ) :
    Option (List (Act K V)) × σ :=
  match askW r t.ubLe k s with
  | (none, s) => (none, s)
  | (some b1, s) =>
    match t.holds k s with
    | (none, s) => (none, s)
    | (some b2, s) =>
      match askW l t.lbGe k s with
      | (none, s) => (none, s)
      | (some b3, s) =>
        let w1 := if b1 then w else pushDesc r w
        let w2 := if b2 then .ret (k, v) :: w1 else w1
        (some (if b3 then w2 else pushDesc l w2), s)

/-- avl.rs:1588-1604, the body of the right-pruning loop (see `pruneStepR`). -/
def pruneStepRW (t : Tests σ K) (k : K) (v : V) (l r : Tree K V) (w : List (Act K V)) (s : σ) :
    Option (List (Act K V)) × σ :=
  match askW l t.lbGe k s with
  | (none, s) => (none, s)
  | (some b1, s) =>
    match t.holds k s with
    | (none, s) => (none, s)
    | (some b2, s) =>
      match askW r t.ubLe k s with
      | (none, s) => (none, s)
      | (some b3, s) =>
        let w1 := if b1 then w else pushDesc l w
        let w2 := if b2 then .ret (k, v) :: w1 else w1
        (some (if b3 then w2 else pushDesc r w2), s)

/-- avl.rs:1558-1580 and 1583-1605, the loops; `step` is the body.  `fuel` only makes the recursion
total; there is no way out of the source's loops that corresponds to `none` here. -/
def pruneLoopW (step : K → V → Tree K V → Tree K V → List (Act K V) → σ →
    Option (List (Act K V)) × σ) : Nat → List (Act K V) → σ →
    Option (Ends Unit (List (Act K V)) × σ)
  | 0, _, _ => none
  | f + 1, .desc (.node k v _ _ l r) :: w, s =>
    match step k v l r w s with
    | (none, s) => some (.unwound (), s)
    | (some w, s) => pruneLoopW step f w s
  | f + 1, .desc .nil :: w, s => pruneLoopW step f w s -- no counterpart
  | f + 1, w, s => some (.done w, s)

/-- avl.rs:1534-1613 `range` and 1616-1697 `range_mut` (same traversal). -/
def AvlMap.rangeW (t : Tests σ K) (m : AvlMap K V) (s : σ) : Option (Ends Unit (Iter K V) × σ) :=
  let w := pushDesc m.root []
  match pruneLoopW (pruneStepLW t) (wsize w + 1) w s with
  | none => none
  | some (.unwound _, s) => some (.unwound (), s)
  | some (.done w, s) =>
    match pruneLoopW (pruneStepRW t) (wsize w + 1) w.reverse s with
    | none => none
    | some (.unwound _, s) => some (.unwound (), s)
    | some (.done w, s) => some (.done ⟨w.reverse, m.len⟩, s)

end Verif.Avl
