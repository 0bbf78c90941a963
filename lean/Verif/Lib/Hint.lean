import Verif.Avl.Iter
import Verif.BTree.Iter
import Verif.Fixed.Iter
/-!
# `size_hint`

Of the iterators of the crate only the two `Range`s and `RangeMut` define `size_hint`
(avl.rs:2102-2104, btree.rs:2062-2070 and 2145-2153).  The others have the one that
`std::iter::Iterator` provides.  The adaptors of the standard library are taken as documented.
-/
namespace Verif.Lib

/-- Lower and upper bound of the number of items to come. -/
abbrev Hint := Nat × Option Nat

/-- `Iterator::size_hint`, the provided method. -/
def Hint.provided : Hint := (0, none)

/-- `ExactSizeIterator::len`, the provided method, which the adaptors have: it asserts that the
bounds are the same; `none` is a panic. -/
def Hint.len (h : Hint) : Option Nat := if h.2 = some h.1 then some h.1 else none

/-- `Take::size_hint`. -/
def Hint.take (n : Nat) (h : Hint) : Hint :=
  if n = 0 then (0, some 0)
  else
    (min h.1 n, match h.2 with
      | some x => if x < n then some x else some n
      | none => some n)

/-- `Skip::size_hint`. -/
def Hint.skip (n : Nat) (h : Hint) : Hint := (h.1 - n, h.2.map (· - n))

/-- `Peekable::size_hint` before anything was peeked at. -/
def Hint.peekable (h : Hint) : Hint := h

/-- `Zip::size_hint`. -/
def Hint.zip (a b : Hint) : Hint :=
  (min a.1 b.1, match a.2, b.2 with
    | some x, some y => some (min x y)
    | some x, none => some x
    | none, y => y)

/-- avl.rs:2023-2041 `Iter`, 2069-2087 `IterMut`, 2214-2232 `IntoIter` and avl_set.rs:430-482:
they are `ExactSizeIterator`, and `size_hint` is the provided one. -/
def avlHint {K V : Type _} (_ : Avl.Iter K V) : Hint := .provided

/-- btree.rs:1411-1431 `Iter`, 1466-1503 `IterMut`, 1728-1766 `IntoIter` and
btree_set.rs:362-418: as `avlHint`. -/
def btreeHint {I : Type _} (_ : BTree.InnerIter I) : Hint := .provided

/-- core.rs:1258-1310 `InnerIter`: as `avlHint`. -/
def fixedHint {I : Type} (_ : Fixed.Inner I) : Hint := .provided

/-- avl.rs:2102-2104 `size_hint` of `Range`. -/
def avlRangeHint {K V : Type _} (it : Avl.Iter K V) : Hint := (0, some it.len)

/-- btree.rs:2062-2070 `size_hint` of `Range` and 2145-2153 of `RangeMut`. -/
def btreeRangeHint {E C : Type _} (N : Nat) (it : BTree.InnerIter (BTree.NIter E C)) : Hint :=
  ((it.work.map (fun e => e.elems.length + N * e.kids.length)).sum, some it.len)

end Verif.Lib
