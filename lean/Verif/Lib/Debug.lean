import Verif.Avl.Set
import Verif.BTree.Set
import Verif.BTree.Range
import Verif.Stack.Model
/-!
# `Debug` output

A value to be printed is the function that gives its text, with or without the flag `#`
(`{:#?}`).  The builders `debug_list`, `debug_set` and `debug_map` of `std::fmt` are modelled as
the standard library documents them: each call of `entry` appends to what was written before.
The writer is assumed not to fail.
-/
namespace Verif.Lib

/-- `std::fmt` `PadAdapter`: four spaces at each beginning of a line; `nl` tells whether one is at
one. -/
def padFrom : Bool → List Char → List Char
  | _, [] => []
  | nl, c :: cs => (if nl then "    ".toList else []) ++ c :: padFrom (c == '\n') cs

/-- `PadAdapter` around one entry. -/
def pad (s : String) : String := String.ofList (padFrom true s.toList)

/-- `std::fmt` `DebugInner::entry`: the text after one more entry; `has` is `has_fields`. -/
def dbgEntry (alt has : Bool) (acc s : String) : String :=
  if alt then acc ++ (if has then "" else "\n") ++ pad (s ++ ",\n")
  else acc ++ (if has then ", " else "") ++ s

/-- `entries`. -/
def dbgEntries (alt : Bool) : Bool → String → List String → String
  | _, acc, [] => acc
  | has, acc, s :: l => dbgEntries alt true (dbgEntry alt has acc s) l

/-- `f.debug_list().entries(l).finish()`. -/
def debugList (alt : Bool) (l : List String) : String := dbgEntries alt false "[" l ++ "]"
/-- `f.debug_set().entries(l).finish()`. -/
def debugSet (alt : Bool) (l : List String) : String := dbgEntries alt false "{" l ++ "}"
/-- `f.debug_map().entries(l).finish()`: `DebugMap::key` and `value`. -/
def debugMap (alt : Bool) (l : List (String × String)) : String :=
  dbgEntries alt false "{" (l.map (fun e => e.1 ++ ": " ++ e.2)) ++ "}"

/-- A type that can be printed, with or without `#`. -/
abbrev Printer (T : Type _) := Bool → T → String

variable {K V T : Type}

/-- avl.rs:246-250 `fmt` of `AvlMap`; `none` is a panic. -/
def avlMapFmt (dk : Printer K) (dv : Printer V) (alt : Bool) (m : Avl.AvlMap K V) :
    Option String :=
  m.iterList.map (fun l =>
    "AvlMap(" ++ debugMap alt (l.map (fun e => (dk alt e.1, dv alt e.2))) ++ ")")

/-- avl_set.rs:503-507 `fmt` of `AvlSet`. -/
def avlSetFmt (d : Printer T) (alt : Bool) (s : Avl.AvlSet T) : Option String :=
  s.map.iterList.map (fun l => "AvlSet(" ++ debugSet alt (l.map (fun e => d alt e.1)) ++ ")")

/-- btree.rs:965-967 `fmt` of `BTreeMap`. -/
def btreeMapFmt (dk : Printer K) (dv : Printer V) (alt : Bool) (m : BTree.BTreeMap K V) :
    Option String :=
  m.iterList.map (fun l => debugMap alt (l.map (fun e => (dk alt e.1, dv alt e.2))))

/-- btree_set.rs:443-447 `fmt` of `BTreeSet`. -/
def btreeSetFmt (d : Printer T) (alt : Bool) (s : BTree.BTreeSet T) : Option String :=
  s.map.iterList.map (fun l => "BTreeSet(" ++ debugSet alt (l.map (fun e => d alt e.1)) ++ ")")

/-- stack.rs:488-492 `fmt` of `Stack`. -/
def stackFmt (d : Printer T) (alt : Bool) (s : Stack.Stack T) : Verif.Heap.Prog T String :=
  s.iter.bind fun l =>
    .pure ("Stack { len: " ++ toString s.len ++ ", elems: TOP" ++ debugList alt (l.map (d alt)) ++
      "BOT }")

/-- btree.rs:37-43 `fmt` of `Node`: the first and the last key; panics on a node without
entries. -/
def btreeNodeFmt (dk : Printer K) (alt : Bool) (n : BTree.Node K V) : Option String :=
  match n.elems.head?, n.elems.getLast? with
  | some a, some b => some ("Node(" ++ dk alt a.1 ++ ".." ++ dk alt b.1 ++ ")")
  | _, _ => none

/-- btree.rs:1246 and 1332, the derived `Debug` of `BorrowedNodeIter` and `InnerIter`, and
2043-2050 of `Range` and 2126-2133 of `RangeMut`: the texts of the entries and children of each node iterator in the work
list, in order.  Not modelled: the layout around them, the fields that are numbers or flags, and
the function pointer. -/
def btreeWorkFmt (dk : Printer K) (dv : Printer V) (alt : Bool)
    (it : BTree.InnerIter (BTree.NIter (K × V) (BTree.Node K V))) :
    Option (List (List (String × String) × List String)) :=
  it.work.mapM (fun e => (e.kids.mapM (btreeNodeFmt dk alt)).map (fun ks =>
    (e.elems.map (fun x => (dk alt x.1, dv alt x.2)), ks)))

end Verif.Lib
