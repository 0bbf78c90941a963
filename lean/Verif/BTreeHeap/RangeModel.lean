import Verif.BTreeHeap.IterModel
/-!
# `range` and `range_mut` of `BTreeMap` (btree.rs:1766-2160) on reference-counted memory

A panic while the worklist is made is a result here (`none`), because the caller of `range_mut` may
catch it and go on using the map.
-/
namespace Verif.BTreeH
open Heap
open BTree (InnerIter NIter findRangeEdges Edges)

variable {K V : Type} {P S I : Type}

/-- `get(lb..ub).unwrap_or_default()` (btree.rs:1897-1901, 1954-1958), as the two indices. -/
def kidSlice (n lb ub : Nat) : Nat × Nat := if lb ≤ ub ∧ ub ≤ n then (lb, ub) else (0, 0)

/-- What is left of a slice after `next` (if `b`). -/
def afterNext (b : Bool) (c : Nat × Nat) : Nat × Nat := if b && decide (c.1 < c.2) then (c.1 + 1, c.2) else c

/-- What is left of a slice after `next_back` (if `b`). -/
def afterBack (b : Bool) (c : Nat × Nat) : Nat × Nat := if b && decide (c.1 < c.2) then (c.1, c.2 - 1) else c

/-- The node iterator pushed at btree.rs:1924-1932 (1982-1990), if not empty. -/
def ergOf (item : Nat → Nat → Nat → Nat → Bool → Bool → I) (ed : Edges) (c : Nat × Nat) : List I :=
  if decide (ed.ubE ≤ ed.lbE) && decide (c.2 ≤ c.1) then []
  else [item ed.lbE ed.ubE c.1 c.2 (!ed.lp && decide (ed.lbE = ed.lbK))
    (!ed.rp && decide (ed.ubE < ed.ubK))]

/-- btree.rs:1903-1916 (1961-1974), the left part; `c` is the slice of the children. -/
def workLeft (rec : Bnd K → Bnd K → List Nat → S → Prog P (S × Option (List I)))
    (lb ub : Bnd K) (path : List Nat) (ed : Edges) (c : Nat × Nat) (s : S) :
    Prog P (S × Option (List I)) :=
  if ed.lp && decide (c.1 < c.2) then
    if decide (c.2 - c.1 = 1) && ed.rp then
      if ed.ubE ≤ ed.lbE then rec lb ub (path ++ [c.1]) s else .pure (s, none)
    else rec lb .unbounded (path ++ [c.1]) s
  else .pure (s, some [])

/-- btree.rs:1918-1937 (1976-1995), the right part; `c` is what is left of the slice of the
children. -/
def workRight (rec : Bnd K → Bnd K → List Nat → S → Prog P (S × Option (List I)))
    (lb ub : Bnd K) (path : List Nat) (ed : Edges) (c : Nat × Nat) (s : S) :
    Prog P (S × Option (List I)) :=
  if ed.rp && decide (c.1 < c.2) then
    rec (if ed.lp then .unbounded else lb) ub (path ++ [c.2 - 1]) s
  else .pure (s, some [])

/-- btree.rs:1896-1937 (1953-1995), the common part of `make_worklist` and `make_mut_worklist`:
`nE` and `nK` are the numbers of elements and children. -/
def workStep (rec : Bnd K → Bnd K → List Nat → S → Prog P (S × Option (List I)))
    (item : Nat → Nat → Nat → Nat → Bool → Bool → I) (lb ub : Bnd K) (path : List Nat)
    (ed : Edges) (nE nK : Nat) (s : S) : Prog P (S × Option (List I)) :=
  if ed.lbE ≤ ed.ubE ∧ ed.ubE ≤ nE then
    (workLeft rec lb ub path ed (kidSlice nK ed.lbK ed.ubK) s).bind fun x =>
    match x.2 with
    | none => .pure (x.1, none)
    | some w1 =>
      (workRight rec lb ub path ed (afterNext ed.lp (kidSlice nK ed.lbK ed.ubK)) x.1).bind fun y =>
      match y.2 with
      | none => .pure (y.1, none)
      | some w2 => .pure (y.1, some (w1 ++ ergOf item ed
          (afterBack ed.rp (afterNext ed.lp (kidSlice nK ed.lbK ed.ubK))) ++ w2))
  else .pure (s, none)

/-- btree.rs:1884-1938 `make_worklist` on the node at `path`. -/
def mkWorkH (a : Nat) : Nat → Bnd K → Bnd K → List Nat → Unit →
    Prog (ND K V) (Unit × Option (List (SIter K V)))
  | 0, _, _, _, _ => .panic
  | n + 1, lb, ub, path, _ =>
    (lift (.read a path)).bind fun (x : HN K V) =>
    workStep (mkWorkH a n)
      (fun lbE ubE lbK ubK lf rt => ⟨(x.data.take ubE).drop lbE,
        ((kidPaths path x.kids.length).take ubK).drop lbK, lf, rt⟩)
      lb ub path (findRangeEdges lb ub x.data) x.data.length x.kids.length ()

/-- btree.rs:2003-2036 `Range::new` without the check of the bounds (855-862 `range`), run under a
schedule; `none` is a panic. -/
def rangeRun (n : Nat) (lb ub : Bnd K) (ds : List Bool) (r : Option Nat) (len : Nat) :
    Prog (ND K V) (Option (List (Option (K × V) × Nat))) :=
  match r with
  | none => ((sharedOps 0).run yldN n ds () ⟨[], len⟩).bind fun x => .pure (some x.2.1)
  | some a =>
    (mkWorkH a n lb ub [] ()).bind fun w =>
    match w.2 with
    | none => .pure none
    | some w => ((sharedOps a).run yldN n ds () ⟨w, len⟩).bind fun x => .pure (some x.2.1)

/-- btree.rs:1940-1996 `make_mut_worklist` on the link at `path`. -/
def mkWorkM (D : Nat) : Nat → Bnd K → Bnd K → List Nat → MT K V →
    Prog (ND K V) (MT K V × Option (List MIter))
  | 0, _, _, _, _ => .panic
  | n + 1, lb, ub, path, m =>
    match m.at path with
    | some (.link (some a)) =>
      (lift (.read a [])).bind fun (y : HN K V) =>
      (openAt D m path).bind fun x =>
      workStep (mkWorkM D n) (fun lbE ubE lbK ubK lf rt => ⟨path, lbE, ubE, lbK, ubK, lf, rt⟩)
        lb ub path (findRangeEdges lb ub y.data) x.2.data.length x.2.kids.length x.1
    | _ => .panic

/-- btree.rs:2084-2118 `RangeMut::new` without the check of the bounds (864-873 `range_mut`), run
under a schedule; no results if it panics. -/
def rangeMutRun (D n : Nat) (lb ub : Bnd K) (g : Nat → K → V → V) (ds : List Bool)
    (r : Option Nat) (len : Nat) :
    Prog (ND K V) (Option Nat × Option (List (Option (K × V) × Nat))) :=
  match r with
  | none =>
    ((mutOps D).run (yldM g) n ds ⟨.link none, 0⟩ ⟨[], len⟩).bind fun x => .pure (none, some x.2.1)
  | some a =>
    (mkWorkM D n lb ub [] (.link (some a))).bind fun w =>
    match w.2 with
    | none => w.1.close.bind fun r => .pure (r, none)
    | some u =>
      ((mutOps D).run (yldM g) n ds ⟨w.1, 0⟩ ⟨u, len⟩).bind fun x =>
      x.1.tree.close.bind fun r => .pure (r, some x.2.1)

end Verif.BTreeH
