import Verif.Wild.AvlMachine
import Verif.Wild.BTreeMachine
import Verif.Fixed.Iter
/-!
# What a lawless `Ord` can do

`Ord` is a safe trait, so an implementation may be no order at all, may answer differently each
time, and may panic.  Here a comparison is any `Cmp σ K`: it sees and changes an arbitrary state
`σ`, and answers an `Ordering` or panics (`none`).  A program (`wrun`) holds any number of maps,
issues any operations with any comparisons, and catches every panic.  An outer `none` is a panic
of the crate's own (a failed assertion, an index out of bounds, an arithmetic underflow) or
undefined behaviour.
-/
set_option linter.unusedVariables false
namespace Verif.Demo
open Verif.Wild

/-- A lawless comparison: the answers go round, and the eleventh call in every twelve panics. -/
def moody : Nat → Cmp Nat Nat := fun a b s =>
  (if s % 12 = 10 then none
   else if s % 5 = 4 then some .eq else if (a + b + s) % 3 = 0 then some .lt else some .gt, s + 1)

/-- A comparison that calls everything equal. -/
def allEq : Nat → Cmp Nat Nat := fun _ _ s => (some .eq, s)

/-- A comparison that always panics. -/
def never : Nat → Cmp Nat Nat := fun _ _ s => (none, s)

/-- The honest comparison. -/
def honest : Nat → Cmp Nat Nat := fun k => tame (compare k)

/-- Entries in a scrambled order. -/
def wents (n : Nat) : List (Nat × Nat) := (List.range n).map (fun i => (i * 7 % 31, i))

/-- A program over `BTreeMap`. -/
def bprog : List (BTree.BTreeMap.WCmd Nat Nat Nat) :=
  [.extend 0 moody (wents 9), .extend 0 moody (wents 30), .extend 0 honest (wents 30), .clone 0 1,
   .remove 0 (moody 3), .insert 0 (moody 7) 7 70, .extend 1 moody (wents 4),
   .getMut 1 (moody 2) (· + 100), .append 0 1 .shared moody, .remove 0 (never 0), .popFirst 0,
   .extend 2 honest (wents 20),
   .splitOff 2 3 .unique honest (fun k s => (some (k % 3 == 0), s + 1))]

/-- What it leaves. -/
@[irreducible] def bst : BTree.BTreeMap.Maps Nat Nat × Nat :=
  (BTree.BTreeMap.wrun 1 (fun _ => BTree.BTreeMap.new) 0 bprog).getD (fun _ => BTree.BTreeMap.new, 0)

theorem bst_eq : BTree.BTreeMap.wrun 1 (fun _ => BTree.BTreeMap.new) 0 bprog = some bst := by
  have : (BTree.BTreeMap.wrun 1 (fun _ => BTree.BTreeMap.new) 0 bprog).isSome := by decide +kernel
  exact (Option.some_get this).symm.trans (by rw [bst, Option.get_eq_getD])

/-- A program over `fixed::BTreeMap`. -/
def fprog : List (Fixed.FMap.WCmd Nat Nat Nat) :=
  [.extend 0 moody (wents 9), .extend 0 moody (wents 30), .extend 0 honest (wents 30), .clone 0 1,
   .remove 0 (moody 3), .insert 0 (moody 7) 7 70, .extend 1 moody (wents 4),
   .getMut 1 (moody 2) (· + 100), .remove 0 (never 0), .clear 3]

/-- What it leaves. -/
@[irreducible] def fst : Fixed.FMap.Maps Nat Nat × Nat :=
  (Fixed.FMap.wrun true (fun _ => Fixed.FMap.new) 0 fprog).getD (fun _ => Fixed.FMap.new, 0)

theorem fst_eq : Fixed.FMap.wrun true (fun _ => Fixed.FMap.new) 0 fprog = some fst := by
  have : (Fixed.FMap.wrun true (fun _ => Fixed.FMap.new) 0 fprog).isSome := by decide +kernel
  exact (Option.some_get this).symm.trans (by rw [fst, Option.get_eq_getD])

/-- A program over `AvlMap`. -/
def aprog : List (Avl.AvlMap.WCmd Nat Nat Nat) :=
  [.extend 0 moody (wents 9), .extend 0 moody (wents 30), .extend 0 honest (wents 12), .clone 0 1,
   .remove 0 (moody 3), .insert 0 (moody 7) 7 70, .extend 1 moody (wents 4),
   .getMut 1 (moody 2) (· + 100), .remove 0 (never 0), .popFirst 0,
   .merge 0 1 2 true true (fun a _ => some a) allEq]

/-- What it leaves. -/
@[irreducible] def ast : Avl.AvlMap.Maps Nat Nat × Nat :=
  (Avl.AvlMap.wrun (fun _ => Avl.AvlMap.new) 0 aprog).getD (fun _ => Avl.AvlMap.new, 0)

theorem ast_eq : Avl.AvlMap.wrun (fun _ => Avl.AvlMap.new) 0 aprog = some ast := by
  have : (Avl.AvlMap.wrun (fun _ => Avl.AvlMap.new) 0 aprog).isSome := by decide +kernel
  exact (Option.some_get this).symm.trans (by rw [ast, Option.get_eq_getD])

/-- A comparison that is honest but panics at the key 5. -/
def shy : Nat → Cmp Nat Nat := fun a b s => (if b = 5 then none else some (compare a b), s)

/-- Two honest `AvlMap`s. -/
def hprog : List (Avl.AvlMap.WCmd Nat Nat Nat) := [.extend 0 honest (wents 9), .extend 1 honest
  ((List.range 7).map (fun i => (i, i + 50)))]

/-- What it leaves. -/
@[irreducible] def hst : Avl.AvlMap.Maps Nat Nat × Nat :=
  (Avl.AvlMap.wrun (fun _ => Avl.AvlMap.new) 0 hprog).getD (fun _ => Avl.AvlMap.new, 0)

theorem hst_eq : Avl.AvlMap.wrun (fun _ => Avl.AvlMap.new) 0 hprog = some hst := by
  have : (Avl.AvlMap.wrun (fun _ => Avl.AvlMap.new) 0 hprog).isSome := by decide +kernel
  exact (Option.some_get this).symm.trans (by rw [hst, Option.get_eq_getD])

/-- How an operation ended: whether it returned, and the lengths and keys of the maps. -/
def tale {M R : Type} (f : M → List Nat × Nat) (g : R → List Nat × Nat) :
    Ends M R → Bool × List Nat × Nat
  | .unwound m => (false, f m)
  | .done r => (true, g r)

end Verif.Demo

namespace Verif.Props
open Verif.Wild Verif.Demo
universe w
variable {σ : Type w} {K V : Type}

/-! ## C56 `BTreeMap` -/
section btree
open Verif.BTree Verif.BTree.BTreeMap
variable {N : Nat}

/-- `m` is a map some program holds. -/
def HeldB (σ : Type w) (N : Nat) (m : BTreeMap K V) : Prop :=
  ∃ (cs : List (BTreeMap.WCmd σ K V)) (s0 s1 : σ) (st : BTreeMap.Maps K V) (i : Nat),
    BTreeMap.wrun N (fun _ => new) s0 cs = some (st, s1) ∧ m = st i

theorem HeldB.inv (hN : 1 ≤ N) {m : BTreeMap K V} (h : HeldB σ N m) : m.Inv N := by
  obtain ⟨cs, s0, s1, st, i, e, rfl⟩ := h
  obtain ⟨st', s', e', hi⟩ := BTreeMap.wrun_inv hN cs (st := fun _ => new) s0 (fun _ => inv_new N)
  rw [e] at e'
  cases e'
  exact hi i

theorem bst_held (i : Nat) : HeldB Nat 1 (bst.1 i) := ⟨bprog, 0, bst.2, bst.1, i, bst_eq, rfl⟩

/-- C56.  No program makes `BTreeMap` panic on its own account, and all its maps stay sound:
all leaves at one depth, every node between its minimum and maximum size, `len` the number of
entries, iteration complete. -/
theorem C56_btree_programs (hN : 1 ≤ N) (cs : List (BTreeMap.WCmd σ K V)) (s : σ) :
    ∃ st s', BTreeMap.wrun N (fun _ => new) s cs = some (st, s') ∧
      ∀ i, (st i).iterList = some (st i).abs ∧ (st i).len = (st i).abs.length ∧
        ∀ n, (st i).root = some n → ∃ h, Node.Ok N 1 h n := by
  obtain ⟨st', s', e', hi⟩ := BTreeMap.wrun_inv hN cs (st := fun _ => new) s (fun _ => inv_new N)
  exact ⟨st', s', e', fun i => ⟨iterList_inv hN (hi i), (hi i).len, (hi i).shape⟩⟩

/-- The keys of the example are in no order, and some occur more than once. -/
example : (bst.1 0).abs.map (·.1) = [1, 0, 2, 3, 4, 5, 6, 7, 0, 8, 9, 10, 1, 13, 14, 15, 16, 17, 18,
    19, 20, 21, 22, 23, 25, 26, 27, 28, 21, 4, 7, 29, 30] ∧ (bst.1 0).len = 33 := by decide +kernel

/-- C56.  `insert` adds the entry or puts it in the place of the one whose value it returns; if
a comparison panics the map is as it was. -/
theorem C56_btree_insert (hN : 1 ≤ N) {m : BTreeMap K V} (h : HeldB σ N m) (c : Cmp σ K) (k : K)
    (v : V) (s : σ) :
    ∃ r s', m.insertW N c k v s = some (r, s') ∧
      match r with
      | .unwound m' => m' = m ∧ ∃ e ∈ m.abs, ∃ s, (c e.1 s).1 = none
      | .done (m', none) => (∃ l1 l2, m.abs = l1 ++ l2 ∧ m'.abs = l1 ++ (k, v) :: l2) ∧
          m'.len = m.len + 1
      | .done (m', some x) => (∃ l1 kx l2, m.abs = l1 ++ (kx, x) :: l2 ∧
          m'.abs = l1 ++ (k, v) :: l2 ∧ ∃ s, (c kx s).1 = some .eq) ∧ m'.len = m.len := by
  obtain ⟨r, s', e, hr⟩ := insertW_spec N c (h.inv hN) k v s
  refine ⟨r, s', e, ?_⟩
  rcases r with m' | ⟨m', _ | x⟩
  · exact hr
  · exact ⟨hr.2, by rw [hr.1.len, (h.inv hN).len]; exact hr.2.length⟩
  · exact ⟨hr.2, by rw [hr.1.len, (h.inv hN).len]; exact hr.2.length⟩

/-- A panic, an addition out of order, and a replacement. -/
example :
    let o := fun c s => ((bst.1 2).insertW 1 c 6 60 s).map (fun r => tale
      (fun m => (m.abs.map (·.1), m.len)) (fun r => (r.1.abs.map (·.1), r.1.len)) r.1)
    (bst.1 2).abs.map (·.1) = [0, 9, 12, 15, 18, 21] ∧
      o (never 6) 0 = some (false, [0, 9, 12, 15, 18, 21], 6) ∧
      o (moody 6) 0 = some (true, [0, 6, 9, 12, 15, 18, 21], 7) ∧ o (moody 6) 2 = some (true, [0, 9, 6, 15, 18, 21], 6) := by decide +kernel

/-- C56.  `remove` takes away exactly the entry it reports, or leaves the map as it was. -/
theorem C56_btree_remove (hN : 1 ≤ N) {m : BTreeMap K V} (h : HeldB σ N m) (c : Cmp σ K) (s : σ) :
    ∃ r s', m.removeW N c s = some (r, s') ∧
      match r with
      | .unwound m' => m' = m ∧ ∃ e ∈ m.abs, ∃ s, (c e.1 s).1 = none
      | .done (m', none) => m' = m
      | .done (m', some e) => (∃ l1 l2, m.abs = l1 ++ e :: l2 ∧ m'.abs = l1 ++ l2 ∧
          ∃ s, (c e.1 s).1 = some .eq) ∧ m'.len + 1 = m.len := by
  obtain ⟨r, s', e, hr⟩ := removeW_spec N c hN (h.inv hN) s
  refine ⟨r, s', e, ?_⟩
  rcases r with m' | ⟨m', _ | x⟩
  · exact hr
  · exact hr.2.2 rfl
  · exact ⟨hr.2.1, by rw [hr.1.len, (h.inv hN).len]; exact hr.2.1.length⟩

/-- A panic, nothing found, and a removal. -/
example :
    let o := fun c s => ((bst.1 2).removeW 1 c s).map (fun r => tale
      (fun m => (m.abs.map (·.1), m.len)) (fun r => (r.1.abs.map (·.1), r.1.len)) r.1)
    o (never 6) 0 = some (false, [0, 9, 12, 15, 18, 21], 6) ∧
      o (moody 6) 2 = some (true, [0, 9, 12, 15, 18, 21], 6) ∧ o (allEq 6) 0 = some (true, [0, 12, 15, 18, 21], 5) := by decide +kernel

/-- C56.  `get` finds an entry of the map that compared equal; `get_mut` gives access to such an
entry's value and to nothing else. -/
theorem C56_btree_get (hN : 1 ≤ N) {m : BTreeMap K V} (h : HeldB σ N m) (c : Cmp σ K) (g : V → V)
    (s : σ) :
    (∃ r s', m.getW c s = some (r, s') ∧
      ∀ x, r = .done (some x) → x ∈ m.abs ∧ ∃ s, (c x.1 s).1 = some .eq) ∧
    ∃ r s', m.getMutW c g s = some (r, s') ∧
      match r with
      | .unwound m' => m' = m
      | .done (m', false) => m' = m
      | .done (m', true) => (∃ l1 e l2, m.abs = l1 ++ e :: l2 ∧ m'.abs = l1 ++ (e.1, g e.2) :: l2 ∧
          ∃ s, (c e.1 s).1 = some .eq) ∧ m'.len = m.len := by
  obtain ⟨r, s', e, hr⟩ := getW_spec N c (h.inv hN) s
  obtain ⟨r2, s2, e2, hr2⟩ := getMutW_spec N c (h.inv hN) g s
  refine ⟨⟨r, s', e, fun x hx => by subst hx; exact hr x rfl⟩, r2, s2, e2, ?_⟩
  rcases r2 with m' | ⟨m', _ | _⟩
  · exact hr2.1
  · exact hr2.2.2 rfl
  · exact ⟨hr2.2.1, by rw [hr2.1.len, (h.inv hN).len]; exact hr2.2.1.length⟩

/-- `get` finds an entry of a key that is not the one looked for. -/
example : ((bst.1 2).getW (allEq 6) 0).map (·.1) = some (.done (some (9, 19))) ∧
    ((bst.1 2).getMutW (allEq 6) (· + 1000) 0).map (fun r => match r.1 with
      | .unwound _ => none
      | .done (m, b) => some (m.abs, b)) = some (some ([(0, 0), (9, 1019), (12, 15), (15, 11), (18, 7), (21, 3)], true)) := by decide +kernel

end btree

/-! ## C56 `fixed::BTreeMap` -/
section fixed
open Verif.Fixed Verif.Fixed.FMap
variable {lin : Bool}

/-- `m` is a map some program holds. -/
def HeldF (σ : Type w) (lin : Bool) (m : FMap K V) : Prop :=
  ∃ (cs : List (FMap.WCmd σ K V)) (s0 s1 : σ) (st : FMap.Maps K V) (i : Nat),
    FMap.wrun lin (fun _ => new) s0 cs = some (st, s1) ∧ m = st i

theorem HeldF.inv {m : FMap K V} (h : HeldF σ lin m) : m.Inv := by
  obtain ⟨cs, s0, s1, st, i, e, rfl⟩ := h
  obtain ⟨st', s', e', hi⟩ := FMap.wrun_inv lin cs (st := fun _ => new) s0 (fun _ => inv_new)
  rw [e] at e'
  cases e'
  exact hi i

theorem fst_held (i : Nat) : HeldF Nat true (fst.1 i) := ⟨fprog, 0, fst.2, fst.1, i, fst_eq, rfl⟩

/-- C56.  No program makes `fixed::BTreeMap` panic on its own account, read a slot that holds
nothing, or overrun a node; all its maps stay sound, and any calls of `iter` from both ends take
the entries off the two ends. -/
theorem C56_fixed_programs (lin : Bool) (cs : List (FMap.WCmd σ K V)) (s : σ) :
    ∃ st s', FMap.wrun lin (fun _ => new) s cs = some (st, s') ∧
      ∀ i, (∀ n, (st i).iterRun (List.replicate n true) =
          some (Spec.dequeRun (List.replicate n true) (st i).toList)) ∧
        (st i).len = (st i).toList.length ∧
        ∀ n, (st i).root = some n → ∃ h, BTree.Node.Ok MIN 1 h n := by
  obtain ⟨st', s', e', hi⟩ := FMap.wrun_inv lin cs (st := fun _ => new) s (fun _ => inv_new)
  exact ⟨st', s', e', fun i => ⟨iterRun_front_inv (hi i), (hi i).len, (hi i).shape⟩⟩

/-- The keys of the example are in no order, and some occur more than once. -/
example : (fst.1 0).toList.map (·.1) = [1, 7, 2, 3, 4, 5, 6, 7, 8, 9, 10, 11, 7, 12, 13, 14, 15, 16, 17, 18, 19, 20, 21, 0, 14, 4, 22, 23, 25, 26, 27, 28, 29, 30] ∧ (fst.1 0).len = 34 := by
  decide +kernel

/-- C56.  As `C56_btree_insert`. -/
theorem C56_fixed_insert {m : FMap K V} (h : HeldF σ lin m) (c : Cmp σ K) (k : K)
    (v : V) (s : σ) :
    ∃ r s', m.insertW lin c k v s = some (r, s') ∧
      match r with
      | .unwound m' => m' = m ∧ ∃ e ∈ m.toList, ∃ s, (c e.1 s).1 = none
      | .done (m', none) => (∃ l1 l2, m.toList = l1 ++ l2 ∧ m'.toList = l1 ++ (k, v) :: l2) ∧
          m'.len = m.len + 1
      | .done (m', some x) => (∃ l1 kx l2, m.toList = l1 ++ (kx, x) :: l2 ∧
          m'.toList = l1 ++ (k, v) :: l2 ∧ ∃ s, (c kx s).1 = some .eq) ∧ m'.len = m.len := by
  obtain ⟨r, s', e, hr⟩ := insertW_spec lin c h.inv k v s
  refine ⟨r, s', e, ?_⟩
  rcases r with m' | ⟨m', _ | x⟩
  · exact hr
  · exact ⟨hr.2, by rw [hr.1.len, h.inv.len]; exact hr.2.length⟩
  · exact ⟨hr.2, by rw [hr.1.len, h.inv.len]; exact hr.2.length⟩

/-- A panic, an addition out of order, and a replacement. -/
example :
    let o := fun c s => ((fst.1 0).insertW true c 6 60 s).map (fun r => tale
      (fun m => (m.toList.map (·.1), m.len)) (fun r => (r.1.toList.map (·.1), r.1.len)) r.1)
    o (never 6) 0 = some (false, (fst.1 0).toList.map (·.1), 34) ∧
      o (fun _ s => (some .gt, s)) 0 = some (true, (fst.1 0).toList.map (·.1) ++ [6], 35) ∧ o (moody 6) 2 = some (true, [1, 6, 2, 3, 4, 5, 6, 7, 8, 9, 10, 11, 7, 12, 13, 14, 15, 16, 17, 18, 19, 20, 21, 0, 14, 4, 22, 23, 25, 26, 27, 28, 29, 30], 34) := by
  decide +kernel

/-- C56.  As `C56_btree_remove`. -/
theorem C56_fixed_remove {m : FMap K V} (h : HeldF σ lin m) (c : Cmp σ K) (s : σ) :
    ∃ r s', m.removeW lin c s = some (r, s') ∧
      match r with
      | .unwound m' => m' = m ∧ ∃ e ∈ m.toList, ∃ s, (c e.1 s).1 = none
      | .done (m', none) => m' = m
      | .done (m', some e) => (∃ l1 l2, m.toList = l1 ++ e :: l2 ∧ m'.toList = l1 ++ l2 ∧
          ∃ s, (c e.1 s).1 = some .eq) ∧ m'.len + 1 = m.len := by
  obtain ⟨r, s', e, hr⟩ := removeW_spec lin c h.inv s
  refine ⟨r, s', e, ?_⟩
  rcases r with m' | ⟨m', _ | x⟩
  · exact hr
  · exact hr.2.2 rfl
  · exact ⟨hr.2.1, by rw [hr.1.len, h.inv.len]; exact hr.2.1.length⟩

/-- A panic, nothing found, and a removal. -/
example :
    let o := fun c s => ((fst.1 0).removeW true c s).map (fun r => tale
      (fun m => (m.toList.map (·.1), m.len)) (fun r => (r.1.toList.map (·.1), r.1.len)) r.1)
    o (never 6) 0 = some (false, (fst.1 0).toList.map (·.1), 34) ∧
      o (fun _ s => (some .gt, s)) 2 = some (true, (fst.1 0).toList.map (·.1), 34) ∧
      o (moody 6) 2 = some (true, [1, 2, 3, 4, 5, 6, 7, 8, 9, 10, 11, 7, 12, 13, 14, 15, 16, 17, 18, 19, 20, 21, 0, 14, 4, 22, 23, 25, 26, 27, 28, 29, 30], 33) := by
  decide +kernel

/-- C56.  As `C56_btree_get`. -/
theorem C56_fixed_get {m : FMap K V} (h : HeldF σ lin m) (c : Cmp σ K) (g : V → V) (s : σ) :
    (∃ r s', m.getW lin c s = some (r, s') ∧
      ∀ x, r = .done (some x) → x ∈ m.toList ∧ ∃ s, (c x.1 s).1 = some .eq) ∧
    ∃ r s', m.getMutW lin c g s = some (r, s') ∧
      match r with
      | .unwound m' => m' = m
      | .done (m', false) => m' = m
      | .done (m', true) => (∃ l1 e l2, m.toList = l1 ++ e :: l2 ∧
          m'.toList = l1 ++ (e.1, g e.2) :: l2 ∧ ∃ s, (c e.1 s).1 = some .eq) ∧ m'.len = m.len := by
  obtain ⟨r, s', e, hr⟩ := getW_spec lin c h.inv s
  obtain ⟨r2, s2, e2, hr2⟩ := getMutW_spec lin c h.inv g s
  refine ⟨⟨r, s', e, fun x hx => by subst hx; exact hr x rfl⟩, r2, s2, e2, ?_⟩
  rcases r2 with m' | ⟨m', _ | _⟩
  · exact hr2.1
  · exact hr2.2.2 rfl
  · exact ⟨hr2.2.1, by rw [hr2.1.len, h.inv.len]; exact hr2.2.1.length⟩

/-- `get` finds an entry of a key that is not the one looked for. -/
example : ((fst.1 0).getW true (allEq 99) 0).map (·.1) = some (.done (some (7, 1))) ∧
    ((fst.1 0).getMutW true (never 6) (· + 1000) 0).map (fun r => match r.1 with
      | .unwound m => some (m.toList.map (·.1))
      | .done (m, b) => none) = some (some ((fst.1 0).toList.map (·.1))) := by decide +kernel

end fixed

/-! ## C56 `AvlMap` -/
section avl
open Verif.Avl Verif.Avl.AvlMap

/-- `m` is a map some program holds that does not use `append`, `split_off` and `retain`. -/
def HeldA (σ : Type w) (m : AvlMap K V) : Prop :=
  ∃ (cs : List (AvlMap.WCmd σ K V)) (s0 s1 : σ) (st : AvlMap.Maps K V) (i : Nat),
    (∀ c ∈ cs, c.takes = false) ∧ AvlMap.wrun (fun _ => new) s0 cs = some (st, s1) ∧ m = st i

theorem HeldA.inv {m : AvlMap K V} (h : HeldA σ m) : m.Inv := by
  obtain ⟨cs, s0, s1, st, i, hc, e, rfl⟩ := h
  obtain ⟨st', s', e', hi⟩ := AvlMap.wrun_inv cs (st := fun _ => new) s0 (fun _ => inv_new) hc
  rw [e] at e'
  cases e'
  exact hi i

theorem ast_held (i : Nat) : HeldA Nat (ast.1 i) :=
  ⟨aprog, 0, ast.2, ast.1, i, by simp [aprog, AvlMap.WCmd.takes], ast_eq, rfl⟩

theorem hst_held (i : Nat) : HeldA Nat (hst.1 i) :=
  ⟨hprog, 0, hst.2, hst.1, i, by simp [hprog, AvlMap.WCmd.takes], hst_eq, rfl⟩

/-- C56.  No program makes `AvlMap` panic on its own account; all its trees keep the AVL
condition with correct cached heights (`Bal`), iteration is complete, and `len` is never too
small.  It is exact if the program does not use `append`, `split_off` and `retain`
(for which see C57). -/
theorem C56_avl_programs (cs : List (AvlMap.WCmd σ K V)) (s : σ) :
    ∃ st s', AvlMap.wrun (fun _ => new) s cs = some (st, s') ∧
      ∀ i, (st i).root.Bal ∧ (st i).iterList = some (st i).abs ∧ (st i).abs.length ≤ (st i).len ∧
        ((∀ c ∈ cs, c.takes = false) → (st i).len = (st i).abs.length) := by
  obtain ⟨st', s', e', hi⟩ := AvlMap.wrun_over cs (st := fun _ => new) s (fun _ => inv_new.over)
  refine ⟨st', s', e', fun i => ⟨(hi i).bal, (hi i).iterList, (hi i).le, fun hc => ?_⟩⟩
  exact (HeldA.inv ⟨cs, s, s', st', i, hc, e', rfl⟩).len_eq

/-- The keys of the example are in no order, and some occur more than once. -/
example : (ast.1 0).abs.map (·.1) = [0, 1, 4, 7, 8, 11, 14, 15, 18, 21, 25, 7, 21, 7, 4] ∧
    (ast.1 0).len = 15 ∧ (ast.1 2).abs.map (·.1) = [7, 0, 1, 4, 7, 8, 11, 14, 15, 18, 7, 21, 25, 7, 21, 7, 4] ∧
    (ast.1 2).len = 17 := by decide +kernel

/-- C56.  As `C56_btree_insert`. -/
theorem C56_avl_insert {m : AvlMap K V} (h : HeldA σ m) (c : Cmp σ K) (k : K)
    (v : V) (s : σ) :
    ∃ r s', m.insertW c k v s = some (r, s') ∧
      match r with
      | .unwound m' => m' = m ∧ ∃ e ∈ m.abs, ∃ s, (c e.1 s).1 = none
      | .done (m', none) => (∃ l1 l2, m.abs = l1 ++ l2 ∧ m'.abs = l1 ++ (k, v) :: l2) ∧
          m'.len = m.len + 1
      | .done (m', some x) => (∃ l1 kx l2, m.abs = l1 ++ (kx, x) :: l2 ∧
          m'.abs = l1 ++ (k, v) :: l2 ∧ ∃ s, (c kx s).1 = some .eq) ∧ m'.len = m.len := by
  obtain ⟨r, s', e, hr⟩ := insertW_spec c h.inv k v s
  refine ⟨r, s', e, ?_⟩
  rcases r with m' | ⟨m', _ | x⟩
  · exact hr
  · exact ⟨hr.2, by rw [hr.1.len_eq, h.inv.len_eq]; exact hr.2.length⟩
  · exact ⟨hr.2, by rw [hr.1.len_eq, h.inv.len_eq]; exact hr.2.length⟩

/-- A panic, an addition out of order, and a replacement. -/
example :
    let o := fun c s => ((ast.1 0).insertW c 6 60 s).map (fun r => tale
      (fun m => (m.abs.map (·.1), m.len)) (fun r => (r.1.abs.map (·.1), r.1.len)) r.1)
    o (never 6) 0 = some (false, (ast.1 0).abs.map (·.1), 15) ∧
      o (moody 6) 0 = some (true, [0, 1, 4, 7, 8, 11, 14, 15, 18, 21, 25, 7, 6, 21, 7, 4], 16) ∧ o (moody 6) 2 = some (true, [0, 1, 4, 7, 8, 11, 14, 15, 18, 21, 25, 7, 21, 6, 4], 15) := by
  decide +kernel

/-- C56.  As `C56_btree_remove`, except that a map without the entry is the same only as far as
its entries go. -/
theorem C56_avl_remove {m : AvlMap K V} (h : HeldA σ m) (c : Cmp σ K) (s : σ) :
    ∃ r s', m.removeW c s = some (r, s') ∧
      match r with
      | .unwound m' => m' = m ∧ ∃ e ∈ m.abs, ∃ s, (c e.1 s).1 = none
      | .done (m', none) => m'.abs = m.abs ∧ m'.len = m.len
      | .done (m', some e) => (∃ l1 l2, m.abs = l1 ++ e :: l2 ∧ m'.abs = l1 ++ l2 ∧
          ∃ s, (c e.1 s).1 = some .eq) ∧ m'.len + 1 = m.len := by
  obtain ⟨r, s', e, hr⟩ := removeW_spec c h.inv s
  refine ⟨r, s', e, ?_⟩
  rcases r with m' | ⟨m', _ | x⟩
  · exact hr
  · have h2 : m'.abs = m.abs := hr.2
    exact ⟨h2, by rw [hr.1.len_eq, h.inv.len_eq, h2]⟩
  · exact ⟨hr.2, by rw [hr.1.len_eq, h.inv.len_eq]; exact hr.2.length⟩

/-- A panic, nothing found, and a removal. -/
example :
    let o := fun c s => ((ast.1 0).removeW c s).map (fun r => tale
      (fun m => (m.abs.map (·.1), m.len)) (fun r => (r.1.abs.map (·.1), r.1.len)) r.1)
    o (never 6) 0 = some (false, (ast.1 0).abs.map (·.1), 15) ∧
      o (fun _ s => (some .gt, s)) 2 = some (true, (ast.1 0).abs.map (·.1), 15) ∧
      o (moody 6) 2 = some (true, [0, 1, 4, 7, 8, 11, 14, 15, 18, 21, 25, 7, 21, 4], 14) := by
  decide +kernel

/-- C56.  As `C56_btree_get`. -/
theorem C56_avl_get {m : AvlMap K V} (h : HeldA σ m) (c : Cmp σ K) (g : V → V) (s : σ) :
    (∀ x, (m.getW c s).1 = .done (some x) → x ∈ m.abs ∧ ∃ s, (c x.1 s).1 = some .eq) ∧
      match (m.getMutW c g s).1 with
      | .unwound m' => m' = m
      | .done (m', false) => m' = m
      | .done (m', true) => (∃ l1 e l2, m.abs = l1 ++ e :: l2 ∧ m'.abs = l1 ++ (e.1, g e.2) :: l2 ∧
          ∃ s, (c e.1 s).1 = some .eq) ∧ m'.len = m.len := by
  have hr := getW_spec c m s
  have hr2 := getMutW_spec c h.inv g s
  refine ⟨fun x hx => by rw [hx] at hr; exact hr x rfl, ?_⟩
  generalize (m.getMutW c g s).1 = r2 at hr2 ⊢
  rcases r2 with m' | ⟨m', _ | _⟩
  · exact hr2.1
  · exact hr2.2.2 rfl
  · exact ⟨hr2.2.1, by rw [hr2.1.len_eq, h.inv.len_eq]; exact hr2.2.1.length⟩

/-- `get` finds an entry of a key that is not the one looked for. -/
example : ((ast.1 0).getW (allEq 99) 0).1 = .done (some (14, 2)) := by decide +kernel

/-- C56.  The set operations of `AvlMap`: every entry of the left map (and every entry of the
right one) is either taken to be alone, and kept if `keepL` (`keepR`), or is matched with one
of the other map that compared equal, and the two are settled by `dec`. -/
theorem C56_avl_merge {l r : AvlMap K V} (hl : HeldA σ l) (hr : HeldA σ r) (keepL keepR : Bool)
    (dec : K × V → K × V → Option (K × V)) (c : K → Cmp σ K) (s : σ) :
    ∃ x s', newMergeW keepL keepR dec l r c s = some (x, s') ∧
      match x with
      | .unwound _ => ∃ e ∈ l.abs, ∃ e2 ∈ r.abs, ∃ s, (c e.1 e2.1 s).1 = none
      | .done m => m.root.Bal ∧ m.len = m.abs.length ∧
          ∃ (A B : List (K × V)) (M : List ((K × V) × (K × V))),
            (A ++ M.map (·.1)).Perm l.abs ∧ (B ++ M.map (·.2)).Perm r.abs ∧
            ((if keepL then A else []) ++ ((if keepR then B else []) ++
              M.filterMap (fun x => dec x.1 x.2))).Perm m.abs ∧
            ∀ x ∈ M, ∃ s, (c x.1.1 x.2.1 s).1 = some .eq := by
  obtain ⟨x, s', e, hx⟩ := newMergeW_spec hl.inv hr.inv keepL keepR dec c s
  refine ⟨x, s', e, ?_⟩
  rcases x with _ | m
  · exact hx
  · exact ⟨hx.1.bal, hx.1.len_eq, hx.2⟩

/-- A union that takes every pair it compares for equal, and one that panics. -/
example : (newMergeW true true (fun a _ => some a) (ast.1 0) (ast.1 1) allEq 0).map (fun r => tale
      (fun _ => ([], 0)) (fun m => (m.abs.map (·.1), m.len)) r.1) = some (true, [7, 0, 1, 4, 7, 8, 11, 14, 15, 18, 7, 21, 25, 7, 21, 7, 4], 17) ∧
    (newMergeW true true (fun a _ => some a) (ast.1 0) (ast.1 1) never 0).map (fun r => tale
      (fun _ => ([], 0)) (fun m => (m.abs.map (·.1), m.len)) r.1) = some (false, [], 0) := by
  decide +kernel

end avl

/-! ## C57 the operations that take many entries -/

/-- C57.  `extend` of the three maps, interrupted by a panic, has inserted exactly the entries
before the one at which the comparison panicked. -/
theorem C57_btree_extend {N : Nat} (hN : 1 ≤ N) {m : BTree.BTreeMap K V} (h : HeldB σ N m)
    (c : K → Cmp σ K) (es : List (K × V)) (s : σ) :
    ∃ r s', m.extendW N c es s = some (r, s') ∧
      match r with
      | .unwound m' => m'.len = m'.abs.length ∧ m'.iterList = some m'.abs ∧
          ∃ es1 e es2, es = es1 ++ e :: es2 ∧ Puts c m.abs es1 m'.abs ∧
            ∃ e' ∈ m'.abs, ∃ s, (c e.1 e'.1 s).1 = none
      | .done m' => m'.len = m'.abs.length ∧ m'.iterList = some m'.abs ∧ Puts c m.abs es m'.abs := by
  obtain ⟨r, s', e, hr⟩ := BTree.BTreeMap.extendW_spec N (h.inv hN) c es s
  refine ⟨r, s', e, ?_⟩
  rcases r with m' | m'
  · exact ⟨hr.1.len, BTree.BTreeMap.iterList_inv hN hr.1, hr.2⟩
  · exact ⟨hr.1.len, BTree.BTreeMap.iterList_inv hN hr.1, hr.2⟩

/-- An honest comparison that panics at 5: the fourth entry is not added. -/
example : ((bst.1 2).extendW 1 shy [(100, 1), (5, 2), (101, 3), (6, 3)] 0).map (fun r => tale
    (fun m => (m.abs.map (·.1), m.len)) (fun m => (m.abs.map (·.1), m.len)) r.1) =
    some (false, [0, 5, 9, 12, 15, 18, 21, 100, 101], 9) := by decide +kernel

@[inherit_doc C57_btree_extend]
theorem C57_fixed_extend {lin : Bool} {m : Fixed.FMap K V} (h : HeldF σ lin m)
    (c : K → Cmp σ K) (es : List (K × V)) (s : σ) :
    ∃ r s', m.extendW lin c es s = some (r, s') ∧
      match r with
      | .unwound m' => m'.len = m'.toList.length ∧
          ∃ es1 e es2, es = es1 ++ e :: es2 ∧ Puts c m.toList es1 m'.toList ∧
            ∃ e' ∈ m'.toList, ∃ s, (c e.1 e'.1 s).1 = none
      | .done m' => m'.len = m'.toList.length ∧ Puts c m.toList es m'.toList := by
  obtain ⟨r, s', e, hr⟩ := Fixed.FMap.extendW_spec lin h.inv c es s
  refine ⟨r, s', e, ?_⟩
  rcases r with m' | m'
  · exact ⟨hr.1.len, hr.2⟩
  · exact ⟨hr.1.len, hr.2⟩

example : ((fst.1 2).extendW true shy [(100, 1), (5, 2), (101, 3), (6, 3)] 0).map (fun r => tale
    (fun m => (m.toList.map (·.1), m.len)) (fun m => (m.toList.map (·.1), m.len)) r.1) =
    some (false, [5, 100], 2) := by decide +kernel

@[inherit_doc C57_btree_extend]
theorem C57_avl_extend {m : Avl.AvlMap K V} (h : HeldA σ m)
    (c : K → Cmp σ K) (es : List (K × V)) (s : σ) :
    ∃ r s', m.extendW c es s = some (r, s') ∧
      match r with
      | .unwound m' => m'.len = m'.abs.length ∧ m'.iterList = some m'.abs ∧
          ∃ es1 e es2, es = es1 ++ e :: es2 ∧ Puts c m.abs es1 m'.abs ∧
            ∃ e' ∈ m'.abs, ∃ s, (c e.1 e'.1 s).1 = none
      | .done m' => m'.len = m'.abs.length ∧ m'.iterList = some m'.abs ∧ Puts c m.abs es m'.abs := by
  obtain ⟨r, s', e, hr⟩ := Avl.AvlMap.extendW_spec h.inv c es s
  refine ⟨r, s', e, ?_⟩
  rcases r with m' | m'
  · exact ⟨hr.1.len_eq, Avl.AvlMap.iterList_inv hr.1, hr.2⟩
  · exact ⟨hr.1.len_eq, Avl.AvlMap.iterList_inv hr.1, hr.2⟩

example : ((hst.1 0).extendW shy [(100, 1), (5, 2), (101, 3), (6, 3)] 0).map (fun r => tale
    (fun m => (m.abs.map (·.1), m.len)) (fun m => (m.abs.map (·.1), m.len)) r.1) =
    some (false, [0, 4, 5, 7, 11, 14, 18, 21, 25, 28, 100, 101], 12) := by decide +kernel

/-- C57.  `BTreeMap::append`, interrupted, has inserted the entries before the one at which the
comparison panicked, and `other` is empty: the entries after it are lost. -/
theorem C57_btree_append {N : Nat} (hN : 1 ≤ N) (o : BTree.Sharing K V) {m other : BTree.BTreeMap K V}
    (h : HeldB σ N m) (ho : HeldB σ N other) (c : K → Cmp σ K) (s : σ) :
    ∃ r s', m.appendW N o other c s = some (r, s') ∧
      match r with
      | .unwound (m', other') => m'.len = m'.abs.length ∧ m'.iterList = some m'.abs ∧
          other' = BTree.BTreeMap.new ∧
          ∃ es1 e es2, other.abs = es1 ++ e :: es2 ∧ Puts c m.abs es1 m'.abs ∧
            ∃ e' ∈ m'.abs, ∃ s, (c e.1 e'.1 s).1 = none
      | .done (m', other') => m'.len = m'.abs.length ∧ m'.iterList = some m'.abs ∧
          other' = BTree.BTreeMap.new ∧ Puts c m.abs other.abs m'.abs := by
  obtain ⟨r, s', e, hr⟩ := BTree.BTreeMap.appendW_spec hN o (h.inv hN) (ho.inv hN) c s
  refine ⟨r, s', e, ?_⟩
  rcases r with ⟨m', x⟩ | ⟨m', x⟩
  · exact ⟨hr.1.len, BTree.BTreeMap.iterList_inv hN hr.1, hr.2⟩
  · exact ⟨hr.1.len, BTree.BTreeMap.iterList_inv hN hr.1, hr.2⟩

/-- Of the fourteen entries of `other`, ten are lost. -/
example : (bst.1 3).len = 14 ∧ ((bst.1 2).appendW 1 .shared (bst.1 3) shy 0).map (fun r => tale
    (fun m => (m.1.abs.map (·.1), m.2.len)) (fun m => (m.1.abs.map (·.1), m.2.len)) r.1) =
    some (false, [0, 1, 2, 4, 5, 9, 12, 15, 18, 21], 0) := by decide +kernel

/-- C57.  `BTreeMap::split_off`, interrupted, leaves an empty map; if it returns, both maps are
sound and each entry went to one of them. -/
theorem C57_btree_splitOff {N : Nat} (hN : 1 ≤ N) (o : BTree.Sharing K V) {m : BTree.BTreeMap K V}
    (h : HeldB σ N m) (c : K → Cmp σ K) (g : K → σ → Option Bool × σ) (s : σ) :
    ∃ r s', m.splitOffW N o c g s = some (r, s') ∧
      match r with
      | .unwound m' => m' = BTree.BTreeMap.new
      | .done (a, b) => a.len = a.abs.length ∧ a.iterList = some a.abs ∧
          b.len = b.abs.length ∧ b.iterList = some b.abs ∧
          ∃ es1 es2, (es1 ++ es2).Perm m.abs ∧ es1.Sublist m.abs ∧ es2.Sublist m.abs ∧
            Puts c [] es1 a.abs ∧ Puts c [] es2 b.abs := by
  obtain ⟨r, s', e, hr⟩ := BTree.BTreeMap.splitOffW_spec hN o (h.inv hN) c g s
  refine ⟨r, s', e, ?_⟩
  rcases r with m' | ⟨a, b⟩
  · exact hr
  · exact ⟨hr.1.len, BTree.BTreeMap.iterList_inv hN hr.1, hr.2.1.len,
      BTree.BTreeMap.iterList_inv hN hr.2.1, hr.2.2⟩

example : ((bst.1 3).splitOffW 1 .shared honest (fun k s => (some (k < 20), s)) 0).map (fun r => tale
      (fun m => (m.abs.map (·.1), m.len)) (fun m => (m.1.abs.map (·.1), m.2.len)) r.1) =
      some (true, [1, 2, 4, 5, 7, 8, 11, 14, 19], 5) ∧
    ((bst.1 3).splitOffW 1 .shared shy (fun k s => (some (k < 20), s)) 0).map (fun r => tale
      (fun m => (m.abs.map (·.1), m.len)) (fun m => (m.1.abs.map (·.1), m.2.len)) r.1) = some (false, [], 0) := by
  decide +kernel

/-- C57.  `BTreeMap::retain`, interrupted, leaves an empty map; if it returns, the map is sound
and has no keys but old ones. -/
theorem C57_btree_retain {N : Nat} (hN : 1 ≤ N) (o : BTree.Sharing K V) {m : BTree.BTreeMap K V}
    (h : HeldB σ N m) (c : K → Cmp σ K) (f : K → V → σ → Option (V × Bool) × σ) (s : σ) :
    ∃ r s', m.retainW N o c f s = some (r, s') ∧
      match r with
      | .unwound m' => m' = BTree.BTreeMap.new
      | .done m' => m'.len = m'.abs.length ∧ m'.iterList = some m'.abs ∧
          ∃ kept : List (K × V), (kept.map (·.1)).Sublist (m.abs.map (·.1)) ∧
            Puts c [] kept m'.abs := by
  obtain ⟨r, s', e, hr⟩ := BTree.BTreeMap.retainW_spec hN o (h.inv hN) c f s
  refine ⟨r, s', e, ?_⟩
  rcases r with m' | m'
  · exact hr
  · exact ⟨hr.1.len, BTree.BTreeMap.iterList_inv hN hr.1, hr.2⟩

example : ((bst.1 3).retainW 1 .shared allEq (fun k v s => (some (v, k < 20), s)) 0).map (fun r => tale
      (fun m => (m.abs.map (·.1), m.len)) (fun m => (m.abs.map (·.1), m.len)) r.1) = some (true, [19], 1) ∧
    ((bst.1 3).retainW 1 .shared shy (fun k v s => (some (v, k < 20), s)) 0).map (fun r => tale
      (fun m => (m.abs.map (·.1), m.len)) (fun m => (m.abs.map (·.1), m.len)) r.1) = some (false, [], 0) := by
  decide +kernel

/-- C57, the part that holds of `AvlMap`: if `append` returns, the map is sound and `other` is
empty; if it unwinds, both trees are gone and **both lengths are what they were**. -/
theorem C57_avl_append_partial {m other : Avl.AvlMap K V} (h : HeldA σ m) (ho : HeldA σ other)
    (c : K → Cmp σ K) (s : σ) :
    ∃ r s', m.appendW other c s = some (r, s') ∧
      match r with
      | .unwound (m', other') => m'.abs = [] ∧ other'.abs = [] ∧ m'.len = m.len ∧
          other'.len = other.len ∧ ∃ e ∈ m.abs, ∃ e2 ∈ other.abs, ∃ s, (c e.1 e2.1 s).1 = none
      | .done (m', other') => m'.len = m'.abs.length ∧ m'.root.Bal ∧
          other' = Avl.AvlMap.new ∧ ∃ (A B : List (K × V)) (M : List ((K × V) × (K × V))),
            (A ++ M.map (·.1)).Perm m.abs ∧ (B ++ M.map (·.2)).Perm other.abs ∧
            (A ++ (B ++ M.map (·.2))).Perm m'.abs ∧
            ∀ x ∈ M, ∃ s, (c x.1.1 x.2.1 s).1 = some .eq := by
  obtain ⟨r, s', e, hr⟩ := Avl.AvlMap.appendW_spec h.inv ho.inv c s
  refine ⟨r, s', e, ?_⟩
  rcases r with ⟨m', x⟩ | ⟨m', x⟩
  · obtain ⟨rfl, rfl, h3⟩ := hr
    exact ⟨rfl, rfl, rfl, rfl, h3⟩
  · obtain ⟨h1, rfl, A, B, M, p1, p2, p3, p4⟩ := hr
    refine ⟨h1.len_eq, h1.bal, rfl, A, B, M, p1, p2, ?_, p4⟩
    simpa [List.filterMap_eq_map] using p3

example : ((hst.1 0).appendW (hst.1 1) allEq 0).map (fun r => tale (fun _ => ([], 0))
    (fun m => (m.1.abs.map (·.1), m.1.len)) r.1) =
    some (true, [0, 1, 2, 3, 11, 4, 18, 5, 25, 6], 10) := by decide +kernel

/-- C57, the part that holds of `AvlMap`: if `split_off` returns and the comparison is not at
odds with itself — an entry that equals the argument does not also equal one to its right — the
two maps are the two parts of the old one, with exact lengths. -/
theorem C57_avl_splitOff_partial {m : Avl.AvlMap K V} (h : HeldA σ m) (c : Cmp σ K)
    (ck : K → Cmp σ K)
    (hlaw : ∀ l1 e l2 e2, m.abs = l1 ++ e :: l2 → e2 ∈ l2 → (∃ s, (c e.1 s).1 = some .eq) →
      ∀ s, (ck e.1 e2.1 s).1 ≠ some .eq) (s : σ) :
    ∃ r s', m.splitOffW c ck s = some (r, s') ∧
      ∀ a b, r = .done (a, b) → a.root.Bal ∧ b.root.Bal ∧ a.len = a.abs.length ∧
        b.len = b.abs.length ∧ (a.abs ++ b.abs).Perm m.abs := by
  obtain ⟨r, s', e, hr⟩ := Avl.AvlMap.splitOffW_spec c h.inv ck s
  refine ⟨r, s', e, ?_⟩
  rintro a b rfl
  obtain ⟨h1, h2, h3⟩ := hr
  refine ⟨h1.bal, h2, h1.len_eq, ?_⟩
  rcases h3 with ⟨h3, h4⟩ | ⟨e, L, o, h4, h5, h6, h7⟩
  · exact ⟨h3.len_eq, by rw [h4]⟩
  · cases o with
    | none =>
      refine ⟨by rw [h7, h6.length]; rfl, ?_⟩
      obtain ⟨l1, l2, rfl, e2⟩ := h6
      rw [h4, e2]
      exact (List.Perm.append_left _ List.perm_middle)
    | some x =>
      obtain ⟨l1, kx, l2, rfl, e2, sx, hx⟩ := h6
      exact absurd hx (hlaw a.abs e _ (kx, x) h4 (by simp) h5 sx)

/-- The honest comparison meets the condition. -/
example : (∀ l1 e l2 e2, (hst.1 1).abs = l1 ++ e :: l2 → e2 ∈ l2 →
      (∃ s, (honest 2 e.1 s).1 = some .eq) → ∀ s, (honest e.1 e2.1 s).1 ≠ some .eq) ∧
    ((hst.1 1).splitOffW (honest 2) honest 0).map (fun r => tale (fun _ => ([], 0))
      (fun m => (m.1.abs.map (·.1) ++ m.2.abs.map (·.1), m.2.len)) r.1) =
    some (true, [0, 1, 2, 3, 4, 5, 6], 5) := by
  refine ⟨?_, by decide +kernel⟩
  have hnd : ((hst.1 1).abs.map (·.1)).Nodup := by decide +kernel
  intro l1 e l2 e2 h1 h2 _ s h3
  rw [h1] at hnd
  simp only [List.map_append, List.map_cons, List.nodup_append, List.nodup_cons] at hnd
  have h4 : e.1 = e2.1 := Nat.compare_eq_eq.1 (Option.some.inj h3)
  exact hnd.2.1.1 (h4 ▸ List.mem_map_of_mem h2)

/-- C57 is false of `AvlMap::append`: with an honest comparison that panics at one key, nine and
seven entries are gone, but the two lengths still say nine and seven. -/
theorem C57_avl_append_false : ∃ (m other : Avl.AvlMap Nat Nat) (c : Nat → Cmp Nat Nat),
    HeldA Nat m ∧ HeldA Nat other ∧
    (∀ a b s o, (c a b s).1 = some o → o = compare a b) ∧
    ∃ m' other' s, m.appendW other c 0 = some (.unwound (m', other'), s) ∧
      m'.iterList = some [] ∧ m'.len = 9 ∧ other'.iterList = some [] ∧ other'.len = 7 := by
  refine ⟨hst.1 0, hst.1 1, shy, hst_held 0, hst_held 1, ?_, ?_⟩
  · intro a b s o h
    simp only [shy] at h
    split at h
    · cases h
    · exact (Option.some.inj h).symm
  · obtain ⟨r, s', e, hr⟩ := C57_avl_append_partial (hst_held 0) (hst_held 1) shy 0
    have hd : ((hst.1 0).appendW (hst.1 1) shy 0).map (fun r => tale
        (fun m => (m.1.abs.map (·.1) ++ m.2.abs.map (·.1), m.1.len)) (fun _ => ([], 0)) r.1) =
        some (false, [], 9) := by decide +kernel
    have h1 : (hst.1 0).len = 9 ∧ (hst.1 1).len = 7 := by decide +kernel
    rw [e] at hd
    rcases r with ⟨m', o'⟩ | x
    · obtain ⟨a1, a2, a3, a4, -⟩ := hr
      have h9 : m'.len = 9 := a3.trans h1.1
      have h7 : o'.len = 7 := a4.trans h1.2
      have n1 : m'.root = .nil := by
        cases h : m'.root with
        | nil => rfl
        | node => simp [Avl.AvlMap.abs, h, Avl.Tree.toList] at a1
      have n2 : o'.root = .nil := by
        cases h : o'.root with
        | nil => rfl
        | node => simp [Avl.AvlMap.abs, h, Avl.Tree.toList] at a2
      refine ⟨m', o', s', e, ?_, h9, ?_, h7⟩
      · rw [Avl.AvlMap.Over.iterList ⟨by rw [n1]; trivial, by rw [a1]; simp⟩, a1]
      · rw [Avl.AvlMap.Over.iterList ⟨by rw [n2]; trivial, by rw [a2]; simp⟩, a2]
    · simp [tale] at hd

/-- C57 is false of `AvlMap::split_off`: the same for an argument whose comparison panics. -/
theorem C57_avl_splitOff_false : ∃ (m : Avl.AvlMap Nat Nat) (c : Nat → Cmp Nat Nat),
    HeldA Nat m ∧ (∀ a b s o, (c a b s).1 = some o → o = compare a b) ∧
    ((m.splitOffW (c 6) c 0).map (fun r => match r.1 with
      | .unwound m' => (m'.iterList, m'.len)
      | .done _ => (none, 0))) = some (some [], 7) := by
  refine ⟨hst.1 1, shy, hst_held 1, ?_, by decide +kernel⟩
  intro a b s o h
  simp only [shy] at h
  split at h
  · cases h
  · exact (Option.some.inj h).symm

/-- C57 is false of `AvlMap::split_off` even if nothing panics: with a comparison that calls all
keys equal, the returned map has three entries and says four. -/
theorem C57_avl_splitOff_len_false : ∃ m : Avl.AvlMap Nat Nat, HeldA Nat m ∧
    (m.splitOffW (allEq 6) allEq 0).map (fun r => match r.1 with
      | .unwound _ => (none, 0)
      | .done (_, b) => (b.iterList.map (·.map (·.1)), b.len)) = some (some [4, 3, 6], 4) :=
  ⟨hst.1 1, hst_held 1, by decide +kernel⟩

end Verif.Props
