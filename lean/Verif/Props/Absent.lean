import Verif.Props.FixedCost
import Verif.Props.BTreeSetCost
import Verif.Props.AvlSetCost
/-!
# Property C55: removing a key that is not there copies nothing

`BTreeMap::remove` and `BTreeSet::take` look the key up first, "to avoid unnecessary cloning"
(btree.rs:894-897, btree_set.rs:324-327); `BTreeSet::remove` is the map's.  `AvlMap::remove`,
`fixed::BTreeMap::remove` (which has a TODO, fixed.rs:127-130) and all `get_mut`s do not: they copy
the shared nodes on the path to where the key would be.
-/
namespace Verif.Props
open Verif.Heap Verif.Heap.Machine Verif.BTreeH Std

variable {K V Q S T : Type} [Ord K] [Ord Q] [Ord T] {N : Nat}

theorem exec_unless {P α : Type} {p : Prog P Bool} (hp : p.ReadOnly) {h h' : Mem P}
    (e : p.exec h = some (h', some false)) {q : Prog P α} {r : α} :
    (p.bind fun c => if c then q else .pure r).exec h = some (h, some r) := by
  have := hp.exec e
  subst this
  rw [Prog.exec_bind, e]
  rfl

section
variable {P H O C0 C1 C2 CR : Type} {I : Impl (Prog P) H O C0 C1 C2 CR}

theorem sees_one {h : Mem P} {rs : List (Option H)} {i : Nat} {c : C1} {o : O}
    (hs : Sees I h rs i c o) : ∃ s h' x, rs[i]? = some (some s) ∧
      (I.one s c).exec h = some (h', some x) ∧ x.2.2 = o := by
  obtain ⟨h', rs', e⟩ := hs
  cases hj : rs[i]?.join with
  | none =>
    simp only [run, step, hj] at e
    cases e
  | some s =>
    simp only [run, step, hj] at e
    obtain ⟨y, e2, hy⟩ := exec_map e
    obtain ⟨z, e3, rfl⟩ := exec_map e2
    cases z with
    | none => cases hy
    | some w =>
      simp only [Option.map_some, Option.some.injEq, Prod.mk.injEq, List.cons.injEq,
        and_true] at hy
      exact ⟨s, h', w, Option.join_eq_some_iff.1 hj, e3, hy.2.symm⟩

theorem run_same {h : Mem P} {rs : List (Option H)} {i : Nat} {c : C1} {o : O} {s : H}
    (hi : rs[i]? = some (some s)) (e : (I.one s c).exec h = some (h, some (some s, [], o))) :
    (run I [.one i c] rs).exec h = some (h, some (rs, [some o])) := by
  have hj : rs[i]?.join = some s := by rw [hi]; rfl
  have hset : rs.set i (some s) = rs := by
    refine List.ext_getElem? fun j => ?_
    rw [List.getElem?_set]
    split
    · next hij => subst hij; split <;> simp_all
    · rfl
  simp only [run, step, hj]
  change ((((I.one s c).bind _).bind _).exec h) = _
  rw [Prog.exec_bind, Prog.exec_bind, e]
  change some (h, some (rs.set i (some s) ++ [], [some o])) = _
  rw [List.append_nil, hset]

end

/-- C55: if a key is not in a `BTreeMap`, `remove` leaves memory exactly as it is, shared or not:
it copies, allocates and frees no node and counts no reference. -/
theorem C55_btree_remove {b : K → Q} {h : Mem (ND K V)} {rs : List (Option HMap)} {i : Nat} {q : Q}
    (hs : Sees (btreeM K V S N b) h rs i (.containsKey q) (.bool false)) :
    (Machine.run (btreeM K V S N b) [.one i (.remove q)] rs).exec h =
      some (h, some (rs, [some (.val none)])) := by
  obtain ⟨s, h', x, hi, e, ho⟩ := sees_one hs
  obtain ⟨y, e1, hy⟩ := exec_map e
  refine run_same hi ?_
  cases y with
  | none => cases hy
  | some y =>
    cases hy
    cases ho
    have := exec_unless (containsKey_reads s (probe b q)) e1
      (q := (s.rmAndRebal (BTreeH.remove N s.len (probe b q) s.len)).bind fun x =>
        .pure (x.1, x.2.map (·.2))) (r := (s, none))
    change (Prog.bind _ _).exec h = _
    rw [Prog.exec_bind]
    exact (by rw [show (HMap.remove N s (probe b q)).exec h = some (h, some (s, none)) from this]; rfl)

/-- C55: the same for `remove` on a `BTreeSet`. -/
theorem C55_btreeset_remove {b : T → Q} {h : Mem (ND T Unit)} {rs : List (Option HMap)} {i : Nat}
    {q : Q} (hs : Sees (btreeSetM T S Q N b) h rs i (.contains q) (.bool false)) :
    (Machine.run (btreeSetM T S Q N b) [.one i (.remove q)] rs).exec h =
      some (h, some (rs, [some (.bool false)])) := by
  obtain ⟨s, h', x, hi, e, ho⟩ := sees_one hs
  obtain ⟨y, e1, hy⟩ := exec_map e
  refine run_same hi ?_
  cases y with
  | none => cases hy
  | some y =>
    cases hy
    cases ho
    have := exec_unless (containsKey_reads s (probe b q)) e1
      (q := (s.rmAndRebal (BTreeH.remove N s.len (probe b q) s.len)).bind fun x =>
        .pure (x.1, x.2.map (·.2))) (r := (s, none))
    change (Prog.bind _ _).exec h = _
    rw [Prog.exec_bind]
    exact (by rw [show (HMap.remove N s (probe b q)).exec h = some (h, some (s, none)) from this]; rfl)

/-- C55: the same for `take` on a `BTreeSet`. -/
theorem C55_btreeset_take {b : T → Q} {h : Mem (ND T Unit)} {rs : List (Option HMap)} {i : Nat}
    {q : Q} (hs : Sees (btreeSetM T S Q N b) h rs i (.contains q) (.bool false)) :
    (Machine.run (btreeSetM T S Q N b) [.one i (.take q)] rs).exec h =
      some (h, some (rs, [some (.elem none)])) := by
  obtain ⟨s, h', x, hi, e, ho⟩ := sees_one hs
  obtain ⟨y, e1, hy⟩ := exec_map e
  refine run_same hi ?_
  cases y with
  | none => cases hy
  | some y =>
    cases hy
    cases ho
    have := (containsKey_reads s (probe b q)).exec e1
    subst this
    change (Prog.bind (Prog.bind _ _) _).exec _ = _
    rw [Prog.exec_bind, Prog.exec_bind, e1]
    rfl

/-! ## Where it is not so -/

/-- The nodes allocated by a program, and what its last command showed. -/
def allocatedBy {P H O C0 C1 C2 CR : Type} (I : Impl (Prog P) H O C0 C1 C2 CR)
    (cs : List (Cmd C0 C1 C2 CR)) : Option (Nat × Option (Option O)) :=
  ((Machine.run I cs []).exec .empty).bind fun x => x.2.map fun y => (x.1.next, y.2.getLast?)

namespace AbsentDemo

def seven : List (Nat × Nat) := (List.range 7).map fun k => (k, 10 * k)
def thirty : List (Nat × Nat) := (List.range 30).map fun k => (k, 10 * k)

def avl : List (AvlCmd Nat Nat Nat) := [.make (.fromIter seven), .one 0 .clone]
def btree : List (BTreeCmd Nat Nat Nat Nat) := [.make (.fromIter seven), .one 0 .clone]
def fixed : List (FixedCmd Nat Nat Nat) := [.make (.fromIter thirty), .one 0 .clone]
def set : List (BTreeSetCmd Nat Nat Nat) :=
  [.make (.fromIter [1, 2, 3, 4, 5, 6, 7]), .one 0 .clone]

end AbsentDemo

open AbsentDemo in
/-- Not so: `remove` and `get_mut` of a key that is not there, on a clone of an `AvlMap` with seven
entries, copy the three nodes on the path to where it would be. -/
theorem C55_avl_copies :
    allocatedBy (AvlH.avlM Nat Nat Nat) avl = some (7, some (some .unit)) ∧
    allocatedBy (AvlH.avlM Nat Nat Nat) (avl ++ [.one 1 (.remove (compare 99))]) =
      some (10, some (some (.val none))) ∧
    allocatedBy (AvlH.avlM Nat Nat Nat) (avl ++ [.one 1 (.getMut (compare 99) (· + 1))]) =
      some (10, some (some (.bool false))) := by decide +kernel

open AbsentDemo in
/-- Not so: `get_mut` of a key that is not there, on a clone of a `BTreeMap` with two levels. -/
theorem C55_btree_getMut_copies :
    allocatedBy BTreeHeapDemo.M btree = some (4, some (some .unit)) ∧
    allocatedBy BTreeHeapDemo.M (btree ++ [.one 1 (.getMut 99 (· + 1))]) =
      some (6, some (some (.bool false))) := by decide +kernel

open AbsentDemo in
/-- Not so: `remove` and `get_mut` of a key that is not there, on a clone of a
`fixed::BTreeMap` with two levels. -/
theorem C55_fixed_copies :
    allocatedBy FixedHeapDemo.M fixed = some (5, some (some .unit)) ∧
    allocatedBy FixedHeapDemo.M (fixed ++ [.one 1 (.remove 99)]) =
      some (7, some (some (.val none))) ∧
    allocatedBy FixedHeapDemo.M (fixed ++ [.one 1 (.getMut 99 (· + 1))]) =
      some (7, some (some (.bool false))) := by
  refine ⟨?_, ?_, ?_⟩ <;> decide +kernel

/-! ## Examples -/

namespace AbsentDemo

/-- The key is not there, and the nodes are shared. -/
theorem btree_absent : Sees BTreeHeapDemo.M (BTreeHeapDemo.end_ btree).1
    (BTreeHeapDemo.end_ btree).2 1 (.containsKey 99) (.bool false) := by
  obtain ⟨obs, e⟩ := (C53_btree_shared_reads (by simp) (by simp) (BTreeHeapDemo.reached btree)
    (.one 1 (.containsKey 99)) rfl).2
  have : (((Machine.run BTreeHeapDemo.M [.one 1 (.containsKey 99)] (BTreeHeapDemo.end_ btree).2).exec
      (BTreeHeapDemo.end_ btree).1).bind fun x => x.2.map (·.2)) = some [some (.bool false)] := by
    decide +kernel
  rw [e] at this
  simp only [Option.bind_some, Option.map_some, Option.some.injEq] at this
  subst this
  exact ⟨_, _, e⟩
example := C55_btree_remove btree_absent
example : ((BTreeHeapDemo.end_ btree).2[1]?.map fun o => o.map fun s => s.root.map fun a =>
    ((BTreeHeapDemo.end_ btree).1.cells a).map (·.rc)) = some (some (some (some 2))) := by
  decide +kernel

theorem set_absent : Sees BTreeSetHeapDemo.M (BTreeSetHeapDemo.end_ set).1
    (BTreeSetHeapDemo.end_ set).2 1 (.contains 99) (.bool false) := by
  obtain ⟨obs, e⟩ := (C53_btreeset_shared_reads (by simp) (by simp) (BTreeSetHeapDemo.reached set)
    (.one 1 (.contains 99)) rfl).2
  have : (((Machine.run BTreeSetHeapDemo.M [.one 1 (.contains 99)] (BTreeSetHeapDemo.end_ set).2).exec
      (BTreeSetHeapDemo.end_ set).1).bind fun x => x.2.map (·.2)) = some [some (.bool false)] := by
    decide +kernel
  rw [e] at this
  simp only [Option.bind_some, Option.map_some, Option.some.injEq] at this
  subst this
  exact ⟨_, _, e⟩
example := C55_btreeset_remove set_absent
example := C55_btreeset_take set_absent

end AbsentDemo
end Verif.Props
