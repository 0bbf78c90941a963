import Verif.AvlHeap.MapCost
import Verif.Heap.Alone
import Verif.Props.AvlHeap
/-!
# Properties C51, C52 and C53 for `AvlMap`

Memory counts the nodes allocated so far (`Mem.next`, addresses are not reused).  So the nodes a
program allocates, be they new or copies of shared ones, are the difference of `next` before and
after.
-/
namespace Verif.Props
open Verif.Heap Verif.Heap.Machine Verif.AvlH

variable {K V S : Type} [Ord K]

/-! ## C51: how much is copied -/

/-- At least the height of an AVL tree with `n` entries: `1.45 · (⌊log₂(n+1)⌋ + 1)`. -/
def avlLevels (n : Nat) : Nat := 29 * (Nat.log 2 (n + 1) + 1) / 20

/-- How many nodes an operation on one map of `n` entries allocates at most, whatever it shares
with other maps.  Nothing is claimed about the operations with `none`. -/
def avlAllocs : One K V S → Nat → Option Nat
  | .clone, _ | .drop, _ | .clear, _ => some 0
  | .insert _ _, n => some (avlLevels n + 3)
  | .remove _, n | .removeEntry _, n | .popFirst, n | .popLast, n => some (3 * avlLevels n)
  | .getMut _ _, n | .andModify _ _, n => some (avlLevels n)
  | .orInsert _ _ _, n => some (avlLevels n + 3 + avlLevels (n + 1))
  | .getKeyValue _, _ | .get _, _ | .containsKey _, _ | .index _, _ | .first, _ | .last, _
  | .len, _ | .isEmpty, _ | .iter _, _ | .intoIter _, _ | .range _ _ _, _ | .forEach _ _, _
  | .hash _ _ _ _, _ | .serialize, _ => some 0
  | .iterMut _ _, _ | .rangeMut _ _ _ _, _ | .retain _ _, _ | .extend _, _ | .splitOff _, _
  | .forEachMut _ _, _ => none

theorem avlAllocs_eq (c : One K V S) (n : Nat) : avlAllocs c n = allocs 1 c n := by
  cases c <;> simp [avlAllocs, allocs, avlLevels, lvl]

/-- C51: after any history (also of threads) a clone costs no node, and an operation on a map
allocates at most a number of nodes logarithmic in the number of its entries, even if all its
nodes are shared with clones. -/
theorem C51_avl_allocs {h : Mem (ND K V)} {rs : List (Option HMap)} (hr : Reached (avlM K V S) h rs)
    {i : Nat} {s : HMap} (hi : rs[i]? = some (some s)) (c : One K V S) {b : Nat}
    (hb : avlAllocs c s.len = some b) :
    ∃ h' rs' o, (Machine.run (avlM K V S) [.one i c] rs).exec h = some (h', some (rs', [some o])) ∧
      h'.next ≤ h.next + b := by
  obtain ⟨ms, hs⟩ := hr.sim avlV_total avlM_sound
  rw [avlAllocs_eq] at hb
  obtain ⟨h', x, m, e, -, ⟨L, r, rfl, -⟩, -, hn⟩ := hs.one_exec (C := fun _ => True)
    (n := fun _ _ => b) trivial hi (c := c) (by
      intro m L hI hR
      have hl : allocs 1 c m.len = some b := by
        obtain ⟨r, rfl, -⟩ := hR
        exact hb
      obtain ⟨Q, hq⟩ := one_spends Frugal.always (fun _ _ => trivial) hI hR c hl
      exact ⟨Q, hq.conseq (fun _ _ h => h) (fun x L _ => less_le _ _ _)⟩)
  exact ⟨h', _, _, e, hn⟩

/-- Commands about which `avlAllocs` says something. -/
def avlSimple : AvlCmd K V S → Bool
  | .make .new => true
  | .make (.fromIter _) => false
  | .one _ c => (avlAllocs c 0).isSome
  | .two _ _ _ => false
  | .look _ _ _ => true

/-- C51: a program of `t` such commands, however many clones it makes, allocates
`O(t · log t)` nodes. -/
theorem C51_avl_total (cs : List (AvlCmd K V S)) (hs : ∀ c ∈ cs, avlSimple c) :
    ∃ h rs obs, (Machine.run (avlM K V S) cs []).exec .empty = some (h, some (rs, obs)) ∧
      h.next ≤ cs.length * (3 * avlLevels (cs.length + 1) + 3) := by
  obtain ⟨h, rs, obs, e, hn⟩ := avl_run Frugal.always (fun _ _ => trivial) trivial cs (by
    intro x hx
    have := hs x hx
    cases x with
    | one i c => simp only [avlSimple, avlAllocs_eq] at this; exact this
    | make c => cases c <;> first | rfl | cases this
    | two => cases this
    | look => trivial)
  refine ⟨h, rs, obs, e, Nat.le_trans hn ?_⟩
  refine cost1_le (B := fun n => 3 * avlLevels (n + 1) + 3) ?_ cs
  intro c
  have := lvl_mono (Nat.le_succ cs.length)
  simp only [Nat.succ_eq_add_one, lvl] at this
  cases c <;> simp only [allocs, Option.getD_some, avlLevels, lvl] <;> simp <;> omega

/-! ## C52: nothing is copied that is not shared -/

/-- Operations on one map that add no entry and make no clone; without those (`retain`, `extend`,
`split_off`) that rebuild trees. -/
def avlInPlace : One K V S → Bool
  | .clone | .intoIter _ | .insert _ _ | .orInsert _ _ _ | .retain _ _ | .extend _
  | .splitOff _ => false
  | _ => true

/-- C52: if, after any history, no node of a map has more than one owner, operations on the map work
in place: they allocate nothing.  Other maps may share nodes. -/
theorem C52_avl_in_place {h : Mem (ND K V)} {rs : List (Option HMap)}
    (hr : Reached (avlM K V S) h rs) {i : Nat} {s : HMap} (hi : rs[i]? = some (some s))
    (hu : ∀ a cell, Reach h s.root a → h.cells a = some cell → cell.rc = 1) (c : One K V S) (hc : avlInPlace c) :
    ∃ h' rs' o, (Machine.run (avlM K V S) [.one i c] rs).exec h = some (h', some (rs', [some o])) ∧
      h'.next = h.next := by
  obtain ⟨ms, hs⟩ := hr.sim avlV_total avlM_sound
  obtain ⟨h', x, e, hn⟩ := hs.one_alone (root := HMap.root)
    (by rintro s m L ⟨r, rfl, rfl⟩; exact ⟨_, rfl⟩) hi hu (c := c) (n := fun _ => 0) (by
      intro m L hI hR
      have hl : allocs 0 c m.len = some 0 := by
        cases c <;> simp [allocs, avlInPlace] at hc ⊢
      obtain ⟨Q, hq⟩ := one_spends Frugal.alone (fun h => absurd rfl h) hI hR c hl
      exact ⟨Q, hq.conseq (fun _ _ h => h) (fun x L _ => less_le _ _ _)⟩)
  exact ⟨h', _, _, e, Nat.le_antisymm hn (exec_next_le e)⟩

/-- C52: then an insertion allocates one node for a new entry, none if it replaces a value. -/
theorem C52_avl_insert {h : Mem (ND K V)} {rs : List (Option HMap)}
    (hr : Reached (avlM K V S) h rs) {i : Nat} {s : HMap} (hi : rs[i]? = some (some s))
    (hu : ∀ a cell, Reach h s.root a → h.cells a = some cell → cell.rc = 1) (k : K) (v : V) :
    ∃ h' rs' old, (Machine.run (avlM K V S) [.one i (.insert k v)] rs).exec h =
        some (h', some (rs', [some (.val old)])) ∧
      h'.next ≤ h.next + (if old.isSome then 0 else 1) := by
  obtain ⟨ms, hs⟩ := hr.sim avlV_total avlM_sound
  obtain ⟨h', x, e, hn⟩ := hs.one_alone (root := HMap.root)
    (by rintro s m L ⟨r, rfl, rfl⟩; exact ⟨_, rfl⟩) hi hu (c := One.insert k v)
    (n := fun x => less (.insert k v) 1 x.2.2) (fun m L hI hR => one_spends Frugal.alone (fun h => absurd rfl h) hI hR (One.insert k v)
      (b := 1) (by simp [allocs]))
  have hj : rs[i]?.join = some s := by rw [hi]; rfl
  obtain ⟨old, ho⟩ : ∃ old, x.2.2 = .val old := by
    have e1 := e
    simp only [Machine.run, Machine.step, hj] at e1
    obtain ⟨y, e2, hy⟩ := exec_map e1
    obtain ⟨z, e3, rfl⟩ := exec_map e2
    obtain ⟨w, e4, rfl⟩ := exec_map e3
    cases w with
    | none => cases hy
    | some w =>
      simp only [Option.map_some, Option.some.injEq, Prod.mk.injEq, List.cons.injEq,
        and_true] at hy
      exact ⟨_, hy.2⟩
  refine ⟨h', _, old, by rw [e, ho], Nat.le_trans hn ?_⟩
  rw [ho]
  cases old <;> simp [less]

/-- Commands of programs that never clone, without the operations that rebuild trees. -/
def avlNoClone : AvlCmd K V S → Bool
  | .make .new => true
  | .make (.fromIter _) => false
  | .one _ (.insert _ _) | .one _ (.orInsert _ _ _) => true
  | .one _ c => avlInPlace c
  | .two _ _ _ => false
  | .look _ _ _ => true

/-- Commands that add an entry. -/
def avlAdds : AvlCmd K V S → Bool
  | .one _ (.insert _ _) | .one _ (.orInsert _ _ _) => true
  | _ => false

/-- C52: a program that makes no clones allocates no more nodes than it inserts entries: nothing is
copied. -/
theorem C52_avl_no_copies (cs : List (AvlCmd K V S)) (hs : ∀ c ∈ cs, avlNoClone c) :
    ∃ h rs obs, (Machine.run (avlM K V S) cs []).exec .empty = some (h, some (rs, obs)) ∧
      h.next ≤ cs.countP avlAdds := by
  obtain ⟨h, rs, obs, e, hn⟩ := avl_run Frugal.alone (fun h => absurd rfl h) AllOne.empty cs (by
    intro x hx
    have := hs x hx
    cases x with
    | one i c => cases c <;> first | rfl | cases this
    | make c => cases c <;> first | rfl | cases this
    | two => cases this
    | look => trivial)
  refine ⟨h, rs, obs, e, Nat.le_trans hn ?_⟩
  clear hn e
  generalize cs.length = n
  induction cs with
  | nil => exact Nat.le_refl _
  | cons x cs ih =>
    have ih := ih (fun c hc => hs c (List.mem_cons_of_mem _ hc))
    have hx := hs x (List.mem_cons_self ..)
    rw [List.countP_cons]
    cases x with
    | one i c =>
      have key : (allocs 0 c n).getD 0 ≤ if avlAdds (.one i c) = true then 1 else 0 := by
        cases c <;> simp [allocs, avlAdds]
      change (allocs 0 c n).getD 0 + cost1 _ n cs ≤ _
      omega
    | _ => simpa [cost1, avlAdds] using ih

/-- Seven insertions into one map. -/
def avlSeven : List (AvlCmd Nat Nat Nat) :=
  .make .new :: (List.range 7).map (fun k => .one 0 (.insert k k))

/-- `retain` is an exception: it clones the links to the children before it looks at a node
(avl.rs:707-708), and builds a new node for each entry it keeps (avl.rs:713).  So though no node of
the map is shared, retaining everything allocates a new node for each entry. -/
theorem C52_avl_retain_copies :
    ∃ h rs obs, (Machine.run (avlM Nat Nat Nat) avlSeven []).exec .empty =
        some (h, some (rs, obs)) ∧
      (∀ a cell, h.cells a = some cell → cell.rc = 1) ∧ h.next = 7 ∧
      ∃ h' rs' obs', (Machine.run (avlM Nat Nat Nat)
          [.one 0 (.retain (fun s _ v => some (s, v, true)) 0)] rs).exec h =
        some (h', some (rs', obs')) ∧ h'.next = 14 := by
  obtain ⟨h, rs, obs, e, hn⟩ := C52_avl_no_copies avlSeven (by decide +kernel)
  have e1 : AvlHeapDemo.end_ avlSeven = (h, rs) := by simp [AvlHeapDemo.end_, e]
  have hr : Reached (avlM Nat Nat Nat) h rs := Reached.of_exec e
  obtain ⟨ms, hs⟩ := hr.sim avlV_total avlM_sound
  obtain ⟨z, -, h', rs', e', -⟩ := Sim.run avlV_total avlM_sound
    [.one 0 (.retain (fun s _ v => some (s, v, true)) 0)] hs
  have h7' : h.next = 7 := by
    have : (AvlHeapDemo.end_ avlSeven).1.next = 7 := by decide +kernel
    rwa [e1] at this
  refine ⟨h, rs, obs, e, ?_, h7', h', rs', _, e', ?_⟩
  · intro a cell ha
    have h7 : ∀ a < 7, ((AvlHeapDemo.end_ avlSeven).1.cells a).all (·.rc == 1) = true := by
      decide +kernel
    obtain ⟨-, L, -, ho⟩ := hs
    have hl := ho.fin a
    rw [e1] at h7
    rw [h7'] at hl
    have := h7 a (by
      by_contra hc
      rw [hl (by omega)] at ha
      cases ha)
    rw [ha] at this
    simpa using this
  · have : (((Machine.run (avlM Nat Nat Nat) [.one 0 (.retain (fun s _ v => some (s, v, true)) 0)]
        (AvlHeapDemo.end_ avlSeven).2).exec (AvlHeapDemo.end_ avlSeven).1).map (·.1.next)) =
        some 14 := by decide +kernel
    rw [e1, e'] at this
    simpa using this

/-! ## C53: operations by shared reference -/

/-- Commands on maps by shared reference (`&self`), apart from `clone`. -/
def avlShared : AvlCmd K V S → Bool
  | .one _ (.getKeyValue _) | .one _ (.get _) | .one _ (.containsKey _) | .one _ (.index _)
  | .one _ .first | .one _ .last | .one _ .len | .one _ .isEmpty | .one _ (.iter _)
  | .one _ (.range _ _ _) | .one _ (.forEach _ _) | .one _ (.hash _ _ _ _) | .one _ .serialize
  | .look _ _ _ => true
  | _ => false

/-- C53: operations by shared reference leave memory exactly as it is, at each of their steps: they
write to no node, allocate and free none, and count no reference, not even for a while. -/
theorem C53_avl_shared_reads {h : Mem (ND K V)} {rs : List (Option HMap)}
    (hr : Reached (avlM K V S) h rs) (c : AvlCmd K V S) (hc : avlShared c) :
    (Machine.run (avlM K V S) [c] rs).ReadOnly ∧
    ∃ obs, (Machine.run (avlM K V S) [c] rs).exec h = some (h, some (rs, obs)) := by
  obtain ⟨ms, hs⟩ := hr.sim avlV_total avlM_sound
  obtain ⟨z, -, h', rs', e, -⟩ := Sim.run avlV_total avlM_sound [c] hs
  have hq : Quiet (avlM K V S) c := avl_quiet (by cases c with
    | one i c => cases c <;> first | exact trivial | cases hc
    | look => trivial
    | _ => cases hc)
  obtain ⟨rfl, rfl⟩ := reads_only hq e
  exact ⟨quiet_readOnly hq, _, e⟩

/-! ## Examples -/

namespace AvlCostDemo
open AvlHeapDemo (end_ reached)

/-- A million entries. -/
example : avlLevels 1000000 = 29 := by decide +kernel

/-- Nine entries, two clones, of which one loses an entry and the other gets one. -/
def prog : List (AvlCmd Nat Nat Nat) :=
  .make .new :: (List.range 9).map (fun k => .one 0 (.insert k (10 * k))) ++
  [.one 0 .clone, .one 1 .clone, .one 1 (.remove (compare 3)), .one 2 (.insert 9 90)]

/-- Nine nodes were made, one more for the new entry; eight were copied. -/
example : (end_ prog).1.next = 18 := by decide +kernel
example : (end_ prog).2.map (fun o => o.map (·.len)) = [some 9, some 8, some 10] := by
  decide +kernel
example := C51_avl_total prog (by decide +kernel)

example : ∃ s, (end_ prog).2[0]? = some (some s) ∧ s.len = 9 := by
  have : ((end_ prog).2[0]?.map fun o => o.map (·.len)) = some (some 9) := by decide +kernel
  match h : (end_ prog).2[0]?, this with
  | some (some s), this => exact ⟨s, rfl, by simpa using this⟩
example {s} (h : (end_ prog).2[0]? = some (some s)) :=
  C51_avl_allocs (reached prog) h (.insert 5 6) rfl
example {s} (h : (end_ prog).2[0]? = some (some s)) := C51_avl_allocs (reached prog) h .clone rfl

/-- On another clone the insertion copies a path. -/
example : (end_ (prog ++ [.one 0 .clone])).1.next = 18 ∧
    (end_ (prog ++ [.one 0 .clone, .one 0 (.insert 5 6)])).1.next = 20 := by decide +kernel

/-- No clones. -/
def alone : List (AvlCmd Nat Nat Nat) :=
  .make .new :: (List.range 9).map (fun k => .one 0 (.insert k (10 * k))) ++
  [.one 0 (.remove (compare 3)), .one 0 (.insert 5 0), .one 0 .popFirst,
   .one 0 (.iterMut (fun j _ v => v + j) [true, false, true])]

example := C52_avl_no_copies alone (by decide +kernel)
example : alone.countP avlAdds = 10 ∧ (end_ alone).1.next = 9 := by decide +kernel

/-- Two maps that share nodes, and one that shares none since its clones were dropped or changed
everywhere. -/
def mixed : List (AvlCmd Nat Nat Nat) :=
  .make .new :: (List.range 9).map (fun k => .one 0 (.insert k (10 * k))) ++
  [.one 0 .clone, .one 0 .clone, .one 1 .drop, .one 2 (.iterMut (fun _ _ v => v + 1)
    (List.replicate 9 true)), .one 2 .clone]

/-- The nodes of map 0 are below 9; their links lead to such nodes. -/
theorem mixed_unshared {s} (hi : (end_ mixed).2[0]? = some (some s)) (a cell)
    (hr : Reach (end_ mixed).1 s.root a) (h : (end_ mixed).1.cells a = some cell) :
    cell.rc = 1 := by
  have h0 : ((end_ mixed).2[0]?.all fun o => o.all fun s => s.root.all (· < 9)) = true := by
    decide +kernel
  have h1 : ∀ a < 9, (((end_ mixed).1.cells a).all fun c =>
      c.rc == 1 && c.node.kids.all (·.all (· < 9))) = true := by decide +kernel
  have h2 : a < 9 := by
    clear h cell
    induction hr with
    | root e => rw [hi] at h0; simpa [e] using h0
    | link _ hc hm ih =>
      have := h1 _ ih
      rw [hc] at this
      simp only [Option.all_some, Bool.and_eq_true, List.all_eq_true] at this
      simpa using this.2 _ hm
  have := h1 a h2
  rw [h] at this
  simp only [Option.all_some, Bool.and_eq_true, beq_iff_eq] at this
  exact this.1

example {s} (h : (end_ mixed).2[0]? = some (some s)) :=
  C52_avl_in_place (reached mixed) h (mixed_unshared h) (.remove (compare 4)) rfl
example {s} (h : (end_ mixed).2[0]? = some (some s)) :=
  C52_avl_insert (reached mixed) h (mixed_unshared h) 4 5
example : ((end_ mixed).2[0]?.map fun o => o.map (·.len)) = some (some 9) := by decide +kernel

/-- The root of map 2 is shared with its clone. -/
example : ((end_ mixed).2[2]?.map fun o => o.map fun s => s.root.map fun a =>
    ((end_ mixed).1.cells a).map (·.rc)) = some (some (some (some 2))) := by decide +kernel

example := C53_avl_shared_reads (reached prog) (.one 1 (.range (.included (compare · 2)) .unbounded
  [true, false])) rfl
example := C53_avl_shared_reads (reached prog) (.look 0 1 (.cmp (fun a b => compare a.1 b.1)))
  rfl

end AvlCostDemo
end Verif.Props
