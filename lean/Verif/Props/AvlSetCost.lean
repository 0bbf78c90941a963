import Verif.AvlHeap.SetCost
import Verif.Props.AvlCost
import Verif.Props.AvlSetHeap
/-!
# Properties C51, C52 and C53 for `AvlSet`

As for the maps: the nodes a program allocates are the difference of `Mem.next` before and after.
-/
namespace Verif.Props
open Verif.Heap Verif.Heap.Machine Verif.AvlH Std

variable {T S Q : Type} [Ord T] [TransOrd T] [Ord Q] [TransOrd Q] {b : T → Q}

/-! ## C51: how much is copied -/

/-- How many nodes an operation on one set of `n` elements allocates at most, whatever it shares
with other sets.  Nothing is claimed about the operations with `none`. -/
def avlSetAllocs : SOne T S Q → Nat → Option Nat
  | .clone, _ | .drop, _ | .clear, _ => some 0
  | .insert _, n => some (avlLevels n + 3)
  | .remove _, n | .take _, n | .popFirst, n | .popLast, n => some (3 * avlLevels n)
  | .replace _, n => some (4 * avlLevels n + 3)
  | .get _, _ | .contains _, _ | .first, _ | .last, _ | .len, _ | .isEmpty, _ | .iter _, _
  | .intoIter _, _ | .range _ _ _, _ | .hash _ _ _, _ | .serialize, _ => some 0
  | .retain _ _, _ | .extend _, _ | .splitOff _, _ => none

omit [Ord T] [TransOrd T] [Ord Q] [TransOrd Q] in
theorem avlSetAllocs_eq (c : SOne T S Q) (n : Nat) : avlSetAllocs c n = sallocs 1 c n := by
  cases c <;> simp [avlSetAllocs, sallocs, avlLevels, lvl] <;> omega

/-- C51: after any history (also of threads) a clone costs no node, and an operation on a set
allocates at most a number of nodes logarithmic in the number of its elements, even if all its
nodes are shared with clones. -/
theorem C51_avlset_allocs (hb : ∀ x y, compare (b x) (b y) = compare x y)
    {h : Mem (ND T Unit)} {rs : List (Option HMap)} (hr : Reached (avlSetM T S Q b) h rs)
    {i : Nat} {s : HMap} (hi : rs[i]? = some (some s)) (c : SOne T S Q) {k : Nat}
    (hk : avlSetAllocs c s.len = some k) :
    ∃ h' rs' o, (Machine.run (avlSetM T S Q b) [.one i c] rs).exec h =
        some (h', some (rs', [some o])) ∧ h'.next ≤ h.next + k := by
  obtain ⟨ms, hs⟩ := hr.sim (avlSetV_total hb) avlSetM_sound
  rw [avlSetAllocs_eq] at hk
  obtain ⟨h', x, m, e, -, ⟨L, r, rfl, -⟩, -, hn⟩ := hs.one_exec (C := fun _ => True)
    (n := fun _ _ => k) trivial hi (c := c) (by
      intro m L hI hR
      have hl : sallocs 1 c m.map.len = some k := by
        obtain ⟨r, rfl, -⟩ := hR
        exact hk
      obtain ⟨P, hq⟩ := set_one_spends hb Frugal.always (fun _ _ => trivial) hI hR c hl
      exact ⟨P, hq.conseq (fun _ _ h => h) (fun x L _ => sless_le _ _ _)⟩)
  exact ⟨h', _, _, e, hn⟩

/-- Commands about which `avlSetAllocs` says something. -/
def avlSetSimple : AvlSetCmd T S Q → Bool
  | .make .new => true
  | .make (.fromIter _) => false
  | .one _ c => (avlSetAllocs c 0).isSome
  | .two _ _ _ => false
  | .look _ _ _ => true

/-- C51: a program of `t` such commands, however many clones it makes, allocates
`O(t · log t)` nodes. -/
theorem C51_avlset_total (hb : ∀ x y, compare (b x) (b y) = compare x y)
    (cs : List (AvlSetCmd T S Q)) (hs : ∀ c ∈ cs, avlSetSimple c) :
    ∃ h rs obs, (Machine.run (avlSetM T S Q b) cs []).exec .empty = some (h, some (rs, obs)) ∧
      h.next ≤ cs.length * (4 * avlLevels cs.length + 3) := by
  obtain ⟨h, rs, obs, e, hn⟩ := avlSet_run hb Frugal.always (fun _ _ => trivial) trivial cs (by
    intro x hx
    have := hs x hx
    cases x with
    | one i c => cases c <;> first | rfl | cases this
    | make c => cases c <;> first | rfl | cases this
    | two => cases this
    | look => trivial)
  refine ⟨h, rs, obs, e, Nat.le_trans hn ?_⟩
  refine cost1_le (B := fun n => 4 * avlLevels n + 3) ?_ cs
  intro c
  cases c <;> simp only [sallocs, Option.getD_some, avlLevels, lvl] <;> simp <;> omega

/-! ## C52: nothing is copied that is not shared -/

/-- Operations on one set that add no element and make no clone; without those (`retain`, `extend`,
`split_off`) that rebuild trees. -/
def avlSetInPlace : SOne T S Q → Bool
  | .clone | .intoIter _ | .insert _ | .replace _ | .retain _ _ | .extend _ | .splitOff _ => false
  | _ => true

/-- C52: if, after any history, no node of a set has more than one owner, operations on the set work
in place: they allocate nothing.  Other sets may share nodes. -/
theorem C52_avlset_in_place (hb : ∀ x y, compare (b x) (b y) = compare x y)
    {h : Mem (ND T Unit)} {rs : List (Option HMap)}
    (hr : Reached (avlSetM T S Q b) h rs) {i : Nat} {s : HMap} (hi : rs[i]? = some (some s))
    (hu : ∀ a cell, Reach h s.root a → h.cells a = some cell → cell.rc = 1) (c : SOne T S Q)
    (hc : avlSetInPlace c) :
    ∃ h' rs' o, (Machine.run (avlSetM T S Q b) [.one i c] rs).exec h =
        some (h', some (rs', [some o])) ∧ h'.next = h.next := by
  obtain ⟨ms, hs⟩ := hr.sim (avlSetV_total hb) avlSetM_sound
  obtain ⟨h', x, e, hn⟩ := hs.one_alone (root := HMap.root)
    (by rintro s m L ⟨r, rfl, rfl⟩; exact ⟨_, rfl⟩) hi hu (c := c) (n := fun _ => 0) (by
      intro m L hI hR
      have hl : sallocs 0 c m.map.len = some 0 := by
        cases c <;> simp [sallocs, avlSetInPlace] at hc ⊢
      obtain ⟨P, hq⟩ := set_one_spends hb Frugal.alone (fun h => absurd rfl h) hI hR c hl
      exact ⟨P, hq.conseq (fun _ _ h => h) (fun x L _ => sless_le _ _ _)⟩)
  exact ⟨h', _, _, e, Nat.le_antisymm hn (exec_next_le e)⟩

/-- C52: then an insertion allocates one node for a new element, none if the element is there. -/
theorem C52_avlset_insert (hb : ∀ x y, compare (b x) (b y) = compare x y)
    {h : Mem (ND T Unit)} {rs : List (Option HMap)}
    (hr : Reached (avlSetM T S Q b) h rs) {i : Nat} {s : HMap} (hi : rs[i]? = some (some s))
    (hu : ∀ a cell, Reach h s.root a → h.cells a = some cell → cell.rc = 1) (x : T) :
    ∃ h' rs' new, (Machine.run (avlSetM T S Q b) [.one i (.insert x)] rs).exec h =
        some (h', some (rs', [some (.bool new)])) ∧
      h'.next ≤ h.next + (if new then 1 else 0) := by
  obtain ⟨ms, hs⟩ := hr.sim (avlSetV_total hb) avlSetM_sound
  obtain ⟨h', y, e, hn⟩ := hs.one_alone (root := HMap.root)
    (by rintro s m L ⟨r, rfl, rfl⟩; exact ⟨_, rfl⟩) hi hu (I := avlSetM T S Q b) (c := SOne.insert x)
    (n := fun y => sless (.insert x) 1 y.2.2) (fun m L hI hR => by
      have hl : m.map.len = s.len := by obtain ⟨r, rfl, -⟩ := hR; rfl
      exact set_one_spends hb Frugal.alone (fun h => absurd rfl h) hI hR (SOne.insert x) (b := 1) (by simp [sallocs]))
  have hj : rs[i]?.join = some s := by rw [hi]; rfl
  obtain ⟨new, ho⟩ : ∃ new, y.2.2 = .bool new := by
    have e1 := e
    simp only [Machine.run, Machine.step, hj] at e1
    obtain ⟨y, e2, hy⟩ := exec_map e1
    obtain ⟨z, e3, rfl⟩ := exec_map e2
    obtain ⟨w, e4, rfl⟩ := exec_map e3
    cases w with
    | none => cases hy
    | some w =>
      simp only [Option.map_some, Option.some.injEq, Prod.mk.injEq, List.cons.injEq,
        and_true] at hy
      exact ⟨_, hy.2⟩
  refine ⟨h', _, new, by rw [e, ho], Nat.le_trans hn ?_⟩
  rw [ho]
  cases new <;> simp [sless]

/-- Commands of programs that never clone, without the operations that rebuild trees. -/
def avlSetNoClone : AvlSetCmd T S Q → Bool
  | .make .new => true
  | .make (.fromIter _) => false
  | .one _ (.insert _) | .one _ (.replace _) => true
  | .one _ c => avlSetInPlace c
  | .two _ _ _ => false
  | .look _ _ _ => true

/-- Commands that add an element. -/
def avlSetAdds : AvlSetCmd T S Q → Bool
  | .one _ (.insert _) | .one _ (.replace _) => true
  | _ => false

/-- C52: a program that makes no clones allocates no more nodes than it inserts elements: nothing is
copied. -/
theorem C52_avlset_no_copies (hb : ∀ x y, compare (b x) (b y) = compare x y)
    (cs : List (AvlSetCmd T S Q)) (hs : ∀ c ∈ cs, avlSetNoClone c) :
    ∃ h rs obs, (Machine.run (avlSetM T S Q b) cs []).exec .empty = some (h, some (rs, obs)) ∧
      h.next ≤ cs.countP avlSetAdds := by
  obtain ⟨h, rs, obs, e, hn⟩ := avlSet_run hb Frugal.alone (fun h => absurd rfl h) AllOne.empty cs (by
    intro x hx
    have := hs x hx
    cases x with
    | one i c => cases c <;> first | rfl | cases this
    | make c => cases c <;> first | rfl | cases this
    | two => cases this
    | look => trivial)
  refine ⟨h, rs, obs, e, Nat.le_trans hn ?_⟩
  clear hn e
  generalize cs.length = n
  induction cs with
  | nil => exact Nat.zero_le _
  | cons x cs ih =>
    have ih := ih (fun c hc => hs c (List.mem_cons_of_mem _ hc))
    rw [List.countP_cons]
    cases x with
    | one i c =>
      have key : (sallocs 0 c n).getD 0 ≤ if avlSetAdds (.one i c) = true then 1 else 0 := by
        cases c <;> simp [sallocs, avlSetAdds]
      change (sallocs 0 c n).getD 0 + cost1 _ n cs ≤ _
      omega
    | _ => simpa [cost1, avlSetAdds] using ih

/-! ## C53: operations by shared reference -/

/-- Commands on sets by shared reference (`&self`), apart from `clone`. -/
def avlSetShared : AvlSetCmd T S Q → Bool
  | .one _ (.get _) | .one _ (.contains _) | .one _ .first | .one _ .last | .one _ .len
  | .one _ .isEmpty | .one _ (.iter _) | .one _ (.range _ _ _) | .one _ (.hash _ _ _)
  | .one _ .serialize | .look _ _ _ => true
  | _ => false

/-- C53: operations by shared reference leave memory exactly as it is, at each of their steps: they
write to no node, allocate and free none, and count no reference, not even for a while. -/
theorem C53_avlset_shared_reads (hb : ∀ x y, compare (b x) (b y) = compare x y)
    {h : Mem (ND T Unit)} {rs : List (Option HMap)}
    (hr : Reached (avlSetM T S Q b) h rs) (c : AvlSetCmd T S Q) (hc : avlSetShared c) :
    (Machine.run (avlSetM T S Q b) [c] rs).ReadOnly ∧
    ∃ obs, (Machine.run (avlSetM T S Q b) [c] rs).exec h = some (h, some (rs, obs)) := by
  obtain ⟨ms, hs⟩ := hr.sim (avlSetV_total hb) avlSetM_sound
  obtain ⟨z, -, h', rs', e, -⟩ := Sim.run (avlSetV_total hb) avlSetM_sound [c] hs
  have hq : Quiet (avlSetM T S Q b) c := avlSet_quiet (by cases c with
    | one i c => cases c <;> first | rfl | cases hc
    | look => rfl
    | _ => cases hc)
  obtain ⟨rfl, rfl⟩ := reads_only hq e
  exact ⟨quiet_readOnly hq, _, e⟩

/-! ## Examples -/

namespace AvlSetCostDemo
open AvlSetHeapDemo (M end_ reached)

/-- Nine elements, two clones, of which one loses an element and the other gets one. -/
def prog : List (AvlSetCmd Nat Nat Nat) :=
  .make .new :: (List.range 9).map (fun k => .one 0 (.insert k)) ++
  [.one 0 .clone, .one 1 .clone, .one 1 (.take 3), .one 2 (.insert 9), .one 2 (.replace 4)]

example : (end_ (prog.take 10)).1.next = 9 ∧ (end_ prog).1.next = 20 := by decide +kernel
example : (end_ prog).2.map (fun o => o.map (·.len)) = [some 9, some 8, some 10] := by
  decide +kernel
example := C51_avlset_total (b := id) (by simp) prog (by decide +kernel)

example : ∃ s, (end_ prog).2[0]? = some (some s) ∧ s.len = 9 := by
  have : ((end_ prog).2[0]?.map fun o => o.map (·.len)) = some (some 9) := by decide +kernel
  match h : (end_ prog).2[0]?, this with
  | some (some s), this => exact ⟨s, rfl, by simpa using this⟩
example {s} (h : (end_ prog).2[0]? = some (some s)) :=
  C51_avlset_allocs (by simp) (reached prog) h (.replace 5) rfl
example {s} (h : (end_ prog).2[0]? = some (some s)) :=
  C51_avlset_allocs (by simp) (reached prog) h .clone rfl

/-- On another clone the insertion copies a path. -/
example : (end_ (prog ++ [.one 0 .clone])).1.next = 20 ∧
    (end_ (prog ++ [.one 0 .clone, .one 0 (.insert 17)])).1.next = 25 := by decide +kernel

/-- No clones. -/
def alone : List (AvlSetCmd Nat Nat Nat) :=
  .make .new :: (List.range 9).map (fun k => .one 0 (.insert k)) ++
  [.one 0 (.take 3), .one 0 (.insert 5), .one 0 .popFirst, .one 0 (.replace 7)]

example := C52_avlset_no_copies (b := id) (by simp) alone (by decide +kernel)
example : alone.countP avlSetAdds = 11 ∧ (end_ alone).1.next = 10 := by decide +kernel

/-- A set that shares no nodes since its clone was dropped; and two that share all. -/
def mixed : List (AvlSetCmd Nat Nat Nat) :=
  .make .new :: (List.range 9).map (fun k => .one 0 (.insert k)) ++
  [.one 0 .clone, .one 1 .drop, .make .new, .one 2 (.insert 8), .one 2 .clone]

/-- The nodes of set 0 are below 9; their links lead to such nodes. -/
theorem mixed_unshared {s} (hi : (end_ mixed).2[0]? = some (some s)) (a cell)
    (hr : Reach (end_ mixed).1 s.root a) (h : (end_ mixed).1.cells a = some cell) :
    cell.rc = 1 := by
  have h0 : ((end_ mixed).2[0]?.all fun o => o.all fun s => s.root.all (· < 9)) = true := by
    decide +kernel
  have h1 : ∀ a < 9, (((end_ mixed).1.cells a).all fun c =>
      c.rc == 1 && c.node.kids.all (·.all (· < 9))) = true := by decide +kernel
  have h2 : a < 9 := by
    clear h cell
    induction hr with
    | root e => rw [hi] at h0; simpa [e] using h0
    | link _ hc hm ih =>
      have := h1 _ ih
      rw [hc] at this
      simp only [Option.all_some, Bool.and_eq_true, List.all_eq_true] at this
      simpa using this.2 _ hm
  have := h1 a h2
  rw [h] at this
  simp only [Option.all_some, Bool.and_eq_true, beq_iff_eq] at this
  exact this.1

example {s} (h : (end_ mixed).2[0]? = some (some s)) :=
  C52_avlset_in_place (by simp) (reached mixed) h (mixed_unshared h) (.take 4) rfl
example {s} (h : (end_ mixed).2[0]? = some (some s)) :=
  C52_avlset_insert (by simp) (reached mixed) h (mixed_unshared h) 4
example : ((end_ mixed).2[0]?.map fun o => o.map (·.len)) = some (some 9) := by decide +kernel

/-- The root of set 2 is shared with its clone. -/
example : ((end_ mixed).2[2]?.map fun o => o.map fun s => s.root.map fun a =>
    ((end_ mixed).1.cells a).map (·.rc)) = some (some (some (some 2))) := by decide +kernel

example := C53_avlset_shared_reads (by simp) (reached prog) (.look 0 1 (.setOp 5 4)) rfl
example := C53_avlset_shared_reads (by simp) (reached prog) (.look 0 1 .isSubset) rfl

end AvlSetCostDemo
end Verif.Props
