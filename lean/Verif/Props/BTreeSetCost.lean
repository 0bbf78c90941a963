import Verif.BTreeHeap.SetCost
import Verif.Props.BTreeCost
import Verif.Props.BTreeSetHeap
/-!
# Properties C51, C52 and C53 for `BTreeSet`

As for the maps: the nodes a program allocates are the difference of `Mem.next` before and after.
-/
namespace Verif.Props
open Verif.Heap Verif.Heap.Machine Verif.BTreeH Std
open Verif.AvlH (SMake STwo SLook SRes)

variable {T S Q : Type} [Ord T] [TransOrd T] [Ord Q] [TransOrd Q] {N : Nat} {b : T → Q}

/-! ## C51: how much is copied -/

/-- How many nodes an operation on one set of `n` elements allocates at most, whatever it shares
with other sets.  Nothing is claimed about the operations with `none`. -/
def btreeSetAllocs (N : Nat) : SOne T S Q → Nat → Option Nat
  | .clone, _ | .drop, _ | .clear, _ => some 0
  | .insert _, n => some (2 * btreeLevels N n + 1)
  | .remove _, n | .take _, n | .popFirst, n | .popLast, n => some (3 * btreeLevels N n)
  | .replace _, n => some (5 * btreeLevels N n + 1)
  | .get _, _ | .contains _, _ | .first, _ | .last, _ | .len, _ | .isEmpty, _ | .iter _, _
  | .intoIter _, _ | .range _ _ _, _ | .hash _ _ _, _ | .serialize, _ => some 0
  | .retain _ _, _ | .extend _, _ | .splitOff _, _ => none

omit [Ord T] [TransOrd T] [Ord Q] [TransOrd Q] in
theorem btreeSetAllocs_eq (c : SOne T S Q) (n : Nat) : btreeSetAllocs N c n = sallocs N 1 c n := by
  cases c <;> simp [btreeSetAllocs, sallocs, btreeLevels, lvl] <;> omega

/-- C51: after any history (also of threads) a clone costs no node, and an operation on a set
allocates at most a number of nodes logarithmic in the number of its elements, even if all its
nodes are shared with clones. -/
theorem C51_btreeset_allocs (hN : 1 ≤ N) (hb : ∀ x y, compare (b x) (b y) = compare x y)
    {h : Mem (ND T Unit)} {rs : List (Option HMap)} (hr : Reached (btreeSetM T S Q N b) h rs)
    {i : Nat} {s : HMap} (hi : rs[i]? = some (some s)) (c : SOne T S Q) {k : Nat}
    (hk : btreeSetAllocs N c s.len = some k) :
    ∃ h' rs' o, (Machine.run (btreeSetM T S Q N b) [.one i c] rs).exec h =
        some (h', some (rs', [some o])) ∧ h'.next ≤ h.next + k := by
  obtain ⟨ms, hs⟩ := hr.sim (btreeSetV_total hN hb) (btreeSetM_sound hN hb)
  rw [btreeSetAllocs_eq] at hk
  obtain ⟨h', x, m, e, -, ⟨L, r, rfl, -⟩, -, hn⟩ := hs.one_exec (C := fun _ => True)
    (n := fun _ _ => k) trivial hi (c := c) (by
      intro m L hI hR
      have hl : sallocs N 1 c m.map.len = some k := by
        obtain ⟨r, rfl, -⟩ := hR
        exact hk
      obtain ⟨P, hq⟩ := set_one_spends Frugal.always (fun _ _ => trivial) hN hb hI hR c hl
      exact ⟨P, hq.conseq (fun _ _ h => h) (fun x L _ => sless_le _ _ _ _ _)⟩)
  exact ⟨h', _, _, e, hn⟩

/-- Commands about which `btreeSetAllocs` says something. -/
def btreeSetSimple : BTreeSetCmd T S Q → Bool
  | .make .new => true
  | .make (.fromIter _) => false
  | .one _ c => (btreeSetAllocs 1 c 0).isSome
  | .two _ _ _ => false
  | .look _ _ _ => true

/-- C51: a program of `t` such commands, however many clones it makes, allocates
`O(t · log t)` nodes. -/
theorem C51_btreeset_total (hN : 1 ≤ N) (hb : ∀ x y, compare (b x) (b y) = compare x y)
    (cs : List (BTreeSetCmd T S Q)) (hs : ∀ c ∈ cs, btreeSetSimple c) :
    ∃ h rs obs, (Machine.run (btreeSetM T S Q N b) cs []).exec .empty = some (h, some (rs, obs)) ∧
      h.next ≤ cs.length * (5 * btreeLevels N cs.length + 1) := by
  obtain ⟨h, rs, obs, e, hn⟩ := btreeSet_run Frugal.always (fun _ _ => trivial) trivial hN hb cs (by
    intro x hx
    have := hs x hx
    cases x with
    | one i c => cases c <;> first | rfl | cases this
    | make c => cases c <;> first | rfl | cases this
    | two => cases this
    | look => trivial)
  refine ⟨h, rs, obs, e, Nat.le_trans hn ?_⟩
  refine cost1_le (B := fun n => 5 * btreeLevels N n + 1) ?_ cs
  intro c
  cases c <;> simp only [sallocs, Option.getD_some, btreeLevels, lvl] <;> simp <;> omega

/-! ## C52: nothing is copied that is not shared -/

/-- Operations on one set that add no element and make no clone; without those (`retain`, `extend`,
`split_off`) that rebuild trees. -/
def btreeSetInPlace : SOne T S Q → Bool
  | .clone | .intoIter _ | .insert _ | .replace _ | .retain _ _ | .extend _ | .splitOff _ => false
  | _ => true

/-- C52: if, after any history, no node of a set has more than one owner, operations on the set work
in place: they allocate nothing.  Other sets may share nodes. -/
theorem C52_btreeset_in_place (hN : 1 ≤ N) (hb : ∀ x y, compare (b x) (b y) = compare x y)
    {h : Mem (ND T Unit)} {rs : List (Option HMap)}
    (hr : Reached (btreeSetM T S Q N b) h rs) {i : Nat} {s : HMap} (hi : rs[i]? = some (some s))
    (hu : ∀ a cell, Reach h s.root a → h.cells a = some cell → cell.rc = 1) (c : SOne T S Q)
    (hc : btreeSetInPlace c) :
    ∃ h' rs' o, (Machine.run (btreeSetM T S Q N b) [.one i c] rs).exec h =
        some (h', some (rs', [some o])) ∧ h'.next = h.next := by
  obtain ⟨ms, hs⟩ := hr.sim (btreeSetV_total hN hb) (btreeSetM_sound hN hb)
  obtain ⟨h', x, e, hn⟩ := hs.one_alone (root := HMap.root)
    (by rintro s m L ⟨r, rfl, rfl⟩; exact ⟨_, rfl⟩) hi hu (c := c) (n := fun _ => 0) (by
      intro m L hI hR
      have hl : sallocs N 0 c m.map.len = some 0 := by
        cases c <;> simp [sallocs, btreeSetInPlace] at hc ⊢
      obtain ⟨P, hq⟩ := set_one_spends Frugal.alone (fun h => absurd rfl h) hN hb hI hR c hl
      exact ⟨P, hq.conseq (fun _ _ h => h) (fun x L _ => sless_le _ _ _ _ _)⟩)
  exact ⟨h', _, _, e, Nat.le_antisymm hn (exec_next_le e)⟩

/-- C52: then an insertion allocates nothing if the element is there; else a node for each level that
it splits and one for a new root. -/
theorem C52_btreeset_insert (hN : 1 ≤ N) (hb : ∀ x y, compare (b x) (b y) = compare x y)
    {h : Mem (ND T Unit)} {rs : List (Option HMap)}
    (hr : Reached (btreeSetM T S Q N b) h rs) {i : Nat} {s : HMap} (hi : rs[i]? = some (some s))
    (hu : ∀ a cell, Reach h s.root a → h.cells a = some cell → cell.rc = 1) (x : T) :
    ∃ h' rs' new, (Machine.run (btreeSetM T S Q N b) [.one i (.insert x)] rs).exec h =
        some (h', some (rs', [some (.bool new)])) ∧
      h'.next ≤ h.next + (if new then btreeLevels N s.len + 1 else 0) := by
  obtain ⟨ms, hs⟩ := hr.sim (btreeSetV_total hN hb) (btreeSetM_sound hN hb)
  obtain ⟨h', y, e, hn⟩ := hs.one_alone (root := HMap.root)
    (by rintro s m L ⟨r, rfl, rfl⟩; exact ⟨_, rfl⟩) hi hu (I := btreeSetM T S Q N b) (c := SOne.insert x)
    (n := fun y => sless N s.len (.insert x) (btreeLevels N s.len + 1) y.2.2) (fun m L hI hR => by
      have hl : m.map.len = s.len := by obtain ⟨r, rfl, -⟩ := hR; rfl
      rw [← hl]
      exact set_one_spends Frugal.alone (fun h => absurd rfl h) hN hb hI hR (SOne.insert x)
        (k := btreeLevels N m.map.len + 1) (by simp [sallocs, btreeLevels, lvl]))
  have hj : rs[i]?.join = some s := by rw [hi]; rfl
  obtain ⟨new, ho⟩ : ∃ new, y.2.2 = .bool new := by
    have e1 := e
    simp only [Machine.run, Machine.step, hj] at e1
    obtain ⟨y, e2, hy⟩ := exec_map e1
    obtain ⟨z, e3, rfl⟩ := exec_map e2
    obtain ⟨w, e4, rfl⟩ := exec_map e3
    cases w with
    | none => cases hy
    | some w =>
      simp only [Option.map_some, Option.some.injEq, Prod.mk.injEq, List.cons.injEq,
        and_true] at hy
      exact ⟨_, hy.2⟩
  refine ⟨h', _, new, by rw [e, ho], Nat.le_trans hn ?_⟩
  rw [ho]
  cases new <;> simp [sless, btreeLevels, lvl]

/-- Commands of programs that never clone, without the operations that rebuild trees. -/
def btreeSetNoClone : BTreeSetCmd T S Q → Bool
  | .make .new => true
  | .make (.fromIter _) => false
  | .one _ (.insert _) | .one _ (.replace _) => true
  | .one _ c => btreeSetInPlace c
  | .two _ _ _ => false
  | .look _ _ _ => true

/-- Commands that add an element. -/
def btreeSetAdds : BTreeSetCmd T S Q → Bool
  | .one _ (.insert _) | .one _ (.replace _) => true
  | _ => false

/-- C52: in a program that makes no clones nodes are only allocated by insertions: nothing is
copied. -/
theorem C52_btreeset_no_copies (hN : 1 ≤ N) (hb : ∀ x y, compare (b x) (b y) = compare x y)
    (cs : List (BTreeSetCmd T S Q)) (hs : ∀ c ∈ cs, btreeSetNoClone c) :
    ∃ h rs obs, (Machine.run (btreeSetM T S Q N b) cs []).exec .empty = some (h, some (rs, obs)) ∧
      h.next ≤ cs.countP btreeSetAdds * (btreeLevels N cs.length + 1) := by
  obtain ⟨h, rs, obs, e, hn⟩ := btreeSet_run Frugal.alone (fun h => absurd rfl h) AllOne.empty hN hb cs (by
    intro x hx
    have := hs x hx
    cases x with
    | one i c => cases c <;> first | rfl | cases this
    | make c => cases c <;> first | rfl | cases this
    | two => cases this
    | look => trivial)
  refine ⟨h, rs, obs, e, Nat.le_trans hn ?_⟩
  clear hn e
  generalize cs.length = n
  induction cs with
  | nil => exact Nat.zero_le _
  | cons x cs ih =>
    have ih := ih (fun c hc => hs c (List.mem_cons_of_mem _ hc))
    rw [List.countP_cons]
    cases x with
    | one i c =>
      have key : (sallocs N 0 c n).getD 0 ≤
          (if btreeSetAdds (.one i c) = true then 1 else 0) * (btreeLevels N n + 1) := by
        cases c <;> simp [sallocs, btreeSetAdds, btreeLevels, lvl]
      change (sallocs N 0 c n).getD 0 + cost1 _ n cs ≤ _
      rw [Nat.add_mul]
      omega
    | _ => simpa [cost1, btreeSetAdds] using ih

/-! ## C53: operations by shared reference -/

/-- Commands on sets by shared reference (`&self`), apart from `clone`. -/
def btreeSetShared : BTreeSetCmd T S Q → Bool
  | .one _ (.get _) | .one _ (.contains _) | .one _ .first | .one _ .last | .one _ .len
  | .one _ .isEmpty | .one _ (.iter _) | .one _ (.range _ _ _) | .one _ (.hash _ _ _)
  | .one _ .serialize | .look _ _ _ => true
  | _ => false

/-- C53: operations by shared reference leave memory exactly as it is, at each of their steps: they
write to no node, allocate and free none, and count no reference, not even for a while. -/
theorem C53_btreeset_shared_reads (hN : 1 ≤ N) (hb : ∀ x y, compare (b x) (b y) = compare x y)
    {h : Mem (ND T Unit)} {rs : List (Option HMap)}
    (hr : Reached (btreeSetM T S Q N b) h rs) (c : BTreeSetCmd T S Q) (hc : btreeSetShared c) :
    (Machine.run (btreeSetM T S Q N b) [c] rs).ReadOnly ∧
    ∃ obs, (Machine.run (btreeSetM T S Q N b) [c] rs).exec h = some (h, some (rs, obs)) := by
  obtain ⟨ms, hs⟩ := hr.sim (btreeSetV_total hN hb) (btreeSetM_sound hN hb)
  obtain ⟨z, -, h', rs', e, -⟩ := Sim.run (btreeSetV_total hN hb) (btreeSetM_sound hN hb) [c] hs
  have hq : Quiet (btreeSetM T S Q N b) c := btreeSet_quiet (by cases c with
    | one i c => cases c <;> first | rfl | cases hc
    | look => rfl
    | _ => cases hc)
  obtain ⟨rfl, rfl⟩ := reads_only hq e
  exact ⟨quiet_readOnly hq, _, e⟩

/-! ## Examples -/

namespace BTreeSetCostDemo
open BTreeSetHeapDemo (M end_ reached)

/-- Nine elements, two clones, of which one loses an element and the other gets one. -/
def prog : List (BTreeSetCmd Nat Nat Nat) :=
  .make .new :: (List.range 9).map (fun k => .one 0 (.insert k)) ++
  [.one 0 .clone, .one 1 .clone, .one 1 (.take 3), .one 2 (.insert 9), .one 2 (.replace 4)]

example : (end_ (prog.take 10)).1.next = 5 ∧ (end_ prog).1.next = 13 := by decide +kernel
example : (end_ prog).2.map (fun o => o.map (·.len)) = [some 9, some 8, some 10] := by
  decide +kernel
example := C51_btreeset_total (N := 1) (b := id) (by simp) (by simp) prog (by decide +kernel)

example : ∃ s, (end_ prog).2[0]? = some (some s) ∧ s.len = 9 := by
  have : ((end_ prog).2[0]?.map fun o => o.map (·.len)) = some (some 9) := by decide +kernel
  match h : (end_ prog).2[0]?, this with
  | some (some s), this => exact ⟨s, rfl, by simpa using this⟩
example {s} (h : (end_ prog).2[0]? = some (some s)) :=
  C51_btreeset_allocs (by simp) (by simp) (reached prog) h (.replace 5) rfl
example {s} (h : (end_ prog).2[0]? = some (some s)) :=
  C51_btreeset_allocs (by simp) (by simp) (reached prog) h .clone rfl

/-- On another clone the insertion copies a path. -/
example : (end_ (prog ++ [.one 0 .clone])).1.next = 13 ∧
    (end_ (prog ++ [.one 0 .clone, .one 0 (.insert 17)])).1.next = 18 := by decide +kernel

/-- No clones. -/
def alone : List (BTreeSetCmd Nat Nat Nat) :=
  .make .new :: (List.range 9).map (fun k => .one 0 (.insert k)) ++
  [.one 0 (.take 3), .one 0 (.insert 5), .one 0 .popFirst, .one 0 (.replace 7)]

example := C52_btreeset_no_copies (N := 1) (b := id) (by simp) (by simp) alone (by decide +kernel)
example : alone.countP btreeSetAdds = 11 ∧ (end_ alone).1.next = 5 := by decide +kernel

/-- A set that shares no nodes since its clone was dropped; and two that share all. -/
def mixed : List (BTreeSetCmd Nat Nat Nat) :=
  .make .new :: (List.range 9).map (fun k => .one 0 (.insert k)) ++
  [.one 0 .clone, .one 1 .drop, .make .new, .one 2 (.insert 8), .one 2 .clone]

/-- The nodes of set 0 are below 5; their links lead to such nodes. -/
theorem mixed_unshared {s} (hi : (end_ mixed).2[0]? = some (some s)) (a cell)
    (hr : Reach (end_ mixed).1 s.root a) (h : (end_ mixed).1.cells a = some cell) :
    cell.rc = 1 := by
  have h0 : ((end_ mixed).2[0]?.all fun o => o.all fun s => s.root.all (· < 5)) = true := by
    decide +kernel
  have h1 : ∀ a < 5, (((end_ mixed).1.cells a).all fun c =>
      c.rc == 1 && c.node.kids.all (·.all (· < 5))) = true := by decide +kernel
  have h2 : a < 5 := by
    clear h cell
    induction hr with
    | root e => rw [hi] at h0; simpa [e] using h0
    | link _ hc hm ih =>
      have := h1 _ ih
      rw [hc] at this
      simp only [Option.all_some, Bool.and_eq_true, List.all_eq_true] at this
      simpa using this.2 _ hm
  have := h1 a h2
  rw [h] at this
  simp only [Option.all_some, Bool.and_eq_true, beq_iff_eq] at this
  exact this.1

example {s} (h : (end_ mixed).2[0]? = some (some s)) :=
  C52_btreeset_in_place (by simp) (by simp) (reached mixed) h (mixed_unshared h) (.take 4) rfl
example {s} (h : (end_ mixed).2[0]? = some (some s)) :=
  C52_btreeset_insert (by simp) (by simp) (reached mixed) h (mixed_unshared h) 4
example : ((end_ mixed).2[0]?.map fun o => o.map (·.len)) = some (some 9) := by decide +kernel

/-- The root of set 2 is shared with its clone. -/
example : ((end_ mixed).2[2]?.map fun o => o.map fun s => s.root.map fun a =>
    ((end_ mixed).1.cells a).map (·.rc)) = some (some (some (some 2))) := by decide +kernel

example := C53_btreeset_shared_reads (by simp) (by simp) (reached prog) (.look 0 1 (.setOp 5 4)) rfl
example := C53_btreeset_shared_reads (by simp) (by simp) (reached prog) (.look 0 1 .isSubset) rfl

end BTreeSetCostDemo
end Verif.Props
