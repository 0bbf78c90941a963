import Verif.FixedHeap.MapCost
import Verif.Heap.Alone
import Verif.Props.FixedHeap
import Verif.Props.BTreeCost
/-!
# Properties C51, C52 and C53 for `btree::fixed::BTreeMap`

Memory counts the nodes allocated so far (`Mem.next`, addresses are not reused).  So the nodes a
program allocates, be they new or copies of shared ones, are the difference of `next` before and
after.
-/
namespace Verif.Props
open Verif.Heap Verif.Heap.Machine Verif.BTreeH Verif.FixedH Verif.Fixed Std

variable {K V Q : Type} [Ord K] [TransOrd K] [Ord Q] [TransOrd Q] {lin : Bool} {b : K → Q}

/-! ## C51: how much is copied -/

/-- How many nodes an operation on one map of `n` entries allocates at most, whatever it shares
with other maps; nodes other than the root have five entries at least.  Nothing is claimed about
`iter_mut`. -/
def fixedAllocs : FOne K V Q → Nat → Option Nat
  | .clone, _ | .drop, _ | .clear, _ => some 0
  | .insert _ _, n => some (2 * btreeLevels 5 n + 1)
  | .remove _, n => some (3 * btreeLevels 5 n)
  | .getMut _ _, n => some (btreeLevels 5 n)
  | .extend es, n => some (es.length * (2 * btreeLevels 5 (n + es.length) + 1))
  | .get _, _ | .len, _ | .isEmpty, _ | .iter _, _ | .intoIter _, _ => some 0
  | .iterMut _ _, _ => none

omit [Ord K] [TransOrd K] [Ord Q] [TransOrd Q] in
theorem fixedAllocs_eq (c : FOne K V Q) (n : Nat) : fixedAllocs c n = FixedH.allocs 1 c n := by
  cases c with
  | extend es =>
    simp only [fixedAllocs, FixedH.allocs, btreeLevels, lvl, Option.some.injEq]
    congr 1
    omega
  | _ => simp [fixedAllocs, FixedH.allocs, btreeLevels, lvl] <;> omega

/-- C51: after any history (also of threads) a clone costs no node, and an operation on a map
allocates at most a number of nodes logarithmic in the number of its entries (`extend`: for each
entry added), even if all its nodes are shared with clones. -/
theorem C51_fixed_allocs (hb : ∀ a c, compare (b a) (b c) = compare a c)
    {h : Mem (ND K V)} {rs : List (Option HMap)} (hr : Reached (fixedM K V lin b) h rs)
    {i : Nat} {s : HMap} (hi : rs[i]? = some (some s)) (c : FOne K V Q) {k : Nat}
    (hk : fixedAllocs c s.len = some k) :
    ∃ h' rs' o, (Machine.run (fixedM K V lin b) [.one i c] rs).exec h =
        some (h', some (rs', [some o])) ∧ h'.next ≤ h.next + k := by
  obtain ⟨ms, hs⟩ := hr.sim (fixedV_total hb) (fixedM_sound hb)
  rw [fixedAllocs_eq] at hk
  obtain ⟨h', x, m, e, -, ⟨L, r, rfl, -⟩, -, hn⟩ := hs.one_exec (C := fun _ => True)
    (n := fun _ _ => k) trivial hi (c := c) (by
      intro m L hI hR
      have hl : FixedH.allocs 1 c m.len = some k := by
        obtain ⟨r, rfl, -⟩ := hR
        exact hk
      obtain ⟨Q, hq⟩ := FixedH.one_spends (lin := lin) Frugal.always (fun _ _ => trivial) hb hI hR c hl
      exact ⟨Q, hq.conseq (fun _ _ h => h) (fun x L _ => FixedH.less_le _ _ _ _)⟩)
  exact ⟨h', _, _, e, hn⟩

/-- Commands about which `fixedAllocs` says something, apart from `extend`. -/
def fixedSimple : FixedCmd K V Q → Bool
  | .make .new => true
  | .make (.fromIter _) => false
  | .one _ (.extend _) => false
  | .one _ c => (fixedAllocs c 0).isSome
  | .two _ _ _ => false
  | .look _ _ _ => true

/-- C51: a program of `t` such commands, however many clones it makes, allocates
`O(t · log t)` nodes. -/
theorem C51_fixed_total (hb : ∀ a c, compare (b a) (b c) = compare a c)
    (cs : List (FixedCmd K V Q)) (hs : ∀ c ∈ cs, fixedSimple c) :
    ∃ h rs obs, (Machine.run (fixedM K V lin b) cs []).exec .empty = some (h, some (rs, obs)) ∧
      h.next ≤ cs.length * (3 * btreeLevels 5 cs.length + 1) := by
  obtain ⟨h, rs, obs, e, hn⟩ := fixed_run (lin := lin) Frugal.always (fun _ _ => trivial) trivial hb cs (by
    intro x hx
    have := hs x hx
    cases x with
    | one i c => cases c <;> first | exact ⟨rfl, rfl⟩ | cases this
    | make c => cases c <;> first | rfl | cases this
    | two => cases this
    | look => trivial)
  refine ⟨h, rs, obs, e, Nat.le_trans hn ?_⟩
  clear hn e
  suffices h : ∀ n, ∀ cs : List (FixedCmd K V Q), (∀ c ∈ cs, fixedSimple c) →
      cost1 (fun cmd n => (FixedH.allocs 1 cmd n).getD 0) n cs ≤
        cs.length * (3 * btreeLevels 5 n + 1) from h _ _ hs
  intro n cs hs
  induction cs with
  | nil => exact Nat.zero_le _
  | cons x cs ih =>
    have ih := ih (fun c hc => hs c (List.mem_cons_of_mem _ hc))
    have hx := hs x (List.mem_cons_self ..)
    rw [List.length_cons, Nat.add_mul, Nat.one_mul]
    cases x with
    | one i c =>
      have key : (FixedH.allocs 1 c n).getD 0 ≤ 3 * btreeLevels 5 n + 1 := by
        cases c with
        | extend es => cases hx
        | _ => simp [FixedH.allocs, btreeLevels, lvl] <;> omega
      change (FixedH.allocs 1 c n).getD 0 + cost1 _ n cs ≤ _
      omega
    | _ =>
      simp only [cost1]
      omega

/-! ## C52: nothing is copied that is not shared -/

/-- Operations on one map that add no entry and make no clone. -/
def fixedInPlace : FOne K V Q → Bool
  | .clone | .intoIter _ | .insert _ _ | .extend _ => false
  | _ => true

/-- C52: if, after any history, no node of a map has more than one owner, operations on the map work
in place: they allocate nothing.  Other maps may share nodes. -/
theorem C52_fixed_in_place (hb : ∀ a c, compare (b a) (b c) = compare a c)
    {h : Mem (ND K V)} {rs : List (Option HMap)}
    (hr : Reached (fixedM K V lin b) h rs) {i : Nat} {s : HMap} (hi : rs[i]? = some (some s))
    (hu : ∀ a cell, Reach h s.root a → h.cells a = some cell → cell.rc = 1) (c : FOne K V Q)
    (hc : fixedInPlace c) :
    ∃ h' rs' o, (Machine.run (fixedM K V lin b) [.one i c] rs).exec h =
        some (h', some (rs', [some o])) ∧ h'.next = h.next := by
  obtain ⟨ms, hs⟩ := hr.sim (fixedV_total hb) (fixedM_sound hb)
  obtain ⟨h', x, e, hn⟩ := hs.one_alone (root := HMap.root) (I := fixedM K V lin b)
    (by rintro s m L ⟨r, rfl, rfl⟩; exact ⟨_, rfl⟩) hi hu (c := c) (n := fun _ => 0) (by
      intro m L hI hR
      have hl : FixedH.allocs 0 c m.len = some 0 := by
        cases c <;> simp [FixedH.allocs, fixedInPlace] at hc ⊢
      obtain ⟨Q, hq⟩ := FixedH.one_spends (lin := lin) Frugal.alone (fun h => absurd rfl h) hb hI hR c hl
      exact ⟨Q, hq.conseq (fun _ _ h => h) (fun x L _ => FixedH.less_le _ _ _ _)⟩)
  exact ⟨h', _, _, e, Nat.le_antisymm hn (exec_next_le e)⟩

/-- C52: then an insertion allocates nothing if it replaces a value; else a node for each level that
it splits and one for a new root. -/
theorem C52_fixed_insert (hb : ∀ a c, compare (b a) (b c) = compare a c)
    {h : Mem (ND K V)} {rs : List (Option HMap)}
    (hr : Reached (fixedM K V lin b) h rs) {i : Nat} {s : HMap} (hi : rs[i]? = some (some s))
    (hu : ∀ a cell, Reach h s.root a → h.cells a = some cell → cell.rc = 1) (k : K) (v : V) :
    ∃ h' rs' old, (Machine.run (fixedM K V lin b) [.one i (.insert k v)] rs).exec h =
        some (h', some (rs', [some (.val old)])) ∧
      h'.next ≤ h.next + (if old.isSome then 0 else btreeLevels 5 s.len + 1) := by
  obtain ⟨ms, hs⟩ := hr.sim (fixedV_total hb) (fixedM_sound hb)
  obtain ⟨h', x, e, hn⟩ := hs.one_alone (root := HMap.root)
    (by rintro s m L ⟨r, rfl, rfl⟩; exact ⟨_, rfl⟩) hi hu (I := fixedM K V lin b) (c := FOne.insert k v)
    (n := fun x => FixedH.less s.len (.insert k v : FOne K V Q) (btreeLevels 5 s.len + 1) x.2.2)
    (fun m L hI hR => by
      have hl : m.len = s.len := by obtain ⟨r, rfl, -⟩ := hR; rfl
      rw [← hl]
      exact FixedH.one_spends Frugal.alone (fun h => absurd rfl h) hb hI hR (FOne.insert k v)
        (k := btreeLevels 5 m.len + 1) (by simp [FixedH.allocs, btreeLevels, lvl]))
  have hj : rs[i]?.join = some s := by rw [hi]; rfl
  obtain ⟨old, ho⟩ : ∃ old, x.2.2 = .val old := by
    have e1 := e
    simp only [Machine.run, Machine.step, hj] at e1
    obtain ⟨y, e2, hy⟩ := exec_map e1
    obtain ⟨z, e3, rfl⟩ := exec_map e2
    obtain ⟨w, e4, rfl⟩ := exec_map e3
    cases w with
    | none => cases hy
    | some w =>
      simp only [Option.map_some, Option.some.injEq, Prod.mk.injEq, List.cons.injEq,
        and_true] at hy
      exact ⟨_, hy.2⟩
  refine ⟨h', _, old, by rw [e, ho], Nat.le_trans hn ?_⟩
  rw [ho]
  cases old <;> simp [FixedH.less, btreeLevels, lvl]

/-- Commands of programs that never clone. -/
def fixedNoClone : FixedCmd K V Q → Bool
  | .make .new => true
  | .make (.fromIter _) => false
  | .one _ (.insert _ _) => true
  | .one _ c => fixedInPlace c
  | .two _ _ _ => false
  | .look _ _ _ => true

/-- Commands that add an entry. -/
def fixedAdds : FixedCmd K V Q → Bool
  | .one _ (.insert _ _) => true
  | _ => false

/-- C52: in a program that makes no clones nodes are only allocated by insertions: nothing is
copied. -/
theorem C52_fixed_no_copies (hb : ∀ a c, compare (b a) (b c) = compare a c)
    (cs : List (FixedCmd K V Q)) (hs : ∀ c ∈ cs, fixedNoClone c) :
    ∃ h rs obs, (Machine.run (fixedM K V lin b) cs []).exec .empty = some (h, some (rs, obs)) ∧
      h.next ≤ cs.countP fixedAdds * (btreeLevels 5 cs.length + 1) := by
  obtain ⟨h, rs, obs, e, hn⟩ := fixed_run (lin := lin) Frugal.alone (fun h => absurd rfl h)
    AllOne.empty hb cs (by
      intro x hx
      have := hs x hx
      cases x with
      | one i c => cases c <;> first | exact ⟨rfl, rfl⟩ | cases this
      | make c => cases c <;> first | rfl | cases this
      | two => cases this
      | look => trivial)
  refine ⟨h, rs, obs, e, Nat.le_trans hn ?_⟩
  clear hn e
  generalize cs.length = n
  induction cs with
  | nil => exact Nat.zero_le _
  | cons x cs ih =>
    have ih := ih (fun c hc => hs c (List.mem_cons_of_mem _ hc))
    have hx := hs x (List.mem_cons_self ..)
    rw [List.countP_cons]
    cases x with
    | one i c =>
      have key : (FixedH.allocs 0 c n).getD 0 ≤
          (if fixedAdds (.one i c : FixedCmd K V Q) = true then 1 else 0) * (btreeLevels 5 n + 1) := by
        cases c with
        | extend => cases hx
        | _ => simp [FixedH.allocs, fixedAdds, btreeLevels, lvl]
      change (FixedH.allocs 0 c n).getD 0 + cost1 _ n cs ≤ _
      rw [Nat.add_mul]
      omega
    | _ => simpa [cost1, fixedAdds] using ih

/-! ## C53: operations by shared reference -/

/-- Commands on maps by shared reference (`&self`), apart from `clone`. -/
def fixedShared : FixedCmd K V Q → Bool
  | .one _ (.get _) | .one _ .len | .one _ .isEmpty | .one _ (.iter _) => true
  | _ => false

/-- C53: operations by shared reference leave memory exactly as it is, at each of their steps: they
write to no node, allocate and free none, and count no reference, not even for a while. -/
theorem C53_fixed_shared_reads (hb : ∀ a c, compare (b a) (b c) = compare a c)
    {h : Mem (ND K V)} {rs : List (Option HMap)}
    (hr : Reached (fixedM K V lin b) h rs) (c : FixedCmd K V Q) (hc : fixedShared c) :
    (Machine.run (fixedM K V lin b) [c] rs).ReadOnly ∧
    ∃ obs, (Machine.run (fixedM K V lin b) [c] rs).exec h = some (h, some (rs, obs)) := by
  obtain ⟨ms, hs⟩ := hr.sim (fixedV_total hb) (fixedM_sound hb)
  obtain ⟨z, -, h', rs', e, -⟩ := Sim.run (fixedV_total hb) (fixedM_sound (lin := lin) hb) [c] hs
  have hq : Quiet (fixedM K V lin b) c := fixed_quiet (by cases c with
    | one i c => cases c <;> first | exact trivial | cases hc
    | _ => cases hc)
  obtain ⟨rfl, rfl⟩ := reads_only hq e
  exact ⟨quiet_readOnly hq, _, e⟩

/-! ## Examples -/

namespace FixedCostDemo
open FixedHeapDemo (M end_ reached)

/-- Thirty entries, two clones, of which one loses an entry and the other gets one. -/
def prog : List (FixedCmd Nat Nat Nat) :=
  .make .new :: (List.range 30).map (fun k => .one 0 (.insert k (10 * k))) ++
  [.one 0 .clone, .one 1 .clone, .one 1 (.remove 3), .one 2 (.insert 99 90)]

example : (end_ (prog.take 31)).1.next = 5 ∧ (end_ prog).1.next = 9 := by decide +kernel
example : (end_ prog).2.map (fun o => o.map (·.len)) = [some 30, some 29, some 31] := by
  decide +kernel
example := C51_fixed_total (lin := true) (b := id) (by simp) prog (by decide +kernel)

example : ∃ s, (end_ prog).2[0]? = some (some s) ∧ s.len = 30 := by
  have : ((end_ prog).2[0]?.map fun o => o.map (·.len)) = some (some 30) := by decide +kernel
  match h : (end_ prog).2[0]?, this with
  | some (some s), this => exact ⟨s, rfl, by simpa using this⟩
example {s} (h : (end_ prog).2[0]? = some (some s)) :=
  C51_fixed_allocs (by simp) (reached prog) h (.insert 5 6) rfl
example {s} (h : (end_ prog).2[0]? = some (some s)) :=
  C51_fixed_allocs (by simp) (reached prog) h (.extend [(5, 6), (100, 7)]) rfl

/-- On another clone the insertion copies a path. -/
example : (end_ (prog ++ [.one 0 .clone])).1.next = 9 ∧
    (end_ (prog ++ [.one 0 .clone, .one 0 (.insert 15 6)])).1.next = 11 := by decide +kernel

/-- No clones. -/
def alone : List (FixedCmd Nat Nat Nat) :=
  .make .new :: (List.range 30).map (fun k => .one 0 (.insert k (10 * k))) ++
  [.one 0 (.remove 3), .one 0 (.insert 5 0), .one 0 (.getMut 7 (· + 1)),
   .one 0 (.iterMut (fun j _ v => v + j) [true, false, true])]

example := C52_fixed_no_copies (lin := true) (b := id) (by simp) alone (by decide +kernel)
example : alone.countP fixedAdds = 31 ∧ (end_ alone).1.next = 5 := by decide +kernel

/-- Two maps that share nodes, and one that shares none since its clones were dropped or changed
everywhere. -/
def mixed : List (FixedCmd Nat Nat Nat) :=
  .make .new :: (List.range 30).map (fun k => .one 0 (.insert k (10 * k))) ++
  [.one 0 .clone, .one 0 .clone, .one 1 .drop, .one 2 (.iterMut (fun _ _ v => v + 1)
    (List.replicate 30 true)), .one 2 .clone]

/-- The nodes of map 0 are below 5; their links lead to such nodes. -/
theorem mixed_unshared {s} (hi : (end_ mixed).2[0]? = some (some s)) (a cell)
    (hr : Reach (end_ mixed).1 s.root a) (h : (end_ mixed).1.cells a = some cell) :
    cell.rc = 1 := by
  have h0 : ((end_ mixed).2[0]?.all fun o => o.all fun s => s.root.all (· < 5)) = true := by
    decide +kernel
  have h1 : ∀ a < 5, (((end_ mixed).1.cells a).all fun c =>
      c.rc == 1 && c.node.kids.all (·.all (· < 5))) = true := by decide +kernel
  have h2 : a < 5 := by
    clear h cell
    induction hr with
    | root e => rw [hi] at h0; simpa [e] using h0
    | link _ hc hm ih =>
      have := h1 _ ih
      rw [hc] at this
      simp only [Option.all_some, Bool.and_eq_true, List.all_eq_true] at this
      simpa using this.2 _ hm
  have := h1 a h2
  rw [h] at this
  simp only [Option.all_some, Bool.and_eq_true, beq_iff_eq] at this
  exact this.1

example {s} (h : (end_ mixed).2[0]? = some (some s)) :=
  C52_fixed_in_place (by simp) (reached mixed) h (mixed_unshared h) (.remove 4) rfl
example {s} (h : (end_ mixed).2[0]? = some (some s)) :=
  C52_fixed_insert (by simp) (reached mixed) h (mixed_unshared h) 4 5
example : ((end_ mixed).2[0]?.map fun o => o.map (·.len)) = some (some 30) := by decide +kernel

/-- The root of map 2 is shared with its clone. -/
example : ((end_ mixed).2[2]?.map fun o => o.map fun s => s.root.map fun a =>
    ((end_ mixed).1.cells a).map (·.rc)) = some (some (some (some 2))) := by decide +kernel

example := C53_fixed_shared_reads (by simp) (reached prog) (.one 1 (.iter [true, false])) rfl
example := C53_fixed_shared_reads (by simp) (reached prog) (.one 1 (.get 2)) rfl

end FixedCostDemo
end Verif.Props
