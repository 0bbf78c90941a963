import Verif.BTreeHeap.MapCost
import Verif.Heap.Alone
import Verif.Props.BTreeHeap
/-!
# Properties C51, C52 and C53 for `BTreeMap`

Memory counts the nodes allocated so far (`Mem.next`, addresses are not reused).  So the nodes a
program allocates, be they new or copies of shared ones, are the difference of `next` before and
after.
-/
namespace Verif.Props
open Verif.Heap Verif.Heap.Machine Verif.BTreeH Std
open BTree.BTreeMap (WF)

variable {K V Q S : Type} [Ord K] [TransOrd K] [Ord Q] [TransOrd Q]
  {N : Nat} {b : K → Q}

/-! ## C51: how much is copied -/

/-- At least the number of levels of a B-tree with `n` entries whose nodes, except the root, have
`N` entries at least: `⌊log_{N+1} ((n+1)/2)⌋ + 1`. -/
def btreeLevels (N n : Nat) : Nat := Nat.log (N + 1) ((n + 1) / 2) + 1

/-- How many nodes an operation on one map of `n` entries allocates at most, whatever it shares
with other maps.  Nothing is claimed about the operations with `none`. -/
def btreeAllocs (N : Nat) : One K V Q S → Nat → Option Nat
  | .clone, _ | .drop, _ | .clear, _ => some 0
  | .insert _ _, n => some (2 * btreeLevels N n + 1)
  | .remove _, n | .popFirst, n | .popLast, n => some (3 * btreeLevels N n)
  | .getMut _ _, n | .andModify _ _, n => some (btreeLevels N n)
  | .orInsert _ _ _, n => some (2 * btreeLevels N n + 1 + btreeLevels N (n + 1))
  | .getKeyValue _, _ | .get _, _ | .containsKey _, _ | .first, _ | .last, _
  | .len, _ | .isEmpty, _ | .iter _, _ | .intoIter _, _ | .intoVec, _ | .range _ _ _, _
  | .serialize, _ => some 0
  | .iterMut _ _, _ | .rangeMut _ _ _ _, _ | .retain _ _, _ | .extend _, _ | .splitOff _, _ => none

omit [Ord K] [TransOrd K] [Ord Q] [TransOrd Q] in
theorem btreeAllocs_eq (c : One K V Q S) (n : Nat) : btreeAllocs N c n = allocs N 1 c n := by
  cases c <;> simp [btreeAllocs, allocs, btreeLevels, lvl] <;> omega

/-- C51: after any history (also of threads) a clone costs no node, and an operation on a map
allocates at most a number of nodes logarithmic in the number of its entries, even if all its
nodes are shared with clones. -/
theorem C51_btree_allocs (hN : 1 ≤ N) (hb : ∀ a c, compare (b a) (b c) = compare a c)
    {h : Mem (ND K V)} {rs : List (Option HMap)} (hr : Reached (btreeM K V S N b) h rs)
    {i : Nat} {s : HMap} (hi : rs[i]? = some (some s)) (c : One K V Q S) {k : Nat}
    (hk : btreeAllocs N c s.len = some k) :
    ∃ h' rs' o, (Machine.run (btreeM K V S N b) [.one i c] rs).exec h =
        some (h', some (rs', [some o])) ∧ h'.next ≤ h.next + k := by
  obtain ⟨ms, hs⟩ := hr.sim (btreeV_total hN hb) (btreeM_sound hN hb)
  rw [btreeAllocs_eq] at hk
  obtain ⟨h', x, m, e, -, ⟨L, r, rfl, -⟩, -, hn⟩ := hs.one_exec (C := fun _ => True)
    (n := fun _ _ => k) trivial hi (c := c) (by
      intro m L hI hR
      have hl : allocs N 1 c m.len = some k := by
        obtain ⟨r, rfl, -⟩ := hR
        exact hk
      obtain ⟨Q, hq⟩ := one_spends Frugal.always (fun _ _ => trivial) hN hb hI hR c hl
      exact ⟨Q, hq.conseq (fun _ _ h => h) (fun x L _ => less_le _ _ _ _ _)⟩)
  exact ⟨h', _, _, e, hn⟩

/-- Commands about which `btreeAllocs` says something. -/
def btreeSimple : BTreeCmd K V Q S → Bool
  | .make .new => true
  | .make (.fromIter _) => false
  | .one _ c => (btreeAllocs 1 c 0).isSome
  | .two _ _ _ => false
  | .look _ _ _ => true

/-- C51: a program of `t` such commands, however many clones it makes, allocates
`O(t · log t)` nodes. -/
theorem C51_btree_total (hN : 1 ≤ N) (hb : ∀ a c, compare (b a) (b c) = compare a c)
    (cs : List (BTreeCmd K V Q S)) (hs : ∀ c ∈ cs, btreeSimple c) :
    ∃ h rs obs, (Machine.run (btreeM K V S N b) cs []).exec .empty = some (h, some (rs, obs)) ∧
      h.next ≤ cs.length * (3 * btreeLevels N (cs.length + 1) + 1) := by
  obtain ⟨h, rs, obs, e, hn⟩ := btree_run Frugal.always (fun _ _ => trivial) trivial hN hb cs (by
    intro x hx
    have := hs x hx
    cases x with
    | one i c => cases c <;> first | rfl | cases this
    | make c => cases c <;> first | rfl | cases this
    | two => cases this
    | look => trivial)
  refine ⟨h, rs, obs, e, Nat.le_trans hn ?_⟩
  refine cost1_le (B := fun n => 3 * btreeLevels N (n + 1) + 1) ?_ cs
  intro c
  have := lvl_mono (N := N) (Nat.le_succ cs.length)
  simp only [Nat.succ_eq_add_one, lvl] at this
  cases c <;> simp only [allocs, Option.getD_some, btreeLevels, lvl] <;> simp <;> omega

/-! ## C52: nothing is copied that is not shared -/

/-- Operations on one map that add no entry and make no clone; without those (`retain`, `extend`,
`split_off`) that rebuild trees. -/
def btreeInPlace : One K V Q S → Bool
  | .clone | .intoIter _ | .intoVec | .insert _ _ | .orInsert _ _ _ | .retain _ _ | .extend _
  | .splitOff _ => false
  | _ => true

/-- C52: if, after any history, no node of a map has more than one owner, operations on the map work
in place: they allocate nothing.  Other maps may share nodes. -/
theorem C52_btree_in_place (hN : 1 ≤ N) (hb : ∀ a c, compare (b a) (b c) = compare a c)
    {h : Mem (ND K V)} {rs : List (Option HMap)}
    (hr : Reached (btreeM K V S N b) h rs) {i : Nat} {s : HMap} (hi : rs[i]? = some (some s))
    (hu : ∀ a cell, Reach h s.root a → h.cells a = some cell → cell.rc = 1) (c : One K V Q S)
    (hc : btreeInPlace c) :
    ∃ h' rs' o, (Machine.run (btreeM K V S N b) [.one i c] rs).exec h =
        some (h', some (rs', [some o])) ∧ h'.next = h.next := by
  obtain ⟨ms, hs⟩ := hr.sim (btreeV_total hN hb) (btreeM_sound hN hb)
  obtain ⟨h', x, e, hn⟩ := hs.one_alone (root := HMap.root)
    (by rintro s m L ⟨r, rfl, rfl⟩; exact ⟨_, rfl⟩) hi hu (c := c) (n := fun _ => 0) (by
      intro m L hI hR
      have hl : allocs N 0 c m.len = some 0 := by
        cases c <;> simp [allocs, btreeInPlace] at hc ⊢
      obtain ⟨Q, hq⟩ := one_spends Frugal.alone (fun h => absurd rfl h) hN hb hI hR c hl
      exact ⟨Q, hq.conseq (fun _ _ h => h) (fun x L _ => less_le _ _ _ _ _)⟩)
  exact ⟨h', _, _, e, Nat.le_antisymm hn (exec_next_le e)⟩

/-- C52: then an insertion allocates nothing if it replaces a value; else a node for each level that
it splits and one for a new root. -/
theorem C52_btree_insert (hN : 1 ≤ N) (hb : ∀ a c, compare (b a) (b c) = compare a c)
    {h : Mem (ND K V)} {rs : List (Option HMap)}
    (hr : Reached (btreeM K V S N b) h rs) {i : Nat} {s : HMap} (hi : rs[i]? = some (some s))
    (hu : ∀ a cell, Reach h s.root a → h.cells a = some cell → cell.rc = 1) (k : K) (v : V) :
    ∃ h' rs' old, (Machine.run (btreeM K V S N b) [.one i (.insert k v)] rs).exec h =
        some (h', some (rs', [some (.val old)])) ∧
      h'.next ≤ h.next + (if old.isSome then 0 else btreeLevels N s.len + 1) := by
  obtain ⟨ms, hs⟩ := hr.sim (btreeV_total hN hb) (btreeM_sound hN hb)
  obtain ⟨h', x, e, hn⟩ := hs.one_alone (root := HMap.root)
    (by rintro s m L ⟨r, rfl, rfl⟩; exact ⟨_, rfl⟩) hi hu (I := btreeM K V S N b) (c := One.insert k v)
    (n := fun x => less N s.len (.insert k v) (btreeLevels N s.len + 1) x.2.2) (fun m L hI hR => by
      have hl : m.len = s.len := by obtain ⟨r, rfl, -⟩ := hR; rfl
      rw [← hl]
      exact one_spends Frugal.alone (fun h => absurd rfl h) hN hb hI hR (One.insert k v)
        (k := btreeLevels N m.len + 1) (by simp [allocs, btreeLevels, lvl]))
  have hj : rs[i]?.join = some s := by rw [hi]; rfl
  obtain ⟨old, ho⟩ : ∃ old, x.2.2 = .val old := by
    have e1 := e
    simp only [Machine.run, Machine.step, hj] at e1
    obtain ⟨y, e2, hy⟩ := exec_map e1
    obtain ⟨z, e3, rfl⟩ := exec_map e2
    obtain ⟨w, e4, rfl⟩ := exec_map e3
    cases w with
    | none => cases hy
    | some w =>
      simp only [Option.map_some, Option.some.injEq, Prod.mk.injEq, List.cons.injEq,
        and_true] at hy
      exact ⟨_, hy.2⟩
  refine ⟨h', _, old, by rw [e, ho], Nat.le_trans hn ?_⟩
  rw [ho]
  cases old <;> simp [less, btreeLevels, lvl]

/-- Commands of programs that never clone, without the operations that rebuild trees. -/
def btreeNoClone : BTreeCmd K V Q S → Bool
  | .make .new => true
  | .make (.fromIter _) => false
  | .one _ (.insert _ _) | .one _ (.orInsert _ _ _) => true
  | .one _ c => btreeInPlace c
  | .two _ _ _ => false
  | .look _ _ _ => true

/-- Commands that add an entry. -/
def btreeAdds : BTreeCmd K V Q S → Bool
  | .one _ (.insert _ _) | .one _ (.orInsert _ _ _) => true
  | _ => false

/-- C52: in a program that makes no clones nodes are only allocated by insertions: nothing is
copied. -/
theorem C52_btree_no_copies (hN : 1 ≤ N) (hb : ∀ a c, compare (b a) (b c) = compare a c)
    (cs : List (BTreeCmd K V Q S)) (hs : ∀ c ∈ cs, btreeNoClone c) :
    ∃ h rs obs, (Machine.run (btreeM K V S N b) cs []).exec .empty = some (h, some (rs, obs)) ∧
      h.next ≤ cs.countP btreeAdds * (btreeLevels N cs.length + 1) := by
  obtain ⟨h, rs, obs, e, hn⟩ := btree_run Frugal.alone (fun h => absurd rfl h) AllOne.empty hN hb cs
    (by
      intro x hx
      have := hs x hx
      cases x with
      | one i c => cases c <;> first | rfl | cases this
      | make c => cases c <;> first | rfl | cases this
      | two => cases this
      | look => trivial)
  refine ⟨h, rs, obs, e, Nat.le_trans hn ?_⟩
  clear hn e
  generalize cs.length = n
  induction cs with
  | nil => exact Nat.zero_le _
  | cons x cs ih =>
    have ih := ih (fun c hc => hs c (List.mem_cons_of_mem _ hc))
    have hx := hs x (List.mem_cons_self ..)
    rw [List.countP_cons]
    cases x with
    | one i c =>
      have key : (allocs N 0 c n).getD 0 ≤
          (if btreeAdds (.one i c) = true then 1 else 0) * (btreeLevels N n + 1) := by
        cases c <;> simp [allocs, btreeAdds, btreeLevels, lvl]
      change (allocs N 0 c n).getD 0 + cost1 _ n cs ≤ _
      rw [Nat.add_mul]
      omega
    | _ => simpa [cost1, btreeAdds] using ih

/-- Seven insertions into one map. -/
def btreeSeven : List (BTreeCmd Nat Nat Nat Nat) :=
  .make .new :: (List.range 7).map (fun k => .one 0 (.insert k k))

/-- `retain` is an exception: it builds a new map (btree.rs:911-922).  So though no node of the map
is shared, retaining everything allocates as many nodes again. -/
theorem C52_btree_retain_copies :
    ∃ h rs obs, (Machine.run BTreeHeapDemo.M btreeSeven []).exec .empty =
        some (h, some (rs, obs)) ∧
      (∀ a cell, h.cells a = some cell → cell.rc = 1) ∧ h.next = 4 ∧
      ∃ h' rs' obs', (Machine.run BTreeHeapDemo.M
          [.one 0 (.retain (fun s _ v => some (s, v, true)) 0)] rs).exec h =
        some (h', some (rs', obs')) ∧ h'.next = 8 := by
  obtain ⟨h, rs, obs, e, hn⟩ := C52_btree_no_copies (N := 1) (b := id) (by simp) (by simp)
    btreeSeven (by decide +kernel)
  have e1 : BTreeHeapDemo.end_ btreeSeven = (h, rs) := by simp [BTreeHeapDemo.end_, e]
  have hr : Reached BTreeHeapDemo.M h rs := Reached.of_exec e
  obtain ⟨ms, hs⟩ := hr.sim (btreeV_total (N := 1) (b := id) (by simp) (by simp))
    (btreeM_sound (N := 1) (b := id) (by simp) (by simp))
  obtain ⟨z, -, h', rs', e', -⟩ := Sim.run
    (btreeV_total (N := 1) (b := id) (by simp) (by simp))
    (btreeM_sound (N := 1) (b := id) (by simp) (by simp))
    [.one 0 (.retain (fun s _ v => some (s, v, true)) 0)] hs
  have h7' : h.next = 4 := by
    have : (BTreeHeapDemo.end_ btreeSeven).1.next = 4 := by decide +kernel
    rwa [e1] at this
  refine ⟨h, rs, obs, e, ?_, h7', h', rs', _, e', ?_⟩
  · intro a cell ha
    have h7 : ∀ a < 4, ((BTreeHeapDemo.end_ btreeSeven).1.cells a).all (·.rc == 1) = true := by
      decide +kernel
    obtain ⟨-, L, -, ho⟩ := hs
    have hl := ho.fin a
    rw [e1] at h7
    rw [h7'] at hl
    have := h7 a (by
      by_contra hc
      rw [hl (by omega)] at ha
      cases ha)
    rw [ha] at this
    simpa using this
  · have : (((Machine.run BTreeHeapDemo.M [.one 0 (.retain (fun s _ v => some (s, v, true)) 0)]
        (BTreeHeapDemo.end_ btreeSeven).2).exec (BTreeHeapDemo.end_ btreeSeven).1).map (·.1.next)) =
        some 8 := by decide +kernel
    rw [e1, e'] at this
    simpa using this

/-! ## C53: operations by shared reference -/

/-- Commands on maps by shared reference (`&self`), apart from `clone`. -/
def btreeShared : BTreeCmd K V Q S → Bool
  | .one _ (.getKeyValue _) | .one _ (.get _) | .one _ (.containsKey _)
  | .one _ .first | .one _ .last | .one _ .len | .one _ .isEmpty | .one _ (.iter _)
  | .one _ (.range _ _ _) | .one _ .serialize | .look _ _ _ => true
  | _ => false

/-- C53: operations by shared reference leave memory exactly as it is, at each of their steps: they
write to no node, allocate and free none, and count no reference, not even for a while. -/
theorem C53_btree_shared_reads (hN : 1 ≤ N) (hb : ∀ a c, compare (b a) (b c) = compare a c)
    {h : Mem (ND K V)} {rs : List (Option HMap)}
    (hr : Reached (btreeM K V S N b) h rs) (c : BTreeCmd K V Q S) (hc : btreeShared c) :
    (Machine.run (btreeM K V S N b) [c] rs).ReadOnly ∧
    ∃ obs, (Machine.run (btreeM K V S N b) [c] rs).exec h = some (h, some (rs, obs)) := by
  obtain ⟨ms, hs⟩ := hr.sim (btreeV_total hN hb) (btreeM_sound hN hb)
  obtain ⟨z, -, h', rs', e, -⟩ := Sim.run (btreeV_total hN hb) (btreeM_sound hN hb) [c] hs
  have hq : Quiet (btreeM K V S N b) c := btree_quiet (by cases c with
    | one i c => cases c <;> first | exact trivial | cases hc
    | look => trivial
    | _ => cases hc)
  obtain ⟨rfl, rfl⟩ := reads_only hq e
  exact ⟨quiet_readOnly hq, _, e⟩

/-! ## Examples -/

namespace BTreeCostDemo
open BTreeHeapDemo (M end_ reached)

/-- A million entries with `N = 2` and `N = 5`. -/
example : btreeLevels 2 1000000 = 12 ∧ btreeLevels 5 1000000 = 8 := by decide +kernel

/-- Nine entries, two clones, of which one loses an entry and the other gets one. -/
def prog : List (BTreeCmd Nat Nat Nat Nat) :=
  .make .new :: (List.range 9).map (fun k => .one 0 (.insert k (10 * k))) ++
  [.one 0 .clone, .one 1 .clone, .one 1 (.remove 3), .one 2 (.insert 9 90)]

example : (end_ (prog.take 10)).1.next = 5 ∧ (end_ prog).1.next = 12 := by decide +kernel
example : (end_ prog).2.map (fun o => o.map (·.len)) = [some 9, some 8, some 10] := by
  decide +kernel
example := C51_btree_total (N := 1) (b := id) (by simp) (by simp) prog (by decide +kernel)

example : ∃ s, (end_ prog).2[0]? = some (some s) ∧ s.len = 9 := by
  have : ((end_ prog).2[0]?.map fun o => o.map (·.len)) = some (some 9) := by decide +kernel
  match h : (end_ prog).2[0]?, this with
  | some (some s), this => exact ⟨s, rfl, by simpa using this⟩
example {s} (h : (end_ prog).2[0]? = some (some s)) :=
  C51_btree_allocs (by simp) (by simp) (reached prog) h (.insert 5 6) rfl
example {s} (h : (end_ prog).2[0]? = some (some s)) :=
  C51_btree_allocs (by simp) (by simp) (reached prog) h .clone rfl

/-- On another clone the insertion copies a path. -/
example : (end_ (prog ++ [.one 0 .clone])).1.next = 12 ∧
    (end_ (prog ++ [.one 0 .clone, .one 0 (.insert 5 6)])).1.next = 13 := by decide +kernel

/-- No clones. -/
def alone : List (BTreeCmd Nat Nat Nat Nat) :=
  .make .new :: (List.range 9).map (fun k => .one 0 (.insert k (10 * k))) ++
  [.one 0 (.remove 3), .one 0 (.insert 5 0), .one 0 .popFirst,
   .one 0 (.iterMut (fun j _ v => v + j) [true, false, true])]

example := C52_btree_no_copies (N := 1) (b := id) (by simp) (by simp) alone (by decide +kernel)
example : alone.countP btreeAdds = 10 ∧ (end_ alone).1.next = 5 := by decide +kernel

/-- Two maps that share nodes, and one that shares none since its clones were dropped or changed
everywhere. -/
def mixed : List (BTreeCmd Nat Nat Nat Nat) :=
  .make .new :: (List.range 9).map (fun k => .one 0 (.insert k (10 * k))) ++
  [.one 0 .clone, .one 0 .clone, .one 1 .drop, .one 2 (.iterMut (fun _ _ v => v + 1)
    (List.replicate 9 true)), .one 2 .clone]

/-- The nodes of map 0 are below 5; their links lead to such nodes. -/
theorem mixed_unshared {s} (hi : (end_ mixed).2[0]? = some (some s)) (a cell)
    (hr : Reach (end_ mixed).1 s.root a) (h : (end_ mixed).1.cells a = some cell) :
    cell.rc = 1 := by
  have h0 : ((end_ mixed).2[0]?.all fun o => o.all fun s => s.root.all (· < 5)) = true := by
    decide +kernel
  have h1 : ∀ a < 5, (((end_ mixed).1.cells a).all fun c =>
      c.rc == 1 && c.node.kids.all (·.all (· < 5))) = true := by decide +kernel
  have h2 : a < 5 := by
    clear h cell
    induction hr with
    | root e => rw [hi] at h0; simpa [e] using h0
    | link _ hc hm ih =>
      have := h1 _ ih
      rw [hc] at this
      simp only [Option.all_some, Bool.and_eq_true, List.all_eq_true] at this
      simpa using this.2 _ hm
  have := h1 a h2
  rw [h] at this
  simp only [Option.all_some, Bool.and_eq_true, beq_iff_eq] at this
  exact this.1

example {s} (h : (end_ mixed).2[0]? = some (some s)) :=
  C52_btree_in_place (by simp) (by simp) (reached mixed) h (mixed_unshared h) (.remove 4) rfl
example {s} (h : (end_ mixed).2[0]? = some (some s)) :=
  C52_btree_insert (by simp) (by simp) (reached mixed) h (mixed_unshared h) 4 5
example : ((end_ mixed).2[0]?.map fun o => o.map (·.len)) = some (some 9) := by decide +kernel

/-- The root of map 2 is shared with its clone. -/
example : ((end_ mixed).2[2]?.map fun o => o.map fun s => s.root.map fun a =>
    ((end_ mixed).1.cells a).map (·.rc)) = some (some (some (some 2))) := by decide +kernel

example := C53_btree_shared_reads (by simp) (by simp) (reached prog)
  (.one 1 (.range (.included 2) .unbounded [true, false])) rfl
example := C53_btree_shared_reads (by simp) (by simp) (reached prog)
  (.look 0 1 (.cmp (fun a b => compare a.1 b.1))) rfl

end BTreeCostDemo
end Verif.Props
