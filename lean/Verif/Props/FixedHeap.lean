import Verif.FixedHeap.MapSpec
import Verif.Heap.History
/-!
# Properties C45 and C46 for `btree::fixed::BTreeMap`

Programs are lists of commands on numbered maps (`FixedH.FOne`); `fixedM` runs them on
reference-counted memory, node by node as fixed.rs and core.rs do, sharing nodes between clones.
`fixedD` is the same except that `clone` copies every node (`deepClone_shares_nothing`).  Keys are
of any totally ordered type `K`, lookups of any type `Q` that keys can be borrowed as; `lin` is the
choice of linear or binary search.  Running into undefined behaviour (an uninitialised slot) counts
as a panic, and there is none.
-/
namespace Verif.Props
open Verif.Heap Verif.Heap.Machine Verif.BTreeH Verif.FixedH Verif.Fixed Std

variable {K V Q : Type} [Ord K] [TransOrd K] [Ord Q] [TransOrd Q] {lin : Bool} {b : K → Q}

/-- Programs on `btree::fixed::BTreeMap`s. -/
abbrev FixedCmd (K V Q : Type) := Cmd (Make K V) (FOne K V Q) Empty Empty

/-- C45: every program on any number of maps and clones ends without undefined behaviour and shows
the same whether clones share nodes or are deep copies. -/
theorem C45_fixed_isolated (hb : ∀ x y, compare (b x) (b y) = compare x y)
    (cs : List (FixedCmd K V Q)) :
    ∃ obs, Shown (fixedM K V lin b) cs obs ∧ Shown (fixedD K V lin b) cs obs :=
  isolated (fixedV_total hb) (fixedM_sound hb) (fixedD_sound hb) cs

/-- C45: the program shows what it shows if every map is a value of its own. -/
theorem C45_fixed_values (hb : ∀ x y, compare (b x) (b y) = compare x y)
    (cs : List (FixedCmd K V Q)) :
    ∃ ms obs, Machine.run (fixedV K V lin b) cs [] = some (ms, obs) ∧ Shown (fixedM K V lin b) cs obs :=
  shown_of (fixedV_total hb) (fixedM_sound hb) cs

/-- C45: a clone, made after any history (also of threads), shows what its original shows, and
making it changes nothing about the other maps. -/
theorem C45_fixed_clone (hb : ∀ x y, compare (b x) (b y) = compare x y)
    {h : Mem (ND K V)} {rs : List (Option HMap)} (hr : Reached (fixedM K V lin b) h rs)
    {i : Nat} {s : HMap} (hi : rs[i]? = some (some s)) :
    ∃ h' rs', (Machine.run (fixedM K V lin b) [.one i .clone] rs).exec h = some (h', some (rs', [some .unit])) ∧
      (∀ j c o, j < rs.length → (Sees (fixedM K V lin b) h' rs' j c o ↔ Sees (fixedM K V lin b) h rs j c o)) ∧
      (∀ c o, Sees (fixedM K V lin b) h' rs' rs.length c o ↔ Sees (fixedM K V lin b) h rs i c o) :=
  cloned (fixedV_total hb) (fixedM_sound hb) hr hi (fun _ => rfl)

/-- C45: whatever is done to other maps, after any history, does not change what any command on
map `i` would show. -/
theorem C45_fixed_others (hb : ∀ x y, compare (b x) (b y) = compare x y)
    {h : Mem (ND K V)} {rs : List (Option HMap)} (hr : Reached (fixedM K V lin b) h rs)
    {i : Nat} (hi : i < rs.length) (cs : List (FixedCmd K V Q)) (hc : ∀ c ∈ cs, i ∉ c.names) :
    ∃ h' rs' obs, (Machine.run (fixedM K V lin b) cs rs).exec h = some (h', some (rs', obs)) ∧
      ∀ c o, Sees (fixedM K V lin b) h' rs' i c o ↔ Sees (fixedM K V lin b) h rs i c o :=
  others (fixedV_total hb) (fixedM_sound hb) hr hi cs hc

/-- C45: threads working on maps that may share nodes: what the threads of a history show does not
depend on the schedules, and is the same with deep copies. -/
theorem C45_fixed_threads (hb : ∀ x y, compare (b x) (b y) = compare x y)
    (ph : List (List (Thread (Make K V) (FOne K V Q) Empty Empty)))
    (hn : ∀ p ∈ ph, (dealt p).Nodup) :
    ∃ obs, (∃ h rs, Runs (fixedM K V lin b) .empty [] ph h rs obs) ∧
      (∀ h rs obs', Runs (fixedM K V lin b) .empty [] ph h rs obs' → obs' = obs) ∧
      (∀ h rs obs', Runs (fixedD K V lin b) .empty [] ph h rs obs' → obs' = obs) :=
  isolated_threads (fixedV_total hb) (fixedM_sound hb) (fixedD_sound hb) ph hn

/-- C45: at any moment of any schedule no thread has run into a panic or undefined behaviour, and
all can still run to their ends. -/
theorem C45_fixed_threads_progress (hb : ∀ x y, compare (b x) (b y) = compare x y)
    {h : Mem (ND K V)} {rs : List (Option HMap)}
    (hr : Reached (fixedM K V lin b) h rs)
    (p : List (Thread (Make K V) (FOne K V Q) Empty Empty)) (hn : (dealt p).Nodup)
    {h1 : Mem (ND K V)} {qs : List (Prog (ND K V) (List (Option HMap) × List (Option (FRes K V))))}
    (hp : PRun (h, progs (fixedM K V lin b) p rs) (h1, qs)) :
    (∀ q ∈ qs, q ≠ .panic ∧ ∀ o k, q = .op o k → ∃ h' r, o.step h1 = some (h', r)) ∧
    ∃ (h2 : Mem (ND K V)) (xs : List (List (Option HMap) × List (Option (FRes K V)))),
      PRun (h1, qs) (h2, xs.map .pure) :=
  threads_progress (fixedV_total hb) (fixedM_sound hb) hr p hn hp

/-- C46: after any history the count of a node is the number of maps and links referring to it,
and there is a node at an address exactly if something refers to it. -/
theorem C46_fixed_counts (hb : ∀ x y, compare (b x) (b y) = compare x y)
    {h : Mem (ND K V)} {rs : List (Option HMap)} (hr : Reached (fixedM K V lin b) h rs)
    (a : Nat) :
    (∀ cell, h.cells a = some cell →
      cell.rc = Machine.handles HMap.root rs a + links h a ∧ 0 < cell.rc) ∧
    (h.cells a = none ↔ Machine.handles HMap.root rs a + links h a = 0) := by
  obtain ⟨ms, hs⟩ := hr.sim (fixedV_total hb) (fixedM_sound hb)
  exact hs.counts (root := HMap.root) (by rintro _ m L ⟨r, rfl, rfl⟩; exact ⟨_, rfl⟩) a

/-- C46: when all maps are gone, so are all nodes. -/
theorem C46_fixed_no_leak (hb : ∀ x y, compare (b x) (b y) = compare x y)
    {h : Mem (ND K V)} {rs : List (Option HMap)}
    (hr : Reached (fixedM K V lin b) h rs) (hd : ∀ s, some s ∉ rs) (a : Nat) : h.cells a = none := by
  obtain ⟨ms, hs⟩ := hr.sim (fixedV_total hb) (fixedM_sound hb)
  exact hs.no_leak hd a

/-! ## Examples -/

namespace FixedHeapDemo

/-- A map with thirty entries in a tree of two levels, a clone that loses one and gets one, a clone
of that in which a value is changed. -/
def prog : List (FixedCmd Nat Nat Nat) :=
  [.make (.fromIter ((List.range 30).map fun i => (i * 7 % 30, i))), .one 0 .clone,
   .one 1 (.remove 2), .one 1 (.insert 99 90), .one 1 .clone,
   .one 2 (.getMut 4 (· + 1000)), .one 0 (.get 2), .one 1 (.get 2), .one 1 (.get 4), .one 2 (.get 4),
   .one 2 (.remove 77), .one 0 (.iterMut (fun j _ v => v + j) [true, false, true]),
   .one 1 (.iter [true, false, true]), .one 0 (.iter [true]), .one 0 .len, .one 2 .isEmpty]

def shown : List (Option (FRes Nat Nat)) :=
  [some .unit, some .unit, some (.val (some 26)), some (.val none), some .unit,
   some (.bool true), some (.val (some 26)), some (.val none), some (.val (some 22)),
   some (.val (some 1022)), some (.val none),
   some (.items [(some (0, 0), 29), (some (7, 1), 28), (some (1, 13), 27)]),
   some (.items [(some (0, 0), 29), (some (7, 1), 28), (some (1, 13), 27)]),
   some (.items [(some (0, 0), 29)]), some (.nat 30), some (.bool false)]

abbrev M := fixedM Nat Nat (Q := Nat) true id

/-- Memory and maps after running `prog` alone. -/
def end_ (cs : List (FixedCmd Nat Nat Nat)) : Mem (ND Nat Nat) × List (Option HMap) :=
  (((Machine.run M cs []).exec .empty).bind fun x => x.2.map fun y => (x.1, y.1)).getD
    (.empty, [])

example : ((Machine.run M prog []).exec .empty).map
    (fun x => x.2.map (·.2)) = some (some shown) := by decide +kernel

theorem reached (cs : List (FixedCmd Nat Nat Nat)) :
    Reached M (end_ cs).1 (end_ cs).2 := by
  obtain ⟨obs, ⟨h, rs, e⟩, -⟩ := C45_fixed_isolated (lin := true) (b := id) (by simp) cs
  have : end_ cs = (h, rs) := by simp [end_, e]
  rw [this]
  exact Reached.of_exec e

/-- With deep copies there are more nodes. -/
example : ((Machine.run M (prog.take 5) []).exec .empty).map (·.1.next) = some 8 ∧
    ((Machine.run (fixedD Nat Nat (Q := Nat) true id) (prog.take 5) []).exec .empty).map
      (·.1.next) = some 15 := by
  decide +kernel

example := C45_fixed_isolated (lin := true) (b := id) (by simp) prog
example := C45_fixed_isolated (lin := false) (b := id) (by simp) prog
example := C45_fixed_values (lin := true) (b := id) (by simp) prog

/-- A clone is made of a map that shares nodes with others. -/
example : ∃ s, (end_ prog).2[2]? = some (some s) ∧ s.len = 30 := by
  have : ((end_ prog).2[2]?.map fun o => o.map (·.len)) = some (some 30) := by decide +kernel
  match h : (end_ prog).2[2]?, this with
  | some (some s), this => exact ⟨s, rfl, by simpa using this⟩
example {s} (h : (end_ prog).2[2]? = some (some s)) :=
  C45_fixed_clone (by simp) (reached prog) h
example := C45_fixed_others (by simp) (reached prog) (i := 1) (by decide +kernel)
  [.one 0 .clear, .one 2 .drop] (by simp [Cmd.names])

/-- Two threads on clones. -/
def phases : List (List (Thread (Make Nat Nat) (FOne Nat Nat Nat) Empty Empty)) :=
  [[⟨[], prog⟩],
   [⟨[1], [.one 0 (.insert 2 2), .one 0 (.remove 5), .one 0 .drop]⟩,
    ⟨[2, 0], [.one 1 (.intoIter [true, true]), .one 0 (.extend [(7, 7), (200, 7)]),
      .one 0 (.iter [true, true])]⟩]]

example := C45_fixed_threads (lin := true) (b := id) (by simp) phases (by decide)
example := C45_fixed_threads_progress (by simp) (reached prog) (phases[1]) (by decide) .refl

/-- A node shared by the three maps. -/
example : ((end_ prog).1.cells 4).map (fun c => (c.rc, links (end_ prog).1 4)) = some (3, 3) := by
  decide +kernel
example := C46_fixed_counts (by simp) (reached prog) 4

/-- All maps dropped, one by consuming it in part. -/
def fin : List (FixedCmd Nat Nat Nat) :=
  prog ++ [.one 0 .drop, .one 1 (.intoIter [true, false, true]), .one 2 .drop]

example (a : Nat) : (end_ fin).1.cells a = none :=
  C46_fixed_no_leak (by simp) (reached fin) (by
    have : (end_ fin).2.map Option.isSome = [false, false, false] := by decide +kernel
    intro s hs
    have := List.mem_map_of_mem (f := Option.isSome) hs
    simp_all) a

example : 10 < (end_ fin).1.next := by decide +kernel

end FixedHeapDemo
end Verif.Props
