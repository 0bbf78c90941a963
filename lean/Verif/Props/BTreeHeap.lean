import Verif.BTreeHeap.MapSpec
import Verif.Heap.History
/-!
# Properties C45 and C46 for `BTreeMap`

Programs are lists of commands on numbered maps (`BTreeH.One`, `Two`, `Look`); `btreeM` runs them
on reference-counted memory, node by node as btree.rs does, sharing nodes between clones.  `btreeD`
is the same except that `clone` copies every node (`deepClone_shares_nothing`).  Keys are of any
totally ordered type `K`, lookups and bounds of any type `Q` that keys can be borrowed as; the
closures and the comparisons of entries given with commands are arbitrary.
-/
namespace Verif.Props
open Verif.Heap Verif.Heap.Machine Verif.BTreeH Std

variable {K V S Q : Type} [Ord K] [TransOrd K] [Ord Q] [TransOrd Q] {N : Nat} {b : K → Q}

/-- Programs on `BTreeMap`s. -/
abbrev BTreeCmd (K V Q S : Type) := Cmd (Make K V) (One K V Q S) Two (Look K V)

/-- C45: every program on any number of maps and clones ends without undefined behaviour and shows
the same whether clones share nodes or are deep copies. -/
theorem C45_btree_isolated (hN : 1 ≤ N)
    (hb : ∀ x y, compare (b x) (b y) = compare x y)
    (cs : List (BTreeCmd K V Q S)) :
    ∃ obs, Shown (btreeM K V S N b) cs obs ∧ Shown (btreeD K V S N b) cs obs :=
  isolated (btreeV_total hN hb) (btreeM_sound hN hb) (btreeD_sound hN hb) cs

/-- C45: the program shows what it shows if every map is a value of its own. -/
theorem C45_btree_values (hN : 1 ≤ N)
    (hb : ∀ x y, compare (b x) (b y) = compare x y)
    (cs : List (BTreeCmd K V Q S)) :
    ∃ ms obs, Machine.run (btreeV K V S N b) cs [] = some (ms, obs) ∧ Shown (btreeM K V S N b) cs obs :=
  shown_of (btreeV_total hN hb) (btreeM_sound hN hb) cs

/-- C45: a clone, made after any history (also of threads), shows what its original shows, and
making it changes nothing about the other maps. -/
theorem C45_btree_clone (hN : 1 ≤ N)
    (hb : ∀ x y, compare (b x) (b y) = compare x y)
    {h : Mem (ND K V)} {rs : List (Option HMap)} (hr : Reached (btreeM K V S N b) h rs)
    {i : Nat} {s : HMap} (hi : rs[i]? = some (some s)) :
    ∃ h' rs', (Machine.run (btreeM K V S N b) [.one i .clone] rs).exec h = some (h', some (rs', [some .unit])) ∧
      (∀ j c o, j < rs.length → (Sees (btreeM K V S N b) h' rs' j c o ↔ Sees (btreeM K V S N b) h rs j c o)) ∧
      (∀ c o, Sees (btreeM K V S N b) h' rs' rs.length c o ↔ Sees (btreeM K V S N b) h rs i c o) :=
  cloned (btreeV_total hN hb) (btreeM_sound hN hb) hr hi (fun _ => rfl)

/-- C45: whatever is done to other maps, after any history, does not change what any command on
map `i` would show. -/
theorem C45_btree_others (hN : 1 ≤ N)
    (hb : ∀ x y, compare (b x) (b y) = compare x y)
    {h : Mem (ND K V)} {rs : List (Option HMap)} (hr : Reached (btreeM K V S N b) h rs)
    {i : Nat} (hi : i < rs.length) (cs : List (BTreeCmd K V Q S)) (hc : ∀ c ∈ cs, i ∉ c.names) :
    ∃ h' rs' obs, (Machine.run (btreeM K V S N b) cs rs).exec h = some (h', some (rs', obs)) ∧
      ∀ c o, Sees (btreeM K V S N b) h' rs' i c o ↔ Sees (btreeM K V S N b) h rs i c o :=
  others (btreeV_total hN hb) (btreeM_sound hN hb) hr hi cs hc

/-- C45: threads working on maps that may share nodes: what the threads of a history show does not
depend on the schedules, and is the same with deep copies. -/
theorem C45_btree_threads (hN : 1 ≤ N)
    (hb : ∀ x y, compare (b x) (b y) = compare x y)
    (ph : List (List (Thread (Make K V) (One K V Q S) Two (Look K V))))
    (hn : ∀ p ∈ ph, (dealt p).Nodup) :
    ∃ obs, (∃ h rs, Runs (btreeM K V S N b) .empty [] ph h rs obs) ∧
      (∀ h rs obs', Runs (btreeM K V S N b) .empty [] ph h rs obs' → obs' = obs) ∧
      (∀ h rs obs', Runs (btreeD K V S N b) .empty [] ph h rs obs' → obs' = obs) :=
  isolated_threads (btreeV_total hN hb) (btreeM_sound hN hb) (btreeD_sound hN hb) ph hn

/-- C45: at any moment of any schedule no thread has run into a panic or undefined behaviour, and
all can still run to their ends. -/
theorem C45_btree_threads_progress (hN : 1 ≤ N)
    (hb : ∀ x y, compare (b x) (b y) = compare x y)
    {h : Mem (ND K V)} {rs : List (Option HMap)}
    (hr : Reached (btreeM K V S N b) h rs)
    (p : List (Thread (Make K V) (One K V Q S) Two (Look K V))) (hn : (dealt p).Nodup)
    {h1 : Mem (ND K V)} {qs : List (Prog (ND K V) (List (Option HMap) × List (Option (Res K V S))))}
    (hp : PRun (h, progs (btreeM K V S N b) p rs) (h1, qs)) :
    (∀ q ∈ qs, q ≠ .panic ∧ ∀ o k, q = .op o k → ∃ h' r, o.step h1 = some (h', r)) ∧
    ∃ (h2 : Mem (ND K V)) (xs : List (List (Option HMap) × List (Option (Res K V S)))),
      PRun (h1, qs) (h2, xs.map .pure) :=
  threads_progress (btreeV_total hN hb) (btreeM_sound hN hb) hr p hn hp

/-- C46: after any history the count of a node is the number of maps and links referring to it,
and there is a node at an address exactly if something refers to it. -/
theorem C46_btree_counts (hN : 1 ≤ N)
    (hb : ∀ x y, compare (b x) (b y) = compare x y)
    {h : Mem (ND K V)} {rs : List (Option HMap)} (hr : Reached (btreeM K V S N b) h rs)
    (a : Nat) :
    (∀ cell, h.cells a = some cell →
      cell.rc = Machine.handles HMap.root rs a + links h a ∧ 0 < cell.rc) ∧
    (h.cells a = none ↔ Machine.handles HMap.root rs a + links h a = 0) := by
  obtain ⟨ms, hs⟩ := hr.sim (btreeV_total hN hb) (btreeM_sound hN hb)
  exact hs.counts (root := HMap.root) (by rintro _ m L ⟨r, rfl, rfl⟩; exact ⟨_, rfl⟩) a

/-- C46: when all maps are gone, so are all nodes. -/
theorem C46_btree_no_leak (hN : 1 ≤ N)
    (hb : ∀ x y, compare (b x) (b y) = compare x y)
    {h : Mem (ND K V)} {rs : List (Option HMap)}
    (hr : Reached (btreeM K V S N b) h rs) (hd : ∀ s, some s ∉ rs) (a : Nat) : h.cells a = none := by
  obtain ⟨ms, hs⟩ := hr.sim (btreeV_total hN hb) (btreeM_sound hN hb)
  exact hs.no_leak hd a

/-! ## Examples -/

namespace BTreeHeapDemo

/-- A map with seven entries, a clone that loses one and gets one, a clone of that; then the
original is split. -/
def prog : List (BTreeCmd Nat Nat Nat Nat) :=
  [.make (.fromIter [(1, 10), (2, 20), (3, 30), (4, 40), (5, 50), (6, 60), (7, 70)]), .one 0 .clone,
   .one 1 (.remove 2), .one 1 (.insert 9 90), .one 1 .clone,
   .one 2 (.getMut 4 (· + 1)), .one 0 (.splitOff 3), .one 0 .serialize,
   .one 1 .serialize, .one 2 .serialize, .one 3 .serialize,
   .one 2 (.range (.included 3) (.excluded 6) [true, false, true, true]),
   .one 2 (.range (.excluded 3) (.excluded 3) [true])]

def shown : List (Option (Res Nat Nat Nat)) :=
  [some .unit, some .unit, some (.val (some 20)), some (.val none), some .unit,
   some (.bool true), some .unit, some (.written 2 [(1, 10), (2, 20)]),
   some (.written 7 [(1, 10), (3, 30), (4, 40), (5, 50), (6, 60), (7, 70), (9, 90)]),
   some (.written 7 [(1, 10), (3, 30), (4, 41), (5, 50), (6, 60), (7, 70), (9, 90)]),
   some (.written 5 [(3, 30), (4, 40), (5, 50), (6, 60), (7, 70)]),
   some (.items [(some (3, 30), 6), (some (5, 50), 5), (some (4, 41), 4), (none, 4)]),
   some .panicked]

/-- Nodes with one to two entries. -/
abbrev M := btreeM Nat Nat Nat (Q := Nat) 1 id

/-- Memory and maps after running `prog` alone. -/
def end_ (cs : List (BTreeCmd Nat Nat Nat Nat)) : Mem (ND Nat Nat) × List (Option HMap) :=
  (((Machine.run M cs []).exec .empty).bind fun x => x.2.map fun y => (x.1, y.1)).getD
    (.empty, [])

example : ((Machine.run M prog []).exec .empty).map
    (fun x => x.2.map (·.2)) = some (some shown) := by decide +kernel

theorem reached (cs : List (BTreeCmd Nat Nat Nat Nat)) :
    Reached M (end_ cs).1 (end_ cs).2 := by
  obtain ⟨obs, ⟨h, rs, e⟩, -⟩ := C45_btree_isolated (N := 1) (b := id) (by simp) (by simp) cs
  have : end_ cs = (h, rs) := by simp [end_, e]
  rw [this]
  exact Reached.of_exec e

/-- With deep copies there are more nodes. -/
example : ((Machine.run M (prog.take 5) []).exec .empty).map (·.1.next) = some 9 ∧
    ((Machine.run (btreeD Nat Nat Nat (Q := Nat) 1 id) (prog.take 5) []).exec .empty).map
      (·.1.next) = some 13 := by
  decide +kernel

example := C45_btree_isolated (N := 1) (b := id) (by simp) (by simp) prog
example := C45_btree_values (N := 1) (b := id) (by simp) (by simp) prog

/-- A clone is made of a map that shares nodes with others. -/
example : ∃ s, (end_ prog).2[2]? = some (some s) ∧ s.len = 7 := by
  have : ((end_ prog).2[2]?.map fun o => o.map (·.len)) = some (some 7) := by decide +kernel
  match h : (end_ prog).2[2]?, this with
  | some (some s), this => exact ⟨s, rfl, by simpa using this⟩
example {s} (h : (end_ prog).2[2]? = some (some s)) :=
  C45_btree_clone (by simp) (by simp) (reached prog) h
example := C45_btree_others (by simp) (by simp) (reached prog) (i := 1) (by decide +kernel)
  [.one 0 .clear, .one 2 .drop] (by simp [Cmd.names])

/-- Two threads on clones. -/
def phases : List (List (Thread (Make Nat Nat) (One Nat Nat Nat Nat) Two (Look Nat Nat))) :=
  [[⟨[], prog⟩],
   [⟨[1], [.one 0 (.insert 2 2), .one 0 (.popLast), .one 0 .drop]⟩,
    ⟨[2, 0], [.two 0 1 .append, .one 0 (.retain (fun s _ v => some (s + 1, v, s % 2 == 0)) 0),
      .one 0 .serialize]⟩]]

example := C45_btree_threads (N := 1) (b := id) (by simp) (by simp) phases (by decide)
example := C45_btree_threads_progress (by simp) (by simp) (reached prog) (phases[1]) (by decide) .refl

/-- A node shared by two of the maps. -/
example : ((end_ prog).1.cells 6).map (fun c => (c.rc, links (end_ prog).1 6)) = some (2, 2) := by
  decide +kernel
example := C46_btree_counts (by simp) (by simp) (reached prog) 6

/-- All maps dropped, two by consuming them, one after its closure panicked. -/
def fin : List (BTreeCmd Nat Nat Nat Nat) :=
  prog ++ [.one 0 .drop, .one 2 (.retain (fun s _ v => if s = 2 then none else some (s + 1, v, true)) 0),
    .one 2 .drop, .one 1 (.intoIter [true, false, true]), .one 3 .intoVec]

example (a : Nat) : (end_ fin).1.cells a = none :=
  C46_btree_no_leak (by simp) (by simp) (reached fin) (by
    have : (end_ fin).2.map Option.isSome = [false, false, false, false] := by decide +kernel
    intro s hs
    have := List.mem_map_of_mem (f := Option.isSome) hs
    simp_all) a

example : 13 < (end_ fin).1.next := by decide +kernel

end BTreeHeapDemo
end Verif.Props
