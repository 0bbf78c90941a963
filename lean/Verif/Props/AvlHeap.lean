import Verif.AvlHeap.MapSpec
import Verif.Heap.History
/-!
# Properties C45 and C46 for `AvlMap`

Programs are lists of commands on numbered maps (`AvlH.One`, `Two`, `Look`); `avlM` runs them on
reference-counted memory, node by node as avl.rs does, sharing nodes between clones.  `avlD` is
the same except that `clone` copies every node (`deepClone_shares_nothing`).  Keys are of any type
with any comparison whatever; so are the comparisons and closures given with commands.
-/
namespace Verif.Props
open Verif.Heap Verif.Heap.Machine Verif.AvlH

variable {K V S : Type} [Ord K]

/-- Programs on `AvlMap`s. -/
abbrev AvlCmd (K V S : Type) := Cmd (Make K V) (One K V S) (Two K V) (Look K V)

/-- C45: every program on any number of maps and clones ends without undefined behaviour and shows
the same whether clones share nodes or are deep copies. -/
theorem C45_avl_isolated (cs : List (AvlCmd K V S)) :
    ∃ obs, Shown (avlM K V S) cs obs ∧ Shown (avlD K V S) cs obs :=
  isolated avlV_total avlM_sound avlD_sound cs

/-- C45: the program shows what it shows if every map is a value of its own. -/
theorem C45_avl_values (cs : List (AvlCmd K V S)) :
    ∃ ms obs, Machine.run (avlV K V S) cs [] = some (ms, obs) ∧ Shown (avlM K V S) cs obs :=
  shown_of avlV_total avlM_sound cs

/-- C45: a clone, made after any history (also of threads), shows what its original shows, and
making it changes nothing about the other maps. -/
theorem C45_avl_clone {h : Mem (ND K V)} {rs : List (Option HMap)} (hr : Reached (avlM K V S) h rs)
    {i : Nat} {s : HMap} (hi : rs[i]? = some (some s)) :
    ∃ h' rs', (Machine.run (avlM K V S) [.one i .clone] rs).exec h = some (h', some (rs', [some .unit])) ∧
      (∀ j c o, j < rs.length → (Sees (avlM K V S) h' rs' j c o ↔ Sees (avlM K V S) h rs j c o)) ∧
      (∀ c o, Sees (avlM K V S) h' rs' rs.length c o ↔ Sees (avlM K V S) h rs i c o) :=
  cloned avlV_total avlM_sound hr hi (fun _ => rfl)

/-- C45: whatever is done to other maps, after any history, does not change what any command on
map `i` would show. -/
theorem C45_avl_others {h : Mem (ND K V)} {rs : List (Option HMap)} (hr : Reached (avlM K V S) h rs)
    {i : Nat} (hi : i < rs.length) (cs : List (AvlCmd K V S)) (hc : ∀ c ∈ cs, i ∉ c.names) :
    ∃ h' rs' obs, (Machine.run (avlM K V S) cs rs).exec h = some (h', some (rs', obs)) ∧
      ∀ c o, Sees (avlM K V S) h' rs' i c o ↔ Sees (avlM K V S) h rs i c o :=
  others avlV_total avlM_sound hr hi cs hc

/-- C45: threads working on maps that may share nodes: what the threads of a history show does not
depend on the schedules, and is the same with deep copies. -/
theorem C45_avl_threads (ph : List (List (Thread (Make K V) (One K V S) (Two K V) (Look K V))))
    (hn : ∀ p ∈ ph, (dealt p).Nodup) :
    ∃ obs, (∃ h rs, Runs (avlM K V S) .empty [] ph h rs obs) ∧
      (∀ h rs obs', Runs (avlM K V S) .empty [] ph h rs obs' → obs' = obs) ∧
      (∀ h rs obs', Runs (avlD K V S) .empty [] ph h rs obs' → obs' = obs) :=
  isolated_threads avlV_total avlM_sound avlD_sound ph hn

/-- C45: at any moment of any schedule no thread has run into a panic or undefined behaviour, and
all can still run to their ends. -/
theorem C45_avl_threads_progress {h : Mem (ND K V)} {rs : List (Option HMap)}
    (hr : Reached (avlM K V S) h rs)
    (p : List (Thread (Make K V) (One K V S) (Two K V) (Look K V))) (hn : (dealt p).Nodup)
    {h1 : Mem (ND K V)} {qs : List (Prog (ND K V) (List (Option HMap) × List (Option (Res K V S))))}
    (hp : PRun (h, progs (avlM K V S) p rs) (h1, qs)) :
    (∀ q ∈ qs, q ≠ .panic ∧ ∀ o k, q = .op o k → ∃ h' r, o.step h1 = some (h', r)) ∧
    ∃ (h2 : Mem (ND K V)) (xs : List (List (Option HMap) × List (Option (Res K V S)))),
      PRun (h1, qs) (h2, xs.map .pure) :=
  threads_progress avlV_total avlM_sound hr p hn hp

/-- C46: after any history the count of a node is the number of maps and links referring to it,
and there is a node at an address exactly if something refers to it. -/
theorem C46_avl_counts {h : Mem (ND K V)} {rs : List (Option HMap)} (hr : Reached (avlM K V S) h rs)
    (a : Nat) :
    (∀ cell, h.cells a = some cell →
      cell.rc = Machine.handles HMap.root rs a + links h a ∧ 0 < cell.rc) ∧
    (h.cells a = none ↔ Machine.handles HMap.root rs a + links h a = 0) := by
  obtain ⟨ms, hs⟩ := hr.sim avlV_total avlM_sound
  exact hs.counts (root := HMap.root) (by rintro _ m L ⟨r, rfl, rfl⟩; exact ⟨_, rfl⟩) a

/-- C46: when all maps are gone, so are all nodes. -/
theorem C46_avl_no_leak {h : Mem (ND K V)} {rs : List (Option HMap)}
    (hr : Reached (avlM K V S) h rs) (hd : ∀ s, some s ∉ rs) (a : Nat) : h.cells a = none := by
  obtain ⟨ms, hs⟩ := hr.sim avlV_total avlM_sound
  exact hs.no_leak hd a

/-! ## Examples -/

namespace AvlHeapDemo

/-- A map with five entries, a clone that loses one and gets one, a clone of that; then the
original is split. -/
def prog : List (AvlCmd Nat Nat Nat) :=
  [.make (.fromIter [(1, 10), (2, 20), (3, 30), (4, 40), (5, 50)]), .one 0 .clone,
   .one 1 (.remove (compare 2)), .one 1 (.insert 7 70), .one 1 .clone,
   .one 2 (.getMut (compare 4) (· + 1)), .one 0 (.splitOff (compare 3)), .one 0 .serialize,
   .one 1 .serialize, .one 2 .serialize, .one 3 .serialize]

def shown : List (Option (Res Nat Nat Nat)) :=
  [some .unit, some .unit, some (.val (some 20)), some (.val none), some .unit,
   some (.bool true), some .unit, some (.written 2 [(1, 10), (2, 20)]),
   some (.written 5 [(1, 10), (3, 30), (4, 40), (5, 50), (7, 70)]),
   some (.written 5 [(1, 10), (3, 30), (4, 41), (5, 50), (7, 70)]),
   some (.written 3 [(3, 30), (4, 40), (5, 50)])]

/-- Memory and maps after running `prog` alone. -/
def end_ (cs : List (AvlCmd Nat Nat Nat)) : Mem (ND Nat Nat) × List (Option HMap) :=
  (((Machine.run (avlM Nat Nat Nat) cs []).exec .empty).bind fun x => x.2.map fun y => (x.1, y.1)).getD
    (.empty, [])

example : ((Machine.run (avlM Nat Nat Nat) prog []).exec .empty).map
    (fun x => x.2.map (·.2)) = some (some shown) := by decide +kernel

theorem reached (cs : List (AvlCmd Nat Nat Nat)) :
    Reached (avlM Nat Nat Nat) (end_ cs).1 (end_ cs).2 := by
  obtain ⟨obs, ⟨h, rs, e⟩, -⟩ := C45_avl_isolated cs
  have : end_ cs = (h, rs) := by simp [end_, e]
  rw [this]
  exact Reached.of_exec e

/-- With deep copies there are more nodes. -/
example : ((Machine.run (avlM Nat Nat Nat) (prog.take 5) []).exec .empty).map (·.1.next) = some 10 ∧
    ((Machine.run (avlD Nat Nat Nat) (prog.take 5) []).exec .empty).map (·.1.next) = some 16 := by
  decide +kernel

example := C45_avl_isolated prog
example := C45_avl_values prog

/-- A clone is made of a map that shares nodes with others. -/
example : ∃ s, (end_ prog).2[2]? = some (some s) ∧ s.len = 5 := by
  have : ((end_ prog).2[2]?.map fun o => o.map (·.len)) = some (some 5) := by decide +kernel
  match h : (end_ prog).2[2]?, this with
  | some (some s), this => exact ⟨s, rfl, by simpa using this⟩
example {s} (h : (end_ prog).2[2]? = some (some s)) := C45_avl_clone (reached prog) h
example := C45_avl_others (reached prog) (i := 1) (by decide +kernel) [.one 0 .clear, .one 2 .drop]
  (by simp [Cmd.names])

/-- Two threads on two clones. -/
def phases : List (List (Thread (Make Nat Nat) (One Nat Nat Nat) (Two Nat Nat) (Look Nat Nat))) :=
  [[⟨[], prog⟩],
   [⟨[1], [.one 0 (.insert 2 2), .one 0 (.popLast), .one 0 .drop]⟩,
    ⟨[2, 0], [.two 0 1 .append, .one 0 (.retain (fun s _ v => some (s + 1, v, s % 2 == 0)) 0),
      .one 0 .serialize]⟩]]

example := C45_avl_threads phases (by decide)
example := C45_avl_threads_progress (reached prog) (phases[1]) (by decide) .refl

/-- A node shared by three of the maps. -/
example : ((end_ prog).1.cells 0).map (fun c => (c.rc, links (end_ prog).1 0)) = some (3, 3) := by
  decide +kernel
example := C46_avl_counts (reached prog) 0

/-- All maps dropped, one by consuming it. -/
def fin : List (AvlCmd Nat Nat Nat) :=
  prog ++ [.one 0 .drop, .one 2 .drop, .one 1 (.intoIter [true, false, true]), .one 3 .drop]

example (a : Nat) : (end_ fin).1.cells a = none :=
  C46_avl_no_leak (reached fin) (by
    have : (end_ fin).2.map Option.isSome = [false, false, false, false] := by decide +kernel
    intro s hs
    have := List.mem_map_of_mem (f := Option.isSome) hs
    simp_all) a

example : 9 < (end_ fin).1.next := by decide +kernel

end AvlHeapDemo
end Verif.Props
