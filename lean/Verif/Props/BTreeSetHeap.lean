import Verif.BTreeHeap.SetSpec
import Verif.Heap.History
/-!
# Properties C45 and C46 for `BTreeSet`

Programs are lists of commands on numbered sets (`BTreeH.SOne`, `AvlH.STwo`, `AvlH.SLook`); `btreeSetM`
runs them on reference-counted memory, node by node as the crate does, sharing nodes between clones.
`btreeSetD` is the same except that `clone` copies every node (`deepClone_shares_nothing`).  Elements
are of any totally ordered type `T`, lookups of any type `Q` that elements can be borrowed as; the
closures and the comparisons given with commands are arbitrary.  The operators `&a | &b` and so on
are three commands: clone, clone, and the operation on the clones, which consumes both.
-/
namespace Verif.Props
open Verif.Heap Verif.Heap.Machine Verif.BTreeH Std
open Verif.AvlH (SMake STwo SLook SRes)

variable {T S Q : Type} [Ord T] [TransOrd T] [Ord Q] [TransOrd Q] {N : Nat} {b : T → Q}

/-- Programs on `BTreeSet`s. -/
abbrev BTreeSetCmd (T S Q : Type) := Cmd (SMake T) (SOne T S Q) STwo (SLook T)

/-- C45: every program on any number of sets and clones ends without undefined behaviour and shows
the same whether clones share nodes or are deep copies. -/
theorem C45_btreeset_isolated (hN : 1 ≤ N)
    (hb : ∀ x y, compare (b x) (b y) = compare x y)
    (cs : List (BTreeSetCmd T S Q)) :
    ∃ obs, Shown (btreeSetM T S Q N b) cs obs ∧ Shown (btreeSetD T S Q N b) cs obs :=
  isolated (btreeSetV_total hN hb) (btreeSetM_sound hN hb) (btreeSetD_sound hN hb) cs

/-- C45: the program shows what it shows if every set is a value of its own. -/
theorem C45_btreeset_values (hN : 1 ≤ N)
    (hb : ∀ x y, compare (b x) (b y) = compare x y)
    (cs : List (BTreeSetCmd T S Q)) :
    ∃ ms obs, Machine.run (btreeSetV T S Q N b) cs [] = some (ms, obs) ∧ Shown (btreeSetM T S Q N b) cs obs :=
  shown_of (btreeSetV_total hN hb) (btreeSetM_sound hN hb) cs

/-- C45: a clone, made after any history (also of threads), shows what its original shows, and
making it changes nothing about the other sets. -/
theorem C45_btreeset_clone (hN : 1 ≤ N)
    (hb : ∀ x y, compare (b x) (b y) = compare x y)
    {h : Mem (ND T Unit)} {rs : List (Option HMap)} (hr : Reached (btreeSetM T S Q N b) h rs)
    {i : Nat} {s : HMap} (hi : rs[i]? = some (some s)) :
    ∃ h' rs', (Machine.run (btreeSetM T S Q N b) [.one i .clone] rs).exec h =
        some (h', some (rs', [some .unit])) ∧
      (∀ j c o, j < rs.length → (Sees (btreeSetM T S Q N b) h' rs' j c o ↔ Sees (btreeSetM T S Q N b) h rs j c o)) ∧
      (∀ c o, Sees (btreeSetM T S Q N b) h' rs' rs.length c o ↔ Sees (btreeSetM T S Q N b) h rs i c o) :=
  cloned (btreeSetV_total hN hb) (btreeSetM_sound hN hb) hr hi (fun _ => rfl)

/-- C45: whatever is done to other sets, after any history, does not change what any command on
set `i` would show. -/
theorem C45_btreeset_others (hN : 1 ≤ N)
    (hb : ∀ x y, compare (b x) (b y) = compare x y)
    {h : Mem (ND T Unit)} {rs : List (Option HMap)} (hr : Reached (btreeSetM T S Q N b) h rs)
    {i : Nat} (hi : i < rs.length) (cs : List (BTreeSetCmd T S Q)) (hc : ∀ c ∈ cs, i ∉ c.names) :
    ∃ h' rs' obs, (Machine.run (btreeSetM T S Q N b) cs rs).exec h = some (h', some (rs', obs)) ∧
      ∀ c o, Sees (btreeSetM T S Q N b) h' rs' i c o ↔ Sees (btreeSetM T S Q N b) h rs i c o :=
  others (btreeSetV_total hN hb) (btreeSetM_sound hN hb) hr hi cs hc

/-- C45: threads working on sets that may share nodes: what the threads of a history show does not
depend on the schedules, and is the same with deep copies. -/
theorem C45_btreeset_threads (hN : 1 ≤ N)
    (hb : ∀ x y, compare (b x) (b y) = compare x y)
    (ph : List (List (Thread (SMake T) (SOne T S Q) STwo (SLook T))))
    (hn : ∀ p ∈ ph, (dealt p).Nodup) :
    ∃ obs, (∃ h rs, Runs (btreeSetM T S Q N b) .empty [] ph h rs obs) ∧
      (∀ h rs obs', Runs (btreeSetM T S Q N b) .empty [] ph h rs obs' → obs' = obs) ∧
      (∀ h rs obs', Runs (btreeSetD T S Q N b) .empty [] ph h rs obs' → obs' = obs) :=
  isolated_threads (btreeSetV_total hN hb) (btreeSetM_sound hN hb) (btreeSetD_sound hN hb) ph hn

/-- C45: at any moment of any schedule no thread has run into a panic or undefined behaviour, and
all can still run to their ends. -/
theorem C45_btreeset_threads_progress (hN : 1 ≤ N)
    (hb : ∀ x y, compare (b x) (b y) = compare x y)
    {h : Mem (ND T Unit)} {rs : List (Option HMap)}
    (hr : Reached (btreeSetM T S Q N b) h rs)
    (p : List (Thread (SMake T) (SOne T S Q) STwo (SLook T))) (hn : (dealt p).Nodup)
    {h1 : Mem (ND T Unit)} {qs : List (Prog (ND T Unit) (List (Option HMap) × List (Option (SRes T S))))}
    (hp : PRun (h, progs (btreeSetM T S Q N b) p rs) (h1, qs)) :
    (∀ q ∈ qs, q ≠ .panic ∧ ∀ o k, q = .op o k → ∃ h' r, o.step h1 = some (h', r)) ∧
    ∃ (h2 : Mem (ND T Unit)) (xs : List (List (Option HMap) × List (Option (SRes T S)))),
      PRun (h1, qs) (h2, xs.map .pure) :=
  threads_progress (btreeSetV_total hN hb) (btreeSetM_sound hN hb) hr p hn hp

/-- C46: after any history the count of a node is the number of sets and links referring to it,
and there is a node at an address exactly if something refers to it. -/
theorem C46_btreeset_counts (hN : 1 ≤ N)
    (hb : ∀ x y, compare (b x) (b y) = compare x y)
    {h : Mem (ND T Unit)} {rs : List (Option HMap)} (hr : Reached (btreeSetM T S Q N b) h rs)
    (a : Nat) :
    (∀ cell, h.cells a = some cell →
      cell.rc = Machine.handles HMap.root rs a + links h a ∧ 0 < cell.rc) ∧
    (h.cells a = none ↔ Machine.handles HMap.root rs a + links h a = 0) := by
  obtain ⟨ms, hs⟩ := hr.sim (btreeSetV_total hN hb) (btreeSetM_sound hN hb)
  exact hs.counts (root := HMap.root) (by rintro _ m L ⟨r, rfl, rfl⟩; exact ⟨_, rfl⟩) a

/-- C46: when all sets are gone, so are all nodes. -/
theorem C46_btreeset_no_leak (hN : 1 ≤ N)
    (hb : ∀ x y, compare (b x) (b y) = compare x y)
    {h : Mem (ND T Unit)} {rs : List (Option HMap)}
    (hr : Reached (btreeSetM T S Q N b) h rs) (hd : ∀ s, some s ∉ rs) (a : Nat) : h.cells a = none := by
  obtain ⟨ms, hs⟩ := hr.sim (btreeSetV_total hN hb) (btreeSetM_sound hN hb)
  exact hs.no_leak hd a

/-! ## Examples -/

namespace BTreeSetHeapDemo

/-- A set of seven elements, a clone that loses one and gets one; then `&a | &b`, `&a & &b`,
`&a - &b` and `&a ^ &b` of the two. -/
def prog : List (BTreeSetCmd Nat Nat Nat) :=
  [.make (.fromIter [1, 2, 3, 4, 5, 6, 7]), .one 0 .clone,
   .one 1 (.take 2), .one 1 (.insert 9),
   .one 0 .clone, .one 1 .clone, .two 2 3 .union,
   .one 0 .clone, .one 1 .clone, .two 5 6 .intersection,
   .one 0 .clone, .one 1 .clone, .two 8 9 .difference,
   .one 0 .clone, .one 1 .clone, .two 11 12 .symDiff,
   .one 0 .serialize, .one 1 .serialize, .one 4 .serialize, .one 7 .serialize, .one 10 .serialize,
   .one 13 .serialize, .look 7 0 .isSubset, .look 0 7 .isSubset, .look 10 1 .isDisjoint,
   .look 0 1 (.setOp 0b101 3), .one 4 (.splitOff 4), .one 4 .serialize, .one 14 .serialize]

def shown : List (Option (SRes Nat Nat)) :=
  [some .unit, some .unit, some (.elem (some 2)), some (.bool true),
   some .unit, some .unit, some .unit, some .unit, some .unit, some .unit,
   some .unit, some .unit, some .unit, some .unit, some .unit, some .unit,
   some (.written 7 [1, 2, 3, 4, 5, 6, 7]), some (.written 7 [1, 3, 4, 5, 6, 7, 9]),
   some (.written 8 [1, 2, 3, 4, 5, 6, 7, 9]), some (.written 6 [1, 3, 4, 5, 6, 7]),
   some (.written 1 [2]), some (.written 2 [2, 9]), some (.bool true), some (.bool false),
   some (.bool true), some (.list [some 2, some 9, none]), some .unit,
   some (.written 3 [1, 2, 3]), some (.written 5 [4, 5, 6, 7, 9])]

abbrev M := btreeSetM Nat Nat Nat 1 id

/-- Memory and sets after running a program alone. -/
def end_ (cs : List (BTreeSetCmd Nat Nat Nat)) : Mem (ND Nat Unit) × List (Option HMap) :=
  (((Machine.run M cs []).exec .empty).bind fun x => x.2.map fun y => (x.1, y.1)).getD
    (.empty, [])

example : ((Machine.run M prog []).exec .empty).map
    (fun x => x.2.map (·.2)) = some (some shown) := by decide +kernel

theorem reached (cs : List (BTreeSetCmd Nat Nat Nat)) :
    Reached M (end_ cs).1 (end_ cs).2 := by
  obtain ⟨obs, ⟨h, rs, e⟩, -⟩ := C45_btreeset_isolated (N := 1) (b := id) (by simp) (by simp) cs
  have : end_ cs = (h, rs) := by simp [end_, e]
  rw [this]
  exact Reached.of_exec e

/-- With deep copies there are more nodes. -/
example : (((Machine.run M prog []).exec .empty).map (·.1.next)).getD 0 <
    (((Machine.run (btreeSetD Nat Nat Nat 1 id) prog []).exec .empty).map (·.1.next)).getD 0 := by
  decide +kernel

example := C45_btreeset_isolated (N := 1) (b := id) (by simp) (by simp) prog
example := C45_btreeset_values (N := 1) (b := id) (by simp) (by simp) prog

/-- A clone is made of a set that shares nodes with others. -/
example : ∃ s, (end_ prog).2[1]? = some (some s) ∧ s.len = 7 := by
  have : ((end_ prog).2[1]?.map fun o => o.map (·.len)) = some (some 7) := by decide +kernel
  match h : (end_ prog).2[1]?, this with
  | some (some s), this => exact ⟨s, rfl, by simpa using this⟩
example {s} (h : (end_ prog).2[1]? = some (some s)) :=
  C45_btreeset_clone (by simp) (by simp) (reached prog) h
example := C45_btreeset_others (by simp) (by simp) (reached prog) (i := 1) (by decide +kernel)
  [.one 0 .clear, .two 4 7 .difference, .one 15 .drop] (by simp [Cmd.names])

/-- Two threads on sets that share nodes. -/
def phases : List (List (Thread (SMake Nat) (SOne Nat Nat Nat) STwo (SLook Nat))) :=
  [[⟨[], prog⟩],
   [⟨[1], [.one 0 (.insert 2), .one 0 (.popLast), .one 0 .drop]⟩,
    ⟨[7, 0], [.two 0 1 .union, .one 2 (.retain (fun s x => some (s + x, x % 2 == 0)) 0),
      .one 2 .serialize]⟩]]

example := C45_btreeset_threads (N := 1) (b := id) (by simp) (by simp) phases (by decide)
example := C45_btreeset_threads_progress (by simp) (by simp) (reached prog) (phases[1]) (by decide) .refl

/-- There is a node that more than one set or link refers to. -/
example : ∃ a, ((end_ (prog.take 6)).1.cells a).any (fun c => 1 < c.rc) = true :=
  ⟨4, by decide +kernel⟩
example := C46_btreeset_counts (by simp) (by simp) (reached (prog.take 6)) 4

/-- All sets dropped or consumed, one after its closure panicked. -/
def fin : List (BTreeSetCmd Nat Nat Nat) :=
  prog ++ [.one 0 (.retain (fun s _ => if s = 2 then none else some (s + 1, true)) 0),
    .one 0 .drop, .one 1 (.intoIter [true, false, true, true]), .two 4 7 .symDiff, .two 10 13 .intersection,
    .one 14 .drop, .one 15 .drop, .one 16 .drop]

example (a : Nat) : (end_ fin).1.cells a = none :=
  C46_btreeset_no_leak (by simp) (by simp) (reached fin) (by
    have : (end_ fin).2.map Option.isSome = List.replicate 17 false := by decide +kernel
    intro s hs
    have := List.mem_map_of_mem (f := Option.isSome) hs
    simp_all) a

example : 13 < (end_ fin).1.next := by decide +kernel

end BTreeSetHeapDemo
end Verif.Props
