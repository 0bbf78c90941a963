import Verif.Stack.Panic
import Verif.Props.Stack
/-!
# Property C66: stacks that share nodes, when `Clone` panics

On the reference-counted memory of `Verif.Heap`.  `ReachedC c st`: some history from nothing leads to
`st`, each of its operations with a `Clone` of its own that panics after so many calls.  `Shows` is what
can be seen of a stack (`Verif.Props.Stack`).
-/
namespace Verif.Props
open Verif.Heap Verif.Stack

variable {T : Type}

/-- Some history with panics of `Clone` leads from nothing to this state. -/
def ReachedC (c : Cmps T) (st : State T) : Prop := ∃ ops obs, crun c ops .init = some (st, obs)

theorem crun_sim (c : Cmps T) : ∀ (os : List (Nat × SOp T)) {st : State T} {ls},
    Sim st ls → ∃ st' obs ls', crun c os st = some (st', obs) ∧ Sim st' ls'
  | [], st, ls, hs => ⟨st, _, ls, rfl, hs⟩
  | (k, o) :: os, st, ls, hs => by
    obtain ⟨st1, b, ls1, e1, h1, -⟩ := cstep_sim c k o hs
    obtain ⟨st2, obs, ls2, e2, h2⟩ := crun_sim c os h1
    exact ⟨st2, b :: obs, ls2, by simp only [crun, e1, e2]; rfl, h2⟩

theorem ReachedC.sim {c : Cmps T} {st : State T} (h : ReachedC c st) : ∃ ls, Sim st ls := by
  obtain ⟨ops, obs, e⟩ := h
  obtain ⟨st', obs', ls, e', hs⟩ := crun_sim c ops Sim.init
  rw [e] at e'
  simp only [Option.some.injEq, Prod.mk.injEq] at e'
  rw [← e'.1] at hs
  exact ⟨_, hs⟩

theorem crun_snoc (c : Cmps T) (k : Nat) (o : SOp T) :
    ∀ (os : List (Nat × SOp T)) {st st' st'' : State T} {obs : List (Option (Obs T))} {b},
    crun c os st = some (st', obs) → cstep c k o st' = some (st'', b) →
    crun c (os ++ [(k, o)]) st = some (st'', obs ++ [b])
  | [], st, st', st'', obs, b, h, h2 => by
    simp only [crun, Option.some.injEq, Prod.mk.injEq] at h
    obtain ⟨rfl, rfl⟩ := h
    simp [crun, h2]
  | (k', o') :: os, st, st', st'', obs, b, h, h2 => by
    simp only [crun, List.cons_append] at h ⊢
    cases h1 : cstep c k' o' st with
    | none => simp [h1] at h
    | some x =>
      simp only [h1] at h ⊢
      cases h3 : crun c os x.1 with
      | none => simp [h3] at h
      | some y =>
        simp only [h3, Option.map_some, Option.some.injEq, Prod.mk.injEq] at h
        obtain ⟨rfl, rfl⟩ := h
        rw [crun_snoc c k o os (st' := y.1) (obs := y.2) h3 h2]
        simp

theorem ReachedC.step {c : Cmps T} {st st' : State T} {k : Nat} {o : SOp T} {b} (h : ReachedC c st)
    (e : cstep c k o st = some (st', b)) : ReachedC c st' := by
  obtain ⟨ops, obs, e'⟩ := h
  exact ⟨_, _, crun_snoc c k o ops e' e⟩

theorem sim_length {st : State T} {ls} (h : Sim st ls) : st.regs.length = ls.length := by
  obtain ⟨M, hR, -⟩ := h
  generalize st.regs = ss at hR
  induction hR with
  | nil => rfl
  | cons _ _ ih => simp [ih]

/-- C66.  Any history over any number of stacks, in which any operation may be interrupted at any call
of `Clone`, runs without undefined behaviour. -/
theorem C66_stack_runs (c : Cmps T) (ops : List (Nat × SOp T)) :
    ∃ st obs, crun c ops .init = some (st, obs) := by
  obtain ⟨st, obs, -, e, -⟩ := crun_sim c ops Sim.init
  exact ⟨st, obs, e⟩

/-- C66.  An operation on stack `i` returns and does what it should, or `Clone` panics and leaves the
stack as `Cut` says.  In either case the other stacks, which may share nodes with it, show what they
showed. -/
theorem C66_stack_step {c : Cmps T} {st : State T} (hr : ReachedC c st) {i : Nat} {l : List T}
    (hs : Shows c st i l) (k : Nat) (o : SOp T) (ho : o.uses = .one i) :
    ∃ st' b, cstep c k o st = some (st', b) ∧ ReachedC c st' ∧
      (∀ j r, j ≠ i → Shows c st j r → Shows c st' j r) ∧
      ((b = some (spec1 c l o).2.2 ∧ (∀ l', (spec1 c l o).1 = some l' → Shows c st' i l') ∧
        ∀ n r, (spec1 c l o).2.1[n]? = some r → Shows c st' (st.regs.length + n) r) ∨
       (b = none ∧ ∃ l', Cut l k l' o ∧ Shows c st' i l' ∧ st'.regs.length = st.regs.length)) := by
  obtain ⟨ls, hsim⟩ := hr.sim
  have hl := hsim.of_shows hs
  have hi : i < ls.length := (List.getElem?_eq_some_iff.1 hl).1
  have hlen := sim_length hsim
  obtain ⟨st', b, ls', e, hsim', hb⟩ := cstep_sim c k o hsim
  simp only [sstep, ho, hl] at hb
  refine ⟨st', b, e, hr.step e, ?_, ?_⟩
  · intro j r hj hjr
    have hl2 := hsim.of_shows hjr
    have hj2 : j < ls.length := (List.getElem?_eq_some_iff.1 hl2).1
    refine hsim'.shows c ?_
    rcases hb with ⟨-, rfl⟩ | ⟨-, i', l1, l', hi', -, -, rfl⟩
    · rw [List.getElem?_append_left (by simpa using hj2), List.getElem?_set_ne (fun h => hj h.symm), hl2]
    · cases hi'
      rw [List.getElem?_set_ne (fun h => hj h.symm), hl2]
  · rcases hb with ⟨rfl, rfl⟩ | ⟨rfl, i', l1, l', hi', hl1, hc, rfl⟩
    · refine .inl ⟨rfl, ?_, ?_⟩
      · intro l' h'
        refine hsim'.shows c ?_
        rw [List.getElem?_append_left (by simpa using hi), List.getElem?_set_self hi, h']
      · intro n r hn
        refine hsim'.shows c ?_
        rw [hlen, List.getElem?_append_right (by simp)]
        simp [hn]
    · cases hi'
      rw [hl] at hl1
      cases hl1
      refine .inr ⟨rfl, l', hc, hsim'.shows c (List.getElem?_set_self hi), ?_⟩
      rw [sim_length hsim', hlen]
      simp

/-- C66.  With as many calls of `Clone` as the stack has elements, no operation is interrupted. -/
theorem C66_stack_enough {c : Cmps T} {st : State T} (hr : ReachedC c st) {i : Nat} {l : List T}
    (hs : Shows c st i l) {k : Nat} (hk : l.length ≤ k) (o : SOp T) (ho : o.uses = .one i) :
    ∃ st', cstep c k o st = some (st', some (spec1 c l o).2.2) := by
  obtain ⟨st', b, e, -, -, ⟨rfl, -⟩ | ⟨rfl, l', hc, -⟩⟩ := C66_stack_step hr hs k o ho
  · exact ⟨st', e⟩
  · exfalso
    cases o <;> simp only [Cut] at hc
    · have := List.length_pos_iff.2 hc.2.1; omega
    · have := List.length_pos_iff.2 hc.2.1; omega
    · obtain ⟨j, h1, h2, h3, -⟩ := hc; omega
    · obtain ⟨j, h1, h2, h3, -⟩ := hc; omega
    · omega
    · omega

/-- C66.  After any such history the count of each node is the number of stacks and nodes linking to it,
and it is freed exactly when there are none. -/
theorem C66_stack_counts {c : Cmps T} {st : State T} (hr : ReachedC c st) (a : Nat) :
    (∀ cell, st.mem.cells a = some cell →
      cell.rc = handles st.regs a + links st.mem a ∧ 0 < cell.rc) ∧
    (st.mem.cells a = none ↔ handles st.regs a + links st.mem a = 0) := by
  obtain ⟨ls, M, hR, hO⟩ := hr.sim
  have hc := hO.cnt a
  rw [hR.ext a] at hc
  cases h : st.mem.cells a with
  | none =>
    rw [h] at hc
    exact ⟨by simp, by simpa using hc⟩
  | some cell =>
    rw [h] at hc
    dsimp only at hc
    exact ⟨by rintro _ ⟨⟩; exact hc, by constructor <;> intro h <;> [cases h; omega]⟩

/-- C66.  When all stacks have been dropped after such a history, no node is left. -/
theorem C66_stack_no_leak {c : Cmps T} {st : State T} (hr : ReachedC c st)
    (hd : ∀ s, some s ∉ st.regs) (a : Nat) : st.mem.cells a = none := by
  obtain ⟨ls, M, hR, hO⟩ := hr.sim
  have : M = 0 := by
    clear hO hr
    generalize st.regs = ss at hR hd
    induction hR with
    | nil => rfl
    | cons h1 _ ih =>
      cases h1 with
      | none => rw [ih (fun s hs => hd s (List.mem_cons_of_mem _ hs)), zero_add]
      | some h1 => exact absurd (List.mem_cons_self ..) (hd _)
  rw [this] at hO
  exact hO.no_leak a

/-! ## Examples -/

/-- Stack 1 shares `[3, 2, 1]` with stack 0.  Its `remove(0)` is interrupted at the second clone, having
made a copy of 4 and 3 its own; its `iter_mut` then at the second clone again, having written 14, 13 and
12; `pop` of stack 0 is interrupted and the element is lost. -/
def panicOps : List (Nat × SOp Nat) :=
  [(0, .fromIter [1, 2, 3]), (0, .clone 0), (0, .push 1 4), (1, .remove 1 0),
   (1, .iterMut 1 9 (fun _ => (· + 10))), (0, .clone 0), (0, .pop 0), (5, .splitOff 2 1)]

/-- What they leave. -/
def panicSt : State Nat := ((crun natCmps panicOps .init).map (·.1)).getD .init

theorem panic_reached : ReachedC natCmps panicSt := by
  obtain ⟨st, obs, e⟩ := C66_stack_runs natCmps panicOps
  exact ⟨panicOps, obs, by rw [panicSt, e]; rfl⟩

/-- Which of the operations were interrupted. -/
example : (crun natCmps panicOps .init).map (fun x => x.2.map (·.isNone)) =
    some [false, false, false, true, true, false, true, false] := by
  decide +kernel

/-- What the iterator of a stack yields. -/
def seen (st : State Nat) (i n : Nat) : Option (List (Option Nat)) :=
  match hstep natCmps (.iter i n) st with
  | some (_, .seq xs) => some xs
  | _ => none

example : seen panicSt 0 3 = some [some 2, some 1, none] ∧
    seen panicSt 1 5 = some [some 14, some 13, some 12, some 1, none] ∧
    seen panicSt 2 2 = some [some 1, none] ∧ seen panicSt 3 3 = some [some 3, some 2, none] := by
  decide +kernel

/-- The node of the element 1 is shared by the stacks 0, 1 and 2, the first two by way of nodes. -/
example : (panicSt.mem.cells 0).map (fun c => (c.rc, handles panicSt.regs 0, links panicSt.mem 0)) =
    some (3, 1, 2) := by
  decide +kernel

theorem panic_shows : Shows natCmps panicSt 0 [2, 1] := by
  obtain ⟨ls, hs⟩ := panic_reached.sim
  have h0 : ∃ l, ls[0]? = some (some l) := by
    obtain ⟨M, hR, -⟩ := hs
    rcases hR.get 0 with ⟨e1, -⟩ | ⟨s, l, L, M', e1, e2, -, h4, -⟩
    · exact absurd e1 (by decide +kernel)
    · cases h4 with
      | none => exact absurd (congrArg (Option.map Option.isSome) e1) (by decide +kernel)
      | some h4 => exact ⟨_, e2⟩
  obtain ⟨l, hl⟩ := h0
  have hsh := hs.shows natCmps hl
  have : l = [2, 1] := by
    have hlen : l.length = 2 := by
      obtain ⟨_, e⟩ := hsh.2
      have : (hstep natCmps (.len 0) panicSt).map (fun x => match x.2 with
          | .num n => n
          | _ => 0) = some 2 := by decide +kernel
      rw [e] at this
      simpa using this
    obtain ⟨_, e⟩ := hsh.1 2
    have h2 : seen panicSt 0 2 = some [some 2, some 1] := by decide +kernel
    rw [seen, e] at h2
    match l, hlen with
    | [a, b], _ =>
      have h3 : [some a, some b] = [some 2, some 1] := by
        have := Option.some.inj h2
        simpa [List.range_succ] using this
      simp at h3
      simp [h3]
  rw [← this]
  exact hsh

example := C66_stack_step panic_reached panic_shows 0 (.remove 0 0) rfl
example := C66_stack_enough panic_reached panic_shows (k := 2) (by simp) (.splitOff 0 1) rfl
example := C66_stack_counts panic_reached 0

/-- Interrupted once more, leaving the stack as it was; and not. -/
example : (cstep natCmps 0 (.topMut 2 (· + 10)) panicSt).map (fun x => (x.2.isNone, seen x.1 2 2)) =
      some (true, some [some 1, none]) ∧
    (cstep natCmps 1 (.topMut 2 (· + 10)) panicSt).map (fun x => (x.2.isNone, seen x.1 2 2, seen x.1 0 2)) =
      some (false, some [some 11, none], some [some 2, some 1]) := by
  decide +kernel

/-- The same, and then everything is dropped. -/
def panicEnd : State Nat :=
  ((crun natCmps (panicOps ++ [(0, .drop 0), (0, .drop 1), (0, .drop 2), (0, .drop 3)]) .init).map
    (·.1)).getD .init

example : ReachedC natCmps panicEnd ∧ (∀ s, some s ∉ panicEnd.regs) ∧ panicEnd.mem.next = 7 := by
  refine ⟨?_, ?_, by decide +kernel⟩
  · obtain ⟨st, obs, e⟩ := C66_stack_runs natCmps
      (panicOps ++ [(0, .drop 0), (0, .drop 1), (0, .drop 2), (0, .drop 3)])
    exact ⟨_, obs, by rw [panicEnd, e]; rfl⟩
  · have : panicEnd.regs = [none, none, none, none] := by rfl
    rw [this]; simp

end Verif.Props
