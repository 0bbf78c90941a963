import Verif.Stack.Machine
/-!
# Properties C41-C44, C46 (stacks) and C49

Everything is stated through what a caller can observe: `Reached c st` says some history of
operations over any number of stacks leads to `st`; `Shows c st i l` says that calling `next` on
an iterator over stack `i`, as often as one likes, yields the elements of `l` and then `None`, and
that `len()` is the length of `l`.
-/
namespace Verif.Props
open Verif.Heap Verif.Stack

variable {T : Type}

/-- Some history from nothing leads to this state. -/
def Reached (c : Cmps T) (st : State T) : Prop := ∃ ops obs, hrun c ops .init = some (st, obs)

/-- What can be seen of stack `i`. -/
def Shows (c : Cmps T) (st : State T) (i : Nat) (l : List T) : Prop :=
  (∀ n, ∃ st', hstep c (.iter i n) st = some (st', .seq ((List.range n).map (fun j => l[j]?)))) ∧
  ∃ st', hstep c (.len i) st = some (st', .num l.length)

theorem Shows.unique {c : Cmps T} {st : State T} {i : Nat} {l l' : List T} (h : Shows c st i l)
    (h' : Shows c st i l') : l = l' := by
  apply List.ext_getElem?
  intro j
  obtain ⟨_, e⟩ := h.1 (j + 1)
  obtain ⟨_, e'⟩ := h'.1 (j + 1)
  rw [e] at e'
  simp only [Option.some.injEq, Prod.mk.injEq, Obs.seq.injEq] at e'
  have := congrArg (fun x => x[j]?) e'.2
  simpa using this

theorem Reached.sim {c : Cmps T} {st : State T} (h : Reached c st) : ∃ ls, Sim st ls := by
  obtain ⟨ops, obs, e⟩ := h
  obtain ⟨st', e', hs⟩ := hrun_sim c ops Sim.init
  rw [e] at e'
  simp only [Option.some.injEq, Prod.mk.injEq] at e'
  rw [← e'.1] at hs
  exact ⟨_, hs⟩

theorem hrun_append (c : Cmps T) : ∀ (os ps : List (SOp T)) {st st' : State T} {obs : List (Obs T)},
    hrun c os st = some (st', obs) →
    hrun c (os ++ ps) st = (hrun c ps st').map (fun y => (y.1, obs ++ y.2))
  | [], ps, st, st', obs, h => by
    simp only [hrun, Option.some.injEq, Prod.mk.injEq] at h
    obtain ⟨rfl, rfl⟩ := h
    simp
  | o :: os, ps, st, st', obs, h => by
    simp only [hrun, List.cons_append] at h ⊢
    cases h1 : hstep c o st with
    | none => simp [h1] at h
    | some x =>
      simp only [h1] at h ⊢
      cases h2 : hrun c os x.1 with
      | none => simp [h2] at h
      | some y =>
        simp only [h2, Option.map_some, Option.some.injEq, Prod.mk.injEq] at h
        obtain ⟨rfl, rfl⟩ := h
        rw [hrun_append c os ps (st' := y.1) (obs := y.2) h2]
        simp [Option.map_map, Function.comp_def]

theorem Reached.step {c : Cmps T} {st st' : State T} {o : SOp T} {b : Obs T} (h : Reached c st)
    (e : hstep c o st = some (st', b)) : Reached c st' := by
  obtain ⟨ops, obs, e'⟩ := h
  refine ⟨ops ++ [o], obs ++ [b], ?_⟩
  rw [hrun_append c ops [o] e']
  simp [hrun, e]

theorem _root_.Verif.Stack.Sim.shows (c : Cmps T) {st : State T} {ls : List (Option (List T))} (h : Sim st ls) {i : Nat}
    {l : List T} (hl : ls[i]? = some (some l)) : Shows c st i l := by
  constructor
  · intro n
    obtain ⟨st', e, -⟩ := hstep_sim c (.iter i n) h
    simp only [sstep, SOp.uses, hl] at e
    exact ⟨st', e⟩
  · obtain ⟨st', e, -⟩ := hstep_sim c (.len i) h
    simp only [sstep, SOp.uses, hl] at e
    exact ⟨st', e⟩

theorem _root_.Verif.Stack.Sim.of_shows {c : Cmps T} {st : State T} {ls : List (Option (List T))} (h : Sim st ls)
    {i : Nat} {l : List T} (hs : Shows c st i l) : ls[i]? = some (some l) := by
  cases hl : ls[i]? with
  | some x =>
    cases x with
    | some l' => rw [(Sim.shows c h hl).unique hs]
    | none =>
      obtain ⟨_, e⟩ := hs.2
      obtain ⟨_, e', -⟩ := hstep_sim c (.len i) h
      simp only [sstep, SOp.uses, hl] at e'
      rw [e] at e'
      simp at e'
  | none =>
    obtain ⟨_, e⟩ := hs.2
    obtain ⟨_, e', -⟩ := hstep_sim c (.len i) h
    simp only [sstep, SOp.uses, hl] at e'
    rw [e] at e'
    simp at e'

/-- The general form: an operation on stack `i` does to it what `spec1` says, makes the new
stacks `spec1` says, and leaves what all others show unchanged. -/
theorem stack_op {c : Cmps T} {st : State T} (hr : Reached c st) {i : Nat} {l : List T}
    (hs : Shows c st i l) (o : SOp T) (ho : o.uses = .one i) :
    ∃ st', hstep c o st = some (st', (spec1 c l o).2.2) ∧ Reached c st' ∧
      (∀ l', (spec1 c l o).1 = some l' → Shows c st' i l') ∧
      (∀ j r, j ≠ i → Shows c st j r → Shows c st' j r) ∧
      (∀ k r, (spec1 c l o).2.1[k]? = some r → Shows c st' (st.regs.length + k) r) := by
  obtain ⟨ls, hsim⟩ := hr.sim
  have hl := hsim.of_shows hs
  obtain ⟨st', e, hsim'⟩ := hstep_sim c o hsim
  simp only [sstep, ho, hl] at e hsim'
  have hlen : st.regs.length = ls.length := by
    obtain ⟨M, hR, -⟩ := hsim
    clear hs hl hsim' e ho hr
    generalize st.regs = ss at hR
    induction hR with
    | nil => rfl
    | cons _ _ ih => simp [ih]
  have hi : i < ls.length := by
    by_contra hc
    rw [List.getElem?_eq_none (by omega)] at hl
    cases hl
  refine ⟨st', e, hr.step e, ?_, ?_, ?_⟩
  · intro l' h'
    refine hsim'.shows c ?_
    rw [List.getElem?_append_left (by simpa using hi), List.getElem?_set_self hi, h']
  · intro j r hj hjr
    have hl2 := hsim.of_shows hjr
    refine hsim'.shows c ?_
    have hj2 : j < ls.length := by
      by_contra hc
      rw [List.getElem?_eq_none (by omega)] at hl2
      cases hl2
    rw [List.getElem?_append_left (by simpa using hj2), List.getElem?_set_ne (fun h => hj h.symm), hl2]
  · intro k r hk
    refine hsim'.shows c ?_
    rw [hlen, List.getElem?_append_right (by simp)]
    simp [hk]

/-! ## C41 -/

/-- C41: the operations on a stack that shows `l` (top first), after any history.  `hstep` giving
`some` says there is no undefined behaviour, the observation says there is no panic. -/
theorem C41_stack_list {c : Cmps T} {st : State T} (hr : Reached c st) {i : Nat} {l : List T}
    (hs : Shows c st i l) :
    (∀ x, ∃ st', hstep c (.push i x) st = some (st', .unit) ∧ Reached c st' ∧ Shows c st' i (x :: l)) ∧
    (∃ st', hstep c (.pop i) st = some (st', .elem l.head?) ∧ Reached c st' ∧ Shows c st' i l.tail) ∧
    (∃ st', hstep c (.top i) st = some (st', .elem l.head?) ∧ Reached c st' ∧ Shows c st' i l) ∧
    (∀ g, ∃ st', hstep c (.topMut i g) st = some (st', .bool (!l.isEmpty)) ∧ Reached c st' ∧
      Shows c st' i (l.modifyHead g)) ∧
    (∃ st', hstep c (.clear i) st = some (st', .unit) ∧ Reached c st' ∧ Shows c st' i []) ∧
    (∃ st', hstep c (.isEmpty i) st = some (st', .bool l.isEmpty) ∧ Reached c st' ∧ Shows c st' i l) ∧
    (∀ x, ∃ st', hstep c (.contains i x) st = some (st', .bool (l.any (fun y => c.eq x y))) ∧
      Reached c st' ∧ Shows c st' i l) ∧
    (∀ xs, ∃ st', hstep c (.extend i xs) st = some (st', .unit) ∧ Reached c st' ∧
      Shows c st' i (xs.reverse ++ l)) ∧
    (∀ n g, ∃ st', hstep c (.iterMut i n g) st = some (st', .unit) ∧ Reached c st' ∧
      Shows c st' i ((l.take n).mapIdx g ++ l.drop n)) ∧
    (∀ n, ∃ st', hstep c (.intoIter i n) st =
        some (st', .seq ((List.range n).map (fun j => l[j]?))) ∧ Reached c st' ∧
      Shows c st' i (l.drop n)) := by
  have key : ∀ (o : SOp T) (l' : List T) (b : Obs T), o.uses = .one i →
      (spec1 c l o).1 = some l' → (spec1 c l o).2.2 = b →
      ∃ st', hstep c o st = some (st', b) ∧ Reached c st' ∧ Shows c st' i l' := by
    intro o l' b ho h1 h2
    obtain ⟨st', e, r, s, -⟩ := stack_op hr hs o ho
    exact ⟨st', by rw [e, h2], r, s l' h1⟩
  exact ⟨fun x => key _ _ _ rfl rfl rfl, key _ _ _ rfl rfl rfl, key _ _ _ rfl rfl rfl,
    fun g => key _ _ _ rfl rfl rfl, key _ _ _ rfl rfl rfl, key _ _ _ rfl rfl rfl,
    fun x => key _ _ _ rfl rfl rfl, fun xs => key _ _ _ rfl rfl rfl,
    fun n g => key _ _ _ rfl rfl rfl, fun n => key _ _ _ rfl rfl rfl⟩

/-- C41: new stacks are empty, and collected ones have the last element on top. -/
theorem C41_stack_new {c : Cmps T} {st : State T} (hr : Reached c st) :
    (∃ st', hstep c .new st = some (st', .unit) ∧ Reached c st' ∧ Shows c st' st.regs.length []) ∧
    (∀ xs, ∃ st', hstep c (.fromIter xs) st = some (st', .unit) ∧ Reached c st' ∧
      Shows c st' st.regs.length xs.reverse) := by
  obtain ⟨ls, hsim⟩ := hr.sim
  have hlen : st.regs.length = ls.length := by
    obtain ⟨M, hR, -⟩ := hsim
    clear hr
    generalize st.regs = ss at hR
    induction hR with
    | nil => rfl
    | cons _ _ ih => simp [ih]
  constructor
  · obtain ⟨st', e, h'⟩ := hstep_sim c .new hsim
    simp only [sstep, SOp.uses] at e h'
    exact ⟨st', e, hr.step e, h'.shows c (by simp [hlen, spec0])⟩
  · intro xs
    obtain ⟨st', e, h'⟩ := hstep_sim c (.fromIter xs) hsim
    simp only [sstep, SOp.uses] at e h'
    exact ⟨st', e, hr.step e, h'.shows c (by simp [hlen, spec0])⟩

/-! ## C42 -/

/-- C42 for `remove`: inside the range it returns the `k`-th element from the bottom (index `k`
of the reversed list) and takes it out; outside it panics and changes nothing. -/
theorem C42_stack_remove {c : Cmps T} {st : State T} (hr : Reached c st) {i : Nat} {l : List T}
    (hs : Shows c st i l) (k : Nat) :
    (∀ hk : k < l.length, ∃ st', hstep c (.remove i k) st =
        some (st', .elem (some (l.reverse[k]'(by simpa using hk)))) ∧ Reached c st' ∧
      Shows c st' i (l.reverse.eraseIdx k).reverse) ∧
    (l.length ≤ k → ∃ st', hstep c (.remove i k) st = some (st', .panicked) ∧ Reached c st' ∧
      Shows c st' i l) := by
  obtain ⟨st', e, r, s, -⟩ := stack_op hr hs (.remove i k) rfl
  constructor
  · intro hk
    have : l.reverse[k]? = some (l.reverse[k]'(by simpa using hk)) :=
      List.getElem?_eq_getElem (by simpa using hk)
    simp only [spec1, this] at e s
    exact ⟨st', e, r, s _ rfl⟩
  · intro hk
    have : l.reverse[k]? = none := List.getElem?_eq_none (by simpa using hk)
    simp only [spec1, this] at e s
    exact ⟨st', e, r, s _ rfl⟩

/-- C42 for `split_off`: the bottom `k` elements stay, the others are the new stack, in the same
order; past the end it panics and changes nothing. -/
theorem C42_stack_split_off {c : Cmps T} {st : State T} (hr : Reached c st) {i : Nat} {l : List T}
    (hs : Shows c st i l) (k : Nat) :
    (k ≤ l.length → ∃ st', hstep c (.splitOff i k) st = some (st', .unit) ∧ Reached c st' ∧
      ∃ top bottom, top ++ bottom = l ∧ bottom.length = k ∧
        Shows c st' i bottom ∧ Shows c st' st.regs.length top) ∧
    (l.length < k → ∃ st', hstep c (.splitOff i k) st = some (st', .panicked) ∧ Reached c st' ∧
      Shows c st' i l) := by
  obtain ⟨st', e, r, s, -, n⟩ := stack_op hr hs (.splitOff i k) rfl
  constructor
  · intro hk
    simp only [spec1, hk, if_true] at e s n
    refine ⟨st', e, r, _, _, ?_, ?_, s _ rfl, n 0 _ rfl⟩
    · rw [← List.reverse_append, List.take_append_drop, List.reverse_reverse]
    · simp [hk]
  · intro hk
    have hk' : ¬ k ≤ l.length := by omega
    simp only [spec1, hk', if_false] at e s
    exact ⟨st', e, r, s _ rfl⟩

/-! ## C43 -/

/-- An operation on two stacks, which may be the same one. -/
theorem stack_op2 {c : Cmps T} {st : State T} (hr : Reached c st) {i j : Nat} {l r : List T}
    (hi : Shows c st i l) (hj : Shows c st j r) (o : SOp T) (ho : o.uses = .two i j) :
    ∃ st', hstep c o st = some (st', spec2 c l r o) ∧ Reached c st' ∧
      ∀ k q, Shows c st k q → Shows c st' k q := by
  obtain ⟨ls, hsim⟩ := hr.sim
  have hl := hsim.of_shows hi
  have hl2 := hsim.of_shows hj
  obtain ⟨st', e, hsim'⟩ := hstep_sim c o hsim
  simp only [sstep, ho, hl, hl2] at e hsim'
  exact ⟨st', e, hr.step e, fun k q hk => hsim'.shows c (hsim.of_shows hk)⟩

/-- C43: `==` of stacks is equality of what they show, given that `==` of elements is equality. -/
theorem C43_stack_eq [BEq T] [LawfulBEq T] {c : Cmps T} (hc : c.eq = (· == ·)) {st : State T}
    (hr : Reached c st) {i j : Nat} {l r : List T} (hi : Shows c st i l) (hj : Shows c st j r) :
    ∃ st' b, hstep c (.eq i j) st = some (st', .bool b) ∧ (b = true ↔ l = r) := by
  obtain ⟨st', e, -⟩ := stack_op2 hr hi hj (.eq i j) rfl
  refine ⟨st', _, e, ?_⟩
  rw [← Spec.zip_all_beq (l1 := l) (l2 := r), hc]
  simp

/-- C43: `==` for any `==` of elements. -/
theorem C43_stack_eq_elementwise {c : Cmps T} {st : State T} (hr : Reached c st) {i j : Nat}
    {l r : List T} (hi : Shows c st i l) (hj : Shows c st j r) :
    ∃ st' b, hstep c (.eq i j) st = some (st', .bool b) ∧
      (b = true ↔ l.length = r.length ∧ ∀ x ∈ l.zip r, c.eq x.1 x.2 = true) := by
  obtain ⟨st', e, -⟩ := stack_op2 hr hi hj (.eq i j) rfl
  refine ⟨st', _, e, ?_⟩
  simp

/-- C43: `cmp` is the lexicographic order from the top: equal when of equal length and elementwise
equal; less when a common part is followed by the end or by a smaller element; the other way round
when greater. -/
theorem C43_stack_cmp {c : Cmps T} {st : State T} (hr : Reached c st) {i j : Nat}
    {l r : List T} (hi : Shows c st i l) (hj : Shows c st j r) :
    ∃ st' o, hstep c (.cmp i j) st = some (st', .ord (some o)) ∧
      (o = .eq ↔ l.length = r.length ∧ ∀ x ∈ l.zip r, c.cmp x.1 x.2 = .eq) ∧
      (o = .lt ↔ ∃ a1 b1 a2 b2, l = a1 ++ a2 ∧ r = b1 ++ b2 ∧
        (a1.length = b1.length ∧ ∀ x ∈ a1.zip b1, c.cmp x.1 x.2 = .eq) ∧
        ((a2 = [] ∧ b2 ≠ []) ∨ ∃ x y a3 b3, a2 = x :: a3 ∧ b2 = y :: b3 ∧ c.cmp x y = .lt)) := by
  obtain ⟨st', e, -⟩ := stack_op2 hr hi hj (.cmp i j) rfl
  refine ⟨st', _, e, Spec.lexCmp_eq_iff, ?_⟩
  simp only [← Spec.lexCmp_eq_iff (cmp := c.cmp)]
  exact Spec.lexCmp_lt_iff

/-- C43: `partial_cmp` agrees with `cmp` when `partial_cmp` of the elements does. -/
theorem C43_stack_partial_cmp {c : Cmps T} (hc : ∀ x y, c.pcmp x y = some (c.cmp x y)) {st : State T}
    (hr : Reached c st) {i j : Nat} {l r : List T} (hi : Shows c st i l) (hj : Shows c st j r) :
    ∃ st1 st2 o, hstep c (.cmp i j) st = some (st1, .ord (some o)) ∧
      hstep c (.partialCmp i j) st = some (st2, .ord (some o)) := by
  obtain ⟨st1, e1, -⟩ := stack_op2 hr hi hj (.cmp i j) rfl
  obtain ⟨st2, e2, -⟩ := stack_op2 hr hi hj (.partialCmp i j) rfl
  refine ⟨st1, st2, _, e1, ?_⟩
  rw [e2]
  have : c.pcmp = fun x y => some (c.cmp x y) := by funext x y; exact hc x y
  simp only [spec2, this, Spec.lexPartialCmp_total]

/-! ## C44 -/

/-- C44: any history over any number of stacks, cloned from each other in any pattern, runs
without undefined behaviour and is observed exactly as if every stack were a list of its own
(`srun` knows of no memory; `clone` copies the list). -/
theorem C44_stack_isolated (c : Cmps T) (ops : List (SOp T)) :
    ∃ st, hrun c ops .init = some (st, (srun c ops []).2) := by
  obtain ⟨st, e, -⟩ := hrun_sim c ops Sim.init
  exact ⟨st, e⟩

/-- C44, step by step: a clone shows what the original shows, and nothing done to one stack
changes what another shows. -/
theorem C44_stack_clone {c : Cmps T} {st : State T} (hr : Reached c st) {i : Nat} {l : List T}
    (hs : Shows c st i l) :
    (∃ st', hstep c (.clone i) st = some (st', .unit) ∧ Reached c st' ∧ Shows c st' i l ∧
      Shows c st' st.regs.length l) ∧
    (∀ o : SOp T, o.uses = .one i → ∃ st' b, hstep c o st = some (st', b) ∧ Reached c st' ∧
      ∀ j r, j ≠ i → Shows c st j r → Shows c st' j r) := by
  constructor
  · obtain ⟨st', e, r, s, -, n⟩ := stack_op hr hs (.clone i) rfl
    exact ⟨st', e, r, s _ rfl, n 0 _ rfl⟩
  · intro o ho
    obtain ⟨st', e, r, -, f, -⟩ := stack_op hr hs o ho
    exact ⟨st', _, e, r, f⟩

/-! ## C46 for stacks -/

/-- C46 for stacks: after any history the count of each node is the number of stacks and nodes
linking to it, and it is freed exactly when there are none. -/
theorem C46_stack_counts {c : Cmps T} {st : State T} (hr : Reached c st) (a : Nat) :
    (∀ cell, st.mem.cells a = some cell →
      cell.rc = handles st.regs a + links st.mem a ∧ 0 < cell.rc) ∧
    (st.mem.cells a = none ↔ handles st.regs a + links st.mem a = 0) := by
  obtain ⟨ls, M, hR, hO⟩ := hr.sim
  have hc := hO.cnt a
  rw [hR.ext a] at hc
  cases h : st.mem.cells a with
  | none =>
    rw [h] at hc
    exact ⟨by simp, by simpa using hc⟩
  | some cell =>
    rw [h] at hc
    dsimp only at hc
    exact ⟨by rintro _ ⟨⟩; exact hc, by constructor <;> intro h <;> [cases h; omega]⟩

/-- C46 for stacks: when all stacks have been dropped, no node is left. -/
theorem C46_stack_no_leak {c : Cmps T} {st : State T} (hr : Reached c st)
    (hd : ∀ s, some s ∉ st.regs) (a : Nat) : st.mem.cells a = none := by
  obtain ⟨ls, M, hR, hO⟩ := hr.sim
  have : M = 0 := by
    clear hO hr
    generalize st.regs = ss at hR hd
    induction hR with
    | nil => rfl
    | cons h1 _ ih =>
      cases h1 with
      | none => rw [ih (fun s hs => hd s (List.mem_cons_of_mem _ hs)), zero_add]
      | some h1 => exact absurd (List.mem_cons_self ..) (hd _)
  rw [this] at hO
  exact hO.no_leak a

/-! ## C49 -/

theorem exec_bind {P α β : Type} {p : Prog P α} {f : α → Prog P β} : ∀ {h h' : Mem P} {x : α},
    p.exec h = some (h', some x) → (p.bind f).exec h = (f x).exec h' := by
  induction p with
  | pure y => intro h h' x e; simp only [Prog.exec, Option.some.injEq, Prod.mk.injEq] at e
              obtain ⟨rfl, rfl⟩ := e; rfl
  | panic => intro h h' x e; simp [Prog.exec] at e
  | op o k ih =>
    intro h h' x e
    simp only [Prog.exec, Prog.bind] at e ⊢
    cases hs : o.step h with
    | none => simp [hs] at e
    | some y =>
      simp only [hs] at e ⊢
      exact ih _ e

theorem clearLoop_seq : ∀ {n : Nat} {r : Option Nat} {l : List T} {h : Mem T}
    {F : Multiset (Handle T)}, l.length < n → Own h (own r (vt l) + F) →
    ∃ h', (Stack.clearLoop 1 n r).exec h = some (h', some ()) ∧ Own h' F := by
  intro n
  induction n with
  | zero => intro r l h F hn; omega
  | succ n ih =>
    intro r l h F hn ho
    have hrep := rep_own (L := F) (fun e he => ho.rep e he)
    cases r with
    | none =>
      cases l with
      | nil =>
        rw [vt, own_nil, zero_add] at ho
        exact ⟨h, rfl, ho⟩
      | cons x xs => cases hrep
    | some a =>
      cases l with
      | nil => cases hrep
      | cons x xs =>
        obtain ⟨b, e, hu⟩ := ho.isUnique
        simp only [Stack.clearLoop, lift, Prog.bind, Prog.exec, e]
        cases b with
        | true =>
          simp only [if_true]
          obtain ⟨h1, nd, e1, hd, hl, o1⟩ := (hu rfl).open
          simp only [Prog.bind, Prog.exec, e1]
          obtain ⟨rest, hk⟩ := one_link (t := vt xs) hl
          rw [hk]
          simp only [Prog.bind, Prog.exec]
          rw [hk] at o1
          obtain ⟨h2, e2, o2⟩ := Own.close (h := h1) (a := a) (p := x) (q := nd.data)
            (ts := [.nil]) (ks := [none]) (F := own rest (vt xs) + F) rfl (by simpa using o1)
          simp only [e2]
          have hd1 : (VT.node nd.data [.nil]).Dep 1 :=
            .node (by intro t ht; rw [List.mem_singleton] at ht; subst ht; exact .nil)
          obtain ⟨h3, _, L', e3, o3, rfl⟩ := wp_exec (wp_drop hd1) o2.forget
          rw [exec_bind e3]
          simp only [List.length_cons] at hn
          rw [zero_add] at o3
          exact ih (l := xs) (by omega) o3
        | false =>
          simp only [Bool.false_eq_true, if_false, drop, lift, Prog.bind, Prog.exec]
          obtain ⟨h1, r, e1, o1⟩ := ho.dec
          simp only [e1]
          cases r with
          | none => exact ⟨h1, rfl, o1⟩
          | some nd =>
            exfalso
            cases hc : h.cells a with
            | none => simp [Op.step, hc] at e
            | some c =>
              simp only [Op.step, hc] at e e1
              by_cases h1 : c.rc = 1
              · rw [h1] at e
                have e' := congrArg Prod.snd (Option.some.inj e)
                simp at e'
              · rw [if_neg h1] at e1
                exact absurd (congrArg Prod.snd (Option.some.inj e1)) (by intro h; cases h)

/-- C49: however long the stack, clearing it (and dropping it, which does the same) never needs
more than one level of recursion in dropping nodes, whatever the sharing; and it ends within
`len() + 1` rounds of its loop. -/
theorem C49_stack_clear_shallow {c : Cmps T} {st : State T} (hr : Reached c st) {i : Nat}
    {s : Stack T} (hi : st.regs[i]? = some (some s)) :
    ∃ h', (Stack.clearLoop 1 (s.len + 1) s.elems).exec st.mem = some (h', some ()) := by
  obtain ⟨ls, M, hR, hO⟩ := hr.sim
  rcases hR.get i with ⟨e1, -⟩ | ⟨s', l, L, M', e1, e2, e3, h4, h5⟩
  · rw [e1] at hi; cases hi
  · rw [e1] at hi; cases hi
    cases h4 with
    | @some s l _ h4 =>
      obtain ⟨h1, rfl⟩ := h4
      rw [e3] at hO
      obtain ⟨h', e, -⟩ := clearLoop_seq (n := s.len + 1) (l := l) (by omega) hO
      exact ⟨h', e⟩

/-! ## Examples -/

/-- Comparisons of numbers. -/
def natCmps : Cmps Nat := ⟨(· == ·), compare, fun x y => some (compare x y)⟩

/-- Three stacks, two of them sharing two nodes, one dropped: they show `[2]` (1 removed), `[14, 3,
2, 1]`, dropped, and `[2]` cloned. -/
def demoOps : List (SOp Nat) :=
  [.fromIter [1, 2, 3], .clone 0, .push 1 4, .pop 0, .clone 1, .topMut 1 (· + 10), .remove 0 0,
   .drop 2, .clone 0]

/-- The state after `demoOps`. -/
def demoSt : State Nat := ((hrun natCmps demoOps .init).map (·.1)).getD .init

theorem demo_reached : Reached natCmps demoSt := by
  obtain ⟨st, e⟩ := C44_stack_isolated natCmps demoOps
  exact ⟨demoOps, _, by rw [demoSt, e]; rfl⟩

theorem demo_shows : Shows natCmps demoSt 1 [14, 3, 2, 1] ∧ Shows natCmps demoSt 0 [2] := by
  obtain ⟨st, e, hs⟩ := hrun_sim natCmps demoOps Sim.init
  have : demoSt = st := by rw [demoSt, e]; rfl
  rw [this]
  exact ⟨hs.shows natCmps rfl, hs.shows natCmps rfl⟩

example := C41_stack_list demo_reached demo_shows.1
example := C41_stack_new demo_reached
example := C42_stack_remove demo_reached demo_shows.1 2
example := C42_stack_split_off demo_reached demo_shows.1 1
example := C43_stack_eq (c := natCmps) rfl demo_reached demo_shows.1 demo_shows.2
example := C43_stack_eq_elementwise demo_reached demo_shows.1 demo_shows.2
example := C43_stack_cmp demo_reached demo_shows.1 demo_shows.2
example := C43_stack_partial_cmp (c := natCmps) (fun _ _ => rfl) demo_reached demo_shows.1 demo_shows.2
example := C44_stack_isolated natCmps demoOps
example := C44_stack_clone demo_reached demo_shows.1
example := C46_stack_counts demo_reached 0
example : (demoSt.mem.cells 1).map (fun c => (c.rc, handles demoSt.regs 1, links demoSt.mem 1)) = some (1, 0, 1) := by
  decide +kernel
/-- The state after dropping the rest. -/
def demoEnd : State Nat :=
  ((hrun natCmps (demoOps ++ [SOp.drop 0, SOp.drop 1, SOp.drop 3]) .init).map (·.1)).getD .init
example : Reached natCmps demoEnd ∧ (∀ s, some s ∉ demoEnd.regs) ∧ demoEnd.mem.next = 6 := by
  refine ⟨?_, ?_, by rfl⟩
  · obtain ⟨st, e⟩ := C44_stack_isolated natCmps (demoOps ++ [SOp.drop 0, SOp.drop 1, SOp.drop 3])
    exact ⟨_, _, by rw [demoEnd, e]; rfl⟩
  · have : demoEnd.regs = [none, none, none, none] := by rfl
    rw [this]; simp
example : ∃ s, demoSt.regs[1]? = some (some s) ∧ s.len = 4 := ⟨_, rfl, rfl⟩

end Verif.Props
