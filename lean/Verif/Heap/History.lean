import Verif.Heap.Threads
import Verif.Heap.Deep
/-!
# Whole histories

The statements about all programs and all histories that follow for any type of objects from
`Total` and `Sound`, in terms of what callers see.
-/
namespace Verif.Heap.Machine
open Verif.Heap

variable {P H M O C0 C1 C2 CR : Type}

/-- Run alone from empty memory, the program ends without undefined behaviour and without a panic
outside of those its commands report, and its commands show `obs`. -/
def Shown (I : Impl (Prog P) H O C0 C1 C2 CR) (cs : List (Cmd C0 C1 C2 CR))
    (obs : List (Option O)) : Prop :=
  ∃ h rs, (run I cs []).exec .empty = some (h, some (rs, obs))

/-- Some history of phases of threads leads from nothing to these objects in this memory. -/
def Reached (I : Impl (Prog P) H O C0 C1 C2 CR) (h : Mem P) (rs : List (Option H)) : Prop :=
  ∃ ph obs, Runs I .empty [] ph h rs obs

variable {R : H → M → Multiset (Handle P) → Prop} {Inv : M → Prop}
  {I D : Impl (Prog P) H O C0 C1 C2 CR} {V : Impl Option M O C0 C1 C2 CR}

theorem Shown.unique {cs : List (Cmd C0 C1 C2 CR)} {obs obs' : List (Option O)}
    (h : Shown I cs obs) (h' : Shown I cs obs') : obs = obs' := by
  obtain ⟨_, _, e⟩ := h
  obtain ⟨_, _, e'⟩ := h'
  rw [e] at e'
  simp only [Option.some.injEq, Prod.mk.injEq] at e'
  exact e'.2.2

theorem shown_of (T : Total V Inv) (S : Sound I V Inv R) (cs : List (Cmd C0 C1 C2 CR)) :
    ∃ ms obs, run V cs [] = some (ms, obs) ∧ Shown I cs obs := by
  obtain ⟨z, e, h, rs, e2, -⟩ := Sim.run T S cs Sim.init
  exact ⟨z.1, z.2, e, h, rs, e2⟩

theorem Runs.trans {h rs ph h1 rs1 obs} (r1 : Runs I h rs ph h1 rs1 obs) :
    ∀ {ph' h2 rs2 obs'}, Runs I h1 rs1 ph' h2 rs2 obs' →
    Runs I h rs (ph ++ ph') h2 rs2 (obs ++ obs') := by
  induction r1 with
  | nil => intro _ _ _ _ r2; exact r2
  | cons hn hp _ ih => intro _ _ _ _ r2; exact .cons hn hp (ih r2)

theorem Reached.sim (T : Total V Inv) (S : Sound I V Inv R) {h : Mem P} {rs}
    (hr : Reached I h rs) : ∃ ms, Sim Inv R h rs ms := by
  obtain ⟨ph, obs, hr⟩ := hr
  obtain ⟨ms, -, hs⟩ := Sim.runs T S hr Sim.init
  exact ⟨ms, hs⟩

theorem _root_.Verif.Heap.Prog.exec_prun {α : Type} (p : Prog P α) : ∀ {h h' : Mem P} {x : α},
    p.exec h = some (h', some x) → PRun (h, [p]) (h', [.pure x]) := by
  induction p with
  | pure x => rintro h h' x ⟨⟩; exact .refl
  | panic => rintro h h' x ⟨⟩
  | op o k ih =>
    intro h h' x e
    simp only [Prog.exec] at e
    split at e
    · cases e
    · next h1 r hs => exact PRun.trans (.step .refl (.mk (i := 0) (by simp) rfl hs)) (ih r e)

/-- A program run alone is a history. -/
theorem Reached.of_exec {cs : List (Cmd C0 C1 C2 CR)} {h : Mem P} {rs obs}
    (e : (run I cs []).exec .empty = some (h, some (rs, obs))) : Reached I h rs := by
  refine ⟨[[⟨[], cs⟩]], [[obs]], ?_⟩
  have := Runs.cons (I := I) (p := [⟨[], cs⟩]) (rs := []) (xs := [(rs, obs)]) (by simp [dealt])
    (Prog.exec_prun _ e) .nil
  simpa [rest, dealt] using this

/-- Histories do not get stuck. -/
theorem Sim.runs_exist (T : Total V Inv) (S : Sound I V Inv R) :
    ∀ (ph : List (List (Thread C0 C1 C2 CR))), (∀ p ∈ ph, (dealt p).Nodup) →
    ∀ {h : Mem P} {rs ms}, Sim Inv R h rs ms → ∃ h' rs' obs, Runs I h rs ph h' rs' obs
  | [], _, h, rs, _, _ => ⟨h, rs, [], .nil⟩
  | p :: ph, hn, h, rs, ms, hs => by
    have hn0 := hn p (List.mem_cons_self ..)
    obtain ⟨-, -, h1, xs, hr⟩ := hs.progress T S hn0 (.refl)
    obtain ⟨ys, -, -, hs1⟩ := hs.join T S hn0 hr
    obtain ⟨h2, rs2, obs, hr2⟩ := Sim.runs_exist T S ph
      (fun q hq => hn q (List.mem_cons_of_mem _ hq)) hs1
    exact ⟨h2, rs2, _, .cons hn0 hr hr2⟩

/-- Alone: sharing and deep copies show the same. -/
theorem isolated (T : Total V Inv) (S : Sound I V Inv R) (S' : Sound D V Inv R)
    (cs : List (Cmd C0 C1 C2 CR)) : ∃ obs, Shown I cs obs ∧ Shown D cs obs := by
  obtain ⟨ms, obs, e, h⟩ := shown_of T S cs
  obtain ⟨ms', obs', e', h'⟩ := shown_of T S' cs
  rw [e] at e'
  cases e'
  exact ⟨obs, h, h'⟩

/-- In threads: whatever the schedules, sharing and deep copies show the same; and there is a
schedule. -/
theorem isolated_threads (T : Total V Inv) (S : Sound I V Inv R) (S' : Sound D V Inv R)
    (ph : List (List (Thread C0 C1 C2 CR))) (hn : ∀ p ∈ ph, (dealt p).Nodup) :
    ∃ obs, (∃ h rs, Runs I .empty [] ph h rs obs) ∧
      (∀ h rs obs', Runs I .empty [] ph h rs obs' → obs' = obs) ∧
      (∀ h rs obs', Runs D .empty [] ph h rs obs' → obs' = obs) := by
  obtain ⟨h, rs, obs, hr⟩ := Sim.runs_exist T S ph hn Sim.init
  obtain ⟨ms, e, -⟩ := Sim.runs T S hr Sim.init
  refine ⟨obs, ⟨h, rs, hr⟩, ?_, ?_⟩
  · intro h1 rs1 obs1 h2
    obtain ⟨ms1, e1, -⟩ := Sim.runs T S h2 Sim.init
    rw [e] at e1
    cases e1
    rfl
  · intro h1 rs1 obs1 h2
    obtain ⟨ms1, e1, -⟩ := Sim.runs T S' h2 Sim.init
    rw [e] at e1
    cases e1
    rfl

/-- At any moment of a phase of threads, after any history: no thread is at a panic, no thread is
stuck (undefined behaviour), and all can be run to their ends. -/
theorem threads_progress (T : Total V Inv) (S : Sound I V Inv R) {h : Mem P} {rs}
    (hr : Reached I h rs) (p : List (Thread C0 C1 C2 CR)) (hn : (dealt p).Nodup) {h1 : Mem P}
    {qs : List (Prog P (List (Option H) × List (Option O)))}
    (hp : PRun (h, progs I p rs) (h1, qs)) :
    (∀ q ∈ qs, q ≠ .panic ∧ ∀ o k, q = .op o k → ∃ h' r, o.step h1 = some (h', r)) ∧
    ∃ (h2 : Mem P) (xs : List (List (Option H) × List (Option O))),
      PRun (h1, qs) (h2, xs.map .pure) := by
  obtain ⟨ms, hs⟩ := hr.sim T S
  obtain ⟨h2, -, h4⟩ := hs.progress T S hn hp
  exact ⟨h2, h4⟩

/-! ## What can be seen of one object -/

/-- If command `c` were given on object `i` now, it would show `o`. -/
def Sees (I : Impl (Prog P) H O C0 C1 C2 CR) (h : Mem P) (rs : List (Option H)) (i : Nat) (c : C1)
    (o : O) : Prop :=
  ∃ h' rs', (run I [.one i c] rs).exec h = some (h', some (rs', [some o]))

/-- The objects a command names. -/
def Cmd.names : Cmd C0 C1 C2 CR → List Nat
  | .make _ => []
  | .one i _ => [i]
  | .two i j _ | .look i j _ => [i, j]

theorem sees_iff (T : Total V Inv) (S : Sound I V Inv R) {h : Mem P} {rs ms}
    (hs : Sim Inv R h rs ms) {i : Nat} {c : C1} {o : O} :
    Sees I h rs i c o ↔ ∃ m y, ms[i]?.join = some m ∧ V.one m c = some y ∧ y.2.2 = o := by
  obtain ⟨z, e, h', rs', e2, -⟩ := Sim.run T S [.one i c] hs
  have key : Sees I h rs i c o ↔ z.2 = [some o] := by
    constructor
    · rintro ⟨h1, rs1, e1⟩
      rw [e2] at e1
      simp only [Option.some.injEq, Prod.mk.injEq] at e1
      exact e1.2.2
    · intro hz
      exact ⟨h', rs', by rw [e2, hz]⟩
  rw [key]
  simp only [run, step] at e
  cases hm : ms[i]?.join with
  | none =>
    rw [hm] at e
    simp only [bind, Option.bind, pure, Option.some.injEq] at e
    subst e
    simp
  | some m =>
    rw [hm] at e
    cases hy : V.one m c with
    | none => simp [hy] at e
    | some y =>
      simp only [hy, bind, Option.bind, pure, Option.some.injEq] at e
      subst e
      constructor
      · intro h; simp at h; exact ⟨m, y, rfl, hy, h⟩
      · rintro ⟨m', y', h1, h2, rfl⟩
        cases h1
        rw [hy] at h2
        cases h2
        rfl

theorem step_keeps {ms : List (Option M)} {c : Cmd C0 C1 C2 CR} {z} (e : step V ms c = some z)
    {i : Nat} (hi : i ∉ c.names) (hl : i < ms.length) : z.1[i]? = ms[i]? := by
  have look : ∀ (l l' : List (Option M)), l.length = ms.length → l[i]? = ms[i]? →
      (l ++ l')[i]? = ms[i]? := fun l l' h1 h2 => by
    rw [List.getElem?_append_left (by omega), h2]
  cases c with
  | make c =>
    simp only [step, bind, Option.bind, pure] at e
    split at e
    · cases e
    · cases e
      exact look _ _ rfl rfl
  | one j c =>
    simp only [Cmd.names, List.mem_singleton] at hi
    simp only [step] at e
    split at e
    · cases e; rfl
    · simp only [bind, Option.bind, pure] at e
      split at e
      · cases e
      · cases e
        exact look _ _ (by simp) (List.getElem?_set_ne (fun h => hi h.symm))
  | two j k c =>
    simp only [Cmd.names, List.mem_cons, List.not_mem_nil, or_false, not_or] at hi
    simp only [step] at e
    split at e
    · cases e; rfl
    · split at e
      · simp only [bind, Option.bind, pure] at e
        split at e
        · cases e
        · cases e
          refine look _ _ (by simp) ?_
          rw [List.getElem?_set_ne (fun h => hi.2 h.symm), List.getElem?_set_ne (fun h => hi.1 h.symm)]
      · cases e; rfl
  | look j k c =>
    simp only [step] at e
    split at e
    · simp only [bind, Option.bind, pure] at e
      split at e
      · cases e
      · cases e; rfl
    · cases e; rfl

theorem run_keeps {i : Nat} : ∀ {cs : List (Cmd C0 C1 C2 CR)} {ms : List (Option M)} {z},
    run V cs ms = some z → (∀ c ∈ cs, i ∉ c.names) → i < ms.length →
    z.1[i]? = ms[i]? ∧ ms.length ≤ z.1.length
  | [], ms, z, e, _, _ => by cases e; exact ⟨rfl, le_rfl⟩
  | c :: cs, ms, z, e, hi, hl => by
    simp only [run, bind, Option.bind, pure] at e
    split at e
    · cases e
    · next x h1 =>
      dsimp only at e
      split at e
      · cases e
      · next y h2 =>
        cases e
        have k := step_keeps h1 (hi c (List.mem_cons_self ..)) hl
        have hl' : ms.length ≤ x.1.length := by
          cases c <;> simp only [step, bind, Option.bind, pure] at h1 <;>
            (repeat' split at h1) <;> cases h1 <;> simp
        obtain ⟨k1, k2⟩ := run_keeps h2 (fun c hc => hi c (List.mem_cons_of_mem _ hc)) (by omega)
        exact ⟨k1.trans k, hl'.trans k2⟩

/-- After any history, commands that do not name object `i` do not change what any command on
object `i` would show. -/
theorem others (T : Total V Inv) (S : Sound I V Inv R) {h : Mem P} {rs} (hr : Reached I h rs)
    {i : Nat} (hi : i < rs.length) (cs : List (Cmd C0 C1 C2 CR)) (hc : ∀ c ∈ cs, i ∉ c.names) :
    ∃ h' rs' obs, (run I cs rs).exec h = some (h', some (rs', obs)) ∧
      ∀ c o, Sees I h' rs' i c o ↔ Sees I h rs i c o := by
  obtain ⟨ms, hs⟩ := hr.sim T S
  obtain ⟨z, e, h', rs', e2, hs'⟩ := Sim.run T S cs hs
  refine ⟨h', rs', z.2, e2, fun c o => ?_⟩
  have hl : rs.length = ms.length := by obtain ⟨-, L, h1, -⟩ := hs; exact h1.length
  rw [sees_iff T S hs, sees_iff T S hs', (run_keeps e hc (by omega)).1]

/-- A command that gives an object back as it is and makes one equal to it: the new one shows what
the old one shows. -/
theorem cloned (T : Total V Inv) (S : Sound I V Inv R) {h : Mem P} {rs} (hr : Reached I h rs)
    {i : Nat} {s : H} (hi : rs[i]? = some (some s)) {c : C1} {o : O}
    (hc : ∀ m, V.one m c = some (some m, [m], o)) :
    ∃ h' rs', (run I [.one i c] rs).exec h = some (h', some (rs', [some o])) ∧
      (∀ j c o, j < rs.length → (Sees I h' rs' j c o ↔ Sees I h rs j c o)) ∧
      (∀ c o, Sees I h' rs' rs.length c o ↔ Sees I h rs i c o) := by
  obtain ⟨ms, hs⟩ := hr.sim T S
  have hl : rs.length = ms.length := by obtain ⟨-, L, h1, -⟩ := hs; exact h1.length
  have hm : ∃ m, ms[i]? = some (some m) := by
    obtain ⟨-, L, h1, -⟩ := hs
    obtain ⟨L1, G, -, h2, -⟩ := h1.get i
    rw [hi] at h2
    cases hx : ms[i]? with
    | none => rw [hx] at h2; cases h2
    | some x =>
      cases x with
      | none => rw [hx] at h2; cases h2
      | some m => exact ⟨m, rfl⟩
  obtain ⟨m, hm⟩ := hm
  have hi' : i < ms.length := by
    by_contra hc
    rw [List.getElem?_eq_none (by omega)] at hm
    cases hm
  obtain ⟨z, e, h', rs', e2, hs'⟩ := Sim.run T S [.one i c] hs
  simp only [run, step, hm, Option.join_some, hc, bind, Option.bind, pure, Option.some.injEq] at e
  subst e
  have hset : ms.set i (some m) = ms := by
    apply List.ext_getElem?
    intro j
    rw [List.getElem?_set]
    split
    · next h => subst h; exact hm.symm
    · rfl
  rw [hset] at hs'
  refine ⟨h', rs', e2, fun j c o hj => ?_, fun c o => ?_⟩
  · rw [sees_iff T S hs, sees_iff T S hs', List.getElem?_append_left (by omega)]
  · rw [sees_iff T S hs, sees_iff T S hs', List.getElem?_append_right (by omega), hl, hm]
    simp

end Verif.Heap.Machine
