import Verif.Heap.Cost
import Verif.Heap.History
/-!
# How many nodes whole programs allocate

From what single operations cost to what programs cost, for any type of objects.
-/
namespace Verif.Heap.Machine
open Verif.Heap

variable {P H M O C0 C1 C2 CR : Type}
variable {R : H → M → Multiset (Handle P) → Prop} {Inv : M → Prop}
  {I : Impl (Prog P) H O C0 C1 C2 CR} {V : Impl Option M O C0 C1 C2 CR}

/-- Commands of the kinds given. -/
def Cmd.All (ok0 : C0 → Prop) (ok1 : C1 → Prop) (ok2 : C2 → Prop) : Cmd C0 C1 C2 CR → Prop
  | .make c => ok0 c
  | .one _ c => ok1 c
  | .two _ _ c => ok2 c
  | .look _ _ _ => True

/-- The sum of what the commands on single objects cost, if the objects have size `n`. -/
def cost1 (b : C1 → Nat → Nat) (n : Nat) : List (Cmd C0 C1 C2 CR) → Nat
  | [] => 0
  | .one _ c :: cs => b c n + cost1 b n cs
  | _ :: cs => cost1 b n cs

theorem cost1_le {b : C1 → Nat → Nat} {B : Nat → Nat} {n : Nat} (h : ∀ c, b c n ≤ B n) :
    ∀ cs : List (Cmd C0 C1 C2 CR), cost1 b n cs ≤ cs.length * B n
  | [] => by simp [cost1]
  | .one _ c :: cs => by
    have := cost1_le h cs
    have := h c
    simp only [cost1, List.length_cons, Nat.succ_mul]; omega
  | .make _ :: cs | .two _ _ _ :: cs | .look _ _ _ :: cs => by
    have := cost1_le h cs
    simp only [cost1, List.length_cons, Nat.succ_mul]; omega

theorem exec_map {α β : Type} {p : Prog P α} {g : α → β} {h h' : Mem P} {y : Option β}
    (e : (p.bind fun x => .pure (g x)).exec h = some (h', y)) :
    ∃ x, p.exec h = some (h', x) ∧ y = x.map g := by
  rw [Prog.exec_bind] at e
  cases hp : p.exec h with
  | none => rw [hp] at e; cases e
  | some z =>
    obtain ⟨h1, z⟩ := z
    rw [hp] at e
    cases z with
    | none => cases e; exact ⟨none, rfl, rfl⟩
    | some x => cases e; exact ⟨some x, rfl, rfl⟩

/-- What running one command is. -/
theorem exec_one {i : Nat} {c : C1} {rs : List (Option H)} {s : H} (hi : rs[i]? = some (some s))
    {h h' : Mem P} {y} (e : (step I rs (.one i c)).exec h = some (h', y)) :
    ∃ x, (I.one s c).exec h = some (h', x) := by
  have : rs[i]?.join = some s := by rw [hi]; rfl
  simp only [step, this] at e
  obtain ⟨x, e, -⟩ := exec_map e
  exact ⟨x, e⟩

theorem exec_run_one {cmd : Cmd C0 C1 C2 CR} {rs : List (Option H)}
    {h h' : Mem P} {y} (e : (run I [cmd] rs).exec h = some (h', y)) :
    ∃ x, (step I rs cmd).exec h = some (h', x) := by
  obtain ⟨x, e, -⟩ := exec_map (p := step I rs cmd) (g := fun x => (x.1, [x.2])) e
  exact ⟨x, e⟩

/-- The owned handles of object `i`. -/
theorem Sim.get_own {h : Mem P} {rs ms} (hs : Sim Inv R h rs ms) {i : Nat} {s : H}
    (hi : rs[i]? = some (some s)) :
    ∃ m L G, ms[i]? = some (some m) ∧ Inv m ∧ R s m L ∧ Own h (L + G) := by
  obtain ⟨hI, L, hR, hO⟩ := hs
  obtain ⟨L1, G, rfl, h1, -, -⟩ := hR.get i
  have e : rs[i]?.join = some s := by rw [hi]; rfl
  rw [e] at h1
  cases hm : ms[i]?.join with
  | none => rw [hm] at h1; cases h1
  | some m =>
    rw [hm] at h1
    cases h1 with
    | some h1 =>
      have hm' : ms[i]? = some (some m) := by
        cases h2 : ms[i]? with
        | none => rw [h2] at hm; cases hm
        | some o => rw [h2] at hm; exact congrArg some hm
      exact ⟨m, L1, G, hm', hI.get hm, h1, hO⟩

/-- A command on object `i`. -/
theorem Sim.one_exec {C : Mem P → Prop} {h : Mem P} {rs ms} (hs : Sim Inv R h rs ms)
    (hC : C h) {i : Nat} {s : H} (hi : rs[i]? = some (some s)) {c : C1}
    {n : M → Option H × List H × O → Nat}
    (hb : ∀ m L, Inv m → R s m L → ∃ Q, Spends C (I.one s c) L Q (n m)) :
    ∃ h' x m, (Machine.run I [.one i c] rs).exec h =
        some (h', some (rs.set i x.1 ++ x.2.1.map some, [some x.2.2])) ∧
      Inv m ∧ (∃ L, R s m L) ∧ C h' ∧ h'.next ≤ h.next + n m x := by
  obtain ⟨m, L, G, hm, h1, h2, h3⟩ := hs.get_own hi
  obtain ⟨Q, hq⟩ := hb m L h1 h2
  obtain ⟨h4, x, L4, e4, -, -, h5, h6⟩ := hq h G h3 hC
  refine ⟨h4, x, m, ?_, h1, ⟨L, h2⟩, h5, h6⟩
  have hj : rs[i]?.join = some s := by rw [hi]; rfl
  simp only [Machine.run, Machine.step, hj]
  change ((((I.one s c).bind _).bind _)).exec h = _
  simp only [Prog.exec_bind, e4]
  rfl

/-- One command on object `i`. -/
theorem Sim.one_cost {C : Mem P → Prop} {n : Nat} {h : Mem P} {rs ms} (hs : Sim Inv R h rs ms)
    (hC : C h) {i : Nat} {s : H} (hi : rs[i]? = some (some s)) {c : C1}
    (hb : ∀ m L, ms[i]? = some (some m) → Inv m → R s m L →
      ∃ Q, Spends C (I.one s c) L Q (fun _ => n))
    {h' : Mem P} {y} (e : (step I rs (.one i c)).exec h = some (h', y)) :
    C h' ∧ h'.next ≤ h.next + n := by
  obtain ⟨x, e⟩ := exec_one hi e
  obtain ⟨m, L, G, hm, h1, h2, h3⟩ := hs.get_own hi
  obtain ⟨Q, hq⟩ := hb m L hm h1 h2
  obtain ⟨h4, x4, L4, e4, -, -, h5, h6⟩ := hq h G h3 hC
  rw [e] at e4
  cases e4
  exact ⟨h5, h6⟩

/-- What is needed of the single operations. -/
structure Budget (I : Impl (Prog P) H O C0 C1 C2 CR) (V : Impl Option M O C0 C1 C2 CR)
    (Inv : M → Prop) (R : H → M → Multiset (Handle P) → Prop) (C : Mem P → Prop) (sz : M → Nat)
    (ok0 : C0 → Prop) (ok1 : C1 → Prop) (b : C1 → Nat → Nat) : Prop where
  mono : ∀ c {m n}, m ≤ n → b c m ≤ b c n
  make : ∀ c, ok0 c → Cost C (I.make c) (fun _ => 0) ∧
    ∀ y, V.make c = some y → ∀ m ∈ y.1, sz m ≤ 1
  one : ∀ {s m L} c, ok1 c → Inv m → R s m L →
    ∃ Q, Spends C (I.one s c) L Q (fun _ => b c (sz m))
  size : ∀ {m} c, ok1 c → Inv m → ∀ y, V.one m c = some y →
    (∀ m' ∈ y.1, sz m' ≤ sz m + 1) ∧ ∀ m' ∈ y.2.1, sz m' ≤ sz m + 1
  look : ∀ s s' c, (I.look s s' c).ReadOnly

theorem budget_run {C : Mem P → Prop} {sz : M → Nat} {ok0 : C0 → Prop} {ok1 : C1 → Prop}
    {b : C1 → Nat → Nat} (T : Total V Inv) (S : Sound I V Inv R)
    (Bd : Budget I V Inv R C sz ok0 ok1 b) :
    ∀ (cs : List (Cmd C0 C1 C2 CR)), (∀ c ∈ cs, c.All ok0 ok1 (fun _ => False)) →
    ∀ {h : Mem P} {rs ms} {N : Nat}, Sim Inv R h rs ms → C h → (∀ m, some m ∈ ms → sz m ≤ N) →
    ∀ {h' : Mem P} {y}, (run I cs rs).exec h = some (h', some y) →
    C h' ∧ h'.next ≤ h.next + cost1 b (N + cs.length) cs := by
  intro cs
  induction cs with
  | nil =>
    intro _ h rs ms N hs hC hN h' y e
    cases e
    exact ⟨hC, Nat.le_add_right _ _⟩
  | cons c cs ih =>
    intro ha h rs ms N hs hC hN h' y e
    obtain ⟨h1, x1, e1, e2⟩ := Prog.exec_bind_some (p := step I rs c) e
    obtain ⟨h2, x2, e3, e4⟩ := Prog.exec_bind_some (p := run I cs x1.1) e2
    cases e4
    -- where the values are after the first command
    obtain ⟨⟨zm, zo⟩, ez, h1', rs1, e5, hs1⟩ := Sim.run T S [c] hs
    have e6 : (run I [c] rs).exec h = some (h1, some (x1.1, [x1.2])) := by
      change ((step I rs c).bind _).exec h = _
      rw [Prog.exec_bind, e1]
      rfl
    rw [e6] at e5
    cases e5
    have hc := ha c (List.mem_cons_self ..)
    -- the first command
    have key : C h1 ∧ h1.next + cost1 b (N + 1 + cs.length) cs ≤
        h.next + cost1 b (N + (c :: cs).length) (c :: cs) ∧ ∀ m, some m ∈ zm → sz m ≤ N + 1 := by
      have eN : N + 1 + cs.length = N + (cs.length + 1) := by omega
      obtain ⟨z1, ez1, -⟩ := run_cons ez
      cases c with
      | make c =>
        obtain ⟨hm1, hm2⟩ := Bd.make c hc
        obtain ⟨h0, x0, e7, e8⟩ := Prog.exec_bind_some (p := I.make c) e1
        cases e8
        obtain ⟨i1, n1⟩ := hm1 h hC h1 x0 e7
        dsimp only at n1
        refine ⟨i1, by simp only [cost1, List.length_cons, eN]; omega, ?_⟩
        obtain ⟨y0, ey0, -⟩ := T.make c
        have ez' : zm = ms ++ y0.1.map some := by
          simp only [run, step, ey0, Option.bind_eq_bind, Option.bind_some, Option.pure_def,
            Option.some.injEq] at ez
          exact (congrArg Prod.fst ez).symm
        intro m hm
        rw [ez', List.mem_append, List.mem_map] at hm
        rcases hm with hm | ⟨m', hm, e⟩
        · have := hN m hm; omega
        · cases e
          have := hm2 y0 ey0 m hm; omega
      | one i c =>
        cases hi : rs[i]?.join with
        | none =>
          have hmi : ms[i]?.join = none := by
            obtain ⟨-, L, hR, -⟩ := hs
            obtain ⟨L1, G, rfl, h1, -, -⟩ := hR.get i
            rw [hi] at h1
            cases hm : ms[i]?.join with
            | none => rfl
            | some => rw [hm] at h1; cases h1
          simp only [step, hi] at e1
          cases e1
          have ez' : zm = ms := by
            simp only [run, step, hmi, Option.bind_eq_bind, Option.bind_some, Option.pure_def,
              Option.some.injEq] at ez
            exact (congrArg Prod.fst ez).symm
          refine ⟨hC, by simp only [cost1, List.length_cons, eN]; omega, ?_⟩
          intro m hm
          rw [ez'] at hm
          have := hN m hm; omega
        | some s =>
          have hi' : rs[i]? = some (some s) := by
            cases h2 : rs[i]? with
            | none => rw [h2] at hi; cases hi
            | some o => rw [h2] at hi; exact congrArg some hi
          obtain ⟨m0, L0, G0, hm0, hInv, hR0, -⟩ := hs.get_own hi'
          have hsz : sz m0 ≤ N := hN m0 (List.mem_of_getElem? hm0)
          obtain ⟨i1, n1⟩ := hs.one_cost (n := b c (sz m0)) hC hi'
            (fun m L hm hv hr => by
              rw [hm0] at hm; cases hm; exact Bd.one c hc hv hr) e1
          have hb := Bd.mono c (show sz m0 ≤ N + (cs.length + 1) by omega)
          refine ⟨i1, by simp only [cost1, List.length_cons, eN]; omega, ?_⟩
          obtain ⟨y0, ey0, -⟩ := T.one c hInv
          obtain ⟨s1, s2⟩ := Bd.size c hc hInv y0 ey0
          have hm0' : ms[i]?.join = some m0 := by rw [hm0]; rfl
          have ez' : zm = ms.set i y0.1 ++ y0.2.1.map some := by
            simp only [run, step, hm0', ey0, Option.bind_eq_bind, Option.bind_some,
              Option.pure_def, Option.some.injEq] at ez
            exact (congrArg Prod.fst ez).symm
          intro m hm
          rw [ez', List.mem_append, List.mem_map] at hm
          rcases hm with hm | ⟨m', hm, e⟩
          · rcases List.mem_or_eq_of_mem_set hm with hm | hm
            · have := hN m hm; omega
            · have := s1 m (by rw [← hm]; rfl); omega
          · cases e
            have := s2 m hm; omega
      | two i j c => exact hc.elim
      | look i j c =>
        have eh : h1 = h ∧ zm = ms := by
          constructor
          · simp only [step] at e1
            split at e1
            · obtain ⟨x, e7, -⟩ := exec_map e1
              exact (Bd.look _ _ c).exec e7
            · cases e1; rfl
          · simp only [run, step] at ez
            split at ez
            · simp only [Option.bind_eq_bind, Option.bind_eq_some_iff, Option.pure_def,
                Option.some.injEq] at ez
              obtain ⟨a, ⟨b, -, rfl⟩, c', rfl, e9⟩ := ez
              exact (congrArg Prod.fst e9).symm
            · simp only [Option.bind_eq_bind, Option.bind_some, Option.pure_def,
                Option.some.injEq] at ez
              exact (congrArg Prod.fst ez).symm
        obtain ⟨rfl, ez'⟩ := eh
        refine ⟨hC, by simp only [cost1, List.length_cons, eN]; omega, ?_⟩
        intro m hm
        rw [ez'] at hm
        have := hN m hm; omega
    obtain ⟨k1, k2, k3⟩ := key
    obtain ⟨r1, r2⟩ := ih (fun c hc => ha c (List.mem_cons_of_mem _ hc)) hs1 k1 k3 e3
    exact ⟨r1, by omega⟩

/-! ## Commands that only read -/

/-- A command whose programs only read, and return the object they got. -/
def Quiet (I : Impl (Prog P) H O C0 C1 C2 CR) : Cmd C0 C1 C2 CR → Prop
  | .one _ c => ∀ s, (I.one s c).ReadOnly ∧
      ∀ h h' x, (I.one s c).exec h = some (h', some x) → x.1 = some s ∧ x.2.1 = []
  | .look _ _ c => ∀ s s', (I.look s s' c).ReadOnly
  | _ => False

theorem quiet_one {α : Type} {s : H} {p : Prog P α} {g : α → O} (hp : p.ReadOnly) :
    (p.bind fun x => .pure (some s, ([] : List H), g x)).ReadOnly ∧
    ∀ h h' x, (p.bind fun x => .pure (some s, ([] : List H), g x)).exec h =
      some (h', some x) → x.1 = some s ∧ x.2.1 = [] := by
  refine ⟨hp.map, fun h h' x e => ?_⟩
  obtain ⟨y, -, hy⟩ := exec_map e
  cases y with
  | none => cases hy
  | some y => cases hy; exact ⟨rfl, rfl⟩

/-- The command leaves memory and objects as they are. -/
theorem reads_only {rs : List (Option H)} {cmd : Cmd C0 C1 C2 CR} (hc : Quiet I cmd)
    {h h' : Mem P} {rs' obs} (e : (run I [cmd] rs).exec h = some (h', some (rs', obs))) :
    h' = h ∧ rs' = rs := by
  obtain ⟨x, e', hx⟩ := exec_map (p := step I rs cmd) (g := fun x => (x.1, [x.2])) e
  clear e
  cases x with
  | none => cases hx
  | some x =>
    cases hx
    cases cmd with
    | make | two => exact hc.elim
    | one i c =>
      cases hi : rs[i]?.join with
      | none =>
        simp only [step, hi] at e'
        cases e'
        exact ⟨rfl, rfl⟩
      | some s =>
        simp only [step, hi] at e'
        obtain ⟨y, e2, hy⟩ := exec_map e'
        cases y with
        | none => cases hy
        | some y =>
          cases hy
          obtain ⟨h1, h2⟩ := hc s
          obtain ⟨h3, h4⟩ := h2 _ _ _ e2
          refine ⟨h1.exec e2, ?_⟩
          dsimp only
          rw [h3, h4]
          simp only [List.map_nil, List.append_nil]
          apply List.ext_getElem?
          intro j
          rw [List.getElem?_set]
          split
          · next hij =>
            subst hij
            cases h5 : rs[i]? with
            | none => rw [h5] at hi; cases hi
            | some o =>
              rw [h5] at hi
              have hlt := (List.getElem?_eq_some_iff.1 h5).1
              rw [if_pos hlt]
              exact congrArg some hi.symm
          · rfl
    | look i j c =>
      simp only [step] at e'
      split at e'
      · obtain ⟨y, e2, hy⟩ := exec_map e'
        cases y with
        | none => cases hy
        | some y => cases hy; exact ⟨(hc _ _).exec e2, rfl⟩
      · cases e'; exact ⟨rfl, rfl⟩

/-- The command takes no other steps than reading. -/
theorem quiet_readOnly {rs : List (Option H)} {cmd : Cmd C0 C1 C2 CR} (hc : Quiet I cmd) :
    (run I [cmd] rs).ReadOnly := by
  refine Prog.ReadOnly.bind (fun _ => by exact trivial) (p := step I rs cmd) ?_
  cases cmd with
  | make | two => exact hc.elim
  | one i c =>
    simp only [step]
    split
    · exact trivial
    · exact Prog.ReadOnly.map (hc _).1
  | look i j c =>
    simp only [step]
    split
    · exact Prog.ReadOnly.map (hc _ _)
    · exact trivial

end Verif.Heap.Machine
