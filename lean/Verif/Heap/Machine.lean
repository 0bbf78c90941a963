import Verif.Heap.Wp
/-!
# Programs over numbered objects, alone and in threads

A machine for any type of objects whose operations are given: `Impl F` says what the operations
do, either on values (`F = Option`, `none` being a panic) or on reference-counted memory
(`F = Prog P`).  The machine itself (`step`, `run`) is the same for both.  On values every
numbered object is a value of its own; so running a program on values is running it with every
clone a deep copy.

`Sound` is what has to be shown of the operations one by one; from it follow the facts about
whole programs, run alone or in threads.
-/
namespace Verif.Heap.Machine
open Verif.Heap

variable {P H M O C0 C1 C2 CR : Type}

/-- The operations of a type: those that make objects, those on one object, those on two
different objects, and those that look at two objects, which may be the same.  An operation
returns what is left of its objects (`none` if used up), new objects, and what the caller
sees. -/
structure Impl (F : Type → Type) (H O C0 C1 C2 CR : Type) where
  make : C0 → F (List H × O)
  one : H → C1 → F (Option H × List H × O)
  two : H → H → C2 → F (Option H × Option H × List H × O)
  look : H → H → CR → F O

/-- One command of a program, on numbered objects. -/
inductive Cmd (C0 C1 C2 CR : Type) where
  | make (c : C0)
  | one (i : Nat) (c : C1)
  | two (i j : Nat) (c : C2)
  | look (i j : Nat) (c : CR)

/-- Run one command.  New objects get the next free numbers.  A command naming an object that
does not exist (any more), or the same object twice where they must differ, is skipped. -/
def step {F : Type → Type} [Monad F] (I : Impl F H O C0 C1 C2 CR) (rs : List (Option H)) :
    Cmd C0 C1 C2 CR → F (List (Option H) × Option O)
  | .make c => bind (I.make c) fun x => pure (rs ++ x.1.map some, some x.2)
  | .one i c =>
    match rs[i]?.join with
    | none => pure (rs, none)
    | some h => bind (I.one h c) fun x => pure (rs.set i x.1 ++ x.2.1.map some, some x.2.2)
  | .two i j c =>
    if i = j then pure (rs, none)
    else
      match rs[i]?.join, rs[j]?.join with
      | some h, some k => bind (I.two h k c) fun x =>
          pure ((rs.set i x.1).set j x.2.1 ++ x.2.2.1.map some, some x.2.2.2)
      | _, _ => pure (rs, none)
  | .look i j c =>
    match rs[i]?.join, rs[j]?.join with
    | some h, some k => bind (I.look h k c) fun x => pure (rs, some x)
    | _, _ => pure (rs, none)

/-- Run a program: the objects afterwards, and what each command showed. -/
def run {F : Type → Type} [Monad F] (I : Impl F H O C0 C1 C2 CR) :
    List (Cmd C0 C1 C2 CR) → List (Option H) → F (List (Option H) × List (Option O))
  | [], rs => pure (rs, [])
  | c :: cs, rs =>
    bind (step I rs c) fun x => bind (run I cs x.1) fun y => pure (y.1, x.2 :: y.2)

/-! ## Objects and values -/

/-- An object, if there is one. -/
inductive HoldsO (R : H → M → Multiset (Handle P) → Prop) :
    Option H → Option M → Multiset (Handle P) → Prop
  | none : HoldsO R none none 0
  | some {s l L} : R s l L → HoldsO R (some s) (some l) L

/-- All objects. -/
inductive HoldsR (R : H → M → Multiset (Handle P) → Prop) :
    List (Option H) → List (Option M) → Multiset (Handle P) → Prop
  | nil : HoldsR R [] [] 0
  | cons {s l L ss ls M} : HoldsO R s l L → HoldsR R ss ls M → HoldsR R (s :: ss) (l :: ls) (L + M)

/-- The objects `hs` are the values `ms`. -/
abbrev HoldsL (R : H → M → Multiset (Handle P) → Prop) (hs : List H) (ms : List M)
    (L : Multiset (Handle P)) : Prop :=
  HoldsR R (hs.map some) (ms.map some) L

variable {R : H → M → Multiset (Handle P) → Prop}

theorem HoldsR.append {ss ls L} (h : HoldsR R ss ls L) : ∀ {ss' ls' L'}, HoldsR R ss' ls' L' →
    HoldsR R (ss ++ ss') (ls ++ ls') (L + L') := by
  induction h with
  | nil => intro ss' ls' L' h'; simpa using h'
  | cons h1 _ ih => intro ss' ls' L' h'; rw [add_assoc]; exact .cons h1 (ih h')

theorem HoldsR.length {ss ls L} (h : HoldsR R ss ls L) : ss.length = ls.length := by
  induction h with
  | nil => rfl
  | cons _ _ ih => simp [ih]

theorem HoldsR.single {s l L} (h : R s l L) : HoldsL R [s] [l] L := by
  have := HoldsR.cons (.some h) (HoldsR.nil (R := R))
  rwa [add_zero] at this

/-- What number `i` is, and what replacing it does. -/
theorem HoldsR.get {ss ls L} (h : HoldsR R ss ls L) (i : Nat) :
    ∃ L1 G, L = L1 + G ∧ HoldsO R ss[i]?.join ls[i]?.join L1 ∧
      (ss[i]?.join = none → L1 = 0) ∧
      ∀ s' l' L', HoldsO R s' l' L' → (i < ss.length ∨ L' = 0) →
        HoldsR R (ss.set i s') (ls.set i l') (L' + G) := by
  induction h generalizing i with
  | nil => exact ⟨0, 0, by simp, by simpa using .none, by simp, by
      intro s' l' L' _ h; simp at h; simp [h]; exact .nil⟩
  | @cons s l L ss ls M' h1 h2 ih =>
    cases i with
    | zero =>
      refine ⟨L, M', rfl, by simpa using h1, ?_, fun s' l' L' h' _ => .cons h' h2⟩
      intro e
      simp at e
      subst e
      cases h1; rfl
    | succ i =>
      obtain ⟨L1, G, e, h3, h4, h5⟩ := ih i
      refine ⟨L1, L + G, by rw [e]; ac_rfl, by simpa using h3, by simpa using h4, ?_⟩
      intro s' l' L' h' hi
      have := HoldsR.cons h1 (h5 s' l' L' h' (by simpa using hi))
      have e2 : L' + (L + G) = L + (L' + G) := by ac_rfl
      rw [e2]
      simpa using this

/-- What has to be shown of the operations on values: they do not panic, and keep an invariant. -/
structure Total (V : Impl Option M O C0 C1 C2 CR) (Inv : M → Prop) : Prop where
  make : ∀ c, ∃ y, V.make c = some y ∧ ∀ m ∈ y.1, Inv m
  one : ∀ {m} c, Inv m → ∃ y, V.one m c = some y ∧ (∀ m' ∈ y.1, Inv m') ∧ ∀ m' ∈ y.2.1, Inv m'
  two : ∀ {m n} c, Inv m → Inv n → ∃ y, V.two m n c = some y ∧ (∀ m' ∈ y.1, Inv m') ∧
    (∀ m' ∈ y.2.1, Inv m') ∧ ∀ m' ∈ y.2.2.1, Inv m'
  look : ∀ {m n} c, Inv m → Inv n → ∃ y, V.look m n c = some y

/-- What has to be shown of the operations on memory: they do the same, own what they should and
leave everything else alone. -/
structure Sound (I : Impl (Prog P) H O C0 C1 C2 CR) (V : Impl Option M O C0 C1 C2 CR)
    (Inv : M → Prop) (R : H → M → Multiset (Handle P) → Prop) : Prop where
  make : ∀ {c y}, V.make c = some y → wp (I.make c) 0 (fun x L => x.2 = y.2 ∧ HoldsL R x.1 y.1 L)
  one : ∀ {h m L c y}, Inv m → R h m L → V.one m c = some y →
    wp (I.one h c) L (fun x L' => x.2.2 = y.2.2 ∧ ∃ L1 L2, L' = L1 + L2 ∧
      HoldsO R x.1 y.1 L1 ∧ HoldsL R x.2.1 y.2.1 L2)
  two : ∀ {h m L k n L' c y}, Inv m → Inv n → R h m L → R k n L' → V.two m n c = some y →
    wp (I.two h k c) (L + L') (fun x M => x.2.2.2 = y.2.2.2 ∧ ∃ L1 L2 L3, M = L1 + L2 + L3 ∧
      HoldsO R x.1 y.1 L1 ∧ HoldsO R x.2.1 y.2.1 L2 ∧ HoldsL R x.2.2.1 y.2.2.1 L3)
  look : ∀ {h m L k n L' c y} {M G G' : Multiset (Handle P)}, Inv m → Inv n → R h m L → R k n L' →
    M = L + G → M = L' + G' → V.look m n c = some y →
    wp (I.look h k c) M (fun x M' => x = y ∧ M' = M)

/-- All values satisfy the invariant. -/
def AllInv (Inv : M → Prop) (ms : List (Option M)) : Prop := ∀ m, some m ∈ ms → Inv m

variable {Inv : M → Prop}

theorem AllInv.nil : AllInv Inv ([] : List (Option M)) := by intro m hm; simp at hm

theorem AllInv.get {ms : List (Option M)} (h : AllInv Inv ms) {i : Nat} {m : M}
    (e : ms[i]?.join = some m) : Inv m := by
  apply h
  rw [Option.join_eq_some_iff] at e
  exact List.mem_of_getElem? e

theorem AllInv.set {ms : List (Option M)} (h : AllInv Inv ms) {o : Option M} (ho : ∀ m ∈ o, Inv m)
    (i : Nat) : AllInv Inv (ms.set i o) := by
  intro m hm
  rcases List.mem_or_eq_of_mem_set hm with h1 | h1
  · exact h m h1
  · exact ho m h1.symm

theorem AllInv.append {ms : List (Option M)} (h : AllInv Inv ms) {ns : List M}
    (hn : ∀ m ∈ ns, Inv m) : AllInv Inv (ms ++ ns.map some) := by
  intro m hm
  rcases List.mem_append.1 hm with h1 | h1
  · exact h m h1
  · obtain ⟨n, h2, h3⟩ := List.mem_map.1 h1
    cases h3
    exact hn _ h2

section
variable {I : Impl (Prog P) H O C0 C1 C2 CR} {V : Impl Option M O C0 C1 C2 CR}

theorem step_total (T : Total V Inv) (c : Cmd C0 C1 C2 CR) {ms : List (Option M)}
    (h : AllInv Inv ms) : ∃ y, step V ms c = some y ∧ AllInv Inv y.1 := by
  cases c with
  | make c =>
    obtain ⟨y, e, h1⟩ := T.make c
    exact ⟨(ms ++ y.1.map some, some y.2), by simp [step, e], h.append h1⟩
  | one i c =>
    simp only [step]
    cases hm : ms[i]?.join with
    | none => exact ⟨_, rfl, h⟩
    | some m =>
      obtain ⟨y, e, h1, h2⟩ := T.one c (h.get hm)
      exact ⟨(ms.set i y.1 ++ y.2.1.map some, some y.2.2), by simp [e], (h.set h1 i).append h2⟩
  | two i j c =>
    simp only [step]
    split
    · exact ⟨_, rfl, h⟩
    · cases hm : ms[i]?.join with
      | none => exact ⟨_, rfl, h⟩
      | some m =>
        cases hn : ms[j]?.join with
        | none => exact ⟨_, rfl, h⟩
        | some n =>
          obtain ⟨y, e, h1, h2, h3⟩ := T.two c (h.get hm) (h.get hn)
          exact ⟨((ms.set i y.1).set j y.2.1 ++ y.2.2.1.map some, some y.2.2.2), by simp [e],
            ((h.set h1 i).set h2 j).append h3⟩
  | look i j c =>
    simp only [step]
    cases hm : ms[i]?.join with
    | none => exact ⟨_, rfl, h⟩
    | some m =>
      cases hn : ms[j]?.join with
      | none => exact ⟨_, rfl, h⟩
      | some n =>
        obtain ⟨y, e⟩ := T.look c (h.get hm) (h.get hn)
        exact ⟨(ms, some y), by simp [e], h⟩

theorem run_total (T : Total V Inv) : ∀ (cs : List (Cmd C0 C1 C2 CR)) {ms : List (Option M)},
    AllInv Inv ms → ∃ y, run V cs ms = some y ∧ AllInv Inv y.1
  | [], ms, h => ⟨_, rfl, h⟩
  | c :: cs, ms, h => by
    obtain ⟨y, e, h1⟩ := step_total T c h
    obtain ⟨z, e2, h2⟩ := run_total T cs h1
    exact ⟨(z.1, y.2 :: z.2), by simp [run, e, e2], h2⟩

theorem run_cons {c : Cmd C0 C1 C2 CR} {cs : List (Cmd C0 C1 C2 CR)} {ms : List (Option M)} {z}
    (e : run V (c :: cs) ms = some z) : ∃ y w, step V ms c = some y ∧ run V cs y.1 = some w ∧
      z = (w.1, y.2 :: w.2) := by
  simp only [run, Option.bind_eq_bind, Option.bind_eq_some_iff, Option.pure_def,
    Option.some.injEq] at e
  obtain ⟨y, e1, w, e2, e3⟩ := e
  exact ⟨y, w, e1, e2, e3.symm⟩

theorem step_sound (S : Sound I V Inv R) (c : Cmd C0 C1 C2 CR) {rs ms L y} (h : HoldsR R rs ms L)
    (hI : AllInv Inv ms) (ey : step V ms c = some y) :
    wp (step I rs c) L (fun x L' => x.2 = y.2 ∧ HoldsR R x.1 y.1 L') := by
  have skip : ∀ {rs ms L}, HoldsR R rs ms L → ∀ y, (pure (ms, none) : Option _) = some y →
      wp (pure (rs, none) : Prog P (List (Option H) × Option O)) L
        (fun x L' => x.2 = y.2 ∧ HoldsR R x.1 y.1 L') := by
    rintro rs ms L h y ⟨⟩
    exact wp_pure ⟨rfl, h⟩
  cases c with
  | make c =>
    simp only [step, Option.bind_eq_bind, Option.bind_eq_some_iff, Option.pure_def,
      Option.some.injEq] at ey
    obtain ⟨y, e, rfl⟩ := ey
    refine wp_call L (S.make e) (zero_add _).symm ?_
    rintro x L' ⟨h1, h2⟩
    refine wp_pure ⟨by rw [h1], ?_⟩
    rw [add_comm]
    exact h.append h2
  | one i c =>
    obtain ⟨L1, G, e, h3, h4, h5⟩ := h.get i
    simp only [step] at ey ⊢
    generalize hs : rs[i]?.join = o at h3 ⊢
    generalize hm : ms[i]?.join = o' at h3 ey
    cases h3 with
    | none => exact skip h _ ey
    | @some s l _ h6 =>
      simp only [Option.bind_eq_bind, Option.bind_eq_some_iff, Option.pure_def,
        Option.some.injEq] at ey
      obtain ⟨y, e', rfl⟩ := ey
      refine wp_call G (S.one (hI.get hm) h6 e') e ?_
      rintro x L' ⟨g1, L2, L3, rfl, g2, g3⟩
      refine wp_pure ⟨by rw [g1], ?_⟩
      have hi : i < rs.length := by
        by_contra hc
        rw [List.getElem?_eq_none (by omega)] at hs
        cases hs
      have := (h5 _ _ _ g2 (.inl hi)).append g3
      have e2 : L2 + L3 + G = L2 + G + L3 := by ac_rfl
      rwa [e2]
  | two i j c =>
    simp only [step] at ey ⊢
    split
    · rename_i hij
      rw [if_pos hij] at ey
      exact skip h _ ey
    · rename_i hij
      rw [if_neg hij] at ey
      obtain ⟨L1, G, e, h3, h4, h5⟩ := h.get i
      obtain ⟨L1', G', e', h3', h4', h5'⟩ := h.get j
      generalize hs : rs[i]?.join = o at h3 ⊢
      generalize hm : ms[i]?.join = o' at h3 ey
      generalize hs' : rs[j]?.join = q at h3' ⊢
      generalize hm' : ms[j]?.join = q' at h3' ey
      cases h3 with
      | none => exact skip h _ ey
      | @some s l _ h6 =>
        cases h3' with
        | none => exact skip h _ ey
        | @some s' l' _ h6' =>
          have hi : i < rs.length := by
            by_contra hc
            rw [List.getElem?_eq_none (by omega)] at hs
            cases hs
          have hj : j < rs.length := by
            by_contra hc
            rw [List.getElem?_eq_none (by omega)] at hs'
            cases hs'
          -- number `j` is still there when `i` is taken out
          have hh := h5 none none 0 .none (.inl hi)
          obtain ⟨L2, G2, e2, k3, -, k5⟩ := hh.get j
          rw [List.getElem?_set_ne hij, List.getElem?_set_ne hij, hs', hm'] at k3
          cases k3 with
          | some k6 =>
          simp only [Option.bind_eq_bind, Option.bind_eq_some_iff, Option.pure_def,
            Option.some.injEq] at ey
          obtain ⟨y, ey, rfl⟩ := ey
          rw [zero_add] at e2
          refine wp_call G2 (S.two (hI.get hm) (hI.get hm') h6 k6 ey) (by rw [e, e2]; ac_rfl) ?_
          rintro x L' ⟨g1, A, B, C, rfl, g2, g3, g4⟩
          refine wp_pure ⟨by rw [g1], ?_⟩
          have a1 := k5 none none 0 .none (.inl (by simpa using hj))
          -- put both back
          obtain ⟨Z, G3, z1, z2, z3, z4⟩ := a1.get i
          have hz : Z = 0 := z3 (by
            rw [List.getElem?_set_ne (Ne.symm hij), List.getElem?_set_self hi]; rfl)
          subst hz
          rw [zero_add, zero_add] at z1
          have a2 := z4 _ _ _ g2 (.inl (by simpa using hi))
          obtain ⟨Z, G4, y1, y2, y3, y4⟩ := a2.get j
          have hz : Z = 0 := y3 (by
            rw [List.getElem?_set_ne hij, List.getElem?_set_self (by simpa using hj)]; rfl)
          subst hz
          have a3 := y4 _ _ _ g3 (.inl (by simpa using hj))
          have c1 : ∀ {α : Type} (r : List (Option α)) (a b : Option α),
              ((((r.set i none).set j none).set i a).set j b) = (r.set i a).set j b := by
            intro α r a b
            rw [List.set_comm (l := r.set i none) none a (Ne.symm hij), List.set_set, List.set_set]
          rw [c1, c1] at a3
          have := a3.append g4
          have e3 : A + B + C + G2 = B + G4 + C := by
            rw [zero_add] at y1
            rw [← y1, ← z1]; ac_rfl
          rwa [e3]
  | look i j c =>
    simp only [step] at ey ⊢
    obtain ⟨L1, G, e, h3, h4, h5⟩ := h.get i
    obtain ⟨L1', G', e', h3', h4', h5'⟩ := h.get j
    generalize hs : rs[i]?.join = o at h3 ⊢
    generalize hm : ms[i]?.join = o' at h3 ey
    generalize hs' : rs[j]?.join = q at h3' ⊢
    generalize hm' : ms[j]?.join = q' at h3' ey
    cases h3 with
    | none => exact skip h _ ey
    | @some s l _ h6 =>
      cases h3' with
      | none => exact skip h _ ey
      | @some s' l' _ h6' =>
        simp only [Option.bind_eq_bind, Option.bind_eq_some_iff, Option.pure_def,
          Option.some.injEq] at ey
        obtain ⟨y, ey, rfl⟩ := ey
        refine wp_call 0 (S.look (hI.get hm) (hI.get hm') h6 h6' e e' ey) (add_zero _).symm ?_
        rintro x L' ⟨rfl, rfl⟩
        rw [add_zero]
        exact wp_pure ⟨rfl, h⟩

theorem run_sound (T : Total V Inv) (S : Sound I V Inv R) :
    ∀ (cs : List (Cmd C0 C1 C2 CR)) {rs ms L z},
    HoldsR R rs ms L → AllInv Inv ms → run V cs ms = some z →
      wp (run I cs rs) L (fun x L' => x.2 = z.2 ∧ HoldsR R x.1 z.1 L') := by
  intro cs
  induction cs with
  | nil =>
    intro rs ms L z h _ e
    cases e
    exact wp_pure ⟨rfl, h⟩
  | cons c cs ih =>
    intro rs ms L z h hI e
    obtain ⟨y, w, e1, e2, rfl⟩ := run_cons e
    have hy : AllInv Inv y.1 := by
      obtain ⟨y', e', h'⟩ := step_total T c hI
      rw [e1] at e'; cases e'; exact h'
    refine wp_call 0 (step_sound S c h hI e1) (add_zero _).symm ?_
    rintro x L' ⟨g1, g2⟩
    refine wp_call 0 (ih g2 hy e2) rfl ?_
    rintro x' L' ⟨g3, g4⟩
    rw [add_zero]
    exact wp_pure ⟨by rw [g1, g3], g4⟩

end
end Verif.Heap.Machine
