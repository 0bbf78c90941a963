import Verif.Heap.Wp
/-!
# How many nodes a program allocates

`Mem.next` is the number of nodes allocated so far (addresses are not reused), so the difference
before and after a program is the number of nodes it allocated: new ones and copies of shared ones.
-/
namespace Verif.Heap
variable {P : Type} {α β : Type}

theorem Prog.exec_bind (p : Prog P α) (f : α → Prog P β) : ∀ h : Mem P,
    (p.bind f).exec h = (p.exec h).bind fun x =>
      match x.2 with
      | none => some (x.1, none)
      | some y => (f y).exec x.1 := by
  induction p with
  | pure x => intro h; rfl
  | panic => intro h; rfl
  | op o k ih =>
    intro h
    simp only [Prog.bind, Prog.exec]
    cases o.step h with
    | none => rfl
    | some y => exact ih y.2 y.1

theorem Prog.exec_bind_some {p : Prog P α} {f : α → Prog P β} {h h' : Mem P} {y : β}
    (e : (p.bind f).exec h = some (h', some y)) :
    ∃ h1 x, p.exec h = some (h1, some x) ∧ (f x).exec h1 = some (h', some y) := by
  rw [Prog.exec_bind] at e
  cases hp : p.exec h with
  | none => rw [hp] at e; cases e
  | some z =>
    obtain ⟨h1, z⟩ := z
    rw [hp] at e
    cases z with
    | none => cases e
    | some x => exact ⟨h1, x, rfl, e⟩

theorem exec_lift {o : Op P} {h h' : Mem P} {r : o.Resp}
    (e : (lift o).exec h = some (h', some r)) : o.step h = some (h', r) := by
  simp only [lift, Prog.exec] at e
  cases hs : o.step h with
  | none => rw [hs] at e; cases e
  | some y =>
    obtain ⟨h1, s⟩ := y
    rw [hs] at e
    cases e
    rfl

/-- From any memory with `I`, whenever `p` ends it has allocated at most as many nodes as `n` says
for its result, and `I` holds again. -/
def Cost (I : Mem P → Prop) (p : Prog P α) (n : α → Nat) : Prop :=
  ∀ h, I h → ∀ h' x, p.exec h = some (h', some x) → I h' ∧ h'.next ≤ h.next + n x

section
variable {I : Mem P → Prop} {p : Prog P α} {f : α → Prog P β}

theorem Cost.le {n m : α → Nat} (h : Cost I p n) (hn : ∀ x, n x ≤ m x) : Cost I p m := by
  intro h0 hi h' x e
  obtain ⟨h1, h2⟩ := h h0 hi h' x e
  exact ⟨h1, Nat.le_trans h2 (Nat.add_le_add_left (hn x) _)⟩

theorem Cost.pure {x : α} {n : α → Nat} : Cost I (.pure x) n := by
  rintro h hi _ _ ⟨⟩
  exact ⟨hi, Nat.le_add_right _ _⟩

theorem Cost.panic {n : α → Nat} : Cost I (.panic : Prog P α) n := by
  rintro h hi _ _ ⟨⟩

theorem Cost.bind {n : α → Nat} {m : α → β → Nat} {k : β → Nat} (hp : Cost I p n)
    (hf : ∀ x, Cost I (f x) (m x)) (hk : ∀ x y, n x + m x y ≤ k y) : Cost I (p.bind f) k := by
  intro h hi h' y e
  obtain ⟨h1, x, e1, e2⟩ := Prog.exec_bind_some e
  obtain ⟨i1, n1⟩ := hp h hi h1 x e1
  obtain ⟨i2, n2⟩ := hf x h1 i1 h' y e2
  have := hk x y
  exact ⟨i2, by omega⟩

/-- The first part is free. -/
theorem Cost.zbind {k : β → Nat} (hp : Cost I p (fun _ => 0)) (hf : ∀ x, Cost I (f x) k) :
    Cost I (p.bind f) k :=
  Cost.bind hp hf (fun _ _ => by omega)

/-- The first part costs `a` at most. -/
theorem Cost.sbind {a b k : Nat} (hp : Cost I p (fun _ => a))
    (hf : ∀ x, Cost I (f x) (fun _ => b)) (hk : a + b ≤ k) : Cost I (p.bind f) (fun _ => k) :=
  Cost.bind hp hf (fun _ _ => hk)

theorem Cost.map {g : α → β} {n : α → Nat} {k : β → Nat} (hp : Cost I p n)
    (hk : ∀ x, n x ≤ k (g x)) : Cost I (p.bind fun x => .pure (g x)) k := by
  intro h hi h' y e
  obtain ⟨h1, x, e1, e2⟩ := Prog.exec_bind_some e
  cases e2
  obtain ⟨i1, n1⟩ := hp h hi h' x e1
  exact ⟨i1, Nat.le_trans n1 (Nat.add_le_add_left (hk x) _)⟩

theorem Cost.ite {q : Prog P α} {n : α → Nat} {b : Prop} [Decidable b] (hp : Cost I p n)
    (hq : Cost I q n) : Cost I (if b then p else q) n := by
  by_cases h : b
  · rwa [if_pos h]
  · rwa [if_neg h]

theorem Cost.mbind {n : α → Nat} {k : β → Nat} (hp : Cost I p n)
    (hf : ∀ x, Cost I (f x) (fun y => k y - n x)) (hk : ∀ x y, n x ≤ k y) : Cost I (p.bind f) k :=
  Cost.bind hp hf (fun x y => by have := hk x y; omega)

end

/-- Every node has one owner: nothing is shared. -/
def AllOne (h : Mem P) : Prop := ∀ a c, h.cells a = some c → c.rc = 1

theorem AllOne.empty : AllOne (.empty : Mem P) := by rintro a c ⟨⟩

theorem AllOne.put {h : Mem P} (hi : AllOne h) {a : Nat} {o : Option (Cell P)}
    (ho : ∀ c ∈ o, c.rc = 1) : AllOne (h.put a o) := by
  intro b c hc
  simp only [Mem.put] at hc
  split at hc
  · exact ho c hc
  · exact hi b c hc

/-- What is used of `I`: kept by all steps but the cloning of handles; `Arc::make_mut` copies at
most `c` nodes. -/
structure Frugal (I : Mem P → Prop) (c : Nat) : Prop where
  alloc : ∀ n, Cost I (lift (.alloc n)) (fun _ => 1)
  read : ∀ a path, Cost I (lift (.read a path)) (fun _ => 0)
  isUnique : ∀ a, Cost I (lift (.isUnique a)) (fun _ => 0)
  dec : ∀ a, Cost I (lift (.dec a)) (fun _ => 0)
  tryUnwrap : ∀ a, Cost I (lift (.tryUnwrap a)) (fun _ => 0)
  open_ : ∀ a, Cost I (lift (.open a)) (fun _ => 0)
  close : ∀ a n, Cost I (lift (.close a n)) (fun _ => 0)
  makeMut : ∀ D a, Cost I (makeMut D a) (fun _ => c)
  unwrapOrClone : ∀ D a, Cost I (unwrapOrClone D a) (fun _ => 0)

theorem AllOne.step {h h' : Mem P} {o : Op P} {r : o.Resp} (hi : AllOne h)
    (e : o.step h = some (h', r)) (h1 : ∀ a, o ≠ .inc a) (h2 : ∀ a p i, o ≠ .incAt a p i) :
    AllOne h' := by
  cases o with
  | alloc n =>
    cases e
    intro b c hc
    simp only [Mem.put] at hc
    split at hc
    · cases hc; rfl
    · exact hi b c hc
  | read a path =>
    simp only [Op.step, Option.map_eq_some_iff] at e
    obtain ⟨c, -, e⟩ := e
    cases e; exact hi
  | incAt a path i => exact absurd rfl (h2 a path i)
  | inc a => exact absurd rfl (h1 a)
  | isUnique a =>
    simp only [Op.step] at e
    split at e <;> cases e
    exact hi
  | dec a =>
    simp only [Op.step] at e
    split at e
    · cases e
    · next c hc =>
      rw [if_pos (hi a c hc)] at e
      cases e
      exact hi.put (by simp)
  | tryUnwrap a =>
    simp only [Op.step] at e
    split at e
    · cases e
    · next c hc =>
      rw [if_pos (hi a c hc)] at e
      cases e
      exact hi.put (by simp)
  | «open» a =>
    simp only [Op.step] at e
    split at e
    · cases e
    · split at e <;> cases e
      exact hi.put (by rintro _ ⟨⟩; rfl)
  | close a n =>
    simp only [Op.step] at e
    split at e
    · cases e
    · split at e <;> cases e
      exact hi.put (by rintro _ ⟨⟩; rfl)
  | ptrEq a path b path' =>
    simp only [Op.step] at e
    split at e <;> cases e
    exact hi

/-- One step allocates one node or none. -/
theorem step_next {h h' : Mem P} {o : Op P} {r : o.Resp} (e : o.step h = some (h', r))
    (h1 : ∀ n, o ≠ .alloc n) : h'.next = h.next := by
  cases o with
  | alloc n => exact absurd rfl (h1 n)
  | read a path =>
    simp only [Op.step, Option.map_eq_some_iff] at e
    obtain ⟨c, -, e⟩ := e
    cases e; rfl
  | incAt a path i =>
    simp only [Op.step] at e
    split at e
    · cases e
    · split at e
      · cases e
      · cases e; rfl
      · split at e <;> cases e
        rfl
  | inc a | isUnique a =>
    simp only [Op.step] at e
    split at e <;> cases e
    rfl
  | dec a | tryUnwrap a | «open» a | close a n =>
    simp only [Op.step] at e
    split at e
    · cases e
    · split at e <;> cases e <;> rfl
  | ptrEq a path b path' =>
    simp only [Op.step] at e
    split at e <;> cases e
    rfl

/-- The number of nodes allocated does not sink. -/
theorem exec_next_le : ∀ {p : Prog P α} {h h' : Mem P} {x : Option α},
    p.exec h = some (h', x) → h.next ≤ h'.next
  | .pure _, _, _, _, e => by cases e; exact Nat.le_refl _
  | .panic, _, _, _, e => by cases e; exact Nat.le_refl _
  | .op o k, h, h', x, e => by
    simp only [Prog.exec] at e
    cases hs : o.step h with
    | none => rw [hs] at e; cases e
    | some y =>
      obtain ⟨h1, r⟩ := y
      rw [hs] at e
      refine Nat.le_trans ?_ (exec_next_le e)
      by_cases ho : ∃ n, o = .alloc n
      · obtain ⟨n, rfl⟩ := ho
        cases hs
        exact Nat.le_succ _
      · exact Nat.le_of_eq (step_next hs (fun n hn => ho ⟨n, hn⟩)).symm

theorem cost_lift {I : Mem P → Prop} (o : Op P)
    (hI : ∀ {h h' : Mem P} {r : o.Resp}, I h → o.step h = some (h', r) → I h')
    (h1 : ∀ n, o ≠ .alloc n) : Cost I (lift o) (fun _ => 0) := by
  intro h hi h' x e
  have e := exec_lift e
  exact ⟨hI hi e, by rw [step_next e h1]; omega⟩

theorem cost_alloc {I : Mem P → Prop} (n : Node P)
    (hI : ∀ {h h' : Mem P} {r : Nat}, I h → (Op.alloc n).step h = some (h', r) → I h') :
    Cost I (lift (.alloc n)) (fun _ => 1) := by
  intro h hi h' x e
  have e := exec_lift e
  refine ⟨hI hi e, ?_⟩
  cases e
  exact Nat.le_refl _

theorem cost_drop {I : Mem P → Prop} (hd : ∀ a, Cost I (lift (.dec a)) (fun _ => 0)) :
    ∀ D r, Cost I (drop D r) (fun _ => 0) := by
  intro D
  induction D with
  | zero =>
    intro r
    cases r with
    | none => exact .pure
    | some => exact .panic
  | succ D ih =>
    intro r
    cases r with
    | none => exact .pure
    | some a =>
      refine Cost.zbind (hd a) ?_
      rintro (_ | n)
      · exact .pure
      · have : ∀ ks : List (Option Nat), Cost I (forAll (drop D) ks) (fun _ => 0) := by
          intro ks
          induction ks with
          | nil => exact .pure
          | cons k ks ihk => exact Cost.zbind (ih k) (fun _ => ihk)
        exact this _

theorem cost_cloneKids {a : Nat} : ∀ n i, Cost (fun _ : Mem P => True) (cloneKids a i n)
    (fun _ => 0) := by
  intro n
  induction n with
  | zero => intro i; exact .pure
  | succ n ih =>
    intro i
    exact Cost.zbind (cost_lift _ (fun _ _ => trivial) (by intros; exact nofun))
      (fun r => Cost.zbind (ih (i + 1)) (fun _ => .pure))

/-- Whatever is shared. -/
theorem Frugal.always : Frugal (fun _ : Mem P => True) 1 where
  alloc n := cost_alloc n (fun _ _ => trivial)
  read _ _ := cost_lift _ (fun _ _ => trivial) (by intros; exact nofun)
  isUnique _ := cost_lift _ (fun _ _ => trivial) (by intros; exact nofun)
  dec _ := cost_lift _ (fun _ _ => trivial) (by intros; exact nofun)
  tryUnwrap _ := cost_lift _ (fun _ _ => trivial) (by intros; exact nofun)
  open_ _ := cost_lift _ (fun _ _ => trivial) (by intros; exact nofun)
  close _ _ := cost_lift _ (fun _ _ => trivial) (by intros; exact nofun)
  makeMut D a := by
    refine Cost.zbind (cost_lift _ (fun _ _ => trivial) (by intros; exact nofun)) ?_
    intro b
    split
    · exact .pure
    · refine Cost.zbind (cost_lift _ (fun _ _ => trivial) (by intros; exact nofun)) fun n => ?_
      refine Cost.zbind (cost_cloneKids _ _) fun ks => ?_
      refine Cost.sbind (b := 0) (cost_alloc _ (fun _ _ => trivial)) (fun a' => ?_) (Nat.le_refl _)
      exact Cost.zbind
        (cost_drop (fun _ => cost_lift _ (fun _ _ => trivial) (by intros; exact nofun)) _ _)
        (fun _ => .pure)
  unwrapOrClone D a := by
    refine Cost.zbind (cost_lift _ (fun _ _ => trivial) (by intros; exact nofun)) ?_
    rintro (_ | n)
    · refine Cost.zbind (cost_lift _ (fun _ _ => trivial) (by intros; exact nofun)) fun n => ?_
      refine Cost.zbind (cost_cloneKids _ _) fun ks => ?_
      exact Cost.zbind
        (cost_drop (fun _ => cost_lift _ (fun _ _ => trivial) (by intros; exact nofun)) _ _)
        (fun _ => .pure)
    · exact .pure

theorem AllOne.unique {h h' : Mem P} {a : Nat} {r : (Op.isUnique (P := P) a).Resp} (hi : AllOne h)
    (e : (Op.isUnique a).step h = some (h', r)) : r = true := by
  simp only [Op.step] at e
  cases hc : h.cells a with
  | none => rw [hc] at e; cases e
  | some c =>
    rw [hc] at e
    cases e
    exact decide_eq_true (hi a c hc)

theorem AllOne.unwraps {h h' : Mem P} {a : Nat} {r : (Op.tryUnwrap (P := P) a).Resp}
    (hi : AllOne h) (e : (Op.tryUnwrap a).step h = some (h', r)) : ∃ n, r = some n := by
  simp only [Op.step] at e
  cases hc : h.cells a with
  | none => rw [hc] at e; cases e
  | some c =>
    simp only [hc] at e
    rw [if_pos (hi a c hc)] at e
    cases e
    exact ⟨_, rfl⟩

/-- As long as nothing is shared. -/
theorem Frugal.alone : Frugal (AllOne (P := P)) 0 where
  alloc n := cost_alloc n (fun hi e => hi.step e (by intros; exact nofun) (by intros; exact nofun))
  read _ _ := cost_lift _ (fun hi e => hi.step e (by intros; exact nofun) (by intros; exact nofun))
    (by intros; exact nofun)
  isUnique _ := cost_lift _ (fun hi e => hi.step e (by intros; exact nofun)
    (by intros; exact nofun)) (by intros; exact nofun)
  dec _ := cost_lift _ (fun hi e => hi.step e (by intros; exact nofun)
    (by intros; exact nofun)) (by intros; exact nofun)
  tryUnwrap _ := cost_lift _ (fun hi e => hi.step e (by intros; exact nofun)
    (by intros; exact nofun)) (by intros; exact nofun)
  open_ _ := cost_lift _ (fun hi e => hi.step e (by intros; exact nofun)
    (by intros; exact nofun)) (by intros; exact nofun)
  close _ _ := cost_lift _ (fun hi e => hi.step e (by intros; exact nofun)
    (by intros; exact nofun)) (by intros; exact nofun)
  makeMut D a := by
    intro h hi h' x e
    obtain ⟨h1, b, e1, e2⟩ := Prog.exec_bind_some e
    have e1 := exec_lift e1
    have hb := hi.unique e1
    subst hb
    have i1 := hi.step e1 (by intros; exact nofun) (by intros; exact nofun)
    cases e2
    exact ⟨i1, by rw [step_next e1 (by intros; exact nofun)]; omega⟩
  unwrapOrClone D a := by
    intro h hi h' x e
    obtain ⟨h1, b, e1, e2⟩ := Prog.exec_bind_some e
    have e1 := exec_lift e1
    obtain ⟨n, rfl⟩ := hi.unwraps e1
    have i1 := hi.step e1 (by intros; exact nofun) (by intros; exact nofun)
    cases e2
    exact ⟨i1, by rw [step_next e1 (by intros; exact nofun)]; omega⟩

/-! ## More recursion depth does not matter to a program that ends -/

/-- `q` does what `p` does, except where `p` panics. -/
def Prog.Le : Prog P α → Prog P α → Prop
  | .panic, _ => True
  | .pure x, q => q = .pure x
  | .op o k, q => ∃ k', q = .op o k' ∧ ∀ r, (k r).Le (k' r)

theorem Prog.Le.refl : ∀ p : Prog P α, p.Le p
  | .panic => trivial
  | .pure _ => rfl
  | .op _ k => ⟨k, rfl, fun r => Prog.Le.refl (k r)⟩

theorem Prog.Le.bind {f f' : α → Prog P β} (hf : ∀ x, (f x).Le (f' x)) : ∀ {p q : Prog P α},
    p.Le q → (p.bind f).Le (q.bind f')
  | .panic, _, _ => trivial
  | .pure x, q, h => by
    have h : q = .pure x := h
    subst h
    exact hf x
  | .op o k, q, h => by
    obtain ⟨k', rfl, hk⟩ := h
    exact ⟨_, rfl, fun r => Prog.Le.bind hf (hk r)⟩

theorem Prog.Le.exec : ∀ {p q : Prog P α}, p.Le q → ∀ {h h' : Mem P} {x : α},
    p.exec h = some (h', some x) → q.exec h = some (h', some x)
  | .panic, _, _, h, h', x, e => by cases e
  | .pure y, q, hq, h, h', x, e => by
    have hq : q = .pure y := hq
    subst hq
    exact e
  | .op o k, q, hq, h, h', x, e => by
    obtain ⟨k', rfl, hk⟩ := hq
    simp only [Prog.exec] at e ⊢
    cases hs : o.step h with
    | none => rw [hs] at e; cases e
    | some y =>
      rw [hs] at e
      exact Prog.Le.exec (hk y.2) e

/-- From the handles `L` the program ends with a result and handles as `Q` says, having allocated
at most as many nodes as `n` says for its result. -/
def Spends (I : Mem P → Prop) (p : Prog P α) (L : Multiset (Handle P))
    (Q : α → Multiset (Handle P) → Prop) (n : α → Nat) : Prop :=
  ∀ h F, Own h (L + F) → I h → ∃ h' x L', p.exec h = some (h', some x) ∧ Own h' (L' + F) ∧
    Q x L' ∧ I h' ∧ h'.next ≤ h.next + n x

section
variable {I : Mem P → Prop} {p q : Prog P α} {L : Multiset (Handle P)}
  {Q Q' : α → Multiset (Handle P) → Prop} {n : α → Nat}

/-- A program costs no more than one that agrees with it except for panics, if that does not
panic. -/
theorem Spends.of_le (hle : p.Le q) (hc : Cost I p n) (hp : wp p L Q') (hq : wp q L Q) :
    Spends I q L Q n := by
  intro h F ho hi
  obtain ⟨h1, x1, L1, e1, o1, q1⟩ := wp_exec hq ho
  obtain ⟨h2, x2, L2, e2, -, -⟩ := wp_exec hp ho
  have e3 := hle.exec e2
  rw [e1] at e3
  cases e3
  obtain ⟨i1, n1⟩ := hc h hi h1 x1 e2
  exact ⟨h1, x1, L1, e1, o1, q1, i1, n1⟩

/-- The same for the first part of a program. -/
theorem Spends.of_le_bind' {f : α → Prog P β} {R : β → Multiset (Handle P) → Prop}
    {m : α → β → Nat} {k : β → Nat} (hle : p.Le q) (hc : Cost I p n) (hp : wp p L Q)
    (hf : ∀ x, Cost I (f x) (m x)) (hq : wp (q.bind f) L R)
    (hk : ∀ x y h h', (f x).exec h = some (h', some y) → n x + m x y ≤ k y) :
    Spends I (q.bind f) L R k := by
  intro h F ho hi
  obtain ⟨h1, x1, L1, e1, o1, q1⟩ := wp_exec hq ho
  obtain ⟨h2, x2, L2, e2, -, -⟩ := wp_exec hp ho
  have e3 := hle.exec e2
  obtain ⟨i2, n2⟩ := hc h hi h2 x2 e2
  have e4 := e1
  rw [Prog.exec_bind, e3] at e4
  obtain ⟨i1, n1⟩ := hf x2 h2 i2 h1 x1 e4
  have := hk x2 x1 _ _ e4
  exact ⟨h1, x1, L1, e1, o1, q1, i1, by omega⟩

theorem Spends.of_le_bind {f : α → Prog P β} {R : β → Multiset (Handle P) → Prop} {m : α → β → Nat}
    {k : β → Nat} (hle : p.Le q) (hc : Cost I p n) (hp : wp p L Q)
    (hf : ∀ x, Cost I (f x) (m x)) (hq : wp (q.bind f) L R) (hk : ∀ x y, n x + m x y ≤ k y) :
    Spends I (q.bind f) L R k :=
  Spends.of_le_bind' hle hc hp hf hq (fun x y _ _ _ => hk x y)

theorem Spends.of_cost (hc : Cost I p n) (hp : wp p L Q) : Spends I p L Q n :=
  Spends.of_le (Prog.Le.refl p) hc hp hp

theorem Spends.conseq {m : α → Nat} (hp : Spends I p L Q n) (hQ : ∀ x L, Q x L → Q' x L)
    (hn : ∀ x L, Q x L → n x ≤ m x) : Spends I p L Q' m := by
  intro h F ho hi
  obtain ⟨h1, x1, L1, e1, o1, q1, i1, n1⟩ := hp h F ho hi
  have := hn _ _ q1
  exact ⟨h1, x1, L1, e1, o1, hQ _ _ q1, i1, by omega⟩

theorem Spends.bind {f : α → Prog P β} {R : β → Multiset (Handle P) → Prop} {m : α → β → Nat}
    {k : β → Nat} (hp : Spends I p L Q n) (hf : ∀ x L', Q x L' → Spends I (f x) L' R (m x))
    (hk : ∀ x y, n x + m x y ≤ k y) : Spends I (p.bind f) L R k := by
  intro h F ho hi
  obtain ⟨h1, x1, L1, e1, o1, q1, i1, n1⟩ := hp h F ho hi
  obtain ⟨h2, x2, L2, e2, o2, q2, i2, n2⟩ := hf x1 L1 q1 h1 F o1 i1
  have := hk x1 x2
  refine ⟨h2, x2, L2, ?_, o2, q2, i2, by omega⟩
  rw [Prog.exec_bind, e1]
  exact e2

theorem Spends.pure {x : α} (h : Q x L) : Spends I (.pure x) L Q n := by
  intro h0 F ho hi
  exact ⟨h0, x, L, rfl, ho, h, hi, Nat.le_add_right _ _⟩

theorem Spends.map {g : α → β} {R : β → Multiset (Handle P) → Prop} {m : β → Nat}
    (hp : Spends I p L Q n) (hf : ∀ x L', Q x L' → R (g x) L')
    (hm : ∀ x L', Q x L' → n x ≤ m (g x)) : Spends I (p.bind fun x => .pure (g x)) L R m := by
  intro h F ho hi
  obtain ⟨h1, x1, L1, e1, o1, q1, i1, n1⟩ := hp h F ho hi
  have := hm _ _ q1
  refine ⟨h1, g x1, L1, ?_, o1, hf _ _ q1, i1, by omega⟩
  rw [Prog.exec_bind, e1]
  rfl

end

/-! ## Programs that only read -/

/-- Steps that change nothing. -/
def Op.isRead : Op P → Prop
  | .read _ _ | .isUnique _ | .ptrEq _ _ _ _ => True
  | _ => False

theorem Op.isRead.step {o : Op P} (ho : o.isRead) {h h' : Mem P} {r : o.Resp}
    (e : o.step h = some (h', r)) : h' = h := by
  cases o with
  | read a path =>
    simp only [Op.step, Option.map_eq_some_iff] at e
    obtain ⟨c, -, e⟩ := e
    cases e; rfl
  | isUnique a =>
    simp only [Op.step] at e
    split at e <;> cases e
    rfl
  | ptrEq a path b path' =>
    simp only [Op.step] at e
    split at e <;> cases e
    rfl
  | alloc | incAt | inc | dec | tryUnwrap | «open» | close => exact ho.elim

/-- All steps of the program, whatever they return, are reading ones. -/
def Prog.ReadOnly : Prog P α → Prop
  | .pure _ | .panic => True
  | .op o k => o.isRead ∧ ∀ r, (k r).ReadOnly

theorem Prog.ReadOnly.bind {f : α → Prog P β} (hf : ∀ x, (f x).ReadOnly) : ∀ {p : Prog P α},
    p.ReadOnly → (p.bind f).ReadOnly
  | .pure x, _ => hf x
  | .panic, _ => trivial
  | .op _ k, h => ⟨h.1, fun r => Prog.ReadOnly.bind hf (h.2 r)⟩

theorem Prog.ReadOnly.map {p : Prog P α} {g : α → β} (h : p.ReadOnly) :
    (p.bind fun x => .pure (g x)).ReadOnly :=
  Prog.ReadOnly.bind (f := fun x => .pure (g x)) (fun _ => trivial) h

theorem Prog.ReadOnly.ite {p q : Prog P α} {b : Prop} [Decidable b] (hp : p.ReadOnly)
    (hq : q.ReadOnly) : (if b then p else q).ReadOnly := by
  split
  · exact hp
  · exact hq

theorem Prog.ReadOnly.exec : ∀ {p : Prog P α}, p.ReadOnly → ∀ {h h' : Mem P} {x : Option α},
    p.exec h = some (h', x) → h' = h
  | .pure x, _, _, _, _, e => by cases e; rfl
  | .panic, _, _, _, _, e => by cases e; rfl
  | .op o k, hp, h, h', x, e => by
    simp only [Prog.exec] at e
    cases hs : o.step h with
    | none => rw [hs] at e; cases e
    | some y =>
      obtain ⟨h1, r⟩ := y
      rw [hs] at e
      have := hp.1.step hs
      subst this
      exact Prog.ReadOnly.exec (hp.2 r) e

theorem Prog.ReadOnly.lift {o : Op P} (h : o.isRead) : (Heap.lift o).ReadOnly :=
  ⟨h, fun _ => trivial⟩

theorem Prog.ReadOnly.cost {p : Prog P α} (h : p.ReadOnly) {I : Mem P → Prop} {n : α → Nat} :
    Cost I p n := by
  intro h0 hi h' x e
  rw [h.exec e]
  exact ⟨hi, Nat.le_add_right _ _⟩

/-! ## Programs that allocate nothing -/

/-- No step of the program allocates, whatever the steps return. -/
def Prog.NoAlloc : Prog P α → Prop
  | .pure _ | .panic => True
  | .op o k => (∀ n, o ≠ .alloc n) ∧ ∀ r, (k r).NoAlloc

theorem Prog.NoAlloc.bind {f : α → Prog P β} (hf : ∀ x, (f x).NoAlloc) : ∀ {p : Prog P α},
    p.NoAlloc → (p.bind f).NoAlloc
  | .pure x, _ => hf x
  | .panic, _ => trivial
  | .op _ k, h => ⟨h.1, fun r => Prog.NoAlloc.bind hf (h.2 r)⟩

theorem Prog.NoAlloc.map {p : Prog P α} {g : α → β} (h : p.NoAlloc) :
    (p.bind fun x => .pure (g x)).NoAlloc :=
  Prog.NoAlloc.bind (f := fun x => .pure (g x)) (fun _ => trivial) h

theorem Prog.NoAlloc.lift {o : Op P} (h : ∀ n, o ≠ .alloc n) : (Heap.lift o).NoAlloc :=
  ⟨h, fun _ => trivial⟩

theorem Prog.NoAlloc.exec : ∀ {p : Prog P α}, p.NoAlloc → ∀ {h h' : Mem P} {x : Option α},
    p.exec h = some (h', x) → h'.next = h.next
  | .pure x, _, _, _, _, e => by cases e; rfl
  | .panic, _, _, _, _, e => by cases e; rfl
  | .op o k, hp, h, h', x, e => by
    simp only [Prog.exec] at e
    cases hs : o.step h with
    | none => rw [hs] at e; cases e
    | some y =>
      obtain ⟨h1, r⟩ := y
      rw [hs] at e
      rw [Prog.NoAlloc.exec (hp.2 r) e, step_next hs hp.1]

theorem Prog.NoAlloc.cost {p : Prog P α} (h : p.NoAlloc) {n : α → Nat} :
    Cost (fun _ => True) p n := by
  intro h0 _ h' x e
  rw [h.exec e]
  exact ⟨trivial, Nat.le_add_right _ _⟩

theorem Prog.ReadOnly.noAlloc : ∀ {p : Prog P α}, p.ReadOnly → p.NoAlloc
  | .pure _, _ => trivial
  | .panic, _ => trivial
  | .op o k, h => ⟨by rintro n rfl; exact h.1, fun r => (h.2 r).noAlloc⟩

theorem drop_noAlloc : ∀ D r, (drop D r : Prog P Unit).NoAlloc := by
  intro D
  induction D with
  | zero =>
    intro r
    cases r <;> exact trivial
  | succ D ih =>
    intro r
    cases r with
    | none => exact trivial
    | some a =>
      refine Prog.NoAlloc.bind ?_ (Prog.NoAlloc.lift nofun)
      rintro (_ | n)
      · exact trivial
      · have : ∀ ks : List (Option Nat), (forAll (drop D) ks : Prog P Unit).NoAlloc := by
          intro ks
          induction ks with
          | nil => exact trivial
          | cons k ks ihk => exact Prog.NoAlloc.bind (fun _ => ihk) (ih k)
        exact this _

end Verif.Heap
