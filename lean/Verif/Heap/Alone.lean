import Verif.Heap.MachineCost
/-!
# Objects that share no node

A program that works on an object none of whose nodes has a second owner allocates what it would
allocate if there were nothing else in memory.
-/
namespace Verif.Heap
variable {P : Type} {α : Type}

/-- The node at `a` can be reached by the link `r`. -/
inductive Reach (h : Mem P) (r : Option Nat) : Nat → Prop
  | root {a : Nat} : r = some a → Reach h r a
  | link {a b : Nat} {c : Cell P} : Reach h r a → h.cells a = some c → some b ∈ c.node.kids →
      Reach h r b

/-! ## The rest of memory -/

/-- Memory `h` and the further cells `k`. -/
def Mem.add (h : Mem P) (k : Nat → Option (Cell P)) : Mem P :=
  ⟨fun a => (h.cells a).or (k a), h.next⟩

/-- The cells `k` are not in use in `h`. -/
def Apart (h : Mem P) (k : Nat → Option (Cell P)) : Prop :=
  ∀ a c, k a = some c → h.cells a = none ∧ a < h.next

section
variable {h h' : Mem P} {k : Nat → Option (Cell P)}

theorem add_cells {a : Nat} {c : Cell P} (e : h.cells a = some c) :
    (h.add k).cells a = some c := by simp [Mem.add, e]

theorem add_walk : ∀ {path : List Nat} {a : Nat} {c : Cell P}, h.walk a path = some c →
    (h.add k).walk a path = some c
  | [], a, c, e => add_cells e
  | i :: is, a, c, e => by
    simp only [Mem.walk] at e ⊢
    cases hc : h.cells a with
    | none => rw [hc] at e; cases e
    | some d =>
      rw [hc] at e
      rw [add_cells hc]
      simp only at e ⊢
      split at e
      · exact add_walk e
      · cases e

theorem add_addr : ∀ {path : List Nat} {a b : Nat}, h.addr a path = some b →
    (h.add k).addr a path = some b
  | [], a, b, e => e
  | i :: is, a, b, e => by
    simp only [Mem.addr] at e ⊢
    cases hc : h.cells a with
    | none => rw [hc] at e; cases e
    | some d =>
      rw [hc] at e
      rw [add_cells hc]
      simp only at e ⊢
      split at e
      · exact add_addr e
      · cases e

theorem add_put (hk : Apart h k) {a : Nat} {c : Cell P} (e : h.cells a = some c)
    (o : Option (Cell P)) : (h.add k).put a o = (h.put a o).add k ∧ Apart (h.put a o) k := by
  constructor
  · simp only [Mem.put, Mem.add, Mem.mk.injEq, and_true]
    funext b
    split
    · next hb =>
      subst hb
      cases hk' : k b with
      | none => simp
      | some d => rw [(hk _ _ hk').1] at e; cases e
    · rfl
  · intro b d hb
    have := hk b d hb
    refine ⟨?_, this.2⟩
    simp only [Mem.put]
    split
    · next hba => subst hba; rw [this.1] at e; cases e
    · exact this.1

theorem step_add (hk : Apart h k) {o : Op P} {r : o.Resp} (e : o.step h = some (h', r)) :
    o.step (h.add k) = some (h'.add k, r) ∧ Apart h' k := by
  cases o with
  | alloc n =>
    cases e
    refine ⟨?_, ?_⟩
    · simp only [Op.step, Mem.put, Mem.add]
      exact congrArg (fun z => some ((⟨z, h.next + 1⟩ : Mem P), h.next))
        (funext fun b => by by_cases hb : b = h.next <;> simp [hb])
    · intro b d hb
      have := hk b d hb
      refine ⟨?_, Nat.lt_succ_of_lt this.2⟩
      simp only [Mem.put]
      rw [if_neg (by omega)]
      exact this.1
  | read a path =>
    simp only [Op.step, Option.map_eq_some_iff] at e ⊢
    obtain ⟨c, hc, e⟩ := e
    cases e
    exact ⟨⟨c, add_walk hc, rfl⟩, hk⟩
  | incAt a path i =>
    simp only [Op.step] at e ⊢
    cases hw : h.walk a path with
    | none => rw [hw] at e; cases e
    | some c =>
      rw [hw] at e
      rw [add_walk hw]
      simp only at e ⊢
      split at e
      · cases e
      · cases e; exact ⟨rfl, hk⟩
      · next b hb =>
        cases hc : h.cells b with
        | none => rw [hc] at e; cases e
        | some d =>
          rw [hc] at e
          cases e
          rw [add_cells hc]
          simp only
          rw [(add_put hk hc _).1]
          exact ⟨rfl, (add_put hk hc _).2⟩
  | inc a =>
    simp only [Op.step] at e ⊢
    cases hc : h.cells a with
    | none => rw [hc] at e; cases e
    | some c =>
      rw [hc] at e
      cases e
      rw [add_cells hc]
      simp only
      rw [(add_put hk hc _).1]
      exact ⟨rfl, (add_put hk hc _).2⟩
  | isUnique a =>
    simp only [Op.step] at e ⊢
    cases hc : h.cells a with
    | none => rw [hc] at e; cases e
    | some c =>
      rw [hc] at e
      cases e
      rw [add_cells hc]
      exact ⟨rfl, hk⟩
  | dec a =>
    simp only [Op.step] at e ⊢
    cases hc : h.cells a with
    | none => rw [hc] at e; cases e
    | some c =>
      rw [hc] at e
      rw [add_cells hc]
      simp only at e ⊢
      split at e <;> cases e
      · next h1 =>
        rw [if_pos h1, (add_put hk hc _).1]
        exact ⟨rfl, (add_put hk hc _).2⟩
      · next h1 =>
        rw [if_neg h1, (add_put hk hc _).1]
        exact ⟨rfl, (add_put hk hc _).2⟩
  | tryUnwrap a =>
    simp only [Op.step] at e ⊢
    cases hc : h.cells a with
    | none => rw [hc] at e; cases e
    | some c =>
      rw [hc] at e
      rw [add_cells hc]
      simp only at e ⊢
      split at e <;> cases e
      · next h1 =>
        rw [if_pos h1, (add_put hk hc _).1]
        exact ⟨rfl, (add_put hk hc _).2⟩
      · next h1 =>
        rw [if_neg h1]
        exact ⟨rfl, hk⟩
  | «open» a =>
    simp only [Op.step] at e ⊢
    cases hc : h.cells a with
    | none => rw [hc] at e; cases e
    | some c =>
      rw [hc] at e
      rw [add_cells hc]
      simp only at e ⊢
      split at e <;> cases e
      next h1 =>
        rw [if_pos h1, (add_put hk hc _).1]
        exact ⟨rfl, (add_put hk hc _).2⟩
  | close a n =>
    simp only [Op.step] at e ⊢
    cases hc : h.cells a with
    | none => rw [hc] at e; cases e
    | some c =>
      rw [hc] at e
      rw [add_cells hc]
      simp only at e ⊢
      split at e <;> cases e
      next h1 =>
        rw [if_pos h1, (add_put hk hc _).1]
        exact ⟨rfl, (add_put hk hc _).2⟩
  | ptrEq a path b path' =>
    simp only [Op.step] at e ⊢
    split at e <;> cases e
    next x y h1 h2 =>
      rw [add_addr h1, add_addr h2]
      exact ⟨rfl, hk⟩

end

/-- What a program does does not depend on memory it does not use. -/
theorem exec_add : ∀ {p : Prog P α} {h h' : Mem P} {k : Nat → Option (Cell P)} {x : Option α},
    Apart h k → p.exec h = some (h', x) → p.exec (h.add k) = some (h'.add k, x)
  | .pure _, h, h', k, x, _, e => by cases e; rfl
  | .panic, h, h', k, x, _, e => by cases e; rfl
  | .op o f, h, h', k, x, hk, e => by
    simp only [Prog.exec] at e ⊢
    cases hs : o.step h with
    | none => rw [hs] at e; cases e
    | some y =>
      obtain ⟨h1, r⟩ := y
      rw [hs] at e
      obtain ⟨e1, hk1⟩ := step_add hk hs
      rw [e1]
      exact exec_add hk1 e

/-! ## An object alone -/

open Classical in
/-- The nodes of the object at `r` alone. -/
noncomputable def only (h : Mem P) (r : Option Nat) : Mem P :=
  ⟨fun a => if Reach h r a then h.cells a else none, h.next⟩

open Classical in
/-- The other nodes. -/
noncomputable def rest (h : Mem P) (r : Option Nat) : Nat → Option (Cell P) :=
  fun a => if Reach h r a then none else h.cells a

theorem only_cells {h : Mem P} {r : Option Nat} {a : Nat} (hr : Reach h r a) :
    (only h r).cells a = h.cells a := by
  simp only [only]
  exact if_pos hr

theorem only_not {h : Mem P} {r : Option Nat} {a : Nat} (hr : ¬ Reach h r a) :
    (only h r).cells a = none := by
  simp only [only]
  exact if_neg hr

theorem only_add (h : Mem P) (r : Option Nat) : (only h r).add (rest h r) = h := by
  unfold Mem.add
  have : (fun a => ((only h r).cells a).or (rest h r a)) = h.cells := by
    funext a
    by_cases hr : Reach h r a
    · rw [only_cells hr]
      cases hc : h.cells a with
      | some c => rfl
      | none =>
        simp only [rest, Option.none_or]
        exact if_pos hr
    · rw [only_not hr]
      simp only [rest, Option.none_or]
      exact if_neg hr
  rw [this]
  rfl

theorem Own.lt {h : Mem P} {L : Multiset (Handle P)} (ho : Own h L) {a : Nat} {c : Cell P}
    (e : h.cells a = some c) : a < h.next := by
  by_contra hn
  rw [ho.fin a (by omega)] at e
  cases e

theorem only_apart {h : Mem P} {L : Multiset (Handle P)} (ho : Own h L) (r : Option Nat) :
    Apart (only h r) (rest h r) := by
  intro a c e
  have hr : ¬ Reach h r a := by
    intro hr
    simp only [rest] at e
    rw [if_pos hr] at e
    cases e
  refine ⟨only_not hr, ?_⟩
  simp only [rest] at e
  rw [if_neg hr] at e
  exact ho.lt e

theorem Rep.only {h : Mem P} {r : Option Nat} : ∀ {q : Option Nat} {t : VT P}, Rep h q t →
    (∀ a, q = some a → Reach h r a) → Rep (only h r) q t := by
  intro q t hq
  induction hq with
  | nil => intro _; exact .nil
  | node hc hl _ ih =>
    intro hr
    have hra := hr _ rfl
    refine Rep.node (by rw [only_cells hra]; exact hc) hl ?_
    intro i h1 h2
    refine ih i h1 h2 ?_
    intro b hb
    exact .link hra hc (by rw [← hb]; exact List.getElem_mem h1)

theorem links_only_le (h : Mem P) (r : Option Nat) (a : Nat) : links (only h r) a ≤ links h a := by
  have : ∀ n, sumTo (fun b => lc ((only h r).cells b) a) n ≤ sumTo (fun b => lc (h.cells b) a) n := by
    intro n
    induction n with
    | zero => exact Nat.le_refl _
    | succ n ih =>
      simp only [sumTo]
      refine Nat.add_le_add ih ?_
      by_cases hr : Reach h r n
      · rw [only_cells hr]
      · rw [only_not hr]; exact Nat.zero_le _
  exact this _

/-- Alone, the object is still in order. -/
theorem Own.only {h : Mem P} {r : Option Nat} {t : VT P} {G : Multiset (Handle P)}
    (ho : Own h (own r t + G))
    (hu : ∀ a c, Reach h r a → h.cells a = some c → c.rc = 1) :
    Own (only h r) (own r t) ∧ AllOne (only h r) := by
  refine ⟨⟨?_, ?_, ?_, ?_, ?_⟩, ?_⟩
  · intro a ha
    by_cases hr : Reach h r a
    · rw [only_cells hr]; exact ho.fin a ha
    · exact only_not hr
  · intro a
    by_cases hr : Reach h r a
    · rw [only_cells hr]
      have hcnt := ho.cnt a
      have hle := links_only_le h r a
      cases hc : h.cells a with
      | none =>
        rw [hc] at hcnt
        simp only [ext_add] at hcnt ⊢
        omega
      | some c =>
        rw [hc] at hcnt
        have h1 := hu a c hr hc
        simp only [ext_add] at hcnt ⊢
        refine ⟨?_, hcnt.2⟩
        cases hr with
        | root e =>
          have : ext (own r t) a = 1 := by rw [ext_own, if_pos e]
          omega
        | link hb hcb hmem =>
          rename_i b d
          have hlt := ho.lt hcb
          have : 1 ≤ links (Heap.only h r) a := by
            refine Nat.le_trans ?_ (le_sumTo (f := fun b => lc ((Heap.only h r).cells b) a)
              (show b < (Heap.only h r).next from hlt))
            simp only [only_cells hb, hcb, lc]
            exact List.count_pos_iff.2 hmem
          omega
    · rw [only_not hr]
      simp only
      have h1 : ext (own r t) a = 0 := by
        rw [ext_own, if_neg (fun e => hr (.root e))]
      have h2 : links (Heap.only h r) a = 0 := by
        refine sumTo_zero ?_
        intro b _
        by_cases hb : Reach h r b
        · rw [only_cells hb]
          cases hc : h.cells b with
          | none => rfl
          | some c =>
            simp only [lc]
            exact List.count_eq_zero.2 (fun hm => hr (.link hb hc hm))
        · rw [only_not hb]; rfl
      omega
  · intro a c hc
    by_cases hr : Reach h r a
    · rw [only_cells hr] at hc
      obtain ⟨t, ht⟩ := ho.val a c hc
      exact ⟨t, ht.only (by rintro b ⟨⟩; exact hr)⟩
    · rw [only_not hr] at hc; cases hc
  · intro e he
    have hrep := ho.rep e (Multiset.mem_add.2 (.inl he))
    refine hrep.only ?_
    intro a ha
    have hp := ext_pos he ha
    rw [ext_own] at hp
    split at hp
    · next hr => exact .root hr
    · omega
  · intro e he hq
    unfold own at he
    split at he
    · simp at he
    · rw [Multiset.mem_singleton] at he
      subst he
      cases hq
  · intro a c hc
    by_cases hr : Reach h r a
    · rw [only_cells hr] at hc
      exact hu a c hr hc
    · rw [only_not hr] at hc; cases hc

/-- A program on an object that shares nothing. -/
theorem Spends.only {p : Prog P α} {r : Option Nat} {t : VT P} {G : Multiset (Handle P)}
    {Q : α → Multiset (Handle P) → Prop} {n : α → Nat} (hs : Spends AllOne p (own r t) Q n)
    {h : Mem P} (ho : Own h (own r t + G))
    (hu : ∀ a c, Reach h r a → h.cells a = some c → c.rc = 1) :
    ∃ h' x, p.exec h = some (h', some x) ∧ h'.next ≤ h.next + n x := by
  obtain ⟨o1, a1⟩ := ho.only hu
  obtain ⟨h', x, L', e, -, -, -, hn⟩ := hs (Heap.only h r) 0 (by rwa [add_zero]) a1
  have e' := exec_add (only_apart ho r) e
  rw [only_add] at e'
  exact ⟨_, x, e', hn⟩

namespace Machine
variable {H M O C0 C1 C2 CR : Type}
variable {R : H → M → Multiset (Handle P) → Prop} {Inv : M → Prop}
  {I : Impl (Prog P) H O C0 C1 C2 CR}

/-- A command on an object that shares nothing. -/
theorem Sim.one_alone {root : H → Option Nat} (hroot : ∀ {s m L}, R s m L → ∃ t, L = own (root s) t)
    {h : Mem P} {rs ms} (hs : Sim Inv R h rs ms) {i : Nat} {s : H}
    (hi : rs[i]? = some (some s)) (hu : ∀ a c, Reach h (root s) a → h.cells a = some c → c.rc = 1)
    {c : C1} {n : Option H × List H × O → Nat}
    (hb : ∀ m L, Inv m → R s m L → ∃ Q, Spends AllOne (I.one s c) L Q n) :
    ∃ h' x, (Machine.run I [.one i c] rs).exec h =
        some (h', some (rs.set i x.1 ++ x.2.1.map some, [some x.2.2])) ∧
      h'.next ≤ h.next + n x := by
  obtain ⟨m, L, G, hm, h1, h2, h3⟩ := hs.get_own hi
  obtain ⟨Q, hq⟩ := hb m L h1 h2
  obtain ⟨t, rfl⟩ := hroot h2
  obtain ⟨h4, x, e4, h6⟩ := hq.only h3 hu
  refine ⟨h4, x, ?_, h6⟩
  have hj : rs[i]?.join = some s := by rw [hi]; rfl
  simp only [Machine.run, Machine.step, hj]
  change ((((I.one s c).bind _).bind _)).exec h = _
  simp only [Prog.exec_bind, e4]
  rfl

end Machine
end Verif.Heap
