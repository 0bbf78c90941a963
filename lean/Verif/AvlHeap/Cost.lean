import Verif.Heap.Cost
import Verif.AvlHeap.Access
/-!
# How many nodes the functions of avl.rs allocate
-/
namespace Verif.AvlH
open Heap
open Avl (Tree)
variable {K V : Type}

/-! ## More recursion depth -/

/-- Two programs with the same beginnings. -/
macro "same" : tactic => `(tactic| first
  | exact Prog.Le.refl _
  | refine Prog.Le.bind (fun _ => ?_) (Prog.Le.refl _))

theorem ins_le [Ord K] {D : Nat} {k : K} {v : V} : ∀ {n m : Nat} {r : Option Nat}, n ≤ m →
    (ins D k v n r).Le (ins D k v m r) := by
  intro n
  induction n with
  | zero =>
    intro m r _
    cases r with
    | none => cases m <;> exact Prog.Le.refl _
    | some => exact trivial
  | succ n ih =>
    intro m r hm
    obtain ⟨m, rfl⟩ : ∃ m', m = m' + 1 := ⟨m - 1, by omega⟩
    cases r with
    | none => exact Prog.Le.refl _
    | some a =>
      simp only [ins]
      same; same
      split
      · same
      all_goals
        refine Prog.Le.bind (fun _ => ?_) (ih (by omega))
        same

theorem rmLeftmost_le {D : Nat} : ∀ {n m : Nat} {r : Option Nat}, n ≤ m →
    (rmLeftmost D n r : Prog (ND K V) _).Le (rmLeftmost D m r) := by
  intro n
  induction n with
  | zero =>
    intro m r _
    cases r with
    | none => cases m <;> exact Prog.Le.refl _
    | some => exact trivial
  | succ n ih =>
    intro m r hm
    obtain ⟨m, rfl⟩ : ∃ m', m = m' + 1 := ⟨m - 1, by omega⟩
    cases r with
    | none => exact Prog.Le.refl _
    | some a =>
      simp only [rmLeftmost]
      same; same
      split
      · same
        refine Prog.Le.bind (fun _ => ?_) (ih (by omega))
        same
      · same

theorem rmRightmost_le {D : Nat} : ∀ {n m : Nat} {r : Option Nat}, n ≤ m →
    (rmRightmost D n r : Prog (ND K V) _).Le (rmRightmost D m r) := by
  intro n
  induction n with
  | zero =>
    intro m r _
    cases r with
    | none => cases m <;> exact Prog.Le.refl _
    | some => exact trivial
  | succ n ih =>
    intro m r hm
    obtain ⟨m, rfl⟩ : ∃ m', m = m' + 1 := ⟨m - 1, by omega⟩
    cases r with
    | none => exact Prog.Le.refl _
    | some a =>
      simp only [rmRightmost]
      same; same
      split
      · same
        refine Prog.Le.bind (fun _ => ?_) (ih (by omega))
        same
      · same

theorem rm_le {D : Nat} {p : K → Ordering} : ∀ {n m : Nat} {r : Option Nat}, n ≤ m →
    (rm D p n r : Prog (ND K V) _).Le (rm D p m r) := by
  intro n
  induction n with
  | zero =>
    intro m r _
    cases r with
    | none => cases m <;> exact Prog.Le.refl _
    | some => exact trivial
  | succ n ih =>
    intro m r hm
    obtain ⟨m, rfl⟩ : ∃ m', m = m' + 1 := ⟨m - 1, by omega⟩
    cases r with
    | none => exact Prog.Le.refl _
    | some a =>
      simp only [rm]
      same; same
      split
      · same
        refine Prog.Le.bind (fun _ => ?_) (ih (by omega))
        same
      · same
        refine Prog.Le.bind (fun _ => ?_) (ih (by omega))
        same
      · split
        · same
        · same
        · same
        · same
          refine Prog.Le.bind (fun _ => ?_) (rmLeftmost_le (by omega))
          same

theorem getMutWith_le {D : Nat} {p : K → Ordering} {g : V → V} : ∀ {n m : Nat} {r : Option Nat},
    n ≤ m → (getMutWith D p g n r : Prog (ND K V) _).Le (getMutWith D p g m r) := by
  intro n
  induction n with
  | zero =>
    intro m r _
    cases r with
    | none => cases m <;> exact Prog.Le.refl _
    | some => exact trivial
  | succ n ih =>
    intro m r hm
    obtain ⟨m, rfl⟩ : ∃ m', m = m' + 1 := ⟨m - 1, by omega⟩
    cases r with
    | none => exact Prog.Le.refl _
    | some a =>
      simp only [getMutWith]
      same; same
      split
      · refine Prog.Le.bind (fun _ => ?_) (ih (by omega))
        same
      · same
      · refine Prog.Le.bind (fun _ => ?_) (ih (by omega))
        same

/-! ## Costs -/

/-- What `Cost` says, for one memory. -/
abbrev CostAt (I : Mem (ND K V) → Prop) {α : Type} (p : Prog (ND K V) α) (n : α → Nat)
    (h : Mem (ND K V)) : Prop :=
  ∀ h' x, p.exec h = some (h', some x) → I h' ∧ h'.next ≤ h.next + n x

theorem costAt_readN {I : Mem (ND K V) → Prop} {β : Type} {a : Nat} {path : List Nat}
    {g : ND K V × Bool × Bool → Prog (ND K V) β} {n : β → Nat} {h : Mem (ND K V)}
    (hg : ∀ x, CostAt I (g x) n h) : CostAt I ((readN a path).bind g) n h := by
  intro h' y e
  obtain ⟨h1, x, e1, e2⟩ := Prog.exec_bind_some e
  obtain ⟨h2, z, e3, e4⟩ := Prog.exec_bind_some e1
  have e3 := exec_lift e3
  simp only [Op.step, Option.map_eq_some_iff] at e3
  obtain ⟨cell, -, e3⟩ := e3
  cases e3
  have : h1 = h := by
    revert e4
    split
    · rintro ⟨⟩; rfl
    · nofun
  subst this
  exact hg x h' y e2

theorem costAt_makeMut {I : Mem (ND K V) → Prop} {β : Type} {D a : Nat}
    {g : Nat → Prog (ND K V) β} {n : β → Nat} {h : Mem (ND K V)}
    (hu : (Op.isUnique a).step h = some (h, true)) (hg : CostAt I (g a) n h) :
    CostAt I ((makeMut D a).bind g) n h := by
  intro h' y e
  obtain ⟨h1, x, e1, e2⟩ := Prog.exec_bind_some e
  simp only [makeMut, lift, Prog.bind, Prog.exec, hu] at e1
  cases e1
  exact hg h' y e2

theorem cost_isUnique {I : Mem (ND K V) → Prop} {c : Nat} (_ : Frugal I c) {β : Type} {a : Nat}
    {g : Prog (ND K V) β} {n : β → Nat}
    (hg : ∀ h, I h → (Op.isUnique a).step h = some (h, true) → CostAt I g n h) :
    Cost I ((lift (.isUnique a)).bind fun (u : Bool) => if u then g else .panic) n := by
  intro h hi h' y e
  obtain ⟨h1, u, e1, e2⟩ := Prog.exec_bind_some e
  have e1 := exec_lift e1
  have : h1 = h := by
    have e3 := e1
    simp only [Op.step] at e3
    split at e3 <;> cases e3
    rfl
  subst this
  cases u with
  | false => cases e2
  | true => exact hg _ hi e1 h' y e2

section
variable {I : Mem (ND K V) → Prop} {c : Nat} (f : Frugal I c)
include f

theorem cost_openN (a : Nat) : Cost I (openN a) (fun _ => 0) := by
  refine Cost.zbind (f.open_ a) fun n => ?_
  split
  · exact .pure
  · exact .panic

theorem cost_closeN (a : Nat) (d : ND K V) (l r : Option Nat) :
    Cost I (closeN a d l r) (fun _ => 0) := f.close _ _

theorem cost_readN (a : Nat) (path : List Nat) : Cost I (readN a path) (fun _ => 0) := by
  refine Cost.zbind (f.read a path) fun n => ?_
  split
  · exact .pure
  · exact .panic

theorem cost_takeNode (a : Nat) : Cost I (takeNode a) (fun _ => 0) := by
  refine Cost.zbind (f.tryUnwrap a) fun n => ?_
  split
  · split
    · exact .pure
    · exact .panic
  · exact .panic

theorem cost_height (r : Option Nat) : Cost I (height r) (fun _ => 0) := by
  cases r with
  | none => exact .pure
  | some a => exact Cost.zbind (cost_readN f a []) fun _ => .pure

theorem cost_optNew (k : K) (v : V) (l r : Option Nat) : Cost I (optNew k v l r) (fun _ => 1) :=
  Cost.zbind (cost_height f l) fun _ => Cost.zbind (cost_height f r) fun _ =>
    Cost.sbind (f.alloc _) (fun _ => .pure) (Nat.le_refl (1 + 0))

/-- A rotation takes the root by `Arc::make_mut`; after that it copies at most `c` nodes. -/
theorem rest_rotLf (D a : Nat) : ∃ rest, rotLf D (some a) = (makeMut D a).bind rest ∧
    ∀ a, Cost I (rest a) (fun _ => c) := by
  refine ⟨_, rfl, fun a => ?_⟩
  refine Cost.zbind (cost_openN f a) fun x => ?_
  split
  · exact .panic
  · refine Cost.sbind (b := 0) (f.makeMut D _) (fun b => ?_) (by omega)
    refine Cost.zbind (cost_openN f b) fun y => ?_
    refine Cost.zbind (cost_closeN f _ _ _ _) fun _ => ?_
    exact Cost.zbind (cost_closeN f _ _ _ _) fun _ => .pure

theorem rest_rotRt (D a : Nat) : ∃ rest, rotRt D (some a) = (makeMut D a).bind rest ∧
    ∀ a, Cost I (rest a) (fun _ => c) := by
  refine ⟨_, rfl, fun a => ?_⟩
  refine Cost.zbind (cost_openN f a) fun x => ?_
  split
  · exact .panic
  · refine Cost.sbind (b := 0) (f.makeMut D _) (fun b => ?_) (by omega)
    refine Cost.zbind (cost_openN f b) fun y => ?_
    refine Cost.zbind (cost_closeN f _ _ _ _) fun _ => ?_
    exact Cost.zbind (cost_closeN f _ _ _ _) fun _ => .pure

theorem rest_rotRtLf (D a : Nat) : ∃ rest, rotRtLf D (some a) = (makeMut D a).bind rest ∧
    ∀ a, Cost I (rest a) (fun _ => 2 * c) := by
  refine ⟨_, rfl, fun a => ?_⟩
  refine Cost.zbind (cost_openN f a) fun x => ?_
  split
  · exact .panic
  · refine Cost.sbind (b := c) (f.makeMut D _) (fun b => ?_) (by omega)
    refine Cost.zbind (cost_openN f b) fun y => ?_
    split
    · exact .panic
    · refine Cost.sbind (b := 0) (f.makeMut D _) (fun b => ?_) (by omega)
      refine Cost.zbind (cost_openN f b) fun y => ?_
      refine Cost.zbind (cost_closeN f _ _ _ _) fun _ => ?_
      refine Cost.zbind (cost_closeN f _ _ _ _) fun _ => ?_
      exact Cost.zbind (cost_closeN f _ _ _ _) fun _ => .pure

theorem rest_rotLfRt (D a : Nat) : ∃ rest, rotLfRt D (some a) = (makeMut D a).bind rest ∧
    ∀ a, Cost I (rest a) (fun _ => 2 * c) := by
  refine ⟨_, rfl, fun a => ?_⟩
  refine Cost.zbind (cost_openN f a) fun x => ?_
  split
  · exact .panic
  · refine Cost.sbind (b := c) (f.makeMut D _) (fun b => ?_) (by omega)
    refine Cost.zbind (cost_openN f b) fun y => ?_
    split
    · exact .panic
    · refine Cost.sbind (b := 0) (f.makeMut D _) (fun b => ?_) (by omega)
      refine Cost.zbind (cost_openN f b) fun y => ?_
      refine Cost.zbind (cost_closeN f _ _ _ _) fun _ => ?_
      refine Cost.zbind (cost_closeN f _ _ _ _) fun _ => ?_
      exact Cost.zbind (cost_closeN f _ _ _ _) fun _ => .pure

theorem cost_rotLf (D : Nat) (r : Option Nat) : Cost I (rotLf D r) (fun _ => 2 * c) := by
  cases r with
  | none => exact .panic
  | some a =>
    obtain ⟨rest, e, h⟩ := rest_rotLf f D a
    rw [e]
    exact Cost.sbind (f.makeMut D a) h (by omega)

theorem cost_rotRt (D : Nat) (r : Option Nat) : Cost I (rotRt D r) (fun _ => 2 * c) := by
  cases r with
  | none => exact .panic
  | some a =>
    obtain ⟨rest, e, h⟩ := rest_rotRt f D a
    rw [e]
    exact Cost.sbind (f.makeMut D a) h (by omega)

/-- Rebalancing copies at most the child and grandchild that move up: the root is not shared. -/
theorem cost_rebalLfToRt (D a : Nat) : Cost I (rebalLfToRt D a) (fun _ => 2 * c) := by
  refine cost_isUnique f fun h hi hu => ?_
  refine costAt_readN fun x => ?_
  split
  · refine costAt_readN fun y => ?_
    split
    · obtain ⟨rest, e, hr⟩ := rest_rotRt f D a
      rw [e]
      exact costAt_makeMut hu ((hr a).le (fun _ => by omega) h hi)
    · obtain ⟨rest, e, hr⟩ := rest_rotLfRt f D a
      rw [e]
      exact costAt_makeMut hu (hr a h hi)
  · exact nofun

theorem cost_rebalRtToLf (D a : Nat) : Cost I (rebalRtToLf D a) (fun _ => 2 * c) := by
  refine cost_isUnique f fun h hi hu => ?_
  refine costAt_readN fun x => ?_
  split
  · refine costAt_readN fun y => ?_
    split
    · obtain ⟨rest, e, hr⟩ := rest_rotLf f D a
      rw [e]
      exact costAt_makeMut hu ((hr a).le (fun _ => by omega) h hi)
    · obtain ⟨rest, e, hr⟩ := rest_rotRtLf f D a
      rw [e]
      exact costAt_makeMut hu (hr a h hi)
  · exact nofun

/-! ### Insertion: one copy per level, one new node, and one rotation at most -/

theorem cost_afterInsLf (D a : Nat) (d : ND K V) (l r : Option Nat) (taller : Bool) :
    Cost I (afterInsLf D a d l r taller)
      (fun x => if taller && !x.2 then 2 * c else 0) := by
  refine Cost.zbind (cost_closeN f _ _ _ _) fun _ => ?_
  cases taller with
  | false =>
    rw [Bool.false_and, if_neg (by simp)]
    exact .pure
  | true => exact Cost.ite (Cost.map (cost_rebalLfToRt f D a) (fun _ => Nat.le_refl _)) .pure

theorem cost_afterInsRt (D a : Nat) (d : ND K V) (l r : Option Nat) (taller : Bool) :
    Cost I (afterInsRt D a d l r taller)
      (fun x => if taller && !x.2 then 2 * c else 0) := by
  refine Cost.zbind (cost_closeN f _ _ _ _) fun _ => ?_
  cases taller with
  | false =>
    rw [Bool.false_and, if_neg (by simp)]
    exact .pure
  | true => exact Cost.ite (Cost.map (cost_rebalRtToLf f D a) (fun _ => Nat.le_refl _)) .pure

omit f in
theorem afterInsLf_false {D a : Nat} {d : ND K V} {l r : Option Nat} {h h' : Mem (ND K V)}
    {x : Option Nat × Bool} (e : (afterInsLf D a d l r false).exec h = some (h', some x)) :
    x.2 = false := by
  obtain ⟨h1, _, -, e2⟩ := Prog.exec_bind_some e
  rw [Bool.false_and, if_neg (by simp)] at e2
  cases e2
  rfl

omit f in
theorem afterInsRt_false {D a : Nat} {d : ND K V} {l r : Option Nat} {h h' : Mem (ND K V)}
    {x : Option Nat × Bool} (e : (afterInsRt D a d l r false).exec h = some (h', some x)) :
    x.2 = false := by
  obtain ⟨h1, _, -, e2⟩ := Prog.exec_bind_some e
  rw [Bool.false_and, if_neg (by simp)] at e2
  cases e2
  rfl

theorem cost_ins [Ord K] (D : Nat) (k : K) (v : V) : ∀ (n : Nat) (r : Option Nat),
    Cost I (ins D k v n r) (fun x => c * n + (if x.2.1.isNone then 1 else 0) +
      (if x.2.2 then 0 else 2 * c)) := by
  have hn : ∀ n, Cost I (ins D k v n none) (fun x => c * n + (if x.2.1.isNone then 1 else 0) +
      (if x.2.2 then 0 else 2 * c)) := by
    intro n
    have e : ins D k v n none = (optNew k v none none).bind fun r => .pure (r, none, true) := by
      cases n <;> rfl
    rw [e]
    exact Cost.map (cost_optNew f k v none none) (fun _ => by simp)
  intro n
  induction n with
  | zero =>
    intro r
    cases r with
    | none => exact hn 0
    | some a => exact .panic
  | succ n ih =>
    intro r
    cases r with
    | none => exact hn _
    | some a =>
      simp only [ins]
      refine Cost.bind (m := fun _ x => c * n + (if x.2.1.isNone then 1 else 0) +
        (if x.2.2 then 0 else 2 * c)) (f.makeMut D a) (fun a => ?_)
        (fun _ _ => by rw [Nat.mul_succ]; omega)
      refine Cost.zbind (cost_openN f a) fun x => ?_
      split
      · exact Cost.zbind (cost_closeN f _ _ _ _) fun _ => .pure
      · intro h hi h' y e
        obtain ⟨h1, z, e1, e2⟩ := Prog.exec_bind_some e
        obtain ⟨h2, w, e3, e4⟩ := Prog.exec_bind_some e2
        obtain ⟨i1, n1⟩ := ih _ h hi h1 z e1
        obtain ⟨i2, n2⟩ := cost_afterInsLf f _ _ _ _ _ _ h1 i1 h2 w e3
        cases e4
        refine ⟨i2, ?_⟩
        obtain ⟨zr, zo, zt⟩ := z
        obtain ⟨wr, wt⟩ := w
        cases zt with
        | false =>
          have : wt = false := afterInsLf_false e3
          subst this
          simp at n1 n2 ⊢; omega
        | true => cases wt <;> simp at n1 n2 ⊢ <;> omega
      · intro h hi h' y e
        obtain ⟨h1, z, e1, e2⟩ := Prog.exec_bind_some e
        obtain ⟨h2, w, e3, e4⟩ := Prog.exec_bind_some e2
        obtain ⟨i1, n1⟩ := ih _ h hi h1 z e1
        obtain ⟨i2, n2⟩ := cost_afterInsRt f _ _ _ _ _ _ h1 i1 h2 w e3
        cases e4
        refine ⟨i2, ?_⟩
        obtain ⟨zr, zo, zt⟩ := z
        obtain ⟨wr, wt⟩ := w
        cases zt with
        | false =>
          have : wt = false := afterInsRt_false e3
          subst this
          simp at n1 n2 ⊢; omega
        | true => cases wt <;> simp at n1 n2 ⊢ <;> omega

/-! ### Removal: three copies per level -/

theorem cost_afterRmLf (D a : Nat) (d : ND K V) (l r : Option Nat) (shorter : Bool) :
    Cost I (afterRmLf D a d l r shorter) (fun _ => 2 * c) :=
  Cost.zbind (cost_closeN f _ _ _ _) fun _ => Cost.ite (cost_rebalRtToLf f D a) .pure

theorem cost_afterRmRt (D a : Nat) (d : ND K V) (l r : Option Nat) (shorter : Bool) :
    Cost I (afterRmRt D a d l r shorter) (fun _ => 2 * c) :=
  Cost.zbind (cost_closeN f _ _ _ _) fun _ => Cost.ite (cost_rebalLfToRt f D a) .pure

theorem cost_rmLeftmost (D : Nat) : ∀ (n : Nat) (r : Option Nat),
    Cost I (rmLeftmost D n r) (fun _ => c * (3 * n)) := by
  intro n
  induction n with
  | zero =>
    intro r
    cases r with
    | none => exact .pure
    | some a => exact .panic
  | succ n ih =>
    intro r
    cases r with
    | none => exact .pure
    | some a =>
      have e : c + (c * (3 * n) + (2 * c)) ≤ c * (3 * (n + 1)) := by
        rw [Nat.mul_succ, Nat.mul_add]; omega
      simp only [rmLeftmost]
      refine Cost.sbind (f.makeMut D a) (fun a => ?_) e
      refine Cost.zbind (cost_readN f a []) fun s => Cost.ite ?_ ?_
      · refine Cost.zbind (cost_openN f a) fun x => ?_
        refine Cost.sbind (ih _) (fun y => ?_) (Nat.le_refl _)
        exact Cost.map (cost_afterRmLf f _ _ _ _ _ _) (fun _ => Nat.le_refl _)
      · exact Cost.zbind (cost_takeNode f a) fun x => .pure

theorem cost_rmRightmost (D : Nat) : ∀ (n : Nat) (r : Option Nat),
    Cost I (rmRightmost D n r) (fun _ => c * (3 * n)) := by
  intro n
  induction n with
  | zero =>
    intro r
    cases r with
    | none => exact .pure
    | some a => exact .panic
  | succ n ih =>
    intro r
    cases r with
    | none => exact .pure
    | some a =>
      have e : c + (c * (3 * n) + (2 * c)) ≤ c * (3 * (n + 1)) := by
        rw [Nat.mul_succ, Nat.mul_add]; omega
      simp only [rmRightmost]
      refine Cost.sbind (f.makeMut D a) (fun a => ?_) e
      refine Cost.zbind (cost_readN f a []) fun s => Cost.ite ?_ ?_
      · refine Cost.zbind (cost_openN f a) fun x => ?_
        refine Cost.sbind (ih _) (fun y => ?_) (Nat.le_refl _)
        exact Cost.map (cost_afterRmRt f _ _ _ _ _ _) (fun _ => Nat.le_refl _)
      · exact Cost.zbind (cost_takeNode f a) fun x => .pure

theorem cost_rm (D : Nat) (p : K → Ordering) : ∀ (n : Nat) (r : Option Nat),
    Cost I (rm D p n r) (fun _ => c * (3 * n)) := by
  intro n
  induction n with
  | zero =>
    intro r
    cases r with
    | none => exact .pure
    | some a => exact .panic
  | succ n ih =>
    intro r
    cases r with
    | none => exact .pure
    | some a =>
      have e : c + (c * (3 * n) + (2 * c)) ≤ c * (3 * (n + 1)) := by
        rw [Nat.mul_succ, Nat.mul_add]; omega
      simp only [rm]
      refine Cost.sbind (f.makeMut D a) (fun a => ?_) e
      refine Cost.zbind (cost_readN f a []) fun s => ?_
      split
      · refine Cost.zbind (cost_openN f a) fun x => ?_
        refine Cost.sbind (ih _) (fun y => ?_) (Nat.le_refl _)
        exact Cost.map (cost_afterRmLf f _ _ _ _ _ _) (fun _ => Nat.le_refl _)
      · refine Cost.zbind (cost_openN f a) fun x => ?_
        refine Cost.sbind (ih _) (fun y => ?_) (Nat.le_refl _)
        exact Cost.map (cost_afterRmRt f _ _ _ _ _ _) (fun _ => Nat.le_refl _)
      · split
        · exact Cost.zbind (cost_takeNode f a) fun x => .pure
        · exact Cost.zbind (cost_takeNode f a) fun x => .pure
        · exact Cost.zbind (cost_takeNode f a) fun x => .pure
        · refine Cost.zbind (cost_openN f a) fun x => ?_
          refine Cost.sbind (cost_rmLeftmost f D n _) (fun y => ?_) (Nat.le_refl _)
          split
          · exact .panic
          · exact Cost.map (cost_afterRmRt f _ _ _ _ _ _) (fun _ => Nat.le_refl _)

/-! ### `get_mut`: one copy per level -/

theorem cost_getMutWith (D : Nat) (p : K → Ordering) (g : V → V) : ∀ (n : Nat) (r : Option Nat),
    Cost I (getMutWith D p g n r) (fun _ => c * n) := by
  intro n
  induction n with
  | zero =>
    intro r
    cases r with
    | none => exact .pure
    | some a => exact .panic
  | succ n ih =>
    intro r
    cases r with
    | none => exact .pure
    | some a =>
      simp only [getMutWith]
      refine Cost.sbind (b := c * n) (f.makeMut D a) (fun a => ?_) (by rw [Nat.mul_succ]; omega)
      refine Cost.zbind (cost_openN f a) fun x => ?_
      split
      · refine Cost.sbind (b := 0) (ih _) (fun y => ?_) (Nat.le_refl _)
        exact Cost.zbind (cost_closeN f _ _ _ _) fun _ => .pure
      · exact Cost.zbind (cost_closeN f _ _ _ _) fun _ => .pure
      · refine Cost.sbind (b := 0) (ih _) (fun y => ?_) (Nat.le_refl _)
        exact Cost.zbind (cost_closeN f _ _ _ _) fun _ => .pure

end

end Verif.AvlH
