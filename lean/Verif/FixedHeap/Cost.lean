import Verif.BTreeHeap.Cost
import Verif.FixedHeap.Model
/-!
# How many nodes the functions of core.rs allocate
-/
namespace Verif.FixedH
open Heap BTreeH Fixed
variable {K V β : Type}

/-! ## More recursion depth -/

theorem getMut_le {lin : Bool} {D : Nat} {p : K → Ordering} {g : V → V} :
    ∀ {n m : Nat} {x : HN K V}, n ≤ m → (getMut lin D p g n x).Le (getMut lin D p g m x) := by
  intro n
  induction n with
  | zero => intro m x _; exact trivial
  | succ n ih =>
    intro m x hm
    obtain ⟨m, rfl⟩ : ∃ m', m = m' + 1 := ⟨m - 1, by omega⟩
    unfold getMut
    rcases searchKeys lin p x.data with _ | ⟨i, _ | _⟩
    · exact trivial
    · exact Le_ite (Prog.Le.bind (fun _ => Prog.Le.refl _) (mutKid_le fun _ => ih (by omega)))
        (Prog.Le.refl _)
    · exact Prog.Le.refl _

theorem ins_le [Ord K] {lin : Bool} {D : Nat} {k : K} {v : V} : ∀ {n m : Nat} {x : HN K V},
    n ≤ m → (ins lin D k v n x).Le (ins lin D k v m x) := by
  intro n
  induction n with
  | zero => intro m x _; exact trivial
  | succ n ih =>
    intro m x hm
    obtain ⟨m, rfl⟩ : ∃ m', m = m' + 1 := ⟨m - 1, by omega⟩
    unfold ins
    rcases searchKeys lin (compare k) x.data with _ | ⟨i, _ | _⟩
    · exact trivial
    · exact Le_ite (Prog.Le.bind (fun _ => Prog.Le.refl _) (mutKid_le fun _ => ih (by omega)))
        (Prog.Le.refl _)
    · exact Prog.Le.refl _

theorem popGreatest_le {D : Nat} : ∀ {n m : Nat} {x : HN K V}, n ≤ m →
    (popGreatest D n x).Le (popGreatest D m x) := by
  intro n
  induction n with
  | zero => intro m x _; exact trivial
  | succ n ih =>
    intro m x hm
    obtain ⟨m, rfl⟩ : ∃ m', m = m' + 1 := ⟨m - 1, by omega⟩
    exact Le_ite (Prog.Le.bind (fun _ => Prog.Le.refl _)
      (mutKid_le fun _ => ih (by omega))) (Prog.Le.refl _)

theorem remove_le {lin : Bool} {D : Nat} {p : K → Ordering} : ∀ {n m : Nat} {x : HN K V}, n ≤ m →
    (remove lin D p n x).Le (remove lin D p m x) := by
  intro n
  induction n with
  | zero => intro m x _; exact trivial
  | succ n ih =>
    intro m x hm
    obtain ⟨m, rfl⟩ : ∃ m', m = m' + 1 := ⟨m - 1, by omega⟩
    unfold remove
    rcases searchKeys lin p x.data with _ | ⟨i, _ | _⟩
    · exact trivial
    · exact Le_ite (Prog.Le.bind (fun _ => Prog.Le.refl _) (mutKid_le fun _ => ih (by omega)))
        (Prog.Le.refl _)
    · exact Le_ite (Prog.Le.refl _) (Prog.Le.bind (fun _ => Prog.Le.refl _)
        (mutKid_le fun _ => popGreatest_le (by omega)))

/-! ## Costs -/

section
variable {I : Mem (ND K V) → Prop} {c : Nat} (f : Frugal I c)
include f

/-- With `n` levels below, each of which costs `c`. -/
theorem cost_getMut (lin : Bool) (D : Nat) (p : K → Ordering) (g : V → V) : ∀ n x,
    Cost I (getMut lin D p g (n + 1) x) (fun _ => c * n) := by
  intro n
  induction n with
  | zero =>
    intro x
    unfold getMut
    rcases searchKeys lin p x.data with _ | ⟨i, _ | _⟩
    · exact .panic
    · exact Cost.ite (cost_mutKid_panic fun _ => rfl) .pure
    · dsimp only; split
      · exact .panic
      · exact .pure
  | succ n ih =>
    intro x
    unfold getMut
    rcases searchKeys lin p x.data with _ | ⟨i, _ | _⟩
    · exact .panic
    · exact Cost.ite (Cost.map (cost_mutKid f (b := fun _ => c * n) fun y => ih y) (fun _ => by
        rw [Nat.mul_succ]; omega)) .pure
    · dsimp only; split
      · exact .panic
      · exact .pure

theorem exec_insSplit {i : Nat} {lhs : Option Nat} {kv : K × V} {x : HN K V}
    {h h' : Mem (ND K V)} {y} (hi : I h) (e : (insSplitH i lhs kv x).exec h = some (h', some y)) :
    I h' ∧ h'.next ≤ h.next + 1 ∧ ∃ a kv, y.2 = .split a kv := by
  unfold insSplitH at e
  split at e
  · cases e
  · obtain ⟨h1, a, e1, e⟩ := Prog.exec_bind_some e
    cases e
    obtain ⟨i1, n1⟩ := f.alloc _ _ hi _ _ e1
    exact ⟨i1, n1, a, _, rfl⟩

theorem exec_absorb {i : Nat} {lhs : Option Nat} {kv : K × V} {x : HN K V}
    {h h' : Mem (ND K V)} {y} (hi : I h) (e : (absorb i lhs kv x).exec h = some (h', some y)) :
    I h' ∧ ∀ n, h'.next + n ≤ h.next + y.2.splits n := by
  unfold absorb at e
  split at e
  · unfold insNoSplit at e
    split at e
    · split at e
      · cases e
      · split at e
        · cases e
          exact ⟨hi, fun n => Nat.le_refl _⟩
        · split at e
          · cases e
          · cases e
            exact ⟨hi, fun n => Nat.le_refl _⟩
    · cases e
  · obtain ⟨i1, n1, a, kv, e1⟩ := exec_insSplit f hi e
    exact ⟨i1, fun n => by rw [e1]; simp only [HIns.splits]; omega⟩

/-- With `n` levels below, each of which costs `c`. -/
theorem cost_ins [Ord K] (lin : Bool) (D : Nat) (k : K) (v : V) : ∀ n x,
    Cost I (ins lin D k v (n + 1) x) (fun y => c * n + y.2.splits n) := by
  have leaf : ∀ n i (x : HN K V), Cost I (absorb i none (k, v) x)
      (fun y => c * n + y.2.splits n) := by
    intro n i x h hi h' y e
    obtain ⟨i1, n1⟩ := exec_absorb f hi e
    have := n1 n
    exact ⟨i1, by dsimp only; omega⟩
  have found : ∀ n i (x : HN K V), Cost I (match x.data[i]? with
      | none => .panic
      | some e => .pure ((⟨x.data.set i (k, v), x.kids⟩ : HN K V),
          (HIns.replaced e.2 : HIns K V))) (fun y => c * n + y.2.splits n) := by
    intro n i x
    split
    · exact .panic
    · exact .pure
  intro n
  induction n with
  | zero =>
    intro x
    unfold ins
    rcases searchKeys lin (compare k) x.data with _ | ⟨i, _ | _⟩
    · exact .panic
    · exact Cost.ite (cost_mutKid_panic fun _ => rfl) (leaf _ _ x)
    · exact found _ _ x
  | succ n ih =>
    intro x
    unfold ins
    rcases searchKeys lin (compare k) x.data with _ | ⟨i, _ | _⟩
    · exact .panic
    · refine Cost.ite ?_ (leaf _ _ x)
      intro h hi h' z e
      obtain ⟨h1, y, e1, e⟩ := Prog.exec_bind_some e
      obtain ⟨i1, n1⟩ := cost_mutKid f (b := fun y => c * n + y.splits n) ih _ hi _ _ e1
      rw [Nat.mul_succ]
      unfold afterIns at e
      dsimp only at n1
      split at e
      · next hy =>
        rw [hy] at n1
        obtain ⟨i2, n2⟩ := exec_absorb f i1 e
        have := n2 (n + 1)
        simp only [HIns.splits] at n1
        exact ⟨i2, by dsimp only; omega⟩
      · next hy =>
        cases e
        rw [hy] at n1
        simp only [HIns.splits] at n1 ⊢
        exact ⟨i1, by omega⟩
      · next hy =>
        cases e
        rw [hy] at n1
        simp only [HIns.splits] at n1 ⊢
        exact ⟨i1, by omega⟩
    · exact found _ _ x

omit f in
theorem cost_takeFirst (x : HN K V) : Cost I (takeFirst x) (fun _ => 0) := by
  unfold takeFirst
  split
  · exact .panic
  · refine Cost.ite .pure ?_
    split
    · exact .panic
    · exact .pure

omit f in
theorem cost_takeLast (x : HN K V) : Cost I (takeLast x) (fun _ => 0) := by
  unfold takeLast
  split
  · exact .panic
  · refine Cost.ite .pure ?_
    split
    · exact .panic
    · exact .pure

omit f in
theorem cost_pushBack (kv : K × V) (o : Option (Option Nat)) (x : HN K V) :
    Cost I (pushBack kv o x) (fun _ => 0) := by
  unfold pushBack
  split
  · exact .panic
  · split
    · exact .pure
    · refine Cost.ite .panic ?_
      split
      · exact .panic
      · exact .pure

omit f in
theorem cost_pushFront (kv : K × V) (o : Option (Option Nat)) (x : HN K V) :
    Cost I (pushFront kv o x) (fun _ => 0) := by
  unfold pushFront
  split
  · exact .panic
  · split
    · exact .pure
    · refine Cost.ite .panic ?_
      split
      · exact .panic
      · exact .pure

theorem cost_rotLf (D idx : Nat) (x : HN K V) : Cost I (rotLf D idx x) (fun _ => 2 * c) := by
  refine Cost.zbind (cost_kidLen f _ _) fun len => Cost.ite .panic ?_
  refine Cost.sbind (a := c) (b := c) (cost_mutKid f (b := fun _ => 0) fun y => cost_takeFirst y)
    (fun y => ?_) (by omega)
  split
  · exact .panic
  · refine Cost.zbind (cost_kidLen f _ _) fun len => Cost.ite .panic ?_
    exact Cost.map (cost_mutKid f (b := fun _ => 0) fun y => cost_pushBack _ _ y)
      (fun _ => Nat.le_refl _)

theorem cost_rotRt (D idx : Nat) (x : HN K V) : Cost I (rotRt D idx x) (fun _ => 2 * c) := by
  refine Cost.zbind (cost_kidLen f _ _) fun len => Cost.ite .panic ?_
  refine Cost.sbind (a := c) (b := c) (cost_mutKid f (b := fun _ => 0) fun y => cost_takeLast y)
    (fun y => ?_) (by omega)
  split
  · exact .panic
  · exact Cost.map (cost_mutKid f (b := fun _ => 0) fun y => cost_pushFront _ _ y)
      (fun _ => Nat.le_refl _)

theorem cost_forAll (D : Nat) : ∀ ks : List (Option Nat),
    Cost I (forAll (drop D) ks : Prog (ND K V) Unit) (fun _ => 0)
  | [] => .pure
  | k :: ks => Cost.zbind (cost_drop f.dec D k) fun _ => cost_forAll D ks

theorem cost_append (D : Nat) (kv : K × V) (r x : HN K V) :
    Cost I (append D kv r x) (fun _ => 0) := by
  unfold append
  split
  · exact .panic
  · refine Cost.ite (Cost.zbind (cost_forAll f D _) fun _ => .pure) (Cost.ite .panic ?_)
    split
    · exact .panic
    · exact .pure

theorem cost_mergeKids (D idx : Nat) (x : HN K V) : Cost I (mergeKids D idx x) (fun _ => c) := by
  refine Cost.ite .panic ?_
  split
  · refine Cost.zbind (f.unwrapOrClone _ _) fun l => ?_
    split
    · exact .panic
    · exact Cost.map (cost_mutKid f (b := fun _ => 0) fun y => cost_append f _ _ _ y)
        (fun _ => Nat.le_refl _)
  · exact .panic

theorem cost_rebal (D i : Nat) (x : HN K V) : Cost I (rebal D i x) (fun _ => 2 * c) := by
  refine Cost.ite .panic (Cost.zbind (cost_kidLen f _ _) fun len => Cost.ite .panic
    (Cost.ite ?_ ?_))
  · refine Cost.zbind (cost_kidLen f _ _) fun len => Cost.ite (cost_rotRt f _ _ _) ?_
    exact (cost_mergeKids f _ _ _).le (fun _ => by omega)
  · refine Cost.zbind (cost_kidLen f _ _) fun len => Cost.ite (cost_rotLf f _ _ _) ?_
    exact (cost_mergeKids f _ _ _).le (fun _ => by omega)

theorem cost_afterKid (D i : Nat) (kv : K × V) (b : Bool) (x : HN K V) :
    Cost I (afterKid D i kv b x) (fun _ => 2 * c) :=
  Cost.ite (Cost.map (cost_rebal f _ _ _) (fun _ => Nat.le_refl _)) .pure

theorem cost_popGreatest (D : Nat) : ∀ n x,
    Cost I (popGreatest (K := K) (V := V) D (n + 1) x) (fun _ => 3 * c * n) := by
  have leaf : ∀ n (x : HN K V), Cost I (match ivPop MAX x.data with
      | none => .panic
      | some (kv, es) => .pure ((⟨es, x.kids⟩ : HN K V), kv, decide (es.length < MIN)))
      (fun _ => n) := by
    intro n x
    split
    · exact .panic
    · exact .pure
  intro n
  induction n with
  | zero =>
    intro x
    exact Cost.ite (cost_mutKid_panic fun _ => rfl) (leaf _ x)
  | succ n ih =>
    intro x
    refine Cost.ite ?_ (leaf _ x)
    exact Cost.sbind (cost_mutKid f (b := fun _ => 3 * c * n) ih) (fun y => cost_afterKid f _ _ _ _ _)
      (by rw [Nat.mul_succ]; omega)

theorem cost_remove (lin : Bool) (D : Nat) (p : K → Ordering) : ∀ n x,
    Cost I (remove (K := K) (V := V) lin D p (n + 1) x) (fun _ => 3 * c * n) := by
  have leaf : ∀ n i (x : HN K V), Cost I (match ivRemove MAX i x.data with
      | none => .panic
      | some (kv, es) => .pure ((⟨es, x.kids⟩ : HN K V), some (kv, decide (es.length < MIN))))
      (fun _ => n) := by
    intro n i x
    split
    · exact .panic
    · exact .pure
  have pop : ∀ i es (y : List (Option Nat) × HRem K V), Cost I (afterPop D i es y)
      (fun _ => 2 * c) := by
    intro i es y
    unfold afterPop
    split
    · exact .panic
    · exact Cost.map (cost_afterKid f _ _ _ _ _) (fun _ => Nat.le_refl _)
  have rm : ∀ i es (y : List (Option Nat) × Option (HRem K V)), Cost I (afterRm D i es y)
      (fun _ => 2 * c) := by
    intro i es y
    unfold afterRm
    split
    · exact .pure
    · exact Cost.map (cost_afterKid f _ _ _ _ _) (fun _ => Nat.le_refl _)
  intro n
  induction n with
  | zero =>
    intro x
    unfold remove
    rcases searchKeys lin p x.data with _ | ⟨i, _ | _⟩
    · exact .panic
    · exact Cost.ite (cost_mutKid_panic fun _ => rfl) .pure
    · exact Cost.ite (leaf _ _ x) (cost_mutKid_panic fun _ => rfl)
  | succ n ih =>
    intro x
    unfold remove
    rcases searchKeys lin p x.data with _ | ⟨i, _ | _⟩
    · exact .panic
    · exact Cost.ite (Cost.sbind (cost_mutKid f (b := fun _ => 3 * c * n) ih) (rm _ _)
        (by rw [Nat.mul_succ]; omega)) .pure
    · exact Cost.ite (leaf _ _ x) (Cost.sbind (cost_mutKid f (b := fun _ => 3 * c * n)
        (cost_popGreatest f D n)) (pop _ _) (by rw [Nat.mul_succ]; omega))

end

end Verif.FixedH
