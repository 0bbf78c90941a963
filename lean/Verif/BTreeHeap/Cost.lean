import Verif.Heap.Cost
import Verif.BTreeHeap.Remove
/-!
# How many nodes the functions of btree.rs allocate
-/
namespace Verif.BTreeH
open Heap
open BTree.Node (vInsert vRemove vSplitOff vPop locate descIdx)
variable {K V β : Type}

/-! ## More recursion depth -/

theorem mutArc_le {D a : Nat} {f g : HN K V → Prog (ND K V) (HN K V × β)}
    (h : ∀ x, (f x).Le (g x)) : (mutArc D a f).Le (mutArc D a g) :=
  Prog.Le.bind (fun _ => Prog.Le.bind (fun x => Prog.Le.bind (fun _ => Prog.Le.refl _) (h x))
    (Prog.Le.refl _)) (Prog.Le.refl _)

theorem mutKid_le {D i : Nat} {ks : List (Option Nat)} {f g : HN K V → Prog (ND K V) (HN K V × β)}
    (h : ∀ x, (f x).Le (g x)) : (mutKid D ks i f).Le (mutKid D ks i g) := by
  unfold mutKid
  split
  · exact trivial
  · exact Prog.Le.bind (fun _ => Prog.Le.refl _) (mutArc_le h)

theorem Le_ite {α : Type} {P : Type} {b : Prop} [Decidable b] {p q p' q' : Prog P α}
    (h : p.Le p') (h' : q.Le q') : (if b then p else q).Le (if b then p' else q') := by
  by_cases hb : b
  · rwa [if_pos hb, if_pos hb]
  · rwa [if_neg hb, if_neg hb]

theorem getMut_le {D : Nat} {p : K → Ordering} {g : V → V} : ∀ {n m : Nat} {x : HN K V}, n ≤ m →
    (getMut D p g n x).Le (getMut D p g m x) := by
  intro n
  induction n with
  | zero => intro m x _; exact trivial
  | succ n ih =>
    intro m x hm
    obtain ⟨m, rfl⟩ : ∃ m', m = m' + 1 := ⟨m - 1, by omega⟩
    exact Le_ite (Prog.Le.refl _) (Le_ite (Prog.Le.bind (fun _ => Prog.Le.refl _)
      (mutKid_le fun _ => ih (by omega))) (Prog.Le.refl _))

theorem ins_le [Ord K] {N D : Nat} {k : K} {v : V} : ∀ {n m : Nat} {x : HN K V}, n ≤ m →
    (ins N D k v n x).Le (ins N D k v m x) := by
  intro n
  induction n with
  | zero => intro m x _; exact trivial
  | succ n ih =>
    intro m x hm
    obtain ⟨m, rfl⟩ : ∃ m', m = m' + 1 := ⟨m - 1, by omega⟩
    exact Le_ite (Prog.Le.refl _) (Le_ite (Prog.Le.bind (fun _ => Prog.Le.refl _)
      (mutKid_le fun _ => ih (by omega))) (Prog.Le.refl _))

theorem popFirst_le {N D : Nat} : ∀ {n m : Nat} {x : HN K V}, n ≤ m →
    (popFirst N D n x).Le (popFirst N D m x) := by
  intro n
  induction n with
  | zero => intro m x _; exact trivial
  | succ n ih =>
    intro m x hm
    obtain ⟨m, rfl⟩ : ∃ m', m = m' + 1 := ⟨m - 1, by omega⟩
    exact Le_ite (Prog.Le.bind (fun _ => Prog.Le.refl _)
      (mutKid_le fun _ => ih (by omega))) (Prog.Le.refl _)

theorem popLast_le {N D : Nat} : ∀ {n m : Nat} {x : HN K V}, n ≤ m →
    (popLast N D n x).Le (popLast N D m x) := by
  intro n
  induction n with
  | zero => intro m x _; exact trivial
  | succ n ih =>
    intro m x hm
    obtain ⟨m, rfl⟩ : ∃ m', m = m' + 1 := ⟨m - 1, by omega⟩
    exact Le_ite (Prog.Le.bind (fun _ => Prog.Le.refl _)
      (mutKid_le fun _ => ih (by omega))) (Prog.Le.refl _)

theorem remove_le {N D : Nat} {p : K → Ordering} : ∀ {n m : Nat} {x : HN K V}, n ≤ m →
    (remove N D p n x).Le (remove N D p m x) := by
  intro n
  induction n with
  | zero => intro m x _; exact trivial
  | succ n ih =>
    intro m x hm
    obtain ⟨m, rfl⟩ : ∃ m', m = m' + 1 := ⟨m - 1, by omega⟩
    exact Le_ite (Le_ite (Prog.Le.refl _) (Prog.Le.bind (fun _ => Prog.Le.refl _)
      (mutKid_le fun _ => popLast_le (by omega)))) (Le_ite (Prog.Le.bind
      (fun _ => Prog.Le.refl _) (mutKid_le fun _ => ih (by omega))) (Prog.Le.refl _))

/-! ## Costs -/

section
variable {I : Mem (ND K V) → Prop} {c : Nat} (f : Frugal I c)
include f

theorem cost_mutArc {D a : Nat} {g : HN K V → Prog (ND K V) (HN K V × β)} {b : β → Nat}
    (h : ∀ x, Cost I (g x) (fun y => b y.2)) :
    Cost I (mutArc D a g) (fun y : Nat × β => c + b y.2) := by
  intro h0 hi h' y e
  obtain ⟨h1, a1, e1, e⟩ := Prog.exec_bind_some e
  obtain ⟨h2, n2, e2, e⟩ := Prog.exec_bind_some e
  obtain ⟨h3, x3, e3, e⟩ := Prog.exec_bind_some e
  obtain ⟨h4, x4, e4, e⟩ := Prog.exec_bind_some e
  cases e
  obtain ⟨i1, n1⟩ := f.makeMut _ _ _ hi _ _ e1
  obtain ⟨i2, n2⟩ := f.open_ _ _ i1 _ _ e2
  obtain ⟨i3, n3⟩ := h _ _ i2 _ _ e3
  obtain ⟨i4, n4⟩ := f.close _ _ _ i3 _ _ e4
  dsimp only at *
  exact ⟨i4, by omega⟩

theorem cost_mutKid {D i : Nat} {ks : List (Option Nat)}
    {g : HN K V → Prog (ND K V) (HN K V × β)} {b : β → Nat}
    (h : ∀ x, Cost I (g x) (fun y => b y.2)) :
    Cost I (mutKid D ks i g) (fun y : List (Option Nat) × β => c + b y.2) := by
  unfold mutKid
  split
  · exact .panic
  · exact Cost.map (cost_mutArc f h) (fun _ => Nat.le_refl _)

omit f in
/-- A program that never ends with a result. -/
theorem mutKid_panic {D i : Nat} {ks : List (Option Nat)}
    {g : HN K V → Prog (ND K V) (HN K V × β)} (h : ∀ x, g x = .panic) {h0 h' : Mem (ND K V)} {y} :
    (mutKid D ks i g).exec h0 ≠ some (h', some y) := by
  unfold mutKid
  split
  · rintro ⟨⟩
  · intro e
    obtain ⟨_, _, e, -⟩ := Prog.exec_bind_some e
    obtain ⟨_, _, -, e⟩ := Prog.exec_bind_some e
    obtain ⟨_, _, -, e⟩ := Prog.exec_bind_some e
    obtain ⟨_, _, e, -⟩ := Prog.exec_bind_some e
    erw [h] at e
    cases e

omit f in
theorem cost_mutKid_panic {γ : Type} {D i : Nat} {ks : List (Option Nat)}
    {g : HN K V → Prog (ND K V) (HN K V × β)} {b : γ → Nat}
    (h : ∀ x, g x = .panic) {k : List (Option Nat) × β → Prog (ND K V) γ} :
    Cost I ((mutKid D ks i g).bind k) b := by
  intro h0 hi h' y e
  obtain ⟨_, _, e, -⟩ := Prog.exec_bind_some e
  exact absurd e (mutKid_panic h)

theorem cost_kidLen (ks : List (Option Nat)) (i : Nat) :
    Cost I (kidLen (K := K) (V := V) ks i) (fun _ => 0) := by
  unfold kidLen
  split
  · exact .panic
  · exact Cost.map (f.read _ _) (fun _ => Nat.le_refl _)

/-- With `n` levels below, each of which costs `c`. -/
theorem cost_getMut (D : Nat) (p : K → Ordering) (g : V → V) : ∀ n x,
    Cost I (getMut D p g (n + 1) x) (fun _ => c * n) := by
  intro n
  induction n with
  | zero =>
    intro x
    exact Cost.ite .pure (Cost.ite (cost_mutKid_panic fun _ => rfl) .pure)
  | succ n ih =>
    intro x
    refine Cost.ite .pure (Cost.ite ?_ .pure)
    exact Cost.map (cost_mutKid f (b := fun _ => c * n) fun y => ih y) (fun _ => by
      rw [Nat.mul_succ]; omega)

/-- A value is replaced, or an entry is added and up to `n` nodes are split. -/
def HIns.splits (n : Nat) : HIns K V → Nat
  | .replaced _ => 0
  | .split _ _ => n + 1
  | .absorbed => n

theorem exec_split {N : Nat} {x : HN K V} {h h' : Mem (ND K V)} {y} (hi : I h)
    (e : (split N x).exec h = some (h', some y)) :
    I h' ∧ h'.next ≤ h.next + 1 ∧ ∃ a kv, y.2 = .split a kv := by
  unfold split at e
  split at e
  · cases e
  · split at e
    · split at e
      · cases e
      · obtain ⟨h1, a, e1, e⟩ := Prog.exec_bind_some e
        cases e
        obtain ⟨i1, n1⟩ := f.alloc _ _ hi _ _ e1
        exact ⟨i1, n1, a, _, rfl⟩
    · cases e

theorem exec_absorb {N i : Nat} {lhs : Option Nat} {kv : K × V} {x : HN K V}
    {h h' : Mem (ND K V)} {y} (hi : I h) (e : (absorb N i lhs kv x).exec h = some (h', some y)) :
    I h' ∧ ∀ n, h'.next + n ≤ h.next + y.2.splits n := by
  unfold absorb at e
  split at e
  · split at e
    · cases e
      exact ⟨hi, fun n => Nat.le_refl _⟩
    · obtain ⟨i1, n1, a, kv, e1⟩ := exec_split f hi e
      exact ⟨i1, fun n => by rw [e1]; simp only [HIns.splits]; omega⟩
  · cases e

/-- With `n` levels below, each of which costs `c`. -/
theorem cost_ins [Ord K] (N D : Nat) (k : K) (v : V) : ∀ n x,
    Cost I (ins N D k v (n + 1) x) (fun y => c * n + y.2.splits n) := by
  have leaf : ∀ n i (x : HN K V), Cost I (absorb N i none (k, v) x)
      (fun y => c * n + y.2.splits n) := by
    intro n i x h hi h' y e
    obtain ⟨i1, n1⟩ := exec_absorb f hi e
    have := n1 n
    exact ⟨i1, by dsimp only; omega⟩
  have found : ∀ n (x : HN K V), Cost I (match x.data[(locate (compare k) x.data).1]? with
      | none => .panic
      | some e => .pure ((⟨x.data.set (locate (compare k) x.data).1 (k, v), x.kids⟩ : HN K V),
          (HIns.replaced e.2 : HIns K V))) (fun y => c * n + y.2.splits n) := by
    intro n x
    split
    · exact .panic
    · exact .pure
  intro n
  induction n with
  | zero =>
    intro x
    exact Cost.ite (found _ x) (Cost.ite (cost_mutKid_panic fun _ => rfl) (leaf _ _ x))
  | succ n ih =>
    intro x
    refine Cost.ite (found _ x) (Cost.ite ?_ (leaf _ _ x))
    intro h hi h' z e
    obtain ⟨h1, y, e1, e⟩ := Prog.exec_bind_some e
    obtain ⟨i1, n1⟩ := cost_mutKid f (b := fun y => c * n + y.splits n) ih _ hi _ _ e1
    rw [Nat.mul_succ]
    unfold afterIns at e
    dsimp only at n1
    split at e
    · next hy =>
      rw [hy] at n1
      obtain ⟨i2, n2⟩ := exec_absorb f i1 e
      have := n2 (n + 1)
      simp only [HIns.splits] at n1
      exact ⟨i2, by dsimp only; omega⟩
    · next hy =>
      cases e
      rw [hy] at n1
      simp only [HIns.splits] at n1 ⊢
      exact ⟨i1, by omega⟩
    · next hy =>
      cases e
      rw [hy] at n1
      simp only [HIns.splits] at n1 ⊢
      exact ⟨i1, by omega⟩

theorem cost_rotLf (N D idx : Nat) (x : HN K V) : Cost I (rotLf N D idx x) (fun _ => 2 * c) := by
  refine Cost.zbind (cost_kidLen f _ _) fun len => Cost.ite .panic ?_
  refine Cost.sbind (a := c) (b := c) (cost_mutKid f (b := fun _ => 0) fun y => ?_) (fun y => ?_)
    (by omega)
  · unfold takeFirst
    split
    · exact .panic
    · exact .pure
  · split
    · exact .panic
    · refine Cost.zbind (cost_kidLen f _ _) fun len => Cost.ite .panic ?_
      exact Cost.map (cost_mutKid f (b := fun _ => 0) fun y => .pure) (fun _ => Nat.le_refl _)

theorem cost_rotRt (N D idx : Nat) (x : HN K V) : Cost I (rotRt N D idx x) (fun _ => 2 * c) := by
  refine Cost.zbind (cost_kidLen f _ _) fun len => Cost.ite .panic ?_
  refine Cost.sbind (a := c) (b := c) (cost_mutKid f (b := fun _ => 0) fun y => ?_) (fun y => ?_)
    (by omega)
  · unfold takeLast
    split
    · exact .panic
    · exact .pure
  · split
    · exact .panic
    · exact Cost.map (cost_mutKid f (b := fun _ => 0) fun y => .pure) (fun _ => Nat.le_refl _)

theorem cost_mergeKids (D idx : Nat) (x : HN K V) : Cost I (mergeKids D idx x) (fun _ => c) := by
  unfold mergeKids
  split
  · refine Cost.zbind (f.unwrapOrClone _ _) fun l => ?_
    exact Cost.map (cost_mutKid f (b := fun _ => 0) fun y => .pure) (fun _ => Nat.le_refl _)
  · exact .panic

theorem cost_rebal (N D i : Nat) (x : HN K V) : Cost I (rebal N D i x) (fun _ => 2 * c) := by
  refine Cost.ite .panic (Cost.ite ?_ ?_)
  · refine Cost.zbind (cost_kidLen f _ _) fun len => Cost.ite (cost_rotRt f _ _ _ _) ?_
    exact (cost_mergeKids f _ _ _).le (fun _ => by omega)
  · refine Cost.zbind (cost_kidLen f _ _) fun len => Cost.ite (cost_rotLf f _ _ _ _) ?_
    exact (cost_mergeKids f _ _ _).le (fun _ => by omega)

theorem cost_afterKid (N D i : Nat) (kv : K × V) (b : Bool) (x : HN K V) :
    Cost I (afterKid N D i kv b x) (fun _ => 2 * c) :=
  Cost.ite (Cost.map (cost_rebal f _ _ _ _) (fun _ => Nat.le_refl _)) .pure

theorem cost_popFirst (N D : Nat) : ∀ n x,
    Cost I (popFirst (K := K) (V := V) N D (n + 1) x) (fun _ => 3 * c * n) := by
  have leaf : ∀ n (x : HN K V), Cost I (match vRemove 0 x.data with
      | none => .panic
      | some (kv, es) => .pure ((⟨es, x.kids⟩ : HN K V), kv, decide (es.length < N)))
      (fun _ => n) := by
    intro n x
    split
    · exact .panic
    · exact .pure
  intro n
  induction n with
  | zero =>
    intro x
    exact Cost.ite (cost_mutKid_panic fun _ => rfl) (leaf _ x)
  | succ n ih =>
    intro x
    refine Cost.ite ?_ (leaf _ x)
    exact Cost.sbind (cost_mutKid f (b := fun _ => 3 * c * n) ih) (fun y => cost_afterKid f _ _ _ _ _ _)
      (by rw [Nat.mul_succ]; omega)

theorem cost_popLast (N D : Nat) : ∀ n x,
    Cost I (popLast (K := K) (V := V) N D (n + 1) x) (fun _ => 3 * c * n) := by
  have leaf : ∀ n (x : HN K V), Cost I (match vPop x.data with
      | none => .panic
      | some (kv, es) => .pure ((⟨es, x.kids⟩ : HN K V), kv, decide (es.length < N)))
      (fun _ => n) := by
    intro n x
    split
    · exact .panic
    · exact .pure
  intro n
  induction n with
  | zero =>
    intro x
    exact Cost.ite (cost_mutKid_panic fun _ => rfl) (leaf _ x)
  | succ n ih =>
    intro x
    refine Cost.ite ?_ (leaf _ x)
    exact Cost.sbind (cost_mutKid f (b := fun _ => 3 * c * n) ih) (fun y => cost_afterKid f _ _ _ _ _ _)
      (by rw [Nat.mul_succ]; omega)

theorem cost_remove (N D : Nat) (p : K → Ordering) : ∀ n x,
    Cost I (remove (K := K) (V := V) N D p (n + 1) x) (fun _ => 3 * c * n) := by
  have leaf : ∀ n (x : HN K V), Cost I (match vRemove (locate p x.data).1 x.data with
      | none => .panic
      | some (kv, es) => .pure ((⟨es, x.kids⟩ : HN K V), some (kv, decide (es.length < N))))
      (fun _ => n) := by
    intro n x
    split
    · exact .panic
    · exact .pure
  have pop : ∀ i es (y : List (Option Nat) × HRem K V), Cost I (afterPop N D i es y)
      (fun _ => 2 * c) := by
    intro i es y
    unfold afterPop
    split
    · exact .panic
    · exact Cost.map (cost_afterKid f _ _ _ _ _ _) (fun _ => Nat.le_refl _)
  have rm : ∀ i es (y : List (Option Nat) × Option (HRem K V)), Cost I (afterRm N D i es y)
      (fun _ => 2 * c) := by
    intro i es y
    unfold afterRm
    split
    · exact .pure
    · exact Cost.map (cost_afterKid f _ _ _ _ _ _) (fun _ => Nat.le_refl _)
  intro n
  induction n with
  | zero =>
    intro x
    exact Cost.ite (Cost.ite (leaf _ x) (cost_mutKid_panic fun _ => rfl))
      (Cost.ite (cost_mutKid_panic fun _ => rfl) .pure)
  | succ n ih =>
    intro x
    refine Cost.ite (Cost.ite (leaf _ x) ?_) (Cost.ite ?_ .pure)
    · exact Cost.sbind (cost_mutKid f (b := fun _ => 3 * c * n) (cost_popLast f N D n))
        (pop _ _) (by rw [Nat.mul_succ]; omega)
    · exact Cost.sbind (cost_mutKid f (b := fun _ => 3 * c * n) ih) (rm _ _)
        (by rw [Nat.mul_succ]; omega)

end

end Verif.BTreeH
