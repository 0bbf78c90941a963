import Verif.Spec.Lemmas
/-!
# Model of the lazy set-operation iterators of `src/lib.rs` (79-186)

`SortedMergeIter` and `SetOpIter` are generic over the inner iterator `I`; so is the model:
`next : ι → Option (Option α × ι)` is one call of the inner iterator's `next` (outer `none`:
panic).
-/
set_option linter.unusedSectionVars false
namespace Verif.Lib
open Std
variable {ι α : Type _}

/-- `std::iter::Peekable`: a remembered result of `next`, and the inner iterator. -/
structure Peek (ι α : Type _) where
  peeked : Option (Option α)
  iter : ι

/-- `Peekable::peek`. -/
def Peek.peek (next : ι → Option (Option α × ι)) (s : Peek ι α) : Option (Option α × Peek ι α) :=
  match s.peeked with
  | some x => some (x, s)
  | none => (next s.iter).map (fun y => (y.1, ⟨some y.1, y.2⟩))

/-- `Peekable::next`. -/
def Peek.next (next : ι → Option (Option α × ι)) (s : Peek ι α) : Option (Option α × Peek ι α) :=
  match s.peeked with
  | some x => some (x, ⟨none, s.iter⟩)
  | none => (next s.iter).map (fun y => (y.1, ⟨none, y.2⟩))

/-- lib.rs:79-82 `SortedMergeIter`. -/
structure MergeIter (ι α : Type _) where
  lhs : Peek ι α
  rhs : Peek ι α

/-- lib.rs:85-90 `new`. -/
def MergeIter.new (l r : ι) : MergeIter ι α := ⟨⟨none, l⟩, ⟨none, r⟩⟩

/-- `Some((self.lhs.next(), None))` (lib.rs:102, 105). -/
def MergeIter.takeL (next : ι → Option (Option α × ι)) (s : MergeIter ι α) :
    Option (Option (Option α × Option α) × MergeIter ι α) :=
  (s.lhs.next next).map (fun x => (some (x.1, none), ⟨x.2, s.rhs⟩))

/-- `Some((None, self.rhs.next()))` (lib.rs:101, 107). -/
def MergeIter.takeR (next : ι → Option (Option α × ι)) (s : MergeIter ι α) :
    Option (Option (Option α × Option α) × MergeIter ι α) :=
  (s.rhs.next next).map (fun x => (some (none, x.1), ⟨s.lhs, x.2⟩))

/-- `Some((self.lhs.next(), self.rhs.next()))` (lib.rs:106). -/
def MergeIter.takeB (next : ι → Option (Option α × ι)) (s : MergeIter ι α) :
    Option (Option (Option α × Option α) × MergeIter ι α) :=
  match s.lhs.next next with
  | none => none
  | some x => (s.rhs.next next).map (fun y => (some (x.1, y.1), ⟨x.2, y.2⟩))

/-- The `match` of lib.rs:99-109, after both `peek`s. -/
def MergeIter.pick [Ord α] (next : ι → Option (Option α × ι)) (s : MergeIter ι α) :
    Option α → Option α → Option (Option (Option α × Option α) × MergeIter ι α)
  | none, none => some (none, s)
  | none, some _ => s.takeR next
  | some _, none => s.takeL next
  | some a, some b =>
    match compare a b with
    | .lt => s.takeL next
    | .eq => s.takeB next
    | .gt => s.takeR next

/-- lib.rs:96-110 `SortedMergeIter::next`. -/
def MergeIter.next [Ord α] (next : ι → Option (Option α × ι)) (s : MergeIter ι α) :
    Option (Option (Option α × Option α) × MergeIter ι α) :=
  match s.lhs.peek next with
  | none => none
  | some (a, l) =>
    match s.rhs.peek next with
    | none => none
    | some (b, r) => MergeIter.pick next ⟨l, r⟩ a b

/-- The body of the loop of lib.rs:143-148: `some b`: return `b`; `none`: go around. -/
def keep (P : Nat) (a b : Option α) : Option (Option α) :=
  if a.isNone && (P &&& 1 != 0) then some b
  else if b.isNone && (P &&& 4 != 0) then some a
  else if a.isSome && b.isSome && (P &&& 2 != 0) then some b
  else none

/-- lib.rs:138-151 `SetOpIter::next` with the flags `P` (lib.rs:118-122: `0b100` elements only
on the left, `0b010` in both, `0b001` only on the right).  The `loop` is unrolled at most `fuel`
times; `none` if that is not enough (it is proved to be enough) or if an inner iterator
panics. -/
def setOpNext [Ord α] (next : ι → Option (Option α × ι)) (P : Nat) :
    Nat → MergeIter ι α → Option (Option α × MergeIter ι α)
  | 0, _ => none
  | fuel + 1, s =>
    match s.next next with
    | none => none
    | some (none, s') => some (none, s')
    | some (some (a, b), s') =>
      match keep P a b with
      | some x => some (x, s')
      | none => setOpNext next P fuel s'

/-- The results of `n` successive calls of `next`. -/
def setOpRun [Ord α] (next : ι → Option (Option α × ι)) (P fuel : Nat) :
    Nat → MergeIter ι α → Option (List (Option α))
  | 0, _ => some []
  | n + 1, s =>
    match setOpNext next P fuel s with
    | none => none
    | some (x, s') => (setOpRun next P fuel n s').map (x :: ·)

/-! ### What the inner iterator must satisfy -/

/-- `it` yields exactly `l`, then `None` forever, without panic (as a bisimulation). -/
def Yields (next : ι → Option (Option α × ι)) (it : ι) (l : List α) : Prop :=
  ∃ R : ι → List α → Prop,
    (∀ it l, R it l → ∃ it', next it = some (l.head?, it') ∧ R it' l.tail) ∧ R it l

theorem Yields.step {next : ι → Option (Option α × ι)} {it : ι} {l : List α}
    (h : Yields next it l) : ∃ it', next it = some (l.head?, it') ∧ Yields next it' l.tail := by
  obtain ⟨R, hR, h0⟩ := h
  obtain ⟨it', e, h1⟩ := hR _ _ h0
  exact ⟨it', e, R, hR, h1⟩

/-- Yields for a `Peekable`. -/
def PYields (next : ι → Option (Option α × ι)) (s : Peek ι α) (l : List α) : Prop :=
  match s.peeked with
  | none => Yields next s.iter l
  | some x => x = l.head? ∧ Yields next s.iter l.tail

theorem PYields.peek {next : ι → Option (Option α × ι)} {s : Peek ι α} {l : List α}
    (h : PYields next s l) :
    ∃ s', s.peek next = some (l.head?, s') ∧ PYields next s' l := by
  obtain ⟨pk, it⟩ := s
  cases pk with
  | none =>
    obtain ⟨it', e, h'⟩ := Yields.step h
    exact ⟨⟨some l.head?, it'⟩, by simp [Peek.peek, e], rfl, h'⟩
  | some x =>
    obtain ⟨rfl, h2⟩ := h
    exact ⟨⟨some l.head?, it⟩, rfl, rfl, h2⟩

theorem PYields.next {next : ι → Option (Option α × ι)} {s : Peek ι α} {l : List α}
    (h : PYields next s l) :
    ∃ s', s.next next = some (l.head?, s') ∧ PYields next s' l.tail := by
  obtain ⟨pk, it⟩ := s
  cases pk with
  | none =>
    obtain ⟨it', e, h'⟩ := Yields.step h
    exact ⟨⟨none, it'⟩, by simp [Peek.next, e], h'⟩
  | some x =>
    obtain ⟨rfl, h2⟩ := h
    exact ⟨⟨none, it⟩, rfl, h2⟩

variable [Ord α]

/-- The sequence of pairs the merge yields. -/
def mergeList : List α → List α → List (Option α × Option α)
  | [], b => b.map (fun y => (none, some y))
  | a, [] => a.map (fun x => (some x, none))
  | x :: a, y :: b =>
    match compare x y with
    | .lt => (some x, none) :: mergeList a (y :: b)
    | .eq => (some x, some y) :: mergeList a b
    | .gt => (none, some y) :: mergeList (x :: a) b
termination_by a b => a.length + b.length

theorem MergeIter.next_spec {next : ι → Option (Option α × ι)} {s : MergeIter ι α}
    {a b : List α} (ha : PYields next s.lhs a) (hb : PYields next s.rhs b) :
    ∃ s' a' b', s.next next = some ((mergeList a b).head?, s') ∧
      PYields next s'.lhs a' ∧ PYields next s'.rhs b' ∧ mergeList a' b' = (mergeList a b).tail ∧
      a'.length + b'.length ≤ a.length + b.length := by
  obtain ⟨l, e1, hl⟩ := ha.peek
  obtain ⟨r, e2, hr⟩ := hb.peek
  obtain ⟨l', e3, hl'⟩ := hl.next
  obtain ⟨r', e4, hr'⟩ := hr.next
  simp only [MergeIter.next, e1, e2]
  cases a with
  | nil =>
    cases b with
    | nil => exact ⟨⟨l, r⟩, [], [], by simp [pick, mergeList], hl, hr, by simp [mergeList], by simp⟩
    | cons y b =>
      exact ⟨⟨l, r'⟩, [], b, by simp [pick, takeR, e4, mergeList], hl, hr', by simp [mergeList],
        by simp⟩
  | cons x a =>
    cases b with
    | nil =>
      refine ⟨⟨l', r⟩, a, [], by simp [pick, takeL, e3, mergeList], hl', hr, ?_, by simp⟩
      cases a <;> simp [mergeList]
    | cons y b =>
      rw [mergeList]
      simp only [List.head?_cons, pick] at *
      cases h : compare x y with
      | lt => exact ⟨⟨l', r⟩, a, y :: b, by simp [takeL, e3], hl', hr, rfl, by simp⟩
      | eq =>
        exact ⟨⟨l', r'⟩, a, b, by simp [takeB, e3, e4], hl', hr', rfl, by simp; omega⟩
      | gt =>
        exact ⟨⟨l, r'⟩, x :: a, b, by simp [takeR, e4], hl, hr', rfl, by simp⟩

/-- What `SetOpIter` yields. -/
def setOpList (P : Nat) (a b : List α) : List α :=
  (mergeList a b).filterMap (fun z => (keep P z.1 z.2).join)

theorem mergeList_length (a b : List α) : (mergeList a b).length ≤ a.length + b.length := by
  induction a, b using mergeList.induct with
  | case1 b => simp [mergeList]
  | case2 a h => cases a <;> simp [mergeList]
  | case3 x a y b h ih => rw [mergeList, h]; simp at ih ⊢; omega
  | case4 x a y b h ih => rw [mergeList, h]; simp at ih ⊢; omega
  | case5 x a y b h ih => rw [mergeList, h]; simp at ih ⊢; omega

/-- Every pair of the merge has a component. -/
theorem mergeList_ne (a b : List α) : ∀ z ∈ mergeList a b, z.1.isSome ∨ z.2.isSome := by
  induction a, b using mergeList.induct with
  | case1 b => simp [mergeList]
  | case2 a h => cases a <;> simp [mergeList]
  | case3 x a y b h ih => rw [mergeList, h]; simpa using ih
  | case4 x a y b h ih => rw [mergeList, h]; simpa using ih
  | case5 x a y b h ih => rw [mergeList, h]; simpa using ih

theorem keep_some {P : Nat} {a b x : Option α} (h : keep P a b = some x)
    (hz : a.isSome ∨ b.isSome) : x.isSome := by
  unfold keep at h
  split at h
  · rename_i h1
    simp at h1 h; subst h; cases a <;> simp_all
  · split at h
    · rename_i h1; simp at h1 h; subst h; cases b <;> simp_all
    · split at h
      · rename_i h1; simp at h1 h; subst h; exact h1.1.2
      · simp at h

theorem setOpNext_spec {next : ι → Option (Option α × ι)} (P : Nat) : ∀ (fuel : Nat)
    {s : MergeIter ι α} {a b : List α}, PYields next s.lhs a → PYields next s.rhs b →
    (mergeList a b).length < fuel →
    ∃ s' a' b', setOpNext next P fuel s = some ((setOpList P a b).head?, s') ∧
      PYields next s'.lhs a' ∧ PYields next s'.rhs b' ∧
      setOpList P a' b' = (setOpList P a b).tail ∧
      (mergeList a' b').length ≤ (mergeList a b).length
  | 0, _, _, _, _, _, h => by omega
  | fuel + 1, s, a, b, ha, hb, hf => by
    obtain ⟨s', a', b', e, h1, h2, h3, h4⟩ := MergeIter.next_spec ha hb
    simp only [setOpNext, e]
    have hne := mergeList_ne a b
    cases hm : mergeList a b with
    | nil =>
      refine ⟨s', a', b', by simp [setOpList, hm], h1, h2, ?_, ?_⟩
      · simp [setOpList, h3, hm]
      · simp [h3, hm]
    | cons z zs =>
      rw [hm] at h3 hf hne
      simp only [List.head?_cons, List.tail_cons, List.length_cons] at *
      obtain ⟨za, zb⟩ := z
      dsimp only
      cases hk : keep P za zb with
      | some x =>
        have hx := keep_some hk (hne _ List.mem_cons_self)
        obtain ⟨y, rfl⟩ := Option.isSome_iff_exists.1 hx
        exact ⟨s', a', b', by simp [setOpList, hm, hk], h1, h2,
          by simp [setOpList, hm, hk, h3], by rw [h3]; omega⟩
      | none =>
        obtain ⟨s2, a2, b2, e2, k1, k2, k3, k4⟩ :=
          setOpNext_spec P fuel (s := s') (a := a') (b := b') h1 h2 (by rw [h3]; omega)
        have hl : setOpList P a' b' = setOpList P a b := by
          simp [setOpList, h3, hm, hk]
        exact ⟨s2, a2, b2, by rw [e2, hl], k1, k2, by rw [k3, hl], by rw [h3] at k4; omega⟩

/-- The `i`-th call of `next` returns the `i`-th element of `setOpList`, if any. -/
theorem setOpRun_spec {next : ι → Option (Option α × ι)} (P fuel : Nat) : ∀ (n : Nat)
    {s : MergeIter ι α} {a b : List α}, PYields next s.lhs a → PYields next s.rhs b →
    (mergeList a b).length < fuel →
    setOpRun next P fuel n s = some ((List.range n).map (fun i => (setOpList P a b)[i]?))
  | 0, _, _, _, _, _, _ => rfl
  | n + 1, s, a, b, ha, hb, hf => by
    obtain ⟨s', a', b', e, h1, h2, h3, h4⟩ := setOpNext_spec P fuel ha hb hf
    rw [setOpRun, e]
    dsimp only
    rw [setOpRun_spec P fuel n h1 h2 (by omega), h3]
    simp only [Option.map_some, List.range_succ_eq_map, List.map_cons, List.map_map,
      Option.some.injEq, List.cons.injEq, List.head?_eq_getElem?, true_and]
    apply List.map_congr_left
    intro i _
    simp [List.getElem?_tail]

/-! ### The merged sequence -/

/-- Strictly ascending. -/
def Asc (l : List α) : Prop := l.Pairwise (fun x y => compare x y = .lt)

variable [TransOrd α]

theorem asc_cons {x : α} {l : List α} : Asc (x :: l) ↔ (∀ y ∈ l, compare x y = .lt) ∧ Asc l := by
  simp [Asc]

theorem ne_eq_of_lt {x y : α} (h : compare x y = .lt) : compare x y ≠ .eq := by simp [h]

/-- What the pairs of the merge are. -/
theorem mem_mergeList (a b : List α) (ha : Asc a) (hb : Asc b) :
    (∀ x, (some x, none) ∈ mergeList a b ↔ x ∈ a ∧ ∀ y ∈ b, compare x y ≠ .eq) ∧
    (∀ y, (none, some y) ∈ mergeList a b ↔ y ∈ b ∧ ∀ x ∈ a, compare x y ≠ .eq) ∧
    (∀ x y, (some x, some y) ∈ mergeList a b ↔ x ∈ a ∧ y ∈ b ∧ compare x y = .eq) := by
  induction a, b using mergeList.induct with
  | case1 b => simp [mergeList]
  | case2 a h => cases a <;> simp [mergeList]
  | case3 x a y b h ih =>
    obtain ⟨i1, i2, i3⟩ := ih (asc_cons.1 ha).2 hb
    have hx : ∀ z ∈ y :: b, compare x z = .lt := by
      intro z hz
      rcases List.mem_cons.1 hz with rfl | hz
      · exact h
      · exact cmp_lt_trans h ((asc_cons.1 hb).1 z hz)
    rw [mergeList, h]
    refine ⟨fun u => ?_, fun u => ?_, fun u v => ?_⟩
    · rw [List.mem_cons, i1, List.mem_cons]
      constructor
      · rintro (e | ⟨e1, e2⟩)
        · simp only [Prod.mk.injEq, Option.some.injEq, and_true] at e
          subst e; exact ⟨Or.inl rfl, fun z hz => ne_eq_of_lt (hx z hz)⟩
        · exact ⟨Or.inr e1, e2⟩
      · rintro ⟨rfl | e1, e2⟩
        · exact Or.inl rfl
        · exact Or.inr ⟨e1, e2⟩
    · rw [List.mem_cons, i2]
      constructor
      · rintro (e | ⟨e1, e2⟩)
        · simp at e
        · refine ⟨e1, fun z hz => ?_⟩
          rcases List.mem_cons.1 hz with rfl | hz
          · exact ne_eq_of_lt (hx _ e1)
          · exact e2 z hz
      · rintro ⟨e1, e2⟩
        exact Or.inr ⟨e1, fun z hz => e2 z (List.mem_cons_of_mem _ hz)⟩
    · rw [List.mem_cons, i3]
      constructor
      · rintro (e | ⟨e1, e2, e3⟩)
        · simp at e
        · exact ⟨List.mem_cons_of_mem _ e1, e2, e3⟩
      · rintro ⟨e1, e2, e3⟩
        rcases List.mem_cons.1 e1 with rfl | e1
        · rw [hx v e2] at e3; simp at e3
        · exact Or.inr ⟨e1, e2, e3⟩
  | case4 x a y b h ih =>
    obtain ⟨i1, i2, i3⟩ := ih (asc_cons.1 ha).2 (asc_cons.1 hb).2
    have hx : ∀ z ∈ b, compare x z = .lt := fun z hz => by
      rw [cmp_congr_left h]; exact (asc_cons.1 hb).1 z hz
    have hy : ∀ z ∈ a, compare z y = .gt := fun z hz => by
      rw [cmp_gt_iff_lt, ← cmp_congr_left h]; exact (asc_cons.1 ha).1 z hz
    rw [mergeList, h]
    refine ⟨fun u => ?_, fun u => ?_, fun u v => ?_⟩
    · rw [List.mem_cons, i1, List.mem_cons]
      constructor
      · rintro (e | ⟨e1, e2⟩)
        · simp at e
        · refine ⟨Or.inr e1, fun z hz => ?_⟩
          rcases List.mem_cons.1 hz with rfl | hz
          · simp [hy u e1]
          · exact e2 z hz
      · rintro ⟨rfl | e1, e2⟩
        · exact absurd h (e2 y List.mem_cons_self)
        · exact Or.inr ⟨e1, fun z hz => e2 z (List.mem_cons_of_mem _ hz)⟩
    · rw [List.mem_cons, i2, List.mem_cons]
      constructor
      · rintro (e | ⟨e1, e2⟩)
        · simp at e
        · refine ⟨Or.inr e1, fun z hz => ?_⟩
          rcases List.mem_cons.1 hz with rfl | hz
          · exact ne_eq_of_lt (hx _ e1)
          · exact e2 z hz
      · rintro ⟨rfl | e1, e2⟩
        · exact absurd h (e2 x List.mem_cons_self)
        · exact Or.inr ⟨e1, fun z hz => e2 z (List.mem_cons_of_mem _ hz)⟩
    · rw [List.mem_cons, i3, List.mem_cons, List.mem_cons]
      constructor
      · rintro (e | ⟨e1, e2, e3⟩)
        · simp only [Prod.mk.injEq, Option.some.injEq] at e
          obtain ⟨rfl, rfl⟩ := e
          exact ⟨Or.inl rfl, Or.inl rfl, h⟩
        · exact ⟨Or.inr e1, Or.inr e2, e3⟩
      · rintro ⟨rfl | e1, rfl | e2, e3⟩
        · exact Or.inl rfl
        · rw [hx v e2] at e3; simp at e3
        · rw [hy u e1] at e3; simp at e3
        · exact Or.inr ⟨e1, e2, e3⟩
  | case5 x a y b h ih =>
    obtain ⟨i1, i2, i3⟩ := ih ha (asc_cons.1 hb).2
    have hy : ∀ z ∈ x :: a, compare z y = .gt := by
      intro z hz
      rw [cmp_gt_iff_lt] at h ⊢
      rcases List.mem_cons.1 hz with rfl | hz
      · exact h
      · exact cmp_lt_trans h ((asc_cons.1 ha).1 z hz)
    rw [mergeList, h]
    refine ⟨fun u => ?_, fun u => ?_, fun u v => ?_⟩
    · rw [List.mem_cons, i1]
      constructor
      · rintro (e | ⟨e1, e2⟩)
        · simp at e
        · refine ⟨e1, fun z hz => ?_⟩
          rcases List.mem_cons.1 hz with rfl | hz
          · simp [hy u e1]
          · exact e2 z hz
      · rintro ⟨e1, e2⟩
        exact Or.inr ⟨e1, fun z hz => e2 z (List.mem_cons_of_mem _ hz)⟩
    · rw [List.mem_cons, i2, List.mem_cons]
      constructor
      · rintro (e | ⟨e1, e2⟩)
        · simp only [Prod.mk.injEq, Option.some.injEq, true_and] at e
          subst e; exact ⟨Or.inl rfl, fun z hz => by simp [hy z hz]⟩
        · exact ⟨Or.inr e1, e2⟩
      · rintro ⟨rfl | e1, e2⟩
        · exact Or.inl rfl
        · exact Or.inr ⟨e1, e2⟩
    · rw [List.mem_cons, i3]
      constructor
      · rintro (e | ⟨e1, e2, e3⟩)
        · simp at e
        · exact ⟨e1, List.mem_cons_of_mem _ e2, e3⟩
      · rintro ⟨e1, e2, e3⟩
        rcases List.mem_cons.1 e2 with rfl | e2
        · rw [hy u e1] at e3; simp at e3
        · exact Or.inr ⟨e1, e2, e3⟩

/-- The components of the merge's pairs come from the two lists. -/
theorem mergeList_comp (a b : List α) : ∀ z ∈ mergeList a b,
    (∀ x, z.1 = some x → x ∈ a) ∧ (∀ y, z.2 = some y → y ∈ b) := by
  induction a, b using mergeList.induct with
  | case1 b => simp +contextual [mergeList]
  | case2 a h => cases a <;> simp +contextual [mergeList]
  | case3 x a y b h ih =>
    rw [mergeList, h]
    intro z hz
    rcases List.mem_cons.1 hz with rfl | hz
    · simp
    · exact ⟨fun u hu => List.mem_cons_of_mem _ ((ih z hz).1 u hu), (ih z hz).2⟩
  | case4 x a y b h ih =>
    rw [mergeList, h]
    intro z hz
    rcases List.mem_cons.1 hz with rfl | hz
    · simp
    · exact ⟨fun u hu => List.mem_cons_of_mem _ ((ih z hz).1 u hu),
        fun u hu => List.mem_cons_of_mem _ ((ih z hz).2 u hu)⟩
  | case5 x a y b h ih =>
    rw [mergeList, h]
    intro z hz
    rcases List.mem_cons.1 hz with rfl | hz
    · simp
    · exact ⟨(ih z hz).1, fun u hu => List.mem_cons_of_mem _ ((ih z hz).2 u hu)⟩

/-- `u` is a component of the pair `z`. -/
def Comp (u : α) (z : Option α × Option α) : Prop := z.1 = some u ∨ z.2 = some u

theorem mergeList_asc (a b : List α) (ha : Asc a) (hb : Asc b) :
    (mergeList a b).Pairwise (fun z z' => ∀ u v, Comp u z → Comp v z' → compare u v = .lt) := by
  induction a, b using mergeList.induct with
  | case1 b =>
    rw [mergeList, List.pairwise_map]
    exact List.Pairwise.imp (fun h u v hu hv => by
      simp only [Comp, reduceCtorEq, Option.some.injEq, false_or] at hu hv
      subst hu; subst hv; exact h) hb
  | case2 a h =>
    have e : mergeList a [] = a.map (fun x => (some x, none)) := by cases a <;> simp [mergeList]
    rw [e, List.pairwise_map]
    exact List.Pairwise.imp (fun h u v hu hv => by
      simp only [Comp, reduceCtorEq, Option.some.injEq, or_false] at hu hv
      subst hu; subst hv; exact h) ha
  | case3 x a y b h ih =>
    rw [mergeList, h]
    refine List.Pairwise.cons ?_ (ih (asc_cons.1 ha).2 hb)
    intro z hz u v hu hv
    simp only [Comp, reduceCtorEq, Option.some.injEq, or_false] at hu
    subst hu
    rcases hv with hv | hv
    · exact (asc_cons.1 ha).1 v ((mergeList_comp _ _ z hz).1 v hv)
    · rcases List.mem_cons.1 ((mergeList_comp _ _ z hz).2 v hv) with rfl | hm
      · exact h
      · exact cmp_lt_trans h ((asc_cons.1 hb).1 v hm)
  | case4 x a y b h ih =>
    rw [mergeList, h]
    refine List.Pairwise.cons ?_ (ih (asc_cons.1 ha).2 (asc_cons.1 hb).2)
    intro z hz u v hu hv
    have hv' : compare x v = .lt := by
      rcases hv with hv | hv
      · exact (asc_cons.1 ha).1 v ((mergeList_comp _ _ z hz).1 v hv)
      · rw [cmp_congr_left h]; exact (asc_cons.1 hb).1 v ((mergeList_comp _ _ z hz).2 v hv)
    simp only [Comp, Option.some.injEq] at hu
    rcases hu with rfl | rfl
    · exact hv'
    · rw [← cmp_congr_left h]; exact hv'
  | case5 x a y b h ih =>
    rw [mergeList, h]
    refine List.Pairwise.cons ?_ (ih ha (asc_cons.1 hb).2)
    intro z hz u v hu hv
    simp only [Comp, reduceCtorEq, Option.some.injEq, false_or] at hu
    subst hu
    rw [cmp_gt_iff_lt] at h
    rcases hv with hv | hv
    · rcases List.mem_cons.1 ((mergeList_comp _ _ z hz).1 v hv) with rfl | hm
      · exact h
      · exact cmp_lt_trans h ((asc_cons.1 ha).1 v hm)
    · exact (asc_cons.1 hb).1 v ((mergeList_comp _ _ z hz).2 v hv)

/-- `setOpList` is strictly ascending. -/
theorem setOpList_asc (P : Nat) {a b : List α} (ha : Asc a) (hb : Asc b) :
    Asc (setOpList P a b) := by
  unfold setOpList Asc
  rw [List.pairwise_filterMap]
  refine List.Pairwise.imp ?_ (mergeList_asc a b ha hb)
  have key : ∀ (z : Option α × Option α) u, (keep P z.1 z.2).join = some u → Comp u z := by
    intro z u h
    unfold keep at h
    split at h
    · exact Or.inr h
    · split at h
      · exact Or.inl h
      · split at h
        · exact Or.inr h
        · simp at h
  intro z z' h u hu v hv
  exact h u v (key z u hu) (key z' v hv)

/-- What `setOpList` contains. -/
theorem mem_setOpList (P : Nat) {a b : List α} (ha : Asc a) (hb : Asc b) (u : α) :
    u ∈ setOpList P a b ↔
      ((P &&& 4 ≠ 0 ∧ u ∈ a ∧ ∀ y ∈ b, compare u y ≠ .eq) ∨
       (P &&& 1 ≠ 0 ∧ u ∈ b ∧ ∀ x ∈ a, compare x u ≠ .eq) ∨
       (P &&& 2 ≠ 0 ∧ u ∈ b ∧ ∃ x ∈ a, compare x u = .eq)) := by
  obtain ⟨h1, h2, h3⟩ := mem_mergeList a b ha hb
  unfold setOpList
  rw [List.mem_filterMap]
  constructor
  · rintro ⟨⟨z1, z2⟩, hz, hk⟩
    cases z1 with
    | none =>
      cases z2 with
      | none => have := mergeList_ne a b _ hz; simp at this
      | some y =>
        have : P &&& 1 ≠ 0 ∧ y = u := by
          unfold keep at hk; simp only [Option.isNone_none, Bool.true_and] at hk
          split at hk
          · rename_i hc; simp only [bne_iff_ne] at hc; simp at hk; exact ⟨hc, hk⟩
          · simp at hk
        obtain ⟨hp, rfl⟩ := this
        exact Or.inr (Or.inl ⟨hp, (h2 y).1 hz⟩)
    | some x =>
      cases z2 with
      | none =>
        have : P &&& 4 ≠ 0 ∧ x = u := by
          unfold keep at hk
          simp only [Option.isNone_some, Bool.false_and, Bool.false_eq_true, if_false,
            Option.isNone_none, Bool.true_and] at hk
          split at hk
          · rename_i hc; simp only [bne_iff_ne] at hc; simp at hk; exact ⟨hc, hk⟩
          · simp at hk
        obtain ⟨hp, rfl⟩ := this
        exact Or.inl ⟨hp, (h1 x).1 hz⟩
      | some y =>
        have : P &&& 2 ≠ 0 ∧ y = u := by
          unfold keep at hk
          simp only [Option.isNone_some, Bool.false_and, Bool.false_eq_true, if_false,
            Option.isSome_some, Bool.true_and] at hk
          split at hk
          · rename_i hc; simp only [bne_iff_ne] at hc; simp at hk; exact ⟨hc, hk⟩
          · simp at hk
        obtain ⟨hp, rfl⟩ := this
        obtain ⟨m1, m2, m3⟩ := (h3 x y).1 hz
        exact Or.inr (Or.inr ⟨hp, m2, x, m1, m3⟩)
  · rintro (⟨hp, hm⟩ | ⟨hp, hm⟩ | ⟨hp, hm, x, hx, hc⟩)
    · exact ⟨(some u, none), (h1 u).2 hm, by simp [keep, hp]⟩
    · exact ⟨(none, some u), (h2 u).2 hm, by simp only [keep, Option.isNone_none, Bool.true_and, bne_iff_ne, ne_eq, hp, not_false_eq_true, if_true, Option.join_some]⟩
    · exact ⟨(some x, some u), (h3 x u).2 ⟨hx, hm, hc⟩, by simp [keep, hp]⟩

end Verif.Lib
