import Verif.Heap.Wp
import Verif.Lib.SetOps
/-!
# The lazy set-operation iterators of lib.rs:79-151 on reference-counted memory

As `Verif.Lib.SetOps`, with inner iterators whose `next` is a program; and the proof that they do
what they do on values, if the inner iterators do.
-/
namespace Verif.Heap.SetOps
open Verif.Heap Verif.Lib

variable {P ι κ α : Type}

/-- `Peekable::peek`. -/
def peek (next : ι → Prog P (Option α × ι)) (s : Peek ι α) : Prog P (Option α × Peek ι α) :=
  match s.peeked with
  | some x => .pure (x, s)
  | none => (next s.iter).bind fun y => .pure (y.1, ⟨some y.1, y.2⟩)

/-- `Peekable::next`. -/
def pnext (next : ι → Prog P (Option α × ι)) (s : Peek ι α) : Prog P (Option α × Peek ι α) :=
  match s.peeked with
  | some x => .pure (x, ⟨none, s.iter⟩)
  | none => (next s.iter).bind fun y => .pure (y.1, ⟨none, y.2⟩)

/-- `Some((self.lhs.next(), None))` (lib.rs:102, 105). -/
def takeL (next : ι → Prog P (Option α × ι)) (s : MergeIter ι α) :
    Prog P (Option (Option α × Option α) × MergeIter ι α) :=
  (pnext next s.lhs).bind fun x => .pure (some (x.1, none), ⟨x.2, s.rhs⟩)

/-- `Some((None, self.rhs.next()))` (lib.rs:101, 107). -/
def takeR (next : ι → Prog P (Option α × ι)) (s : MergeIter ι α) :
    Prog P (Option (Option α × Option α) × MergeIter ι α) :=
  (pnext next s.rhs).bind fun x => .pure (some (none, x.1), ⟨s.lhs, x.2⟩)

/-- `Some((self.lhs.next(), self.rhs.next()))` (lib.rs:106). -/
def takeB (next : ι → Prog P (Option α × ι)) (s : MergeIter ι α) :
    Prog P (Option (Option α × Option α) × MergeIter ι α) :=
  (pnext next s.lhs).bind fun x =>
  (pnext next s.rhs).bind fun y => .pure (some (x.1, y.1), ⟨x.2, y.2⟩)

/-- The `match` of lib.rs:99-109, after both `peek`s. -/
def pick [Ord α] (next : ι → Prog P (Option α × ι)) (s : MergeIter ι α) :
    Option α → Option α → Prog P (Option (Option α × Option α) × MergeIter ι α)
  | none, none => .pure (none, s)
  | none, some _ => takeR next s
  | some _, none => takeL next s
  | some a, some b =>
    match compare a b with
    | .lt => takeL next s
    | .eq => takeB next s
    | .gt => takeR next s

/-- lib.rs:96-110 `SortedMergeIter::next`. -/
def mnext [Ord α] (next : ι → Prog P (Option α × ι)) (s : MergeIter ι α) :
    Prog P (Option (Option α × Option α) × MergeIter ι α) :=
  (peek next s.lhs).bind fun x =>
  (peek next s.rhs).bind fun y => pick next ⟨x.2, y.2⟩ x.1 y.1

/-- lib.rs:138-151 `SetOpIter::next` with the flags `F`, the loop unrolled at most `fuel`
times. -/
def setOpNext [Ord α] (next : ι → Prog P (Option α × ι)) (F : Nat) :
    Nat → MergeIter ι α → Prog P (Option α × MergeIter ι α)
  | 0, _ => .panic
  | fuel + 1, s =>
    (mnext next s).bind fun x =>
    match x.1 with
    | none => .pure (none, x.2)
    | some ab =>
      match keep F ab.1 ab.2 with
      | some y => .pure (y, x.2)
      | none => setOpNext next F fuel x.2

/-- The results of `n` successive calls of `next`. -/
def setOpRun [Ord α] (next : ι → Prog P (Option α × ι)) (F fuel : Nat) :
    Nat → MergeIter ι α → Prog P (List (Option α))
  | 0, _ => .pure []
  | n + 1, s =>
    (setOpNext next F fuel s).bind fun x =>
    (setOpRun next F fuel n x.2).bind fun xs => .pure (x.1 :: xs)

/-! ## Agreement with the iterators on values -/

/-- One call on memory agrees with one call on values, and leaves the handles `M` as they are. -/
def Agree {σ τ β : Type} (M : Multiset (Handle P)) (R : σ → τ → Prop) (f : σ → Prog P (β × σ))
    (g : τ → Option (β × τ)) : Prop :=
  ∀ ⦃i j y⦄, R i j → g j = some y → wp (f i) M (fun x L => x.1 = y.1 ∧ R x.2 y.2 ∧ L = M)

/-- Related `Peekable`s. -/
def PeekR (R : ι → κ → Prop) (s : Peek ι α) (t : Peek κ α) : Prop :=
  s.peeked = t.peeked ∧ R s.iter t.iter

/-- Related `SortedMergeIter`s. -/
def MergeR (R : ι → κ → Prop) (s : MergeIter ι α) (t : MergeIter κ α) : Prop :=
  PeekR R s.lhs t.lhs ∧ PeekR R s.rhs t.rhs

section
variable {M : Multiset (Handle P)} {R : ι → κ → Prop} {next : ι → Prog P (Option α × ι)}
  {vnext : κ → Option (Option α × κ)}

theorem peek_agree (h : Agree M R next vnext) :
    Agree M (PeekR R) (peek next) (Peek.peek vnext) := by
  rintro ⟨p, i⟩ ⟨q, j⟩ y ⟨h1, h2⟩ e
  dsimp only at h1 h2
  subst h1
  cases p with
  | some x => cases e; exact wp_pure ⟨rfl, ⟨rfl, h2⟩, rfl⟩
  | none =>
    simp only [Peek.peek, Option.map_eq_some_iff] at e
    obtain ⟨z, e, rfl⟩ := e
    refine wp_bind (wp_conseq (h h2 e) ?_)
    rintro x L ⟨h3, h4, rfl⟩
    exact wp_pure ⟨h3, ⟨by dsimp only; rw [h3], h4⟩, rfl⟩

theorem pnext_agree (h : Agree M R next vnext) :
    Agree M (PeekR R) (pnext next) (Peek.next vnext) := by
  rintro ⟨p, i⟩ ⟨q, j⟩ y ⟨h1, h2⟩ e
  dsimp only at h1 h2
  subst h1
  cases p with
  | some x => cases e; exact wp_pure ⟨rfl, ⟨rfl, h2⟩, rfl⟩
  | none =>
    simp only [Peek.next, Option.map_eq_some_iff] at e
    obtain ⟨z, e, rfl⟩ := e
    refine wp_bind (wp_conseq (h h2 e) ?_)
    rintro x L ⟨h3, h4, rfl⟩
    exact wp_pure ⟨h3, ⟨rfl, h4⟩, rfl⟩

theorem takeL_agree (h : Agree M R next vnext) :
    Agree M (MergeR R) (takeL next) (MergeIter.takeL vnext) := by
  rintro s t y ⟨h1, h2⟩ e
  simp only [MergeIter.takeL, Option.map_eq_some_iff] at e
  obtain ⟨z, e, rfl⟩ := e
  refine wp_bind (wp_conseq (pnext_agree h h1 e) ?_)
  rintro x L ⟨h3, h4, rfl⟩
  exact wp_pure ⟨by simp only [h3], ⟨h4, h2⟩, rfl⟩

theorem takeR_agree (h : Agree M R next vnext) :
    Agree M (MergeR R) (takeR next) (MergeIter.takeR vnext) := by
  rintro s t y ⟨h1, h2⟩ e
  simp only [MergeIter.takeR, Option.map_eq_some_iff] at e
  obtain ⟨z, e, rfl⟩ := e
  refine wp_bind (wp_conseq (pnext_agree h h2 e) ?_)
  rintro x L ⟨h3, h4, rfl⟩
  exact wp_pure ⟨by simp only [h3], ⟨h1, h4⟩, rfl⟩

theorem takeB_agree (h : Agree M R next vnext) :
    Agree M (MergeR R) (takeB next) (MergeIter.takeB vnext) := by
  rintro s t y ⟨h1, h2⟩ e
  simp only [MergeIter.takeB] at e
  cases e1 : t.lhs.next vnext with
  | none => rw [e1] at e; cases e
  | some z =>
    rw [e1] at e
    simp only [Option.map_eq_some_iff] at e
    obtain ⟨w, e2, rfl⟩ := e
    refine wp_bind (wp_conseq (pnext_agree h h1 e1) ?_)
    rintro x L ⟨h3, h4, rfl⟩
    refine wp_bind (wp_conseq (pnext_agree h h2 e2) ?_)
    rintro x' L ⟨h5, h6, rfl⟩
    exact wp_pure ⟨by simp only [h3, h5], ⟨h4, h6⟩, rfl⟩

theorem pick_agree [Ord α] (h : Agree M R next vnext) (a b : Option α) :
    Agree M (MergeR R) (fun s => pick next s a b) (fun s => s.pick vnext a b) := by
  intro s t y hR e
  cases a with
  | none =>
    cases b with
    | none => cases e; exact wp_pure ⟨rfl, hR, rfl⟩
    | some b => exact takeR_agree h hR e
  | some a =>
    cases b with
    | none => exact takeL_agree h hR e
    | some b =>
      simp only [MergeIter.pick] at e
      simp only [pick]
      cases hc : compare a b with
      | lt => rw [hc] at e; exact takeL_agree h hR e
      | eq => rw [hc] at e; exact takeB_agree h hR e
      | gt => rw [hc] at e; exact takeR_agree h hR e

theorem mnext_agree [Ord α] (h : Agree M R next vnext) :
    Agree M (MergeR R) (mnext next) (MergeIter.next vnext) := by
  rintro s t y ⟨h1, h2⟩ e
  simp only [MergeIter.next] at e
  cases e1 : t.lhs.peek vnext with
  | none => rw [e1] at e; cases e
  | some z =>
    rw [e1] at e
    cases e2 : t.rhs.peek vnext with
    | none => rw [e2] at e; cases e
    | some w =>
      rw [e2] at e
      refine wp_bind (wp_conseq (peek_agree h h1 e1) ?_)
      rintro x L ⟨h3, h4, rfl⟩
      refine wp_bind (wp_conseq (peek_agree h h2 e2) ?_)
      rintro x' L ⟨h5, h6, rfl⟩
      rw [h3, h5]
      exact pick_agree h z.1 w.1 (i := ⟨x.2, x'.2⟩) (j := ⟨z.2, w.2⟩) ⟨h4, h6⟩ e

theorem setOpNext_agree [Ord α] (h : Agree M R next vnext) (F : Nat) : ∀ fuel : Nat,
    Agree M (MergeR R) (setOpNext next F fuel) (Lib.setOpNext vnext F fuel)
  | 0 => by intro s t y _ e; cases e
  | fuel + 1 => by
    intro s t y hR e
    simp only [Lib.setOpNext] at e
    cases e1 : t.next vnext with
    | none => rw [e1] at e; cases e
    | some z =>
      obtain ⟨ab, t'⟩ := z
      rw [e1] at e
      refine wp_bind (wp_conseq (mnext_agree h hR e1) ?_)
      rintro x L ⟨h3, h4, hL⟩
      subst L
      rw [h3]
      cases ab with
      | none => cases e; exact wp_pure ⟨rfl, h4, rfl⟩
      | some ab =>
        obtain ⟨a, b⟩ := ab
        dsimp only at e ⊢
        cases hk : keep F a b with
        | some w => rw [hk] at e; cases e; exact wp_pure ⟨rfl, h4, rfl⟩
        | none => rw [hk] at e; exact setOpNext_agree h F fuel h4 e

theorem setOpRun_agree [Ord α] (h : Agree M R next vnext) (F fuel : Nat) : ∀ (n : Nat)
    {s : MergeIter ι α} {t : MergeIter κ α} {ys}, MergeR R s t →
    Lib.setOpRun vnext F fuel n t = some ys →
    wp (setOpRun next F fuel n s) M (fun x L => x = ys ∧ L = M)
  | 0, s, t, ys, _, e => by cases e; exact wp_pure ⟨rfl, rfl⟩
  | n + 1, s, t, ys, hR, e => by
    simp only [Lib.setOpRun] at e
    cases e1 : Lib.setOpNext vnext F fuel t with
    | none => rw [e1] at e; cases e
    | some z =>
      rw [e1] at e
      simp only [Option.map_eq_some_iff] at e
      obtain ⟨w, e2, rfl⟩ := e
      refine wp_bind (wp_conseq (setOpNext_agree h F fuel hR e1) ?_)
      rintro x L ⟨h3, h4, hL⟩
      subst L
      refine wp_bind (wp_conseq (setOpRun_agree h F fuel n h4 e2) ?_)
      rintro x' L ⟨rfl, hL⟩
      subst L
      exact wp_pure ⟨by rw [h3], rfl⟩

end
end Verif.Heap.SetOps
