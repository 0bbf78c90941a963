import Verif.Spec.Basic
/-! # Facts about lexicographic comparison -/
namespace Verif.Spec
variable {α : Type _}

theorem lexCmp_eq_iff {cmp : α → α → Ordering} : ∀ {a b : List α},
    lexCmp cmp a b = .eq ↔ a.length = b.length ∧ ∀ x ∈ a.zip b, cmp x.1 x.2 = .eq
  | [], [] => by simp [lexCmp]
  | [], _ :: _ => by simp [lexCmp]
  | _ :: _, [] => by simp [lexCmp]
  | a :: as, b :: bs => by
    have ih := lexCmp_eq_iff (cmp := cmp) (a := as) (b := bs)
    simp only [lexCmp, List.length_cons, List.zip_cons_cons, List.mem_cons]
    cases h : cmp a b
    · simp [h]
    · simp only [ih, Nat.add_right_cancel_iff]
      constructor
      · rintro ⟨h1, h2⟩
        refine ⟨h1, ?_⟩
        rintro x (rfl | hx)
        · exact h
        · exact h2 x hx
      · rintro ⟨h1, h2⟩; exact ⟨h1, fun x hx => h2 x (Or.inr hx)⟩
    · simp [h]

/-- `a < b`: either `a` is a proper prefix of `b` up to equality, or after such a common
prefix the next element of `a` is smaller. -/
theorem lexCmp_lt_iff {cmp : α → α → Ordering} : ∀ {a b : List α},
    lexCmp cmp a b = .lt ↔
      ∃ a1 b1 a2 b2, a = a1 ++ a2 ∧ b = b1 ++ b2 ∧ lexCmp cmp a1 b1 = .eq ∧
        ((a2 = [] ∧ b2 ≠ []) ∨ ∃ x y a3 b3, a2 = x :: a3 ∧ b2 = y :: b3 ∧ cmp x y = .lt)
  | [], [] => by
    simp only [lexCmp]
    constructor
    · simp
    · rintro ⟨a1, b1, a2, b2, h1, h2, -, h4⟩
      have e1 := (List.append_eq_nil_iff.1 h1.symm).2
      have e2 := (List.append_eq_nil_iff.1 h2.symm).2
      rcases h4 with ⟨_, h5⟩ | ⟨x, y, a3, b3, h5, h6, _⟩
      · exact absurd e2 h5
      · rw [e1] at h5; simp at h5
  | [], b :: bs => by
    simp only [lexCmp, true_iff]
    exact ⟨[], [], [], b :: bs, rfl, rfl, rfl, Or.inl ⟨rfl, by simp⟩⟩
  | a :: as, [] => by
    simp only [lexCmp]
    constructor
    · simp
    · rintro ⟨a1, b1, a2, b2, h1, h2, h3, h4⟩
      have e2 := (List.append_eq_nil_iff.1 h2.symm).2
      rcases h4 with ⟨_, h5⟩ | ⟨x, y, a3, b3, h5, h6, _⟩
      · exact absurd e2 h5
      · rw [e2] at h6; simp at h6
  | a :: as, b :: bs => by
    have ih := lexCmp_lt_iff (cmp := cmp) (a := as) (b := bs)
    simp only [lexCmp]
    constructor
    · intro h
      cases hc : cmp a b with
      | lt =>
        exact ⟨[], [], a :: as, b :: bs, rfl, rfl, rfl, Or.inr ⟨a, b, as, bs, rfl, rfl, hc⟩⟩
      | eq =>
        simp only [hc] at h
        obtain ⟨a1, b1, a2, b2, rfl, rfl, h3, h4⟩ := ih.1 h
        exact ⟨a :: a1, b :: b1, a2, b2, rfl, rfl, by simp [lexCmp, hc, h3], h4⟩
      | gt => simp [hc] at h
    · rintro ⟨a1, b1, a2, b2, h1, h2, h3, h4⟩
      have hlen := (lexCmp_eq_iff.1 h3).1
      cases a1 with
      | nil =>
        have : b1 = [] := by cases b1 <;> simp_all
        subst this
        simp only [List.nil_append] at h1 h2
        rcases h4 with ⟨h5, -⟩ | ⟨x, y, a3, b3, h5, h6, h7⟩
        · rw [← h1] at h5; simp at h5
        · rw [← h1] at h5; rw [← h2] at h6
          simp at h5 h6
          rw [← h5.1, ← h6.1] at h7
          simp [h7]
      | cons x a1 =>
        cases b1 with
        | nil => simp at hlen
        | cons y b1 =>
          simp only [List.cons_append, List.cons.injEq] at h1 h2
          obtain ⟨rfl, h1⟩ := h1
          obtain ⟨rfl, h2⟩ := h2
          simp only [lexCmp] at h3
          cases hc : cmp a b with
          | eq =>
            simp only [hc] at h3 ⊢
            exact ih.2 ⟨a1, b1, a2, b2, h1, h2, h3, h4⟩
          | lt => simp [hc] at h3
          | gt => simp [hc] at h3

/-- For a total comparison, the partial one agrees. -/
theorem lexPartialCmp_total {cmp : α → α → Ordering} : ∀ (a b : List α),
    lexPartialCmp (fun x y => some (cmp x y)) a b = some (lexCmp cmp a b)
  | [], [] => rfl
  | [], _ :: _ => rfl
  | _ :: _, [] => rfl
  | a :: as, b :: bs => by
    simp only [lexPartialCmp, lexCmp]
    cases cmp a b
    · rfl
    · exact lexPartialCmp_total as bs
    · rfl

/-- Elementwise `==` on lists of equal length is equality. -/
theorem zip_all_beq [BEq α] [LawfulBEq α] {l1 l2 : List α} :
    (l1.length = l2.length ∧ (l1.zip l2).all (fun z => z.1 == z.2) = true) ↔ l1 = l2 := by
  simp only [List.all_eq_true, beq_iff_eq]
  constructor
  · rintro ⟨h1, h2⟩
    apply List.ext_getElem h1
    intro i h3 h4
    exact h2 (l1[i], l2[i]) (by
      rw [List.mem_iff_getElem]
      exact ⟨i, by simp; omega, by simp⟩)
  · rintro rfl
    refine ⟨rfl, ?_⟩
    intro x hx
    rw [List.mem_iff_getElem] at hx
    obtain ⟨i, hi, rfl⟩ := hx
    simp

end Verif.Spec
