import Verif.BTree.Remove
/-!
# A node's entries around one of its children or elements
-/
set_option linter.unusedVariables false
namespace Verif.BTree.Node
universe u v
variable {K : Type u} {V : Type v}

theorem mem_inter {e : K × V} : ∀ (ks : List (Node K V)) {es : List (K × V)}, e ∈ es →
    e ∈ inter ks es
  | [], es, h => by simpa using h
  | n :: ks, [], h => by simp at h
  | n :: ks, x :: es, h => by
    rw [inter_cons, post_cons]
    rcases List.mem_cons.1 h with rfl | h
    · simp
    · simp [mem_inter ks h]

theorem descIdx_eq {i : Nat} {es : List (K × V)} {n : Nat} (h : n = es.length + 1)
    (hi : i ≤ es.length) : descIdx i es n = i := by
  simp only [descIdx]; split <;> omega

/-- Child `i`, and what lies before and after it. -/
theorem focusAt {es : List (K × V)} {ks : List (Node K V)} {i : Nat}
    (hl : ks.length = es.length + 1) (hi : i ≤ es.length) :
    ∃ es1 es2 ks1 n ks2, es = es1 ++ es2 ∧ ks = ks1 ++ n :: ks2 ∧ es1.length = i ∧
      ks1.length = es1.length ∧ ks2.length = es2.length ∧
      inter ks es = inter ks1 es1 ++ toList n ++ post es2 ks2 := by
  obtain ⟨es1, es2, h1, h2⟩ := split_len es i hi
  obtain ⟨ks1, n, ks2, e1, e2⟩ := split_at ks i (by omega)
  subst h1; subst e1
  simp only [List.length_append, List.length_cons] at hl
  refine ⟨es1, es2, ks1, n, ks2, rfl, rfl, h2, by omega, by omega, ?_⟩
  rw [inter_append (by omega), inter_cons, List.append_assoc]

/-- Element `i`, the child before it, and what lies before and after them. -/
theorem focusEq {es : List (K × V)} {ks : List (Node K V)} {i : Nat} {x : K × V}
    (hl : ks.length = es.length + 1) (hi : es[i]? = some x) :
    ∃ es1 es2 ks1 n ks2, es = es1 ++ x :: es2 ∧ ks = ks1 ++ n :: ks2 ∧ es1.length = i ∧
      ks1.length = es1.length ∧ ks2.length = es2.length + 1 ∧
      inter ks es = inter ks1 es1 ++ toList n ++ x :: inter ks2 es2 := by
  obtain ⟨hlt, rfl⟩ := List.getElem?_eq_some_iff.1 hi
  obtain ⟨es1, y, es2, h1, h2⟩ := split_at es i hlt
  obtain ⟨ks1, n, ks2, e1, e2⟩ := split_at ks i (by omega)
  subst h1; subst e1; subst h2
  simp only [List.length_append, List.length_cons] at hl
  refine ⟨es1, es2, ks1, n, ks2, by simp, rfl, rfl, by omega, by omega, ?_⟩
  rw [inter_append (by omega), inter_cons, post_cons, List.append_assoc]; simp

end Verif.BTree.Node
