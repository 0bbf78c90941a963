import Verif.Fixed.Model
/-!
# When the operations on `Kids` vectors succeed

Whether they do depends on the lengths only, not on the children.
-/
namespace Verif.Fixed
variable {α β : Type}

theorem load_some {N : Nat} {l : List (α × β)} {x : IVec α β} (h : IVec.load N l = some x) :
    l.length ≤ N ∧ x.len = l.length := by
  unfold IVec.load at h
  split at h
  · cases h; exact ⟨‹_›, rfl⟩
  · cases h

theorem ivInsert_some {N i : Nat} {kv : α × β} {l r : List (α × β)}
    (h : ivInsert N i kv l = some r) : i ≤ l.length ∧ l.length < N := by
  unfold ivInsert at h
  simp only [Option.bind_eq_bind, Option.bind_eq_some_iff] at h
  obtain ⟨x, h1, y, h2, -⟩ := h
  obtain ⟨-, h3⟩ := load_some h1
  unfold IVec.insert at h2
  split at h2
  · rename_i h4; rw [h3] at h4; exact h4
  · cases h2

theorem ivPush_some {N : Nat} {kv : α × β} {l r : List (α × β)}
    (h : ivPush N kv l = some r) : l.length < N := by
  unfold ivPush at h
  simp only [Option.bind_eq_bind, Option.bind_eq_some_iff] at h
  obtain ⟨x, h1, y, h2, -⟩ := h
  obtain ⟨-, h3⟩ := load_some h1
  unfold IVec.push at h2
  split at h2
  · rename_i h4; rw [h3] at h4; exact h4
  · cases h2

theorem ivPop_some {N : Nat} {l : List (α × β)} {r}
    (h : ivPop N l = some r) : 0 < l.length ∧ l.length ≤ N := by
  unfold ivPop at h
  simp only [Option.bind_eq_bind, Option.bind_eq_some_iff] at h
  obtain ⟨x, h1, y, h2, -⟩ := h
  obtain ⟨h0, h3⟩ := load_some h1
  unfold IVec.pop at h2
  split at h2
  · rename_i h4; rw [h3] at h4; exact ⟨h4, h0⟩
  · cases h2

theorem ivRemove_some {N i : Nat} {l : List (α × β)} {r}
    (h : ivRemove N i l = some r) : i < l.length ∧ l.length ≤ N := by
  unfold ivRemove at h
  simp only [Option.bind_eq_bind, Option.bind_eq_some_iff] at h
  obtain ⟨x, h1, y, h2, -⟩ := h
  obtain ⟨h0, h3⟩ := load_some h1
  unfold IVec.remove at h2
  split at h2
  · rename_i h4; rw [h3] at h4; exact ⟨h4, h0⟩
  · cases h2

theorem ivAppend_some {N : Nat} {l l' : List (α × β)} {r}
    (h : ivAppend N l l' = some r) : l.length + l'.length ≤ N := by
  unfold ivAppend at h
  simp only [Option.bind_eq_bind, Option.bind_eq_some_iff] at h
  obtain ⟨x, h1, y, h2, z, h3, -⟩ := h
  obtain ⟨-, h4⟩ := load_some h1
  obtain ⟨-, h5⟩ := load_some h2
  unfold IVec.append at h3
  simp only [Option.bind_eq_bind, Option.bind_eq_some_iff] at h3
  obtain ⟨_, _, _, _, h3⟩ := h3
  split at h3
  · rename_i h6; rw [h4, h5] at h6; exact h6
  · cases h3

theorem kInsert_of {i : Nat} {c : α} {l : List α} (h1 : i ≤ l.length) (h2 : l.length < KIDS) :
    kInsert i c l = some (l.take i ++ c :: l.drop i) := by
  have := kInsert_eq (l1 := l.take i) (l2 := l.drop i) (c := c) (by simp; omega)
  rwa [List.length_take, Nat.min_eq_left h1, List.take_append_drop] at this

theorem kInsert_some {i : Nat} {c : α} {l r : List α} (h : kInsert i c l = some r) :
    i ≤ l.length ∧ l.length < KIDS ∧ r = l.take i ++ c :: l.drop i := by
  obtain ⟨x, h1, -⟩ := Option.map_eq_some_iff.1 h
  obtain ⟨h2, h3⟩ := ivInsert_some h1
  simp only [unit_length] at h2 h3
  rw [kInsert_of h2 h3] at h
  cases h
  exact ⟨h2, h3, rfl⟩

theorem kPush_some {c : α} {l r : List α} (h : kPush c l = some r) :
    l.length < KIDS ∧ r = l ++ [c] := by
  obtain ⟨x, h1, -⟩ := Option.map_eq_some_iff.1 h
  have h2 := ivPush_some h1
  simp only [unit_length] at h2
  rw [kPush_eq h2] at h
  cases h
  exact ⟨h2, rfl⟩

theorem kPop_some {c : α} {l r : List α} (h : kPop l = some (c, r)) :
    l.length ≤ KIDS ∧ l = r ++ [c] := by
  obtain ⟨x, h1, -⟩ := Option.map_eq_some_iff.1 h
  obtain ⟨h2, h3⟩ := ivPop_some h1
  simp only [unit_length] at h2 h3
  rcases List.eq_nil_or_concat l with rfl | ⟨l', d, rfl⟩
  · simp at h2
  · rw [List.concat_eq_append] at h h3 ⊢
    rw [kPop_eq (by simp at h3; omega)] at h
    cases h
    exact ⟨h3, rfl⟩

theorem kRemove_of {i : Nat} {c : α} {l : List α} (h1 : l[i]? = some c) (h2 : l.length ≤ KIDS) :
    kRemove i l = some (c, l.eraseIdx i) := by
  obtain ⟨hi, rfl⟩ := List.getElem?_eq_some_iff.1 h1
  have := kRemove_eq (l1 := l.take i) (l2 := l.drop (i + 1)) (c := l[i]) (by simp; omega)
  rwa [List.length_take, Nat.min_eq_left (Nat.le_of_lt hi), List.getElem_cons_drop, List.take_append_drop,
    ← List.eraseIdx_eq_take_drop_succ] at this

theorem kRemove_some {i : Nat} {c : α} {l r : List α} (h : kRemove i l = some (c, r)) :
    l.length ≤ KIDS ∧ l[i]? = some c ∧ r = l.eraseIdx i := by
  obtain ⟨x, h1, -⟩ := Option.map_eq_some_iff.1 h
  obtain ⟨h2, h3⟩ := ivRemove_some h1
  simp only [unit_length] at h2 h3
  have h4 : l[i]? = some l[i] := List.getElem?_eq_getElem h2
  rw [kRemove_of h4 h3] at h
  cases h
  exact ⟨h3, h4, rfl⟩

theorem kAppend_some {l l' r : List α} (h : kAppend l l' = some r) :
    l.length + l'.length ≤ KIDS ∧ r = l ++ l' := by
  obtain ⟨x, h1, -⟩ := Option.map_eq_some_iff.1 h
  have h2 := ivAppend_some h1
  simp only [unit_length] at h2
  rw [kAppend_eq h2] at h
  cases h
  exact ⟨h2, rfl⟩

end Verif.Fixed
