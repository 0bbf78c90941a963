import Verif.Spec.Lex
import Verif.Spec.Lemmas
/-!
# Membership in the specified set operations
-/
set_option linter.unusedSectionVars false
namespace Verif
open Std

/-- Call a stateful closure once per element, in order: the final state and the elements it
accepted. -/
def Spec.keepCalls {σ α : Type _} (f : σ → α → σ × Bool) : σ → List α → σ × List α
  | s, [] => (s, [])
  | s, x :: xs =>
    let y := Spec.keepCalls f (f s x).1 xs
    (y.1, if (f s x).2 then x :: y.2 else y.2)

variable {K V : Type _} [Ord K] [TransOrd K] {a b : List (K × V)} {e : K × V}

theorem mem_iff_find (ha : Sorted a) : e ∈ a ↔ Spec.find (compare e.1) a = some e := by
  rw [find_eq_some (isProbe_compare e.1) ha]
  simp

theorem find_none_iff (q : K) : Spec.find (compare q) b = none ↔ ∀ y ∈ b, compare q y.1 ≠ .eq :=
  find_eq_none

theorem mem_union (ha : Sorted a) (hb : Sorted b) :
    e ∈ Spec.union a b ↔ e ∈ b ∨ (e ∈ a ∧ ∀ y ∈ b, compare e.1 y.1 ≠ .eq) := by
  rw [mem_iff_find (Spec.sorted_union ha), Spec.find_union (isProbe_compare _) ha hb,
    mem_iff_find hb, mem_iff_find ha, ← find_none_iff]
  cases Spec.find (compare e.1) b <;> simp

theorem mem_inter : e ∈ Spec.inter a b ↔ e ∈ a ∧ ∃ y ∈ b, compare e.1 y.1 = .eq := by
  rw [Spec.inter, List.mem_filter, hasKey_iff]

theorem mem_diff : e ∈ Spec.diff a b ↔ e ∈ a ∧ ∀ y ∈ b, compare e.1 y.1 ≠ .eq := by
  rw [Spec.diff, List.mem_filter]
  simp only [Bool.not_eq_true', ← Bool.not_eq_true, hasKey_iff, not_exists, not_and, ne_eq]

theorem mem_symDiff (ha : Sorted a) (hb : Sorted b) :
    e ∈ Spec.symDiff a b ↔ (e ∈ a ∧ ∀ y ∈ b, compare e.1 y.1 ≠ .eq) ∨
      (e ∈ b ∧ ∀ y ∈ a, compare e.1 y.1 ≠ .eq) := by
  rw [mem_iff_find (Spec.sorted_symDiff ha), Spec.find_symDiff _ ha hb,
    mem_iff_find hb, mem_iff_find ha, ← find_none_iff, ← find_none_iff]
  cases Spec.find (compare e.1) a <;> cases Spec.find (compare e.1) b <;> simp

theorem Spec.lexCmp_map {α β : Type _} (f : α → β) (cmp : β → β → Ordering) : ∀ (a b : List α),
    Spec.lexCmp (fun x y => cmp (f x) (f y)) a b = Spec.lexCmp cmp (a.map f) (b.map f)
  | [], [] => rfl
  | [], _ :: _ => rfl
  | _ :: _, [] => rfl
  | x :: a, y :: b => by
    simp only [Spec.lexCmp, List.map_cons]
    rw [Spec.lexCmp_map f cmp a b]

theorem Spec.lexPartialCmp_map {α β : Type _} (f : α → β) (cmp : β → β → Option Ordering) :
    ∀ (a b : List α),
    Spec.lexPartialCmp (fun x y => cmp (f x) (f y)) a b = Spec.lexPartialCmp cmp (a.map f) (b.map f)
  | [], [] => rfl
  | [], _ :: _ => rfl
  | _ :: _, [] => rfl
  | x :: a, y :: b => by
    simp only [Spec.lexPartialCmp, List.map_cons]
    rw [Spec.lexPartialCmp_map f cmp a b]

end Verif
