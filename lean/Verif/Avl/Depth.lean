import Mathlib.Data.Nat.Fib.Basic
import Mathlib.Tactic.Ring
import Verif.Avl.Shape
import Verif.Avl.Mut
/-!
# Depth of balanced trees (C03)
-/
namespace Verif.Avl
open Tree
variable {K V : Type _}

/-- The true depth of a tree (specification; ignores the cached heights). -/
def Tree.depth : Tree K V → Nat
  | nil => 0
  | node _ _ _ _ l r => max (depth l) (depth r) + 1

/-- At every node: cached heights are the true depths of the subtrees, which differ by at
most one (specification of the AVL invariant). -/
def Tree.IsAvl : Tree K V → Prop
  | nil => True
  | node _ _ lh rh l r =>
    lh = depth l ∧ rh = depth r ∧ depth l ≤ depth r + 1 ∧ depth r ≤ depth l + 1 ∧
      IsAvl l ∧ IsAvl r

theorem bal_isAvl : ∀ {t : Tree K V}, Bal t → IsAvl t ∧ height t = depth t := by
  intro t
  induction t with
  | nil => intro _; exact ⟨trivial, rfl⟩
  | node k v lh rh l r ihl ihr =>
    rintro ⟨h1, h2, h3, h4, h5, h6⟩
    obtain ⟨a1, a2⟩ := ihl h5
    obtain ⟨b1, b2⟩ := ihr h6
    refine ⟨⟨by rw [h1, a2], by rw [h2, b2], by omega, by omega, a1, b1⟩, ?_⟩
    simp only [height_node, depth]
    omega

/-- An AVL tree of depth `h` has at least `fib (h+2) - 1` entries. -/
theorem fib_le : ∀ {t : Tree K V}, IsAvl t → Nat.fib (depth t + 2) ≤ size t + 1 := by
  intro t
  induction t with
  | nil => intro _; simp [depth, size]
  | node k v lh rh l r ihl ihr =>
    rintro ⟨h1, h2, h3, h4, h5, h6⟩
    have a := ihl h5
    have b := ihr h6
    simp only [depth, size]
    have e : Nat.fib (max (depth l) (depth r) + 1 + 2) =
        Nat.fib (max (depth l) (depth r) + 1) + Nat.fib (max (depth l) (depth r) + 2) := by
      rw [show max (depth l) (depth r) + 1 + 2 = (max (depth l) (depth r) + 1) + 2 from rfl,
        Nat.fib_add_two]
    rw [e]
    rcases Nat.le_total (depth l) (depth r) with h | h
    · rw [Nat.max_eq_right h]
      have := Nat.fib_mono (show depth r + 1 ≤ depth l + 2 by omega)
      omega
    · rw [Nat.max_eq_left h]
      have := Nat.fib_mono (show depth l + 1 ≤ depth r + 2 by omega)
      omega

/-- `1.618^h ≤ fib (h+2)`. -/
theorem phi_le_fib : ∀ h : Nat, 809 ^ h ≤ 500 ^ h * Nat.fib (h + 2)
  | 0 => by simp
  | 1 => by decide
  | h + 2 => by
    have a := phi_le_fib h
    have b := phi_le_fib (h + 1)
    rw [show h + 2 + 2 = (h + 2) + 2 from rfl, Nat.fib_add_two (n := h + 2)]
    have e1 : 809 ^ (h + 2) = 654481 * 809 ^ h := by ring
    have e2 : 500 ^ (h + 2) * (Nat.fib (h + 2) + Nat.fib (h + 2 + 1)) =
        250000 * (500 ^ h * Nat.fib (h + 2)) + 500 * (500 ^ (h + 1) * Nat.fib (h + 1 + 2)) := by
      ring_nf
    have e3 : 809 ^ (h + 1) = 809 * 809 ^ h := by ring
    rw [e1, e2]
    rw [e3] at b
    omega

theorem two_pow_le (h n : Nat) (hn : Nat.fib (h + 2) ≤ n + 1) : 2 ^ (20 * h) ≤ (n + 1) ^ 29 := by
  have a := phi_le_fib h
  have b : 809 ^ h ≤ 500 ^ h * (n + 1) := Nat.le_trans a (Nat.mul_le_mul_left _ hn)
  have c : (809 ^ h) ^ 29 ≤ (500 ^ h * (n + 1)) ^ 29 := Nat.pow_le_pow_left b 29
  have d : (2 ^ 20 * 500 ^ 29) ^ h ≤ (809 ^ 29) ^ h := Nat.pow_le_pow_left (by decide) h
  have e : 500 ^ (29 * h) * 2 ^ (20 * h) ≤ 500 ^ (29 * h) * (n + 1) ^ 29 := by
    calc 500 ^ (29 * h) * 2 ^ (20 * h) = (2 ^ 20 * 500 ^ 29) ^ h := by
          rw [Nat.mul_pow, ← Nat.pow_mul, ← Nat.pow_mul, Nat.mul_comm]
      _ ≤ (809 ^ 29) ^ h := d
      _ = (809 ^ h) ^ 29 := by rw [← Nat.pow_mul, ← Nat.pow_mul, Nat.mul_comm]
      _ ≤ (500 ^ h * (n + 1)) ^ 29 := c
      _ = 500 ^ (29 * h) * (n + 1) ^ 29 := by rw [Nat.mul_pow, ← Nat.pow_mul, Nat.mul_comm h 29]
  exact Nat.le_of_mul_le_mul_left e (Nat.pow_pos (by omega))

/-! ### The tree without its values (C13) -/

/-- The tree with every value forgotten (specification). -/
def Tree.skel : Tree K V → Tree K Unit
  | nil => nil
  | node k _ lh rh l r => node k () lh rh (skel l) (skel r)

theorem skel_getMutWith (p : K → Ordering) (g : V → V) : ∀ t : Tree K V,
    (getMutWith p g t).1.skel = t.skel
  | nil => rfl
  | node k v lh rh l r => by
    have h1 := skel_getMutWith p g l
    have h2 := skel_getMutWith p g r
    unfold getMutWith
    split <;> simp [skel, h1, h2]

theorem skel_forEachMut {σ : Type _} (f : σ → K → V → σ × V) : ∀ (s : σ) (t : Tree K V),
    (forEachMut f s t).2.skel = t.skel
  | s, nil => rfl
  | s, node k v lh rh l r => by
    simp [forEachMut, skel, skel_forEachMut f _ l, skel_forEachMut f _ r]

theorem skel_store (slots : List Nat) (w : Nat → V) : ∀ (n : Nat) (t : Tree K V),
    (t.store slots w n).skel = t.skel
  | n, nil => rfl
  | n, node k v lh rh l r => by
    simp [Tree.store, skel, skel_store slots w _ l, skel_store slots w _ r]

end Verif.Avl
