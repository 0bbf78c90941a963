import Verif.Avl.Model
import Verif.Spec.Lemmas
/-! Balance invariant, in-order contents of the rotations and of the tree operations. -/
namespace Verif.Avl
namespace Tree
variable {K V : Type _}

/-- The AVL invariant: cached heights are right and siblings differ by at most one. -/
def Bal : Tree K V → Prop
  | nil => True
  | node _ _ lh rh l r =>
    lh = height l ∧ rh = height r ∧ -1 ≤ rh - lh ∧ rh - lh ≤ 1 ∧ Bal l ∧ Bal r

/-- Balance factor, `0` for the empty tree. -/
def balOf : Tree K V → Int
  | nil => 0
  | node _ _ lh rh _ _ => rh - lh

@[simp] theorem bal_nil : Bal (nil : Tree K V) := trivial
@[simp] theorem height_nil : height (nil : Tree K V) = 0 := rfl
@[simp] theorem height_node {k : K} {v : V} {lh rh l r} :
    height (node k v lh rh l r) = max lh rh + 1 := rfl
@[simp] theorem toList_nil : toList (nil : Tree K V) = [] := rfl
@[simp] theorem size_nil : size (nil : Tree K V) = 0 := rfl

theorem height_nonneg : ∀ {t : Tree K V}, Bal t → 0 ≤ height t
  | nil, _ => by simp [height_node]
  | node _ _ lh rh l r, h => by
    obtain ⟨h1, h2, _, _, hl, hr⟩ := h
    have := height_nonneg hl
    have := height_nonneg hr
    simp only [height_node]; omega

theorem eq_nil_of_height : ∀ {t : Tree K V}, Bal t → height t ≤ 0 → t = nil
  | nil, _, _ => rfl
  | node _ _ lh rh l r, h, h0 => by
    obtain ⟨h1, h2, _, _, hl, hr⟩ := h
    have := height_nonneg hl
    have := height_nonneg hr
    simp only [height_node] at h0; omega

theorem size_eq : ∀ t : Tree K V, size t = t.toList.length
  | nil => rfl
  | node _ _ _ _ l r => by simp [size, toList, size_eq l, size_eq r]; omega

theorem isBal_iff {b : Int} : isBal b = true ↔ -1 ≤ b ∧ b ≤ 1 := by
  simp [isBal]

/-- `rebal_lf_to_rt` on a node whose left side is two taller. -/
theorem rebalLfToRt_spec {k : K} {v : V} {lh rh : Int} {l r : Tree K V}
    (hl : Bal l) (hr : Bal r) (h1 : lh = height l) (h2 : rh = height r) (hb : rh - lh = -2) :
    ∃ t' sh, rebalLfToRt (node k v lh rh l r) = some (t', sh) ∧ Bal t' ∧
      toList t' = toList l ++ (k, v) :: toList r ∧
      height t' = lh + 1 - (if sh then 1 else 0) ∧ (balOf l ≠ 0 → sh = true) ∧
      (sh = false → balOf t' ≠ 0) := by
  have hr0 := height_nonneg hr
  cases l with
  | nil => simp at h1; omega
  | node kb vb blh brh x y =>
    obtain ⟨e1, e2, e3, e4, hx, hy⟩ := hl
    have hx0 := height_nonneg hx
    have hy0 := height_nonneg hy
    simp only [height_node] at h1
    simp only [rebalLfToRt, bal?]
    by_cases hle : brh - blh ≤ 0
    · simp only [if_pos hle, rotRt]
      refine ⟨_, _, rfl, ?_, ?_, ?_, ?_, ?_⟩
      · simp only [Bal, hx, hy, hr, height_node, and_true, true_and]; omega
      · simp [toList]
      · simp only [height_node]
        by_cases hz : brh - blh = 0 <;> simp [hz] <;> omega
      · simp only [balOf]; intro hz; simp [hz]
      · simp only [balOf]; intro hz; simp at hz; omega
    · simp only [if_neg hle, rotLfRt]
      cases y with
      | nil => simp at e2; omega
      | node kc vc clh crh y z =>
        obtain ⟨f1, f2, f3, f4, hy', hz'⟩ := hy
        have hy0' := height_nonneg hy'
        have hz0' := height_nonneg hz'
        simp only [height_node] at e2 hy0
        refine ⟨_, _, rfl, ?_, ?_, ?_, ?_, ?_⟩
        · simp only [Bal, hx, hy', hz', hr, height_node, and_true, true_and]; omega
        · simp [toList]
        · simp only [height_node, if_true]; omega
        · simp
        · simp

/-- `rebal_rt_to_lf` on a node whose right side is two taller. -/
theorem rebalRtToLf_spec {k : K} {v : V} {lh rh : Int} {l r : Tree K V}
    (hl : Bal l) (hr : Bal r) (h1 : lh = height l) (h2 : rh = height r) (hb : rh - lh = 2) :
    ∃ t' sh, rebalRtToLf (node k v lh rh l r) = some (t', sh) ∧ Bal t' ∧
      toList t' = toList l ++ (k, v) :: toList r ∧
      height t' = rh + 1 - (if sh then 1 else 0) ∧ (balOf r ≠ 0 → sh = true) ∧
      (sh = false → balOf t' ≠ 0) := by
  have hl0 := height_nonneg hl
  cases r with
  | nil => simp at h2; omega
  | node kb vb blh brh x y =>
    obtain ⟨e1, e2, e3, e4, hx, hy⟩ := hr
    have hx0 := height_nonneg hx
    have hy0 := height_nonneg hy
    simp only [height_node] at h2
    simp only [rebalRtToLf, bal?]
    by_cases hle : brh - blh ≥ 0
    · simp only [if_pos hle, rotLf]
      refine ⟨_, _, rfl, ?_, ?_, ?_, ?_, ?_⟩
      · simp only [Bal, hx, hy, hl, height_node, and_true, true_and]; omega
      · simp [toList]
      · simp only [height_node]
        by_cases hz : brh - blh = 0 <;> simp [hz] <;> omega
      · simp only [balOf]; intro hz; simp [hz]
      · simp only [balOf]; intro hz; simp at hz; omega
    · simp only [if_neg hle, rotRtLf]
      cases x with
      | nil => simp at e1; omega
      | node kc vc clh crh y' z =>
        obtain ⟨f1, f2, f3, f4, hy', hz'⟩ := hx
        have hy0' := height_nonneg hy'
        have hz0' := height_nonneg hz'
        simp only [height_node] at e1 hx0
        refine ⟨_, _, rfl, ?_, ?_, ?_, ?_, ?_⟩
        · simp only [Bal, hy, hy', hz', hl, height_node, and_true, true_and]; omega
        · simp [toList]
        · simp only [height_node, if_true]; omega
        · simp
        · simp

/-! ### insertion -/

theorem afterInsLf_spec {k : K} {v : V} {lh rh : Int} {l r : Tree K V} {tl : Bool}
    (hl : Bal l) (hr : Bal r) (h1 : height l = lh + (if tl then 1 else 0))
    (h2 : rh = height r) (hb : -1 ≤ rh - lh) (hb' : rh - lh ≤ 1)
    (ht : tl = true → height l = 1 ∨ balOf l ≠ 0) :
    ∃ t' tl', afterInsLf k v lh rh l r tl = some (t', tl') ∧ Bal t' ∧
      toList t' = toList l ++ (k, v) :: toList r ∧
      height t' = max lh rh + 1 + (if tl' then 1 else 0) ∧
      (tl' = true → balOf t' ≠ 0) := by
  have hr0 := height_nonneg hr
  have hl0 := height_nonneg hl
  cases tl with
  | false =>
    simp at h1
    refine ⟨node k v lh rh l r, false, by simp [afterInsLf], ?_, rfl, ?_, by simp⟩
    · simp only [Bal, hl, hr, and_true, true_and]; omega
    · simp [height_node]
  | true =>
    simp at h1 ht
    by_cases hc : rh - (lh + 1) < -1
    · obtain ⟨t', sh, e, hB, hL, hH, hs, -⟩ := rebalLfToRt_spec (k := k) (v := v) hl hr
        (lh := lh + 1) (rh := rh) (by omega) h2 (by omega)
      have : balOf l ≠ 0 := by
        rcases ht with h | h
        · omega
        · exact h
      have hsh := hs this
      subst hsh
      refine ⟨t', false, by simp [afterInsLf, hc, e], hB, hL, ?_, by simp⟩
      simp at hH ⊢; omega
    · refine ⟨node k v (lh+1) rh l r, decide (rh - (lh + 1) < 0), ?_, ?_, rfl, ?_, ?_⟩
      · simp only [afterInsLf, if_true, Bool.true_and, decide_eq_true_eq, if_neg hc]
      · simp only [Bal, hl, hr, and_true, true_and]; omega
      · simp only [height_node, decide_eq_true_eq]; split <;> omega
      · simp only [balOf, decide_eq_true_eq]; omega

theorem afterInsRt_spec {k : K} {v : V} {lh rh : Int} {l r : Tree K V} {tl : Bool}
    (hl : Bal l) (hr : Bal r) (h1 : lh = height l)
    (h2 : height r = rh + (if tl then 1 else 0)) (hb : -1 ≤ rh - lh) (hb' : rh - lh ≤ 1)
    (ht : tl = true → height r = 1 ∨ balOf r ≠ 0) :
    ∃ t' tl', afterInsRt k v lh rh l r tl = some (t', tl') ∧ Bal t' ∧
      toList t' = toList l ++ (k, v) :: toList r ∧
      height t' = max lh rh + 1 + (if tl' then 1 else 0) ∧
      (tl' = true → balOf t' ≠ 0) := by
  have hr0 := height_nonneg hr
  have hl0 := height_nonneg hl
  cases tl with
  | false =>
    simp at h2
    refine ⟨node k v lh rh l r, false, by simp [afterInsRt], ?_, rfl, ?_, by simp⟩
    · simp only [Bal, hl, hr, and_true, true_and]; omega
    · simp [height_node]
  | true =>
    simp at h2 ht
    by_cases hc : rh + 1 - lh > 1
    · obtain ⟨t', sh, e, hB, hL, hH, hs, -⟩ := rebalRtToLf_spec (k := k) (v := v) hl hr
        (lh := lh) (rh := rh + 1) (by omega) h2.symm (by omega)
      have : balOf r ≠ 0 := by
        rcases ht with h | h
        · omega
        · exact h
      have hsh := hs this
      subst hsh
      refine ⟨t', false, by simp [afterInsRt, hc, e], hB, hL, ?_, by simp⟩
      simp at hH ⊢; omega
    · refine ⟨node k v lh (rh+1) l r, decide (rh + 1 - lh > 0), ?_, ?_, rfl, ?_, ?_⟩
      · simp only [afterInsRt, if_true, Bool.true_and, decide_eq_true_eq, if_neg hc]
      · simp only [Bal, hl, hr, and_true, true_and]; omega
      · simp only [height_node, decide_eq_true_eq]; split <;> omega
      · simp only [balOf, decide_eq_true_eq]; omega

/-- Insertion never panics and keeps the tree balanced. -/
theorem ins_shape [Ord K] (k : K) (v : V) : ∀ t : Tree K V, Bal t →
    ∃ t' old tl, ins k v t = some (t', old, tl) ∧ Bal t' ∧
      height t' = height t + (if tl then 1 else 0) ∧
      (tl = true → height t' = 1 ∨ balOf t' ≠ 0)
  | nil, _ => ⟨mk k v nil nil, none, true, rfl, by simp [mk, Bal], by simp [mk, height_node],
      by simp [mk, height_node]⟩
  | node nk nv lh rh l r, h => by
    obtain ⟨h1, h2, h3, h4, hl, hr⟩ := h
    unfold ins
    split
    · exact ⟨_, _, _, rfl, ⟨h1, h2, h3, h4, hl, hr⟩, by simp [height_node], by simp⟩
    · obtain ⟨l', old, tl, e, hB, hH, hT⟩ := ins_shape k v l hl
      obtain ⟨t', tl', e', hB', -, hH', hT'⟩ := afterInsLf_spec (k := nk) (v := nv) hB hr
        (lh := lh) (rh := rh) (tl := tl) (by rw [hH, h1]) h2 h3 h4 hT
      simp only [e, e', Option.map_some]
      exact ⟨t', old, tl', rfl, hB', by rw [hH']; simp [height_node], fun h => Or.inr (hT' h)⟩
    · obtain ⟨r', old, tl, e, hB, hH, hT⟩ := ins_shape k v r hr
      obtain ⟨t', tl', e', hB', -, hH', hT'⟩ := afterInsRt_spec (k := nk) (v := nv) hl hB
        (lh := lh) (rh := rh) (tl := tl) h1 (by rw [hH, h2]) h3 h4 hT
      simp only [e, e', Option.map_some]
      exact ⟨t', old, tl', rfl, hB', by rw [hH']; simp [height_node], fun h => Or.inr (hT' h)⟩

/-! Contents never depend on balance: whatever a rotation returns has the same entries. -/

theorem rotLf_toList {t t' : Tree K V} {b} (h : rotLf t = some (t', b)) : toList t' = toList t := by
  unfold rotLf at h
  split at h
  · simp at h; rw [← h.1]; simp [toList]
  · simp at h

theorem rotRt_toList {t t' : Tree K V} {b} (h : rotRt t = some (t', b)) : toList t' = toList t := by
  unfold rotRt at h
  split at h
  · simp at h; rw [← h.1]; simp [toList]
  · simp at h

theorem rotLfRt_toList {t t' : Tree K V} {b} (h : rotLfRt t = some (t', b)) :
    toList t' = toList t := by
  unfold rotLfRt at h
  split at h
  · simp at h; rw [← h.1]; simp [toList]
  · simp at h

theorem rotRtLf_toList {t t' : Tree K V} {b} (h : rotRtLf t = some (t', b)) :
    toList t' = toList t := by
  unfold rotRtLf at h
  split at h
  · simp at h; rw [← h.1]; simp [toList]
  · simp at h

theorem rebalLfToRt_toList {t t' : Tree K V} {b} (h : rebalLfToRt t = some (t', b)) :
    toList t' = toList t := by
  unfold rebalLfToRt at h
  split at h
  · simp at h
  · split at h
    · simp at h
    · split at h
      · exact rotRt_toList h
      · exact rotLfRt_toList h

theorem rebalRtToLf_toList {t t' : Tree K V} {b} (h : rebalRtToLf t = some (t', b)) :
    toList t' = toList t := by
  unfold rebalRtToLf at h
  split at h
  · simp at h
  · split at h
    · simp at h
    · split at h
      · exact rotLf_toList h
      · exact rotRtLf_toList h

theorem afterInsLf_toList {k : K} {v : V} {lh rh l r tl} {t' : Tree K V} {b}
    (h : afterInsLf k v lh rh l r tl = some (t', b)) :
    toList t' = toList l ++ (k, v) :: toList r := by
  unfold afterInsLf at h
  dsimp only at h
  generalize lh + (if tl then 1 else 0) = hh at h
  split at h
  · simp only [Option.map_eq_some_iff] at h
    obtain ⟨⟨a, b'⟩, e, e'⟩ := h
    simp at e'
    rw [← e'.1, rebalLfToRt_toList e]; rfl
  · simp at h; rw [← h.1]; rfl

theorem afterInsRt_toList {k : K} {v : V} {lh rh l r tl} {t' : Tree K V} {b}
    (h : afterInsRt k v lh rh l r tl = some (t', b)) :
    toList t' = toList l ++ (k, v) :: toList r := by
  unfold afterInsRt at h
  dsimp only at h
  generalize rh + (if tl then 1 else 0) = hh at h
  split at h
  · simp only [Option.map_eq_some_iff] at h
    obtain ⟨⟨a, b'⟩, e, e'⟩ := h
    simp at e'
    rw [← e'.1, rebalRtToLf_toList e]; rfl
  · simp at h; rw [← h.1]; rfl

theorem afterRmLf_toList {k : K} {v : V} {lh rh l r tl} {t' : Tree K V} {b}
    (h : afterRmLf k v lh rh l r tl = some (t', b)) :
    toList t' = toList l ++ (k, v) :: toList r := by
  unfold afterRmLf at h
  dsimp only at h
  generalize lh - (if tl then 1 else 0) = hh at h
  split at h
  · rw [rebalRtToLf_toList h]; rfl
  · simp at h; rw [← h.1]; rfl

theorem afterRmRt_toList {k : K} {v : V} {lh rh l r tl} {t' : Tree K V} {b}
    (h : afterRmRt k v lh rh l r tl = some (t', b)) :
    toList t' = toList l ++ (k, v) :: toList r := by
  unfold afterRmRt at h
  dsimp only at h
  generalize rh - (if tl then 1 else 0) = hh at h
  split at h
  · rw [rebalLfToRt_toList h]; rfl
  · simp at h; rw [← h.1]; rfl

end Tree
end Verif.Avl
