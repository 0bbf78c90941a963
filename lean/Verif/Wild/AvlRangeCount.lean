import Verif.Wild.RangeSpec
import Verif.Wild.Count
/-!
# How many comparisons a range search of `AvlMap` makes

A test with one bound is one comparison of keys, `range.contains` two at most.  With any answers, a node is
tested in each of the two loops at most once; with answers that keep to bounds, only the nodes of
one path are tested in each.
-/
set_option linter.unusedVariables false
namespace Verif.Avl
open Verif.Wild Tree
universe w
variable {σ : Type w} {K V : Type} {μ : σ → Nat}

/-- What a test adds to `μ` at most. -/
structure Tests.Ticks (t : Tests σ K) (μ : σ → Nat) : Prop where
  hub : ∀ k s, μ (t.ubLe k s).2 ≤ μ s + 1
  hlb : ∀ k s, μ (t.lbGe k s).2 ≤ μ s + 1
  hin : ∀ k s, μ (t.holds k s).2 ≤ μ s + 2

/-- The same tests, with a counter of comparisons. -/
def Tests.counted (t : Tests σ K) : Tests (σ × Nat) K where
  ubLe k s := ((t.ubLe k s.1).1, ((t.ubLe k s.1).2, s.2 + 1))
  lbGe k s := ((t.lbGe k s.1).1, ((t.lbGe k s.1).2, s.2 + 1))
  holds k s := ((t.holds k s.1).1, ((t.holds k s.1).2, s.2 + 2))

theorem Tests.counted_ticks (t : Tests σ K) : t.counted.Ticks (·.2) :=
  ⟨fun _ _ => Nat.le_refl _, fun _ _ => Nat.le_refl _, fun _ _ => Nat.le_refl _⟩

theorem Tests.Honest.counted {t : Tests σ K} {lb ub : Bnd K} (h : t.Honest lb ub) :
    t.counted.Honest lb ub := by
  constructor
  · intro k s b s' e
    exact h.hub k s.1 b _ (Prod.ext (by simpa [Tests.counted] using congrArg (·.1) e) rfl)
  · intro k s b s' e
    exact h.hlb k s.1 b _ (Prod.ext (by simpa [Tests.counted] using congrArg (·.1) e) rfl)
  · intro k s b s' e
    exact h.hin k s.1 b _ (Prod.ext (by simpa [Tests.counted] using congrArg (·.1) e) rfl)

theorem askW_count {c : K → σ → Option Bool × σ} {d : Nat} (hc : ∀ k s, μ (c k s).2 ≤ μ s + d)
    (t : Tree K V) (k : K) (s : σ) : μ (askW t c k s).2 ≤ μ s + d := by
  cases t with
  | nil => simp [askW]
  | node => simpa [askW] using hc k s

theorem stepL_count {t : Tests σ K} (ht : t.Ticks μ) (k : K) (v : V) (l r : Tree K V)
    (w : List (Act K V)) (s : σ) : μ (pruneStepLW t k v l r w s).2 ≤ μ s + 4 := by
  rw [pruneStepLW]
  have a := askW_count ht.hub r k s
  rcases h1 : askW r t.ubLe k s with ⟨_ | b1, s1⟩ <;> rw [h1] at a <;> simp only at a ⊢
  · omega
  have b := ht.hin k s1
  rcases h2 : t.holds k s1 with ⟨_ | b2, s2⟩ <;> rw [h2] at b <;> simp only at b ⊢
  · omega
  have c := askW_count ht.hlb l k s2
  rcases h3 : askW l t.lbGe k s2 with ⟨_ | b3, s3⟩ <;> rw [h3] at c <;> simp only at c ⊢ <;> omega

theorem stepR_count {t : Tests σ K} (ht : t.Ticks μ) (k : K) (v : V) (l r : Tree K V)
    (w : List (Act K V)) (s : σ) : μ (pruneStepRW t k v l r w s).2 ≤ μ s + 4 := by
  rw [pruneStepRW]
  have a := askW_count ht.hlb l k s
  rcases h1 : askW l t.lbGe k s with ⟨_ | b1, s1⟩ <;> rw [h1] at a <;> simp only at a ⊢
  · omega
  have b := ht.hin k s1
  rcases h2 : t.holds k s1 with ⟨_ | b2, s2⟩ <;> rw [h2] at b <;> simp only at b ⊢
  · omega
  have c := askW_count ht.hub r k s2
  rcases h3 : askW r t.ubLe k s2 with ⟨_ | b3, s3⟩ <;> rw [h3] at c <;> simp only at c ⊢ <;> omega

/-! ### Any answers -/

/-- Nodes below the `Descend`s of a worklist. -/
def nodes : List (Act K V) → Nat
  | [] => 0
  | .desc t :: w => size t + nodes w
  | .ret _ :: w => nodes w

theorem nodes_push (t : Tree K V) (w : List (Act K V)) : nodes (pushDesc t w) = size t + nodes w := by
  cases t <;> simp [pushDesc, nodes, size]

theorem nodes_append (a b : List (Act K V)) : nodes (a ++ b) = nodes a + nodes b := by
  induction a with
  | nil => simp [nodes]
  | cons x a ih => cases x <;> simp [nodes, ih] <;> omega

theorem nodes_reverse (a : List (Act K V)) : nodes a.reverse = nodes a := by
  induction a with
  | nil => rfl
  | cons x a ih => cases x <;> simp [nodes_append, nodes, ih] <;> omega

theorem stepL_nodes {t : Tests σ K} {k : K} {v : V} {l r : Tree K V} {w w' : List (Act K V)} {s s' : σ}
    (e : pruneStepLW t k v l r w s = (some w', s')) : nodes w' ≤ size l + size r + nodes w := by
  rw [pruneStepLW] at e
  rcases h1 : askW r t.ubLe k s with ⟨_ | b1, s1⟩ <;> rw [h1] at e <;> simp only at e
  · cases e
  rcases h2 : t.holds k s1 with ⟨_ | b2, s2⟩ <;> rw [h2] at e <;> simp only at e
  · cases e
  rcases h3 : askW l t.lbGe k s2 with ⟨_ | b3, s3⟩ <;> rw [h3] at e <;> simp only at e
  · cases e
  cases e
  cases b1 <;> cases b2 <;> cases b3 <;> simp [nodes_push, nodes] <;> omega

theorem stepR_nodes {t : Tests σ K} {k : K} {v : V} {l r : Tree K V} {w w' : List (Act K V)} {s s' : σ}
    (e : pruneStepRW t k v l r w s = (some w', s')) : nodes w' ≤ size l + size r + nodes w := by
  rw [pruneStepRW] at e
  rcases h1 : askW l t.lbGe k s with ⟨_ | b1, s1⟩ <;> rw [h1] at e <;> simp only at e
  · cases e
  rcases h2 : t.holds k s1 with ⟨_ | b2, s2⟩ <;> rw [h2] at e <;> simp only at e
  · cases e
  rcases h3 : askW r t.ubLe k s2 with ⟨_ | b3, s3⟩ <;> rw [h3] at e <;> simp only at e
  · cases e
  cases e
  cases b1 <;> cases b2 <;> cases b3 <;> simp [nodes_push, nodes] <;> omega

theorem pruneLoopW_nodes {step : K → V → Tree K V → Tree K V → List (Act K V) → σ →
      Option (List (Act K V)) × σ}
    (hs : ∀ k v l r w s, μ (step k v l r w s).2 ≤ μ s + 4)
    (hn : ∀ k v l r w s w' s', step k v l r w s = (some w', s') →
      nodes w' ≤ size l + size r + nodes w) :
    ∀ (f : Nat) (w : List (Act K V)) (s : σ) r s', pruneLoopW step f w s = some (r, s') →
      μ s' ≤ μ s + 4 * nodes w ∧ ∀ w', r = .done w' → nodes w' ≤ nodes w := by
  intro f
  induction f with
  | zero => intro w s r s' e; simp [pruneLoopW] at e
  | succ f ih =>
    intro w s r s' e
    rcases w with _ | ⟨(_ | ⟨k, v, lh, rh, l, r'⟩) | x, w⟩
    all_goals simp only [pruneLoopW] at e
    case nil => cases e; exact ⟨by omega, fun w' h => by cases h; exact Nat.le_refl _⟩
    case cons.ret => cases e; exact ⟨by omega, fun w' h => by cases h; exact Nat.le_refl _⟩
    case cons.desc.nil => simpa [nodes, size] using ih _ _ _ _ e
    case cons.desc.node =>
      have h1 := hs k v l r' w s
      rcases hst : step k v l r' w s with ⟨_ | w1, s1⟩ <;> rw [hst] at e h1 <;> simp only at e h1
      · cases e
        refine ⟨?_, fun w' h => by cases h⟩
        simp only [nodes, size]; omega
      · have h2 := hn _ _ _ _ _ _ _ _ hst
        obtain ⟨h3, h4⟩ := ih _ _ _ _ e
        simp only [nodes, size]
        exact ⟨by omega, fun w' h => by have := h4 w' h; omega⟩

theorem AvlMap.rangeW_nodes {t : Tests σ K} (ht : t.Ticks μ) (m : AvlMap K V) (s : σ) :
    Upto μ (8 * size m.root) s (m.rangeW t s) := by
  intro r s' e
  rw [AvlMap.rangeW] at e
  simp only at e
  have hw : nodes (pushDesc m.root []) = size m.root := by simp [nodes_push, nodes]
  rcases h1 : pruneLoopW (pruneStepLW t) (wsize (pushDesc m.root []) + 1) (pushDesc m.root []) s
    with _ | ⟨u | w1, s1⟩ <;> rw [h1] at e <;> simp only at e
  · cases e
  · obtain ⟨a, -⟩ := pruneLoopW_nodes (stepL_count ht) (fun _ _ _ _ _ _ _ _ => stepL_nodes) _ _ _ _ _ h1
    cases e; omega
  · obtain ⟨a, b⟩ := pruneLoopW_nodes (stepL_count ht) (fun _ _ _ _ _ _ _ _ => stepL_nodes) _ _ _ _ _ h1
    have b := b _ rfl
    rcases h2 : pruneLoopW (pruneStepRW t) (wsize w1 + 1) w1.reverse s1 with _ | ⟨u | w2, s2⟩ <;>
      rw [h2] at e <;> simp only at e
    · cases e
    all_goals
      obtain ⟨c, -⟩ :=
        pruneLoopW_nodes (stepR_count ht) (fun _ _ _ _ _ _ _ _ => stepR_nodes) _ _ _ _ _ h2
      rw [nodes_reverse] at c
      cases e; omega

/-! ### Answers that keep to bounds -/

/-- A `Descend`. -/
def Act.isDesc : Act K V → Bool
  | .desc _ => true
  | .ret _ => false

/-- Not both are `Descend`s. -/
def Apart (a b : Act K V) : Prop := a.isDesc = false ∨ b.isDesc = false

/-- No two `Descend`s stand side by side, and none is of a tree deeper than `H`. -/
def Thin (H : Nat) (w : List (Act K V)) : Prop :=
  w.IsChain Apart ∧ ∀ t, Act.desc t ∈ w → depth t ≤ H

/-- The depth of the tree at the front. -/
def top : List (Act K V) → Nat
  | .desc t :: _ => depth t
  | _ => 0

theorem Thin.reverse {H : Nat} {w : List (Act K V)} (h : Thin H w) : Thin H w.reverse := by
  refine ⟨List.isChain_reverse.2 ?_, fun t ht => h.2 t (by simpa using ht)⟩
  exact h.1.imp (fun a b hab => hab.symm)

theorem Thin.tail {H : Nat} {a : Act K V} {w : List (Act K V)} (h : Thin H (a :: w)) : Thin H w :=
  ⟨h.1.tail, fun t ht => h.2 t (.tail _ ht)⟩

/-- What follows a `Descend`. -/
theorem Thin.rest {H : Nat} {t : Tree K V} {w : List (Act K V)} (h : Thin H (.desc t :: w)) :
    w = [] ∨ ∃ e w', w = .ret e :: w' := by
  rcases w with _ | ⟨_ | _, w⟩
  · exact .inl rfl
  all_goals first
    | exact .inr ⟨_, _, rfl⟩
    | (have := h.1; simp [Apart, Act.isDesc] at this)

theorem Thin.ret {H : Nat} {e : K × V} {w : List (Act K V)} (h : Thin H w) : Thin H (.ret e :: w) := by
  refine ⟨?_, fun t ht => h.2 t (by simpa using ht)⟩
  cases w with
  | nil => simp
  | cons b w => exact .cons_cons (.inl rfl) h.1

theorem Thin.push {H : Nat} {t : Tree K V} {w : List (Act K V)} (h : Thin H w)
    (hw : w = [] ∨ ∃ e w', w = .ret e :: w') (ht : depth t ≤ H) :
    Thin H (pushDesc t w) ∧ top (pushDesc t w) ≤ depth t := by
  have h0 : top w = 0 := by
    rcases hw with rfl | ⟨e, w', rfl⟩ <;> rfl
  cases t with
  | nil => exact ⟨h, by simp [pushDesc, h0]⟩
  | node k v lh rh l r =>
    refine ⟨⟨?_, ?_⟩, Nat.le_refl _⟩
    · rcases hw with rfl | ⟨e, w', rfl⟩
      · simp [pushDesc]
      · exact .cons_cons (.inr rfl) h.1
    · intro t ht'
      simp only [pushDesc, List.mem_cons] at ht'
      rcases ht' with ht' | ht'
      · cases ht'; exact ht
      · exact h.2 _ ht'

/-- A key outside the bounds is beyond one of them. -/
theorem outside (lb ub : Bnd K) (k : K) :
    (lb.okLo k && ub.okHi k) = true ∨ ubLe ub k = true ∨ lbGe lb k = true := by
  rcases lb with _ | p | p <;> rcases ub with _ | q | q <;> simp only [Bnd.okLo, Bnd.okHi, ubLe, lbGe]
  all_goals (try rcases p k with _ | _ | _) <;> (try rcases q k with _ | _ | _) <;> simp

/-- The body of a loop: `x` is pushed first and `y` last. -/
theorem thin_step {H : Nat} {k : K} {v : V} {lh rh : Int} {l r x y : Tree K V} {w : List (Act K V)}
    {b1 b2 b3 : Bool} (hb : b2 = true ∨ b1 = true ∨ b3 = true)
    (hx : depth x ≤ max (depth l) (depth r)) (hy : depth y ≤ max (depth l) (depth r))
    (h : Thin H (.desc (.node k v lh rh l r) :: w)) :
    let w1 := if b1 then w else pushDesc x w
    let w2 := if b2 then .ret (k, v) :: w1 else w1
    Thin H (if b3 then w2 else pushDesc y w2) ∧
      top (if b3 then w2 else pushDesc y w2) ≤ max (depth l) (depth r) := by
  have hw := h.tail
  have hr := h.rest
  have hH := h.2 _ (.head _)
  simp only [depth] at hH
  have h0 : top w = 0 := by
    rcases hr with rfl | ⟨e, w', rfl⟩ <;> rfl
  obtain ⟨p1, p2⟩ := hw.push hr (t := x) (by omega)
  obtain ⟨q1, q2⟩ := hw.push hr (t := y) (by omega)
  obtain ⟨a1, a2⟩ := (hw.ret (e := (k, v))).push (t := y) (.inr ⟨_, _, rfl⟩) (by omega)
  obtain ⟨c1, c2⟩ := (p1.ret (e := (k, v))).push (t := y) (.inr ⟨_, _, rfl⟩) (by omega)
  cases b1 <;> cases b2 <;> cases b3 <;> simp at hb ⊢
  all_goals first
    | exact ⟨p1, by omega⟩
    | exact ⟨c1, by omega⟩
    | exact ⟨p1.ret, by simp [top]⟩
    | exact ⟨q1, by omega⟩
    | exact ⟨hw, by omega⟩
    | exact ⟨a1, by omega⟩
    | exact ⟨hw.ret, by simp [top]⟩
    | skip

theorem pruneLoopW_thin {step : K → V → Tree K V → Tree K V → List (Act K V) → σ →
      Option (List (Act K V)) × σ} {H : Nat}
    (hs : ∀ k v l r w s, μ (step k v l r w s).2 ≤ μ s + 4)
    (hn : ∀ k v lh rh l r w s w' s', Thin H (.desc (.node k v lh rh l r) :: w) →
      step k v l r w s = (some w', s') → Thin H w' ∧ top w' ≤ max (depth l) (depth r)) :
    ∀ (f : Nat) (w : List (Act K V)) (s : σ) r s', Thin H w → pruneLoopW step f w s = some (r, s') →
      μ s' ≤ μ s + 4 * top w ∧ ∀ w', r = .done w' → Thin H w' := by
  intro f
  induction f with
  | zero => intro w s r s' _ e; simp [pruneLoopW] at e
  | succ f ih =>
    intro w s r s' hw e
    rcases w with _ | ⟨(_ | ⟨k, v, lh, rh, l, r'⟩) | x, w⟩
    all_goals simp only [pruneLoopW] at e
    case nil => cases e; exact ⟨by omega, fun w' h => by cases h; exact hw⟩
    case cons.ret => cases e; exact ⟨by omega, fun w' h => by cases h; exact hw⟩
    case cons.desc.nil =>
      obtain ⟨h3, h4⟩ := ih _ _ _ _ hw.tail e
      have h0 : top w = 0 := by
        rcases hw.rest with rfl | ⟨e, w', rfl⟩ <;> rfl
      exact ⟨by omega, h4⟩
    case cons.desc.node =>
      have h1 := hs k v l r' w s
      rcases hst : step k v l r' w s with ⟨_ | w1, s1⟩ <;> rw [hst] at e h1 <;> simp only at e h1
      · cases e
        refine ⟨?_, fun w' h => by cases h⟩
        simp only [top, depth]; omega
      · have h2 := hn _ _ _ _ _ _ _ _ _ _ hw hst
        obtain ⟨h3, h4⟩ := ih _ _ _ _ h2.1 e
        simp only [top, depth]
        exact ⟨by omega, h4⟩

theorem AvlMap.rangeW_depth {t : Tests σ K} (ht : t.Ticks μ) {lb ub : Bnd K} (hh : t.Honest lb ub)
    (m : AvlMap K V) (s : σ) : Upto μ (8 * depth m.root) s (m.rangeW t s) := by
  intro r s' e
  rw [AvlMap.rangeW] at e
  simp only at e
  have hL : ∀ k (v : V) lh rh l r w s w' s', Thin (depth m.root) (.desc (.node k v lh rh l r) :: w) →
      pruneStepLW t k v l r w s = (some w', s') →
        Thin (depth m.root) w' ∧ top w' ≤ max (depth l) (depth r) := by
    intro k v lh rh l r w s w' s' h e
    rw [stepL_honest hh e, pruneStepL]
    exact thin_step (outside lb ub k) (Nat.le_max_right _ _) (Nat.le_max_left _ _) h
  have hR : ∀ k (v : V) lh rh l r w s w' s', Thin (depth m.root) (.desc (.node k v lh rh l r) :: w) →
      pruneStepRW t k v l r w s = (some w', s') →
        Thin (depth m.root) w' ∧ top w' ≤ max (depth l) (depth r) := by
    intro k v lh rh l r w s w' s' h e
    rw [stepR_honest hh e, pruneStepR]
    exact thin_step ((outside lb ub k).imp_right Or.symm) (Nat.le_max_left _ _) (Nat.le_max_right _ _) h
  obtain ⟨hw, ho⟩ := Thin.push (H := depth m.root) (w := []) (t := m.root) ⟨by simp, by simp⟩ (.inl rfl)
    (Nat.le_refl _)
  rcases h1 : pruneLoopW (pruneStepLW t) (wsize (pushDesc m.root []) + 1) (pushDesc m.root []) s
    with _ | ⟨u | w1, s1⟩ <;> rw [h1] at e <;> simp only at e
  · cases e
  · obtain ⟨a, -⟩ := pruneLoopW_thin (stepL_count ht) hL _ _ _ _ _ hw h1
    cases e; omega
  · obtain ⟨a, b⟩ := pruneLoopW_thin (stepL_count ht) hL _ _ _ _ _ hw h1
    have b := (b _ rfl).reverse
    have b' : top w1.reverse ≤ depth m.root := by
      rcases hw1 : w1.reverse with _ | ⟨x | x, w⟩
      all_goals first
        | exact Nat.zero_le _
        | exact b.2 _ (by rw [hw1]; exact .head _)
    rcases h2 : pruneLoopW (pruneStepRW t) (wsize w1 + 1) w1.reverse s1 with _ | ⟨u | w2, s2⟩ <;>
      rw [h2] at e <;> simp only at e
    · cases e
    all_goals
      obtain ⟨c, -⟩ := pruneLoopW_thin (stepR_count ht) hR _ _ _ _ _ b h2
      cases e; omega

end Verif.Avl
