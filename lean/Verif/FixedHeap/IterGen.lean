import Verif.FixedHeap.IterModel
import Verif.BTreeHeap.MutSpec
/-!
# `InnerIter` of `core.rs` on reference-counted memory, against the iterator on values
-/
namespace Verif.FixedH
open Heap BTreeH Fixed
open Fixed (Inner)

variable {P S I E C J F G X : Type}

/-- A node iterator on memory agrees with one on values. -/
structure GOk (o : GOps P S I E C) (v : NOps J F G) (R : Rel P S I J F)
    (Item : S → E → F → Prop) : Prop where
  len : ∀ {h s w wt L}, R h s w wt L → w.length = wt.length
  rev : ∀ {h s w wt L}, R h s w wt L → R h s w.reverse wt.reverse L
  ret : ∀ {h s e w et et' x wt L}, R h s (e :: w) (et :: wt) L →
    v.next et = some (et', some (.ret x)) →
    wp (o.next e) L (fun y L' => ∃ i, y.2 = some (.ret i) ∧ Item s i x ∧
      R h s (y.1 :: w) (et' :: wt) L')
  desc : ∀ {h s e w et et' c j wt L}, R h s (e :: w) (et :: wt) L →
    v.next et = some (et', some (.desc c)) → v.make c = some j →
    wp (o.next e) L (fun y L' => ∃ k, y.2 = some (.desc k) ∧
      wp (o.make s k) L' (fun z L2 => R h z.1 (z.2 :: y.1 :: w) (j :: et' :: wt) L2))
  stop : ∀ {h s e w et et' wt L}, R h s (e :: w) (et :: wt) L →
    v.next et = some (et', none) →
    wp (o.next e) L (fun y L' => y.2 = none ∧
      wp (o.done y.1) L' (fun _ L2 => R h s w wt L2))

/-- The cost of a node iterator does not grow, and pays for the children. -/
structure Tame (v : NOps J F G) : Prop where
  ret : ∀ {w w' e}, v.next w = some (w', some (.ret e)) → v.cost w' ≤ v.cost w
  desc : ∀ {w w' c i}, v.next w = some (w', some (.desc c)) → v.make c = some i →
    v.cost i + v.cost w' ≤ v.cost w

variable {o : GOps P S I E C} {v : NOps J F G} {R : Rel P S I J F} {Item : S → E → F → Prop}

/-- The total cost of a deque. -/
def costs (v : NOps J F G) (w : List J) : Nat := (w.map v.cost).sum

theorem loop_cost (T : Tame v) : ∀ {f : Nat} {w w' : List J} {len len' : Nat} {r : Option F},
    v.loop f w len = some (r, w', len') → costs v w' ≤ costs v w
  | 0, _, _, _, _, _, h => by simp [NOps.loop] at h
  | f + 1, [], w', len, len', r, h => by
    simp only [NOps.loop, Option.some.injEq, Prod.mk.injEq] at h
    obtain ⟨-, rfl, -⟩ := h
    exact le_refl _
  | f + 1, e :: w, w', len, len', r, h => by
    rw [NOps.loop] at h
    split at h
    · simp at h
    · rename_i e' x he
      split at h
      · simp at h
      · simp only [Option.some.injEq, Prod.mk.injEq] at h
        obtain ⟨-, rfl, -⟩ := h
        have := T.ret he
        simp only [costs, List.map_cons, List.sum_cons]
        omega
    · rename_i e' c he
      split at h
      · simp at h
      · rename_i i hi
        have h1 := loop_cost T h
        have h2 := T.desc he hi
        simp only [costs, List.map_cons, List.sum_cons] at h1 ⊢
        omega
    · have h1 := loop_cost T h
      simp only [costs, List.map_cons, List.sum_cons] at h1 ⊢
      omega

/-- The two results of a loop. -/
def After (R : Rel P S I J F) (Item : S → E → F → Prop) (h : List F) (r : Option F) (wt : List J)
    (len : Nat) (y : S × Option E × List I × Nat) (L : Multiset (Handle P)) : Prop :=
  y.2.2.2 = len ∧ R h y.1 y.2.2.1 wt L ∧ Agree (Item y.1) r y.2.1

theorem loop_ok (ok : GOk o v R Item) {h : List F} : ∀ {f n : Nat} {s : S} {w : List I}
    {wt wt' : List J} {len len' : Nat} {r : Option F} {L : Multiset (Handle P)}, f ≤ n →
    R h s w wt L → v.loop f wt len = some (r, wt', len') →
    wp (o.loop n s w len) L (After R Item h r wt' len')
  | 0, _, _, _, _, _, _, _, _, _, _, _, hl => by simp [NOps.loop] at hl
  | f + 1, 0, _, _, _, _, _, _, _, _, hn, _, _ => by omega
  | f + 1, n + 1, s, w, wt, wt', len, len', r, L, hn, hR, hl => by
    have hlen := ok.len hR
    cases wt with
    | nil =>
      cases w with
      | cons e w => simp at hlen
      | nil =>
        simp only [NOps.loop, Option.some.injEq, Prod.mk.injEq] at hl
        obtain ⟨rfl, rfl, rfl⟩ := hl
        exact wp_pure ⟨rfl, hR, rfl⟩
    | cons et wt =>
      cases w with
      | nil => simp at hlen
      | cons e w =>
        rw [NOps.loop] at hl
        simp only [GOps.loop]
        split at hl
        · simp at hl
        · rename_i et' x he
          split at hl
          · simp at hl
          · rename_i h0
            simp only [Option.some.injEq, Prod.mk.injEq] at hl
            obtain ⟨rfl, rfl, rfl⟩ := hl
            refine wp_bind (wp_conseq (ok.ret hR he) ?_)
            rintro ⟨e', _⟩ L' ⟨i, rfl, h1, h2⟩
            dsimp only
            rw [if_neg h0]
            exact wp_pure ⟨rfl, h2, i, rfl, h1⟩
        · rename_i et' c he
          split at hl
          · simp at hl
          · rename_i j hj
            refine wp_bind (wp_conseq (ok.desc hR he hj) ?_)
            rintro ⟨e', _⟩ L' ⟨k, rfl, h1⟩
            dsimp only at h1 ⊢
            refine wp_bind (wp_conseq h1 ?_)
            intro z L2 h2
            exact loop_ok ok (by omega) h2 hl
        · rename_i et' he
          refine wp_bind (wp_conseq (ok.stop hR he) ?_)
          rintro ⟨e', _⟩ L' ⟨rfl, h1⟩
          dsimp only at h1 ⊢
          refine wp_bind (wp_conseq h1 ?_)
          intro _ L2 h2
          exact loop_ok ok (by omega) h2 hl

theorem costs_reverse (v : NOps J F G) (w : List J) : costs v w.reverse = costs v w := by
  simp [costs, List.sum_reverse]

theorem step_cost (T : Tame v) {jt jt' : Inner J} {r : Option F} {d : Bool}
    (hs : v.step d jt = some (r, jt')) : costs v jt'.work ≤ costs v jt.work := by
  cases d with
  | true =>
    simp only [NOps.step, if_true, Option.map_eq_some_iff] at hs
    obtain ⟨⟨r2, w, l⟩, h1, h2⟩ := hs
    simp only [Prod.mk.injEq] at h2
    obtain ⟨rfl, rfl⟩ := h2
    exact loop_cost T h1
  | false =>
    simp only [NOps.step, Bool.false_eq_true, if_false, Option.map_eq_some_iff] at hs
    obtain ⟨⟨r2, w, l⟩, h1, h2⟩ := hs
    simp only [Prod.mk.injEq] at h2
    obtain ⟨rfl, rfl⟩ := h2
    have := loop_cost T h1
    rw [costs_reverse] at this
    rwa [costs_reverse]

theorem step_ok (ok : GOk o v R Item) {n : Nat} {h : List F} {s : S} {it : Inner I}
    {jt jt' : Inner J} {r : Option F} {L : Multiset (Handle P)} {d : Bool}
    (hc : costs v jt.work + 1 ≤ n) (hl : it.len = jt.len)
    (hR : R h s it.work jt.work L) (hs : v.step d jt = some (r, jt')) :
    wp (o.step n d s it) L (fun y L' => y.2.2.len = jt'.len ∧ R h y.1 y.2.2.work jt'.work L' ∧
      Agree (Item y.1) r y.2.1) := by
  obtain ⟨w, len⟩ := it
  obtain ⟨wt, len'⟩ := jt
  cases hl
  cases d with
  | true =>
    simp only [NOps.step, if_true, Option.map_eq_some_iff] at hs
    obtain ⟨⟨r2, w2, l2⟩, h1, h2⟩ := hs
    simp only [Prod.mk.injEq] at h2
    obtain ⟨rfl, rfl⟩ := h2
    simp only [GOps.step, if_true]
    refine wp_bind (wp_conseq (loop_ok ok hc hR h1) ?_)
    rintro y L' ⟨h3, h4, h5⟩
    exact wp_pure ⟨h3, h4, h5⟩
  | false =>
    simp only [NOps.step, Bool.false_eq_true, if_false, Option.map_eq_some_iff] at hs
    obtain ⟨⟨r2, w2, l2⟩, h1, h2⟩ := hs
    simp only [Prod.mk.injEq] at h2
    obtain ⟨rfl, rfl⟩ := h2
    simp only [GOps.step, Bool.false_eq_true, if_false]
    refine wp_bind (wp_conseq (loop_ok ok hc (ok.rev hR) h1) ?_)
    rintro y L' ⟨h3, h4, h5⟩
    exact wp_pure ⟨h3, ok.rev h4, h5⟩

theorem run_ok (T : Tame v) {yld : S → E → Option (S × X)} {see : F → X} {C : List F → Prop}
    {n : Nat} (ok : GOk o v R Item) (hy : YldOk yld see R Item C)
    (hC : ∀ a b, C (a ++ b) → C a) :
    ∀ {ds : List Bool} {h : List F} {s : S} {it : Inner I} {jt jt' : Inner J}
      {ys : List (Option F × Nat)} {L : Multiset (Handle P)}, costs v jt.work + 1 ≤ n →
    it.len = jt.len →
    R h s it.work jt.work L → v.run ds jt = some (ys, jt') → C (h ++ gives ys) →
    wp (o.run yld n ds s it) L (fun y L' =>
      y.2.1 = ys.map (fun p => (p.1.map see, p.2)) ∧
      R (h ++ gives ys) y.1 y.2.2.work jt'.work L')
  | [], h, s, it, jt, jt', ys, L, _, _, hR, hr, _ => by
    simp only [NOps.run, Option.some.injEq, Prod.mk.injEq] at hr
    obtain ⟨rfl, rfl⟩ := hr
    exact wp_pure ⟨rfl, by simpa [gives] using hR⟩
  | d :: ds, h, s, it, jt, jt', ys, L, hn, hl, hR, hr, hc => by
    rw [NOps.run] at hr
    split at hr
    · simp at hr
    · rename_i r jt2 hst
      rw [Option.map_eq_some_iff] at hr
      obtain ⟨⟨zs, jt3⟩, hr, h0⟩ := hr
      simp only [Prod.mk.injEq] at h0
      obtain ⟨rfl, rfl⟩ := h0
      have hn' : costs v jt2.work + 1 ≤ n := by have := step_cost T hst; omega
      simp only [GOps.run]
      refine wp_bind (wp_conseq (step_ok ok hn hl hR hst) ?_)
      rintro ⟨s', i, it'⟩ L' ⟨h1, h2, h3⟩
      dsimp only at h1 h2 ⊢
      cases r with
      | none =>
        dsimp only [Agree] at h3
        subst h3
        dsimp only
        have e : gives ((none, jt2.len) :: zs) = gives zs := rfl
        refine wp_bind (wp_conseq (run_ok T ok hy hC hn' h1 h2 hr (by rwa [e] at hc)) ?_)
        rintro y L2 ⟨h4, h5⟩
        exact wp_pure ⟨by simp [h4, h1], by rwa [e]⟩
      | some x =>
        dsimp only [Agree] at h3
        obtain ⟨i, rfl, hi⟩ := h3
        dsimp only
        have e : gives ((some x, jt2.len) :: zs) = [x] ++ gives zs := rfl
        rw [e, ← List.append_assoc] at hc
        obtain ⟨s2, h6, h7⟩ := hy h2 hi (hC _ _ hc)
        rw [h6]
        dsimp only
        refine wp_bind (wp_conseq (run_ok T ok hy hC hn' h1 h7 hr hc) ?_)
        rintro y L2 ⟨h4, h5⟩
        refine wp_pure ⟨by simp [h4, h1], ?_⟩
        rw [e, ← List.append_assoc]
        exact h5

/-- An empty iterator stays empty. -/
theorem run_nil (o : GOps P S I E C) (yld : S → E → Option (S × X)) (n len : Nat) (s : S) :
    ∀ ds : List Bool, o.run yld (n + 1) ds s ⟨[], len⟩ =
      .pure (s, ds.map (fun _ => (none, len)), ⟨[], len⟩)
  | [] => rfl
  | d :: ds => by
    have h : o.step (n + 1) d s ⟨[], len⟩ = .pure (s, none, ⟨[], len⟩) := by cases d <;> rfl
    rw [GOps.run, h]
    show (o.run yld (n + 1) ds s ⟨[], len⟩).bind _ = _
    rw [run_nil o yld n len s ds]
    rfl

theorem vrun_nil (v : NOps J F G) (len : Nat) :
    ∀ ds : List Bool, v.run ds ⟨[], len⟩ = some (ds.map (fun _ => (none, len)), ⟨[], len⟩)
  | [] => rfl
  | d :: ds => by
    have h : v.step d ⟨[], len⟩ = some (none, ⟨[], len⟩) := by cases d <;> rfl
    rw [NOps.run, h]
    show (v.run ds ⟨[], len⟩).map _ = _
    rw [vrun_nil v len ds]
    rfl

/-! ## `NodeIter` on values -/

section
variable {K V : Type}
open BTree (Node)

theorem nodeCost_eq (c : Node K V) : nodeCost c = nodeCosts c.kids + 2 := by
  cases c; rw [nodeCost, BTree.Node.kids]

theorem ni_tame : Tame (niOps : NOps (NI K V) _ _) where
  ret := by
    rintro ⟨es, ks, b⟩ w' e h
    cases b <;> cases es <;> cases ks <;> simp only [niOps] at h <;>
      simp at h <;> obtain ⟨rfl, -⟩ := h <;> exact le_refl _
  desc := by
    rintro ⟨es, ks, b⟩ w' c i h hi
    simp only [niOps] at hi
    split at hi
    · simp at hi
    · simp only [Option.some.injEq] at hi
      subst hi
      cases b <;> cases es <;> cases ks <;> simp only [niOps] at h <;> simp at h <;>
        obtain ⟨rfl, rfl⟩ := h <;> simp only [niOps, nodeCosts, nodeCost_eq] <;> omega

end

end Verif.FixedH
