import Verif.BTreeHeap.IterModel
import Verif.BTreeHeap.Access
/-!
# `InnerIter` on reference-counted memory, against the iterator on values

For any kind of node iterator: if its functions agree with those of the node iterator on values,
so does every run.
-/
namespace Verif.BTreeH
open Heap
open BTree (InnerIter NodeIterOps)

variable {P S I E C J F G X : Type}

/-- A relation between a deque on memory and one on values, after some entries were yielded. -/
abbrev Rel (P S I J F : Type) := List F → S → List I → List J → Multiset (Handle P) → Prop

/-- One direction of a node iterator agrees with one on values. -/
structure OpsOk (n : Nat) (o : HOps P S I E C) (v : NodeIterOps J F G) (R : Rel P S I J F)
    (Item : S → E → F → Prop) : Prop where
  len : ∀ {h s w wt L}, R h s w wt L → w.length = wt.length
  fuel : ∀ {h s w wt L et}, R h s w wt L → et ∈ wt → v.fuel et ≤ n
  needs : ∀ {h s e w et wt L}, R h s (e :: w) (et :: wt) L → o.needsLf e = v.needsLf et
  stop : ∀ {h s e w et et' wt L}, R h s (e :: w) (et :: wt) L →
    v.nextKid et = some (et', none) →
    wp (o.kidStep s e w) L (fun y L' => ∃ s' e', y = (false, s', e', w) ∧
      R h s' (e' :: w) (et' :: wt) L')
  kid : ∀ {h s e w et et' c wt L}, R h s (e :: w) (et :: wt) L →
    v.nextKid et = some (et', some c) →
    wp (o.kidStep s e w) L (fun y L' => y.1 = true ∧
      R h y.2.1 (y.2.2.1 :: y.2.2.2) (v.make c :: v.keep et' wt) L')
  elem : ∀ {h s e w et et' x wt L} {len : Nat}, R h s (e :: w) (et :: wt) L →
    v.nextElem et = some (et', some x) → len ≠ 0 →
    wp (o.yieldElem len e w) L (fun y L' => y.1.len = len - 1 ∧ (∃ i, y.2 = some i ∧ Item s i x) ∧
      R h s y.1.work (v.keep et' wt) L')

/-- Both directions, for a relation that does not care for the order of the deque. -/
structure BothOk (n : Nat) (o : HOps P S I E C) (v : NodeIterOps J F G) (R : Rel P S I J F)
    (Item : S → E → F → Prop) : Prop where
  front : OpsOk n o v R Item
  back : OpsOk n o.mirror v.mirror R Item
  rev : ∀ {h s w wt L}, R h s w wt L → R h s w.reverse wt.reverse L

variable {n : Nat} {o : HOps P S I E C} {v : NodeIterOps J F G} {R : Rel P S I J F}
  {Item : S → E → F → Prop}

/-- The two results of a call. -/
def Agree (Item : E → F → Prop) : Option F → Option E → Prop
  | none, r => r = none
  | some x, r => ∃ i, r = some i ∧ Item i x

theorem descend_ok (ok : OpsOk n o v R Item) {h : List F} : ∀ {m m' : Nat} {s : S} {e : I}
    {w : List I} {et et' : J} {wt wt' : List J} {L : Multiset (Handle P)}, m ≤ m' →
    R h s (e :: w) (et :: wt) L → v.descend m et wt = some (et', wt') →
    wp (o.descend m' s e w) L (fun x L' => R h x.1 (x.2.1 :: x.2.2) (et' :: wt') L')
  | 0, _, _, _, _, _, _, _, _, _, _, _, hd => by simp [NodeIterOps.descend] at hd
  | m + 1, 0, _, _, _, _, _, _, _, _, hm, _, _ => by omega
  | m + 1, m' + 1, s, e, w, et, et', wt, wt', L, hm, hR, hd => by
    rw [NodeIterOps.descend] at hd
    split at hd
    · simp at hd
    · rename_i ev he
      obtain ⟨rfl, rfl⟩ := by simpa using hd
      simp only [HOps.descend]
      refine wp_bind (wp_conseq (ok.stop hR he) ?_)
      rintro _ L' ⟨s', e', rfl, hR'⟩
      simp only [Bool.false_eq_true, if_false]
      exact wp_pure hR'
    · rename_i ev c he
      simp only [HOps.descend]
      refine wp_bind (wp_conseq (ok.kid hR he) ?_)
      rintro ⟨b, s', e', w'⟩ L' ⟨hb, hR'⟩
      cases hb
      simp only [if_true]
      exact descend_ok ok (by omega) hR' hd

theorem next_ok (ok : OpsOk n o v R Item) {h : List F} {s : S} {it : InnerIter I}
    {jt jt' : InnerIter J} {r : Option F} {L : Multiset (Handle P)} (hl : it.len = jt.len)
    (hR : R h s it.work jt.work L) (hn : v.next jt = some (jt', r)) :
    wp (o.next n s it) L (fun y L' => y.2.1.len = jt'.len ∧
      R h y.1 y.2.1.work jt'.work L' ∧
      Agree (Item y.1) r y.2.2) := by
  obtain ⟨w, len⟩ := it
  obtain ⟨wt, len'⟩ := jt
  cases hl
  have hlen := ok.len hR
  cases wt with
  | nil =>
    cases w with
    | cons e w => simp at hlen
    | nil =>
      simp only [NodeIterOps.next, Option.some.injEq, Prod.mk.injEq] at hn
      obtain ⟨rfl, rfl⟩ := hn
      exact wp_pure ⟨rfl, hR, rfl⟩
  | cons et wt =>
    cases w with
    | nil => simp at hlen
    | cons e w =>
      have key : ∀ {s e w et wt L}, R h s (e :: w) (et :: wt) L →
          v.yieldElem len et wt = some (jt', r) →
          wp ((o.yieldElem len e w).bind fun y => .pure (s, y)) L (fun y L' =>
            y.2.1.len = jt'.len ∧ R h y.1 y.2.1.work jt'.work L' ∧
            Agree (Item y.1) r y.2.2) := by
        intro s e w et wt L hR hy
        rw [NodeIterOps.yieldElem] at hy
        split at hy
        · simp at hy
        · simp at hy
        · rename_i et' x he
          split at hy
          · simp at hy
          · rename_i h0
            simp only [Option.some.injEq, Prod.mk.injEq] at hy
            obtain ⟨rfl, rfl⟩ := hy
            refine wp_bind (wp_conseq (ok.elem hR he h0) ?_)
            rintro y L' ⟨h1, h2, h3⟩
            exact wp_pure ⟨h1, h3, h2⟩
      simp only [NodeIterOps.next] at hn
      simp only [HOps.next]
      rw [ok.needs hR]
      by_cases hb : v.needsLf et
      · rw [if_pos hb] at hn ⊢
        split at hn
        · simp at hn
        · rename_i et' wt' hd
          refine wp_bind (wp_conseq (descend_ok ok (ok.fuel hR (by simp)) hR hd) ?_)
          intro x L' hR'
          exact key hR' hn
      · rw [if_neg hb] at hn ⊢
        exact key hR hn

theorem step_ok (ok : BothOk n o v R Item) {h : List F} {s : S} {it : InnerIter I}
    {jt jt' : InnerIter J} {r : Option F} {L : Multiset (Handle P)} {d : Bool}
    (hl : it.len = jt.len)
    (hR : R h s it.work jt.work L) (hn : v.step d jt = some (jt', r)) :
    wp (o.step n d s it) L (fun y L' => y.2.1.len = jt'.len ∧
      R h y.1 y.2.1.work jt'.work L' ∧
      Agree (Item y.1) r y.2.2) := by
  cases d with
  | true => exact next_ok ok.front hl hR hn
  | false =>
    simp only [NodeIterOps.step, Bool.false_eq_true, if_false, NodeIterOps.nextBack,
      Option.map_eq_some_iff] at hn
    obtain ⟨⟨jt2, r2⟩, hn, h1⟩ := hn
    simp only [Prod.mk.injEq] at h1
    obtain ⟨rfl, rfl⟩ := h1
    simp only [HOps.step, Bool.false_eq_true, if_false]
    refine wp_bind (wp_conseq (next_ok ok.back (it := it.rev) (jt := jt.rev) hl (ok.rev hR) hn) ?_)
    rintro y L' ⟨h1, h2, h3⟩
    exact wp_pure ⟨h1, ok.rev h2, h3⟩

/-- What a run yielded. -/
def gives (ys : List (Option F × Nat)) : List F := ys.filterMap Prod.fst

/-- Using an item, provided `C` holds of the items yielded up to and including it. -/
def YldOk (yld : S → E → Option (S × X)) (see : F → X) (R : Rel P S I J F) (Item : S → E → F → Prop)
    (C : List F → Prop) : Prop :=
  ∀ {h s w wt L i x}, R h s w wt L → Item s i x → C (h ++ [x]) →
    ∃ s', yld s i = some (s', see x) ∧ R (h ++ [x]) s' w wt L

theorem run_ok {yld : S → E → Option (S × X)} {see : F → X} {C : List F → Prop}
    (ok : BothOk n o v R Item) (hy : YldOk yld see R Item C)
    (hC : ∀ a b, C (a ++ b) → C a) :
    ∀ {ds : List Bool} {h : List F} {s : S} {it : InnerIter I} {jt : InnerIter J}
      {ys : List (Option F × Nat)} {L : Multiset (Handle P)}, it.len = jt.len →
    R h s it.work jt.work L → v.run ds jt = some ys → C (h ++ gives ys) →
    wp (o.run yld n ds s it) L (fun y L' =>
      y.2.1 = ys.map (fun p => (p.1.map see, p.2)) ∧
      ∃ wt, R (h ++ gives ys) y.1 y.2.2.work wt L')
  | [], h, s, it, jt, ys, L, _, hR, hr, _ => by
    simp only [NodeIterOps.run, Option.some.injEq] at hr
    subst hr
    exact wp_pure ⟨rfl, _, by simpa [gives] using hR⟩
  | d :: ds, h, s, it, jt, ys, L, hl, hR, hr, hc => by
    rw [NodeIterOps.run] at hr
    split at hr
    · simp at hr
    · rename_i jt' r hst
      rw [Option.map_eq_some_iff] at hr
      obtain ⟨zs, hr, rfl⟩ := hr
      simp only [HOps.run]
      refine wp_bind (wp_conseq (step_ok ok hl hR hst) ?_)
      rintro ⟨s', it', i⟩ L' ⟨h1, h2, h3⟩
      dsimp only at h1 h2 ⊢
      cases r with
      | none =>
        dsimp only [Agree] at h3
        subst h3
        dsimp only
        have e : gives ((none, jt'.len) :: zs) = gives zs := rfl
        refine wp_bind (wp_conseq (run_ok ok hy hC h1 h2 hr (by rwa [e] at hc)) ?_)
        rintro y L2 ⟨h4, wt, h5⟩
        exact wp_pure ⟨by simp [h4, h1], wt, by rwa [e]⟩
      | some x =>
        dsimp only [Agree] at h3
        obtain ⟨i, rfl, hi⟩ := h3
        dsimp only
        have e : gives ((some x, jt'.len) :: zs) = [x] ++ gives zs := rfl
        rw [e, ← List.append_assoc] at hc
        obtain ⟨s2, h6, h7⟩ := hy h2 hi (hC _ _ hc)
        rw [h6]
        dsimp only
        refine wp_bind (wp_conseq (run_ok ok hy hC h1 h7 hr hc) ?_)
        rintro y L2 ⟨h4, wt, h5⟩
        refine wp_pure ⟨by simp [h4, h1], wt, ?_⟩
        rw [e, ← List.append_assoc]
        exact h5

theorem run_nil (o : HOps P S I E C) (yld : S → E → Option (S × X)) (n len : Nat) (s : S) :
    ∀ ds : List Bool, o.run yld n ds s ⟨[], len⟩ =
      .pure (s, ds.map (fun _ => (none, len)), ⟨[], len⟩)
  | [] => rfl
  | d :: ds => by
    have h : o.step n d s ⟨[], len⟩ = .pure (s, ⟨[], len⟩, none) := by cases d <;> rfl
    rw [HOps.run, h]
    show (o.run yld n ds s ⟨[], len⟩).bind _ = _
    rw [run_nil o yld n len s ds]
    rfl

theorem vrun_nil (v : NodeIterOps J F G) (len : Nat) :
    ∀ ds : List Bool, v.run ds ⟨[], len⟩ = some (ds.map (fun _ => (none, len)))
  | [] => rfl
  | d :: ds => by
    have h : v.step d ⟨[], len⟩ = some (⟨[], len⟩, none) := by cases d <;> rfl
    rw [NodeIterOps.run, h]
    show (v.run ds ⟨[], len⟩).map _ = _
    rw [vrun_nil v len ds]
    rfl

end Verif.BTreeH
