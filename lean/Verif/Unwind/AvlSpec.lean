import Verif.Unwind.Avl
/-!
# What `AvlMap` is left with when `Clone` panics: nodes
-/
set_option linter.unusedVariables false
namespace Verif.Avl
open Verif.Wild Verif.Unwind
universe w
variable {σ : Type w} {K V : Type}

namespace STree

@[simp] theorem erase_shareIf (b : Bool) : ∀ t : STree K V, (t.shareIf b).erase = t.erase
  | nil => rfl
  | node .. => rfl

@[simp] theorem erase_ofTree : ∀ t : Tree K V, (ofTree t).erase = t
  | .nil => rfl
  | .node k v lh rh l r => by rw [ofTree, erase, erase_ofTree l, erase_ofTree r]

theorem bal?_erase (t : STree K V) : t.bal? = t.erase.bal? := by cases t <;> rfl

theorem isNil_erase (t : STree K V) : t.isNil = true ↔ t.erase = .nil := by
  cases t <;> simp [isNil, erase]

/-- The link to the root is the only one. -/
def Own : STree K V → Prop
  | nil => False
  | node sh .. => sh = false

/-- After an insertion: the root is not shared, and if the tree has become taller, neither is
the root of its higher subtree. -/
def Fresh (taller : Bool) : STree K V → Prop
  | nil => False
  | node sh _ _ lh rh l r => sh = false ∧
      (taller = true → (rh - lh < 0 → l.Own) ∧ (rh - lh > 0 → r.Own))

theorem Fresh.own {b : Bool} : ∀ {t : STree K V}, t.Fresh b → t.Own
  | nil, h => h
  | node .., h => h.1

/-- `rebal_lf_to_rt` after an insertion into the left subtree copies nothing. -/
theorem rebalLfToRtC_fresh (c : Cl σ K V) {k : K} {v : V} {lh rh : Int} {l r : STree K V}
    (hl : l.Fresh true) (s : σ) {x : Tree K V × Bool}
    (hx : Tree.rebalLfToRt (.node k v lh rh l.erase r.erase) = some x) :
    ∃ t b, rebalLfToRtC c (node false k v lh rh l r) s = some (.done (t, b), s) ∧
      (t.erase, b) = x ∧ t.Own := by
  cases l with
  | nil => exact hl.elim
  | node sb kb vb blh brh bl br =>
    obtain ⟨rfl, hl⟩ := hl
    have hl := hl rfl
    simp only [rebalLfToRtC, bal?]
    simp only [Tree.rebalLfToRt, erase, Tree.bal?] at hx
    by_cases h : brh - blh ≤ 0
    · rw [if_pos h] at hx ⊢
      simp only [Tree.rotRt, Option.some.injEq] at hx
      subst hx
      exact ⟨_, _, rfl, by simp [erase], rfl⟩
    · rw [if_neg h] at hx ⊢
      have hr := hl.2 (by omega)
      cases br with
      | nil => exact hr.elim
      | node sc kc vc clh crh y z =>
        have e : sc = false := hr
        subst e
        simp only [Tree.rotLfRt, erase, Option.some.injEq] at hx
        subst hx
        exact ⟨_, _, rfl, by simp [erase], rfl⟩

theorem rebalRtToLfC_fresh (c : Cl σ K V) {k : K} {v : V} {lh rh : Int} {l r : STree K V}
    (hr : r.Fresh true) (s : σ) {x : Tree K V × Bool}
    (hx : Tree.rebalRtToLf (.node k v lh rh l.erase r.erase) = some x) :
    ∃ t b, rebalRtToLfC c (node false k v lh rh l r) s = some (.done (t, b), s) ∧
      (t.erase, b) = x ∧ t.Own := by
  cases r with
  | nil => exact hr.elim
  | node sb kb vb blh brh bl br =>
    obtain ⟨rfl, hl⟩ := hr
    have hl := hl rfl
    simp only [rebalRtToLfC, bal?]
    simp only [Tree.rebalRtToLf, erase, Tree.bal?] at hx
    by_cases h : brh - blh ≥ 0
    · rw [if_pos h] at hx ⊢
      simp only [Tree.rotLf, Option.some.injEq] at hx
      subst hx
      exact ⟨_, _, rfl, by simp [erase], rfl⟩
    · rw [if_neg h] at hx ⊢
      have hr := hl.1 (by omega)
      cases bl with
      | nil => exact hr.elim
      | node sc kc vc clh crh y z =>
        have e : sc = false := hr
        subst e
        simp only [Tree.rotRtLf, erase, Option.some.injEq] at hx
        subst hx
        exact ⟨_, _, rfl, by simp [erase], rfl⟩

theorem Own.fresh_false {t : STree K V} (h : t.Own) : t.Fresh false := by
  cases t with
  | nil => exact h
  | node => exact ⟨h, fun h => by cases h⟩

theorem afterInsLfC_spec (c : Cl σ K V) {k : K} {v : V} {lh rh : Int} {l r : STree K V}
    {tl : Bool} (hl : l.Fresh tl) (s : σ) {x : Tree K V × Bool}
    (hx : Tree.afterInsLf k v lh rh l.erase r.erase tl = some x) :
    ∃ t b, afterInsLfC c k v lh rh l r tl s = some (.done (t, b), s) ∧
      (t.erase, b) = x ∧ t.Fresh b := by
  simp only [Tree.afterInsLf] at hx
  simp only [afterInsLfC]
  generalize lh + (if tl = true then 1 else 0) = lh' at hx ⊢
  by_cases h : (tl && decide (rh - lh' < -1)) = true
  · rw [if_pos h] at hx
    have e : tl = true := by cases tl <;> simp_all
    subst e
    rw [if_pos h]
    rcases Option.map_eq_some_iff.1 hx with ⟨y, hy, rfl⟩
    obtain ⟨t, b, e, e2, e3⟩ := rebalLfToRtC_fresh c hl s hy
    subst e2
    rw [e]
    exact ⟨_, _, rfl, rfl, e3.fresh_false⟩
  · rw [if_neg h] at hx ⊢
    cases hx
    refine ⟨_, _, rfl, rfl, rfl, fun h2 => ?_⟩
    simp only [Bool.and_eq_true, decide_eq_true_eq] at h2
    exact ⟨fun _ => hl.own, fun h3 => by omega⟩

theorem afterInsRtC_spec (c : Cl σ K V) {k : K} {v : V} {lh rh : Int} {l r : STree K V}
    {tl : Bool} (hr : r.Fresh tl) (s : σ) {x : Tree K V × Bool}
    (hx : Tree.afterInsRt k v lh rh l.erase r.erase tl = some x) :
    ∃ t b, afterInsRtC c k v lh rh l r tl s = some (.done (t, b), s) ∧
      (t.erase, b) = x ∧ t.Fresh b := by
  simp only [Tree.afterInsRt] at hx
  simp only [afterInsRtC]
  generalize rh + (if tl = true then 1 else 0) = rh' at hx ⊢
  by_cases h : (tl && decide (rh' - lh > 1)) = true
  · rw [if_pos h] at hx
    have e : tl = true := by cases tl <;> simp_all
    subst e
    rw [if_pos h]
    rcases Option.map_eq_some_iff.1 hx with ⟨y, hy, rfl⟩
    obtain ⟨t, b, e, e2, e3⟩ := rebalRtToLfC_fresh c hr s hy
    subst e2
    rw [e]
    exact ⟨_, _, rfl, rfl, e3.fresh_false⟩
  · rw [if_neg h] at hx ⊢
    cases hx
    refine ⟨_, _, rfl, rfl, rfl, fun h2 => ?_⟩
    simp only [Bool.and_eq_true, decide_eq_true_eq] at h2
    exact ⟨fun h3 => by omega, fun _ => hr.own⟩

/-- Every copy that an insertion makes, it makes before it changes anything. -/
theorem insC_spec [Ord K] (c : Cl σ K V) (k : K) (v : V) : ∀ (t : STree K V) (up : Bool) (s : σ)
    {x : Tree K V × Option V × Bool}, Tree.ins k v t.erase = some x →
    ∃ r s', insC c k v up t s = some (r, s') ∧
      match r with
      | .unwound t' => t'.erase = t.erase ∧ Bad c
      | .done (t', o, tl) => (t'.erase, o, tl) = x ∧ t'.Fresh tl
  | nil, up, s, x, hx => by
    simp only [erase, Tree.ins, Option.some.injEq] at hx
    subst hx
    exact ⟨_, _, rfl, rfl, rfl, fun _ => ⟨fun h => absurd h (by decide), fun h => absurd h (by decide)⟩⟩
  | node sh nk nv lh rh l r, up, s, x, hx => by
    simp only [insC]
    rcases hcl : cloneIf c (sh || up) [(nk, nv)] s with ⟨_ | _, s1⟩
    · dsimp only
      simp only [erase, Tree.ins] at hx
      generalize compare k nk = o at hx ⊢
      cases o with
      | eq =>
        simp only [Option.some.injEq] at hx
        subst hx
        exact ⟨_, _, rfl, by simp [erase], rfl, fun h => by cases h⟩
      | lt =>
        dsimp only at hx ⊢
        cases hi : Tree.ins k v l.erase with
        | none => rw [hi] at hx; cases hx
        | some y =>
          obtain ⟨l0, old, tl⟩ := y
          rw [hi] at hx
          dsimp only at hx
          obtain ⟨z, hz, rfl⟩ := Option.map_eq_some_iff.1 hx
          obtain ⟨q, s2, e, hq⟩ := insC_spec c k v l (sh || up) s1 hi
          rw [e]
          rcases q with l' | ⟨l', o', tl'⟩
          · exact ⟨_, _, rfl, by simp only [erase, erase_shareIf]; rw [hq.1], hq.2⟩
          · obtain ⟨h1, h2⟩ := hq
            cases h1
            obtain ⟨t, b, e2, e3, e4⟩ := afterInsLfC_spec c (r := r.shareIf (sh || up)) h2 s2
              (by rw [erase_shareIf]; exact hz)
            simp only [e2]
            subst e3
            exact ⟨_, _, rfl, rfl, e4⟩
      | gt =>
        dsimp only at hx ⊢
        cases hi : Tree.ins k v r.erase with
        | none => rw [hi] at hx; cases hx
        | some y =>
          obtain ⟨l0, old, tl⟩ := y
          rw [hi] at hx
          dsimp only at hx
          obtain ⟨z, hz, rfl⟩ := Option.map_eq_some_iff.1 hx
          obtain ⟨q, s2, e, hq⟩ := insC_spec c k v r (sh || up) s1 hi
          rw [e]
          rcases q with l' | ⟨l', o', tl'⟩
          · exact ⟨_, _, rfl, by simp only [erase, erase_shareIf]; rw [hq.1], hq.2⟩
          · obtain ⟨h1, h2⟩ := hq
            cases h1
            obtain ⟨t, b, e2, e3, e4⟩ := afterInsRtC_spec c (l := l.shareIf (sh || up)) h2 s2
              (by rw [erase_shareIf]; exact hz)
            simp only [e2]
            subst e3
            exact ⟨_, _, rfl, rfl, e4⟩
    · exact ⟨_, _, rfl, rfl, bad_of_cloneIf hcl⟩

/-- `get_mut` copies before the caller writes. -/
theorem getMutC_spec (c : Cl σ K V) (p : K → Ordering) (g : V → V) : ∀ (t : STree K V) (up : Bool)
    (s : σ), match (getMutC c p g up t s).1 with
      | .unwound t' => t'.erase = t.erase ∧ Bad c
      | .done (t', b) => (t'.erase, b) = t.erase.getMutWith p g
  | nil, up, s => rfl
  | node sh k v lh rh l r, up, s => by
    simp only [getMutC, erase, Tree.getMutWith]
    rcases hcl : cloneIf c (sh || up) [(k, v)] s with ⟨_ | _, s1⟩
    · dsimp only
      generalize p k = o
      cases o with
      | eq => simp [erase]
      | lt =>
        have ih := getMutC_spec c p g l (sh || up) s1
        dsimp only
        generalize getMutC c p g (sh || up) l s1 = q at ih
        rcases q with ⟨l' | ⟨l', b⟩, s2⟩
        · simp only [erase, erase_shareIf]; rw [ih.1]; exact ⟨rfl, ih.2⟩
        · simp only [erase, erase_shareIf]; rw [← ih]
      | gt =>
        have ih := getMutC_spec c p g r (sh || up) s1
        dsimp only
        generalize getMutC c p g (sh || up) r s1 = q at ih
        rcases q with ⟨l' | ⟨l', b⟩, s2⟩
        · simp only [erase, erase_shareIf]; rw [ih.1]; exact ⟨rfl, ih.2⟩
        · simp only [erase, erase_shareIf]; rw [← ih]
    · exact ⟨rfl, bad_of_cloneIf hcl⟩

/-! ### Removal -/

/-- A rotation whose copy panics leaves nothing. -/
theorem rebalLfToRtC_spec (c : Cl σ K V) {k : K} {v : V} {lh rh : Int} {l r : STree K V} (s : σ)
    {x : Tree K V × Bool}
    (hx : Tree.rebalLfToRt (.node k v lh rh l.erase r.erase) = some x) :
    ∃ q s', rebalLfToRtC c (node false k v lh rh l r) s = some (q, s') ∧
      match q with
      | .unwound t => t = nil ∧ Bad c
      | .done (t, b) => (t.erase, b) = x := by
  cases l with
  | nil => simp [Tree.rebalLfToRt, erase, Tree.bal?] at hx
  | node sb kb vb blh brh bl br =>
    simp only [rebalLfToRtC, bal?]
    simp only [Tree.rebalLfToRt, erase, Tree.bal?] at hx
    by_cases h : brh - blh ≤ 0
    · rw [if_pos h] at hx ⊢
      simp only [Tree.rotRt, Option.some.injEq] at hx
      subst hx
      simp only [rotRtC]
      rcases hcl : cloneIf c sb [(kb, vb)] s with ⟨_ | _, s1⟩
      · exact ⟨_, _, rfl, by simp [erase]⟩
      · exact ⟨_, _, rfl, rfl, bad_of_cloneIf hcl⟩
    · rw [if_neg h] at hx ⊢
      cases br with
      | nil => simp [Tree.rotLfRt, erase] at hx
      | node sc kc vc clh crh y z =>
        simp only [Tree.rotLfRt, erase, Option.some.injEq] at hx
        subst hx
        simp only [rotLfRtC]
        rcases hcl : cloneIf c sb [(kb, vb)] s with ⟨_ | _, s1⟩
        · dsimp only
          rcases hcl2 : cloneIf c (sc || sb) [(kc, vc)] s1 with ⟨_ | _, s2⟩
          · exact ⟨_, _, rfl, by simp [erase]⟩
          · exact ⟨_, _, rfl, rfl, bad_of_cloneIf hcl2⟩
        · exact ⟨_, _, rfl, rfl, bad_of_cloneIf hcl⟩

theorem rebalRtToLfC_spec (c : Cl σ K V) {k : K} {v : V} {lh rh : Int} {l r : STree K V} (s : σ)
    {x : Tree K V × Bool}
    (hx : Tree.rebalRtToLf (.node k v lh rh l.erase r.erase) = some x) :
    ∃ q s', rebalRtToLfC c (node false k v lh rh l r) s = some (q, s') ∧
      match q with
      | .unwound t => t = nil ∧ Bad c
      | .done (t, b) => (t.erase, b) = x := by
  cases r with
  | nil => simp [Tree.rebalRtToLf, erase, Tree.bal?] at hx
  | node sb kb vb blh brh bl br =>
    simp only [rebalRtToLfC, bal?]
    simp only [Tree.rebalRtToLf, erase, Tree.bal?] at hx
    by_cases h : brh - blh ≥ 0
    · rw [if_pos h] at hx ⊢
      simp only [Tree.rotLf, Option.some.injEq] at hx
      subst hx
      simp only [rotLfC]
      rcases hcl : cloneIf c sb [(kb, vb)] s with ⟨_ | _, s1⟩
      · exact ⟨_, _, rfl, by simp [erase]⟩
      · exact ⟨_, _, rfl, rfl, bad_of_cloneIf hcl⟩
    · rw [if_neg h] at hx ⊢
      cases bl with
      | nil => simp [Tree.rotRtLf, erase] at hx
      | node sc kc vc clh crh y z =>
        simp only [Tree.rotRtLf, erase, Option.some.injEq] at hx
        subst hx
        simp only [rotRtLfC]
        rcases hcl : cloneIf c sb [(kb, vb)] s with ⟨_ | _, s1⟩
        · dsimp only
          rcases hcl2 : cloneIf c (sc || sb) [(kc, vc)] s1 with ⟨_ | _, s2⟩
          · exact ⟨_, _, rfl, by simp [erase]⟩
          · exact ⟨_, _, rfl, rfl, bad_of_cloneIf hcl2⟩
        · exact ⟨_, _, rfl, rfl, bad_of_cloneIf hcl⟩

theorem afterRmLfC_spec (c : Cl σ K V) {k : K} {v : V} {lh rh : Int} {l r : STree K V}
    {sh : Bool} (s : σ) {x : Tree K V × Bool}
    (hx : Tree.afterRmLf k v lh rh l.erase r.erase sh = some x) :
    ∃ q s', afterRmLfC c k v lh rh l r sh s = some (q, s') ∧
      match q with
      | .unwound t => t = nil ∧ Bad c
      | .done (t, b) => (t.erase, b) = x := by
  simp only [Tree.afterRmLf] at hx
  simp only [afterRmLfC]
  generalize lh - (if sh = true then 1 else 0) = lh' at hx ⊢
  by_cases h : (sh && decide (rh - lh' > 1)) = true
  · rw [if_pos h] at hx ⊢
    exact rebalRtToLfC_spec c s hx
  · rw [if_neg h] at hx ⊢
    cases hx
    exact ⟨_, _, rfl, rfl⟩

theorem afterRmRtC_spec (c : Cl σ K V) {k : K} {v : V} {lh rh : Int} {l r : STree K V}
    {sh : Bool} (s : σ) {x : Tree K V × Bool}
    (hx : Tree.afterRmRt k v lh rh l.erase r.erase sh = some x) :
    ∃ q s', afterRmRtC c k v lh rh l r sh s = some (q, s') ∧
      match q with
      | .unwound t => t = nil ∧ Bad c
      | .done (t, b) => (t.erase, b) = x := by
  simp only [Tree.afterRmRt] at hx
  simp only [afterRmRtC]
  generalize rh - (if sh = true then 1 else 0) = rh' at hx ⊢
  by_cases h : (sh && decide (rh' - lh < -1)) = true
  · rw [if_pos h] at hx ⊢
    exact rebalLfToRtC_spec c s hx
  · rw [if_neg h] at hx ⊢
    cases hx
    exact ⟨_, _, rfl, rfl⟩

/-- The entries, marks aside. -/
def ents (t : STree K V) : List (K × V) := t.erase.toList

theorem ents_node (sh : Bool) (k : K) (v : V) (lh rh : Int) (l r : STree K V) :
    (node sh k v lh rh l r).ents = l.ents ++ (k, v) :: r.ents := rfl

@[simp] theorem ents_shareIf (b : Bool) (t : STree K V) : (t.shareIf b).ents = t.ents := by
  rw [ents, erase_shareIf]; rfl

theorem rmLeftmost_node {k : K} {v : V} {lh rh : Int} {l r : Tree K V} (h : l ≠ .nil) :
    Tree.rmLeftmost (.node k v lh rh l r) = match Tree.rmLeftmost l with
      | none => none
      | some (l', kv, shorter) =>
        (Tree.afterRmLf k v lh rh l' r shorter).map (fun x => (x.1, kv, x.2)) := by
  cases l with
  | nil => exact absurd rfl h
  | node => rw [Tree.rmLeftmost]; rfl

theorem rmRightmost_node {k : K} {v : V} {lh rh : Int} {l r : Tree K V} (h : r ≠ .nil) :
    Tree.rmRightmost (.node k v lh rh l r) = match Tree.rmRightmost r with
      | none => none
      | some (r', kv, shorter) =>
        (Tree.afterRmRt k v lh rh l r' shorter).map (fun x => (x.1, kv, x.2)) := by
  cases r with
  | nil => exact absurd rfl h
  | node => rw [Tree.rmRightmost]; rfl

/-- How a removal ends: as it does otherwise, or leaving some of the entries. -/
def RmEnd (c : Cl σ K V) (t : STree K V) (x : Tree K V × Option (K × V) × Bool) :
    Ends (STree K V) (STree K V × Option (K × V) × Bool) → Prop
  | .unwound t' => t'.ents.Sublist t.ents ∧ Bad c
  | .done (t', kv, sh) => (t'.erase, kv, sh) = x

theorem rmLeftmostC_spec (c : Cl σ K V) : ∀ (t : STree K V) (up : Bool) (s : σ)
    {x : Tree K V × Option (K × V) × Bool}, Tree.rmLeftmost t.erase = some x →
    ∃ q s', rmLeftmostC c up t s = some (q, s') ∧ RmEnd c t x q
  | nil, up, s, x, hx => by
    simp only [erase, Tree.rmLeftmost, Option.some.injEq] at hx
    subst hx
    exact ⟨_, _, rfl, rfl⟩
  | node sh k v lh rh l r, up, s, x, hx => by
    simp only [rmLeftmostC]
    rcases hcl : cloneIf c (sh || up) [(k, v)] s with ⟨_ | _, s1⟩
    · dsimp only
      by_cases hn : l.isNil = true
      · rw [if_pos hn]
        rw [isNil_erase] at hn
        simp only [erase, hn, Tree.rmLeftmost, Option.some.injEq] at hx
        subst hx
        exact ⟨_, _, rfl, by simp [RmEnd]⟩
      · rw [if_neg hn]
        have hn' : l.erase ≠ .nil := fun h => hn ((isNil_erase l).2 h)
        rw [erase, rmLeftmost_node hn'] at hx
        cases hi : Tree.rmLeftmost l.erase with
        | none => rw [hi] at hx; cases hx
        | some y =>
          obtain ⟨l0, kv, b⟩ := y
          rw [hi] at hx
          dsimp only at hx
          obtain ⟨z, hz, rfl⟩ := Option.map_eq_some_iff.1 hx
          obtain ⟨q, s2, e, hq⟩ := rmLeftmostC_spec c l (sh || up) s1 hi
          rw [e]
          rcases q with l' | ⟨l', kv', b'⟩
          · refine ⟨_, _, rfl, ?_⟩
            simp only [RmEnd, ents_node, ents_shareIf]
            exact ⟨List.Sublist.append hq.1 (List.Sublist.refl _), hq.2⟩
          · cases hq
            obtain ⟨q, s3, e2, hq2⟩ := afterRmLfC_spec c (l := l') (r := r.shareIf (sh || up)) s2
              (by rw [erase_shareIf]; exact hz)
            simp only [e2]
            rcases q with t | ⟨t, b2⟩
            · have e : t = nil := hq2.1
              subst e
              exact ⟨_, _, rfl, List.nil_sublist _, hq2.2⟩
            · cases hq2
              exact ⟨_, _, rfl, rfl⟩
    · exact ⟨_, _, rfl, by simp only [RmEnd, ents_node]; exact ⟨List.Sublist.refl _, bad_of_cloneIf hcl⟩⟩

theorem rmRightmostC_spec (c : Cl σ K V) : ∀ (t : STree K V) (up : Bool) (s : σ)
    {x : Tree K V × Option (K × V) × Bool}, Tree.rmRightmost t.erase = some x →
    ∃ q s', rmRightmostC c up t s = some (q, s') ∧ RmEnd c t x q
  | nil, up, s, x, hx => by
    simp only [erase, Tree.rmRightmost, Option.some.injEq] at hx
    subst hx
    exact ⟨_, _, rfl, rfl⟩
  | node sh k v lh rh l r, up, s, x, hx => by
    simp only [rmRightmostC]
    rcases hcl : cloneIf c (sh || up) [(k, v)] s with ⟨_ | _, s1⟩
    · dsimp only
      by_cases hn : r.isNil = true
      · rw [if_pos hn]
        rw [isNil_erase] at hn
        simp only [erase, hn, Tree.rmRightmost, Option.some.injEq] at hx
        subst hx
        exact ⟨_, _, rfl, by simp [RmEnd]⟩
      · rw [if_neg hn]
        have hn' : r.erase ≠ .nil := fun h => hn ((isNil_erase r).2 h)
        rw [erase, rmRightmost_node hn'] at hx
        cases hi : Tree.rmRightmost r.erase with
        | none => rw [hi] at hx; cases hx
        | some y =>
          obtain ⟨l0, kv, b⟩ := y
          rw [hi] at hx
          dsimp only at hx
          obtain ⟨z, hz, rfl⟩ := Option.map_eq_some_iff.1 hx
          obtain ⟨q, s2, e, hq⟩ := rmRightmostC_spec c r (sh || up) s1 hi
          rw [e]
          rcases q with l' | ⟨l', kv', b'⟩
          · refine ⟨_, _, rfl, ?_⟩
            simp only [RmEnd, ents_node, ents_shareIf]
            exact ⟨List.Sublist.append (List.Sublist.refl _) (List.Sublist.cons_cons _ hq.1), hq.2⟩
          · cases hq
            obtain ⟨q, s3, e2, hq2⟩ := afterRmRtC_spec c (r := l') (l := l.shareIf (sh || up)) s2
              (by rw [erase_shareIf]; exact hz)
            simp only [e2]
            rcases q with t | ⟨t, b2⟩
            · have e : t = nil := hq2.1
              subst e
              exact ⟨_, _, rfl, List.nil_sublist _, hq2.2⟩
            · cases hq2
              exact ⟨_, _, rfl, rfl⟩
    · exact ⟨_, _, rfl, by simp only [RmEnd, ents_node]; exact ⟨List.Sublist.refl _, bad_of_cloneIf hcl⟩⟩

theorem rmHere_node {k : K} {v : V} {lh rh : Int} {l r : Tree K V} (p : K → Ordering)
    (hp : p k = .eq) (hl : l ≠ .nil) (hr : r ≠ .nil) :
    Tree.rm p (.node k v lh rh l r) = match Tree.rmLeftmost r with
      | some (r', some (sk, sv), shorter) =>
        (Tree.afterRmRt sk sv lh rh l r' shorter).map (fun x => (x.1, some (k, v), x.2))
      | _ => none := by
  cases l with
  | nil => exact absurd rfl hl
  | node =>
    cases r with
    | nil => exact absurd rfl hr
    | node => simp only [Tree.rm, hp]; rfl

theorem rm_lt {k : K} {v : V} {lh rh : Int} {l r : Tree K V} {p : K → Ordering}
    (hp : p k = .lt) : Tree.rm p (.node k v lh rh l r) = match Tree.rm p l with
      | none => none
      | some (l', kv, shorter) =>
        (Tree.afterRmLf k v lh rh l' r shorter).map (fun x => (x.1, kv, x.2)) := by
  cases l <;> cases r <;> simp only [Tree.rm, hp] <;> rfl

theorem rm_gt {k : K} {v : V} {lh rh : Int} {l r : Tree K V} {p : K → Ordering}
    (hp : p k = .gt) : Tree.rm p (.node k v lh rh l r) = match Tree.rm p r with
      | none => none
      | some (r', kv, shorter) =>
        (Tree.afterRmRt k v lh rh l r' shorter).map (fun x => (x.1, kv, x.2)) := by
  cases l <;> cases r <;> simp only [Tree.rm, hp] <;> rfl

theorem rmHereC_spec (c : Cl σ K V) (sh b : Bool) {p : K → Ordering} {k : K} (hp : p k = .eq) (v : V)
    (lh rh : Int) (l r : STree K V) (s : σ) {x : Tree K V × Option (K × V) × Bool}
    (hx : Tree.rm p (.node k v lh rh l.erase r.erase) = some x) :
    ∃ q s', rmHereC c b k v lh rh l r s = some (q, s') ∧ RmEnd c (node sh k v lh rh l r) x q := by
  simp only [rmHereC]
  by_cases hl : l.isNil = true
  · rw [if_pos hl]
    rw [isNil_erase] at hl
    refine ⟨_, _, rfl, ?_⟩
    simp only [RmEnd, erase_shareIf]
    rw [hl] at hx
    cases hr : r.erase with
    | nil => rw [hr] at hx; simp only [Tree.rm, hp] at hx; exact Option.some.inj hx
    | node => rw [hr] at hx; simp only [Tree.rm, hp] at hx; exact Option.some.inj hx
  · rw [if_neg hl]
    have hl' : l.erase ≠ .nil := fun h => hl ((isNil_erase l).2 h)
    by_cases hr : r.isNil = true
    · rw [if_pos hr]
      rw [isNil_erase] at hr
      refine ⟨_, _, rfl, ?_⟩
      simp only [RmEnd, erase_shareIf]
      rw [hr] at hx
      cases hl : l.erase with
      | nil => exact absurd hl hl'
      | node => rw [hl] at hx; simp only [Tree.rm, hp] at hx; exact Option.some.inj hx
    · rw [if_neg hr]
      have hr' : r.erase ≠ .nil := fun h => hr ((isNil_erase r).2 h)
      rw [rmHere_node p hp hl' hr'] at hx
      cases hi : Tree.rmLeftmost r.erase with
      | none => rw [hi] at hx; cases hx
      | some y =>
        obtain ⟨r0, kv, b0⟩ := y
        rw [hi] at hx
        cases kv with
        | none => cases hx
        | some e =>
          obtain ⟨sk, sv⟩ := e
          dsimp only at hx
          obtain ⟨z, hz, rfl⟩ := Option.map_eq_some_iff.1 hx
          obtain ⟨q, s2, e, hq⟩ := rmLeftmostC_spec c r b s hi
          rw [e]
          rcases q with r' | ⟨r', kv', b'⟩
          · refine ⟨_, _, rfl, ?_⟩
            simp only [RmEnd, ents_node, ents_shareIf]
            exact ⟨List.Sublist.append (List.Sublist.refl _) (List.Sublist.cons_cons _ hq.1), hq.2⟩
          · cases hq
            obtain ⟨q, s3, e2, hq2⟩ := afterRmRtC_spec c (r := r') (l := l.shareIf b) s2
              (by rw [erase_shareIf]; exact hz)
            simp only [e2]
            rcases q with t | ⟨t, b2⟩
            · have e : t = nil := hq2.1
              subst e
              exact ⟨_, _, rfl, List.nil_sublist _, hq2.2⟩
            · cases hq2
              exact ⟨_, _, rfl, rfl⟩

theorem rmC_spec (c : Cl σ K V) (p : K → Ordering) : ∀ (t : STree K V) (up : Bool) (s : σ)
    {x : Tree K V × Option (K × V) × Bool}, Tree.rm p t.erase = some x →
    ∃ q s', rmC c p up t s = some (q, s') ∧ RmEnd c t x q
  | nil, up, s, x, hx => by
    simp only [erase, Tree.rm, Option.some.injEq] at hx
    subst hx
    exact ⟨_, _, rfl, rfl⟩
  | node sh k v lh rh l r, up, s, x, hx => by
    simp only [rmC]
    rcases hcl : cloneIf c (sh || up) [(k, v)] s with ⟨_ | _, s1⟩
    · dsimp only
      cases hp : p k with
      | eq => exact rmHereC_spec c sh (sh || up) hp v lh rh l r s1 hx
      | lt =>
        rw [erase, rm_lt hp] at hx
        simp only [hp]
        cases hi : Tree.rm p l.erase with
        | none => rw [hi] at hx; cases hx
        | some y =>
          obtain ⟨l0, kv, b⟩ := y
          rw [hi] at hx
          dsimp only at hx
          obtain ⟨z, hz, rfl⟩ := Option.map_eq_some_iff.1 hx
          obtain ⟨q, s2, e, hq⟩ := rmC_spec c p l (sh || up) s1 hi
          rw [e]
          rcases q with l' | ⟨l', kv', b'⟩
          · refine ⟨_, _, rfl, ?_⟩
            simp only [RmEnd, ents_node, ents_shareIf]
            exact ⟨List.Sublist.append hq.1 (List.Sublist.refl _), hq.2⟩
          · cases hq
            obtain ⟨q, s3, e2, hq2⟩ := afterRmLfC_spec c (l := l') (r := r.shareIf (sh || up)) s2
              (by rw [erase_shareIf]; exact hz)
            simp only [e2]
            rcases q with t | ⟨t, b2⟩
            · have e : t = nil := hq2.1
              subst e
              exact ⟨_, _, rfl, List.nil_sublist _, hq2.2⟩
            · cases hq2
              exact ⟨_, _, rfl, rfl⟩
      | gt =>
        rw [erase, rm_gt hp] at hx
        simp only [hp]
        cases hi : Tree.rm p r.erase with
        | none => rw [hi] at hx; cases hx
        | some y =>
          obtain ⟨l0, kv, b⟩ := y
          rw [hi] at hx
          dsimp only at hx
          obtain ⟨z, hz, rfl⟩ := Option.map_eq_some_iff.1 hx
          obtain ⟨q, s2, e, hq⟩ := rmC_spec c p r (sh || up) s1 hi
          rw [e]
          rcases q with l' | ⟨l', kv', b'⟩
          · refine ⟨_, _, rfl, ?_⟩
            simp only [RmEnd, ents_node, ents_shareIf]
            exact ⟨List.Sublist.append (List.Sublist.refl _) (List.Sublist.cons_cons _ hq.1), hq.2⟩
          · cases hq
            obtain ⟨q, s3, e2, hq2⟩ := afterRmRtC_spec c (r := l') (l := l.shareIf (sh || up)) s2
              (by rw [erase_shareIf]; exact hz)
            simp only [e2]
            rcases q with t | ⟨t, b2⟩
            · have e : t = nil := hq2.1
              subst e
              exact ⟨_, _, rfl, List.nil_sublist _, hq2.2⟩
            · cases hq2
              exact ⟨_, _, rfl, rfl⟩
    · exact ⟨_, _, rfl, by simp only [RmEnd, ents_node]; exact ⟨List.Sublist.refl _, bad_of_cloneIf hcl⟩⟩

end STree
end Verif.Avl
