import Verif.Unwind.Into
import Verif.Unwind.AvlSpec
/-!
# `into_iter` when `Clone` panics: proofs
-/
set_option linter.unusedVariables false
set_option linter.unusedSectionVars false
namespace Verif.Unwind
open Verif.Wild
universe w
variable {σ : Type w} {K V : Type}

/-- `l` without the segment `a` at its front (`d`) or back is `l'`. -/
def Off {α : Type} (d : Bool) (a l' l : List α) : Prop :=
  if d then l = a ++ l' else l = l' ++ a

/-- A deque consumed from both ends by calls that may panic.  `l` are the items in it and `n` is by
how much `len` exceeds their number.  A call yields the item at its end; or `Clone` panics and a
segment `a` with `loss a` is lost from that end, `len` being as it was; or, if `crash`, the call
crashes, which it does only if something was lost before; the last call of the schedule is then that
one. -/
inductive Follows {α : Type} (loss : List α → Prop) (crash : Prop) :
    List α → Nat → List Bool → List (Ev α) → Prop
  | nil {l n} : Follows loss crash l n [] []
  | none {n d ds es} : Follows loss crash [] n ds es →
      Follows loss crash [] n (d :: ds) (.got none n :: es)
  | some {l l' x n d ds es} : Off d [x] l' l → Follows loss crash l' n ds es →
      Follows loss crash l n (d :: ds) (.got (some x) (l'.length + n) :: es)
  | lost {l l' a n d ds es} : Off d a l' l → loss a →
      Follows loss crash l' (n + a.length) ds es →
      Follows loss crash l n (d :: ds) (.unwound (l.length + n) :: es)
  | crash {l n d ds} : crash → 0 < n → Follows loss crash l n (d :: ds) [.crashed]

/-! ### `AvlMap` -/

/-- `Clone` of the entry may panic. -/
def MayPanic (c : Cl σ K V) (e : K × V) : Prop := ∃ s, (c [e] s).1 = true

theorem mayPanic_of_cloneIf {c : Cl σ K V} {sh : Bool} {e : K × V} {s s' : σ}
    (h : cloneIf c sh [e] s = (true, s')) : MayPanic c e := by
  cases sh with
  | false => cases h
  | true => exact ⟨s, by rw [cloneIf, if_pos rfl] at h; rw [h]⟩

namespace AvlInto
open Verif.Avl

/-- Items below an action. -/
def items : CAct K V → List (K × V)
  | .desc _ t => t.erase.toList
  | .ret e => [e]

/-- Items of a worklist, from the end worked on. -/
def ditems (front : Bool) (w : List (CAct K V)) : List (K × V) :=
  w.flatMap (fun a => if front then items a else (items a).reverse)

@[simp] theorem ditems_nil (f : Bool) : ditems f ([] : List (CAct K V)) = [] := rfl
@[simp] theorem ditems_cons (f : Bool) (a : CAct K V) (w) :
    ditems f (a :: w) = (if f then items a else (items a).reverse) ++ ditems f w := by
  simp [ditems]

theorem ditems_pushC (f arc : Bool) (t : STree K V) (w) : ditems f (pushC arc t w) =
    (if f then t.erase.toList else t.erase.toList.reverse) ++ ditems f w := by
  cases t with
  | nil => cases f <;> simp [pushC, STree.erase, Tree.toList]
  | node => simp [pushC, items]

theorem ditems_false (w : List (CAct K V)) :
    ditems false w.reverse = (ditems true w).reverse := by
  induction w with
  | nil => rfl
  | cons a w ih =>
    have : ditems false (w.reverse ++ [a]) = ditems false w.reverse ++ ditems false [a] := by
      simp [ditems]
    rw [List.reverse_cons, this, ih]; simp

theorem nextC_spec (c : Cl σ K V) (f : Bool) (w : List (CAct K V)) (s : σ) :
    match nextC c f w s with
    | (.unwound w', _) => ∃ a, (∃ e ∈ a, MayPanic c e) ∧ ditems f w = a ++ ditems f w'
    | (.done (none, w'), _) => ditems f w = [] ∧ w' = []
    | (.done (some x, w'), _) => ditems f w = x :: ditems f w' := by
  induction w, s using nextC.induct c f with
  | case1 s => simp [nextC]
  | case2 x w s => cases f <;> simp [nextC, items]
  | case3 b w s ih =>
    rw [nextC]
    have : ditems f (.desc b .nil :: w : List (CAct K V)) = ditems f w := by
      cases f <;> simp [items, STree.erase, Tree.toList]
    rw [this]; exact ih
  | case4 arc sh k v lh rh l r w s s' e =>
    rw [nextC, e]
    refine ⟨_, ⟨(k, v), ?_, mayPanic_of_cloneIf e⟩, ditems_cons _ _ _⟩
    cases f <;> simp [items, STree.erase, Tree.toList]
  | case5 arc sh k v lh rh l r w s s' e ih =>
    rw [nextC, e]
    have : ditems f (.desc arc (.node sh k v lh rh l r) :: w) =
        ditems f (if f then pushC arc l (.ret (k, v) :: pushC arc r w)
          else pushC arc r (.ret (k, v) :: pushC arc l w)) := by
      cases f <;> simp [ditems_pushC, items, STree.erase, Tree.toList]
    simp only [this]
    simpa only [dite_eq_ite] using ih

theorem step_spec (c : Cl σ K V) (d : Bool) (it : It K V) (s : σ) (n : Nat)
    (hl : it.len = (ditems true it.work).length + n) :
    match step c d it s with
    | none => False
    | some (.unwound it', _) => it'.len = it.len ∧
        ∃ a, (∃ e ∈ a, MayPanic c e) ∧ Off d a (ditems true it'.work) (ditems true it.work)
    | some (.done (none, it'), _) => it'.len = it.len ∧ ditems true it.work = [] ∧ it'.work = []
    | some (.done (some x, it'), _) => it'.len + 1 = it.len ∧
        Off d [x] (ditems true it'.work) (ditems true it.work) := by
  have hr : ∀ w : List (CAct K V), ditems true w = (ditems false w.reverse).reverse := by
    intro w; rw [ditems_false, List.reverse_reverse]
  cases d with
  | true =>
    have h := nextC_spec c true it.work s
    simp only [step, if_true]
    revert h
    rcases nextC c true it.work s with ⟨w' | ⟨_ | x, w'⟩, s'⟩ <;> simp only <;> intro h
    · obtain ⟨a, h0, h1⟩ := h
      exact ⟨trivial, a, h0, by simpa [Off] using h1⟩
    · exact ⟨trivial, h⟩
    · have : it.len ≠ 0 := by rw [hl, h]; simp
      simp only [this, if_false]
      exact ⟨by omega, by simpa [Off] using h⟩
  | false =>
    have h := nextC_spec c false it.work.reverse s
    simp only [step, Bool.false_eq_true, if_false]
    revert h
    rcases nextC c false it.work.reverse s with ⟨w' | ⟨_ | x, w'⟩, s'⟩ <;> simp only <;> intro h
    · obtain ⟨a, h0, h1⟩ := h
      refine ⟨trivial, a.reverse, by simpa using h0, ?_⟩
      simp only [Off, Bool.false_eq_true, if_false]
      rw [hr it.work, h1, hr w'.reverse]; simp
    · refine ⟨trivial, ?_, by simp [h.2]⟩
      rw [hr it.work, h.1]; rfl
    · have : it.len ≠ 0 := by rw [hl, hr it.work, h]; simp
      simp only [this, if_false]
      refine ⟨by omega, ?_⟩
      simp only [Off, Bool.false_eq_true, if_false]
      rw [hr it.work, h, hr w'.reverse]; simp

end AvlInto

theorem Off_length {α : Type} {d : Bool} {a l' l : List α} (h : Off d a l' l) :
    l.length = a.length + l'.length := by
  cases d
  · simp only [Off, Bool.false_eq_true, if_false] at h; rw [h]; simp; omega
  · simp only [Off, if_true] at h; rw [h]; simp

namespace AvlInto
open Verif.Avl

theorem evs_follows (c : Cl σ K V) (ds : List Bool) (it : It K V) (s : σ) (n : Nat)
    (hl : it.len = (ditems true it.work).length + n) :
    Follows (fun a => ∃ e ∈ a, MayPanic c e) False (ditems true it.work) n ds (evs It.len (step c) ds it s) := by
  induction ds generalizing it s n with
  | nil => exact .nil
  | cons d ds ih =>
    have h := step_spec c d it s n hl
    rw [evs]
    revert h
    rcases step c d it s with _ | ⟨it' | ⟨_ | x, it'⟩, s'⟩ <;> simp only <;> intro h
    · exact h.elim
    · obtain ⟨h1, a, h2, h3⟩ := h
      have h4 := Off_length h3
      rw [h1, hl]
      exact .lost h3 h2 (ih it' s' _ (by omega))
    · obtain ⟨h1, h2, h3⟩ := h
      have : it'.len = n := by rw [h1, hl, h2]; simp
      rw [h2, this]
      have h5 := ih it' s' n (by rw [this, h3]; simp)
      rw [h3] at h5
      exact .none h5
    · obtain ⟨h1, h3⟩ := h
      have h4 := Off_length h3
      simp only [List.length_singleton] at h4
      have : it'.len = (ditems true it'.work).length + n := by omega
      rw [this]
      exact .some h3 (ih it' s' n this)

theorem run_follows (c : Cl σ K V) (m : SMap K V) (hm : m.len = m.erase.root.toList.length)
    (ds : List Bool) (s : σ) :
    Follows (fun a => ∃ e ∈ a, MayPanic c e) False m.erase.root.toList 0 ds (run c m ds s) := by
  have e : ditems true (start m).work = m.erase.root.toList := by
    simp [start, ditems_pushC, SMap.erase]
  rw [← e]
  exact evs_follows c ds (start m) s 0 (by rw [e]; exact hm)

end AvlInto

/-! ### `BTreeMap` -/

namespace BTreeInto
open Verif.BTree
variable {C : Type}

theorem descend_append (o : NodeIterOps (IntoErg K V) (K × V) C) (suf : List (IntoErg K V)) :
    ∀ (f : Nat) (erg : IntoErg K V) (rest : List (IntoErg K V)),
    o.descend f erg (rest ++ suf) = (o.descend f erg rest).map (fun r => (r.1, r.2 ++ suf))
  | 0, _, _ => rfl
  | f + 1, erg, rest => by
    rw [NodeIterOps.descend, NodeIterOps.descend]
    rcases o.nextKid erg with _ | ⟨erg', _ | kid⟩
    · rfl
    · rfl
    · have : o.keep erg' (rest ++ suf) = o.keep erg' rest ++ suf := by
        unfold NodeIterOps.keep; split <;> rfl
      simp only [this]
      exact descend_append o suf f _ _

/-- At most one node iterator, which is exhausted. -/
def Stub (o : NodeIterOps (IntoErg K V) (K × V) C) (F : List (IntoErg K V)) : Prop :=
  F = [] ∨ ∃ x, F = [x] ∧ o.isEmpty x = true

theorem yield_spec (o : NodeIterOps (IntoErg K V) (K × V) C) (c : Cl σ K V) {len k : Nat}
    {erg : IntoErg K V} {rest suf : List (IntoErg K V)} {core' : InnerIter (IntoErg K V)}
    {r : Option (K × V)} (s : σ) (e : o.yieldElem len erg rest = some (core', r)) :
    (∃ x, r = some x) ∧ match yieldC o c (len + k) erg (rest ++ suf) s with
    | none => False
    | some (.unwound it', _) => (∃ x, r = some x ∧ MayPanic c x) ∧ ∃ F', Stub o F' ∧
        it' = ⟨F' ++ core'.work ++ suf, core'.len + (k + 1)⟩
    | some (.done (r', it'), _) => r' = r ∧ it' = ⟨core'.work ++ suf, core'.len + k⟩ := by
  rw [NodeIterOps.yieldElem] at e
  rw [yieldC]
  rcases h : o.nextElem erg with _ | ⟨erg', _ | x⟩ <;> rw [h] at e <;> simp only [reduceCtorEq] at e
  by_cases h0 : len = 0
  · rw [if_pos h0] at e; cases e
  · rw [if_neg h0] at e
    obtain ⟨rfl, rfl⟩ := Prod.mk.inj (Option.some.inj e)
    refine ⟨⟨x, rfl⟩, ?_⟩
    have h1 : ¬ len + k = 0 := by omega
    simp only
    rcases hcl : cloneIf c (cloned erg) [x] s with ⟨_ | _, s'⟩
    · simp only [h1, if_false]
      refine ⟨trivial, ?_⟩
      unfold NodeIterOps.keep
      split <;> (simp only [InnerIter.mk.injEq, List.cons_append, true_and]; omega)
    · simp only
      refine ⟨⟨x, rfl, mayPanic_of_cloneIf hcl⟩, ?_⟩
      by_cases hx : o.isEmpty erg' = true
      · exact ⟨[erg'], .inr ⟨_, rfl, hx⟩, by
          simp only [NodeIterOps.keep, hx, if_true, List.cons_append, List.nil_append]
          congr 1; omega⟩
      · exact ⟨[], .inl rfl, by
          simp only [NodeIterOps.keep, hx, if_false, List.cons_append, List.nil_append]
          congr 1; omega⟩

theorem nextC_spec (o : NodeIterOps (IntoErg K V) (K × V) C) (c : Cl σ K V)
    (dead : ∀ x rest len s, o.isEmpty x = true → nextC o c ⟨x :: rest, len⟩ s = none)
    {F B : List (IntoErg K V)} {core core' : InnerIter (IntoErg K V)} {k : Nat}
    {r : Option (K × V)} (s : σ) (hF : Stub o F) (hB : Stub o B)
    (hk : F ≠ [] ∨ B ≠ [] → 0 < k) (e : o.next core = some (core', r)) :
    match nextC o c ⟨F ++ core.work ++ B, core.len + k⟩ s with
    | none => 0 < k
    | some (.unwound it', _) => (∃ x, r = some x ∧ MayPanic c x) ∧ ∃ F', Stub o F' ∧
        it' = ⟨F' ++ core'.work ++ B, core'.len + (k + 1)⟩
    | some (.done (r', it'), _) => r' = r ∧ it' = ⟨F ++ core'.work ++ B, core'.len + k⟩ := by
  rcases hF with rfl | ⟨x, rfl, hx⟩
  · rw [List.nil_append]
    obtain ⟨work, len⟩ := core
    cases work with
    | nil =>
      simp only [NodeIterOps.next, Option.some.injEq, Prod.mk.injEq] at e
      obtain ⟨rfl, rfl⟩ := e
      rcases hB with rfl | ⟨x, rfl, hx⟩
      · simp [nextC]
      · have := dead x [] (len + k) s hx
        simp only [List.nil_append] at this ⊢
        rw [this]; exact hk (.inr (by simp))
    | cons erg rest =>
      have key : ∀ erg' rest', o.yieldElem len erg' rest' = some (core', r) →
          match yieldC o c (len + k) erg' (rest' ++ B) s with
          | none => 0 < k
          | some (.unwound it', _) => (∃ x, r = some x ∧ MayPanic c x) ∧ ∃ F', Stub o F' ∧
              it' = ⟨F' ++ core'.work ++ B, core'.len + (k + 1)⟩
          | some (.done (r', it'), _) => r' = r ∧
              it' = ⟨[] ++ core'.work ++ B, core'.len + k⟩ := by
        intro erg' rest' e'
        have h := yield_spec o c (k := k) (suf := B) s e'
        revert h
        rcases yieldC o c (len + k) erg' (rest' ++ B) s with _ | ⟨it' | ⟨r', it'⟩, s'⟩ <;>
          simp only <;> intro h
        · exact h.2.elim
        · exact h.2
        · exact h.2
      simp only [NodeIterOps.next] at e
      rw [nextC]
      simp only [List.cons_append]
      by_cases hl : o.needsLf erg = true
      · rw [if_pos hl] at e
        simp only [hl, if_true]
        rw [descend_append]
        rcases hd : o.descend (o.fuel erg) erg rest with _ | ⟨erg', rest'⟩
        · rw [hd] at e; cases e
        · rw [hd] at e
          exact key _ _ e
      · rw [if_neg hl] at e
        simp only [hl, if_false]
        exact key _ _ e
  · have := dead x (core.work ++ B) (core.len + k) s hx
    simp only [List.cons_append, List.nil_append] at this ⊢
    rw [this]; exact hk (.inl (by simp))

theorem dead_front (c : Cl σ K V) (x : IntoErg K V) (rest len) (s : σ)
    (hx : intoOps.isEmpty x = true) : nextC intoOps c ⟨x :: rest, len⟩ s = none := by
  rcases x with ⟨n, lbE, ubE, lbK, ubK, lf, rt⟩ | ⟨es, ks, lf, rt⟩
  · simp only [intoOps, Bool.and_eq_true, decide_eq_true_eq] at hx
    have h1 : ¬ lbE < ubE := by omega
    have h2 : ¬ lbK < ubK := by omega
    cases lf <;> simp [nextC, intoOps, yieldC, NodeIterOps.descend, h1, h2]
  · simp only [intoOps, Bool.and_eq_true, List.isEmpty_iff] at hx
    obtain ⟨rfl, rfl⟩ := hx
    cases lf <;> simp [nextC, intoOps, yieldC, NodeIterOps.descend]

theorem dead_back (c : Cl σ K V) (x : IntoErg K V) (rest len) (s : σ)
    (hx : intoOps.isEmpty x = true) : nextC intoOps.mirror c ⟨x :: rest, len⟩ s = none := by
  rcases x with ⟨n, lbE, ubE, lbK, ubK, lf, rt⟩ | ⟨es, ks, lf, rt⟩
  · simp only [intoOps, Bool.and_eq_true, decide_eq_true_eq] at hx
    have h1 : ¬ lbE < ubE := by omega
    have h2 : ¬ lbK < ubK := by omega
    cases rt <;> simp [nextC, intoOps, NodeIterOps.mirror, yieldC, NodeIterOps.descend, h1, h2]
  · simp only [intoOps, Bool.and_eq_true, List.isEmpty_iff] at hx
    obtain ⟨rfl, rfl⟩ := hx
    cases rt <;> simp [nextC, intoOps, NodeIterOps.mirror, yieldC, NodeIterOps.descend]

theorem Stub.reverse {o : NodeIterOps (IntoErg K V) (K × V) C} {F : List (IntoErg K V)}
    (h : Stub o F) : F.reverse = F := by
  rcases h with rfl | ⟨x, rfl, -⟩ <;> rfl

theorem step_spec (c : Cl σ K V) {F B : List (IntoErg K V)}
    {core core' : InnerIter (IntoErg K V)} {k : Nat} {r : Option (K × V)} (d : Bool) (s : σ)
    (hF : Stub intoOps F) (hB : Stub intoOps B) (hk : F ≠ [] ∨ B ≠ [] → 0 < k)
    (e : intoOps.step d core = some (core', r)) :
    match step c d ⟨F ++ core.work ++ B, core.len + k⟩ s with
    | none => 0 < k
    | some (.unwound it', _) => (∃ x, r = some x ∧ MayPanic c x) ∧ ∃ F' B', Stub intoOps F' ∧ Stub intoOps B' ∧
        it' = ⟨F' ++ core'.work ++ B', core'.len + (k + 1)⟩
    | some (.done (r', it'), _) => r' = r ∧ it' = ⟨F ++ core'.work ++ B, core'.len + k⟩ := by
  cases d with
  | true =>
    simp only [NodeIterOps.step, if_true] at e
    have h := nextC_spec intoOps c (dead_front c) s hF hB hk e
    simp only [step, if_true]
    revert h
    rcases nextC intoOps c ⟨F ++ core.work ++ B, core.len + k⟩ s with _ | ⟨it' | ⟨r', it'⟩, s'⟩ <;>
      simp only <;> intro h
    · exact h
    · obtain ⟨h0, F', h1, h2⟩ := h
      exact ⟨h0, F', B, h1, hB, h2⟩
    · exact h
  | false =>
    simp only [NodeIterOps.step, Bool.false_eq_true, if_false, NodeIterOps.nextBack] at e
    rcases e' : intoOps.mirror.next core.rev with _ | ⟨core1, r1⟩ <;> rw [e'] at e
    · cases e
    obtain ⟨rfl, rfl⟩ := Prod.mk.inj (Option.some.inj e)
    have h := nextC_spec intoOps.mirror c (dead_back c) (F := B) (B := F) (k := k) s hB hF
      (fun h => hk h.symm) e'
    have e2 : (⟨F ++ core.work ++ B, core.len + k⟩ : InnerIter (IntoErg K V)).rev =
        ⟨B ++ core.rev.work ++ F, core.rev.len + k⟩ := by
      simp [InnerIter.rev, hF.reverse, hB.reverse]
    simp only [step, Bool.false_eq_true, if_false]
    rw [e2]
    revert h
    rcases nextC intoOps.mirror c ⟨B ++ core.rev.work ++ F, core.rev.len + k⟩ s with
      _ | ⟨it' | ⟨r', it'⟩, s'⟩ <;> simp only [Option.map_none, Option.map_some, flip] <;> intro h
    · exact h
    · obtain ⟨h0, B', h1, rfl⟩ := h
      refine ⟨h0, F, B', hF, h1, ?_⟩
      simp [InnerIter.rev, hF.reverse, Stub.reverse (o := intoOps) h1]
    · obtain ⟨rfl, rfl⟩ := h
      refine ⟨rfl, ?_⟩
      simp [InnerIter.rev, hF.reverse, hB.reverse]

/-- What is left of an iterator that yields `l`. -/
def Yields (core : InnerIter (IntoErg K V)) (l : List (K × V)) : Prop :=
  core.len = l.length ∧ ∀ ds, intoOps.run ds core = some (Spec.dequeRun ds l)

theorem Yields.step {core : InnerIter (IntoErg K V)} {l : List (K × V)} (h : Yields core l)
    (d : Bool) : ∃ core', intoOps.step d core = some (core', (Spec.dequeStep d l).1) ∧
      Yields core' (Spec.dequeStep d l).2 := by
  have h1 := h.2 [d]
  simp only [NodeIterOps.run, Spec.dequeRun] at h1
  rcases e : intoOps.step d core with _ | ⟨core', r⟩
  · rw [e] at h1; cases h1
  · rw [e] at h1
    simp only [Option.map_some, Option.some.injEq, List.cons.injEq, Prod.mk.injEq, and_true] at h1
    refine ⟨core', by rw [h1.1], h1.2, fun ds => ?_⟩
    have h2 := h.2 (d :: ds)
    simp only [NodeIterOps.run, Spec.dequeRun, e] at h2
    rcases e3 : intoOps.run ds core' with _ | ys
    · rw [e3] at h2; cases h2
    · rw [e3] at h2
      simp only [Option.map_some, Option.some.injEq, List.cons.injEq] at h2
      rw [h2.2]

theorem dequeStep_off {α : Type} (d : Bool) (l : List α) :
    match Spec.dequeStep d l with
    | (none, l') => l = [] ∧ l' = []
    | (some x, l') => Off d [x] l' l := by
  cases d with
  | true => cases l <;> simp [Spec.dequeStep, Off]
  | false =>
    rcases List.eq_nil_or_concat l with rfl | ⟨l', x, rfl⟩
    · simp [Spec.dequeStep]
    · simp [Spec.dequeStep, Off]

theorem evs_follows (c : Cl σ K V) (ds : List Bool) {F B : List (IntoErg K V)}
    {core : InnerIter (IntoErg K V)} {k : Nat} {l : List (K × V)} (s : σ)
    (hF : Stub intoOps F) (hB : Stub intoOps B) (hk : F ≠ [] ∨ B ≠ [] → 0 < k)
    (h : Yields core l) :
    Follows (fun a => ∃ x, a = [x] ∧ MayPanic c x) True l k ds
      (evs InnerIter.len (step c) ds ⟨F ++ core.work ++ B, core.len + k⟩ s) := by
  induction ds generalizing F B core k l s with
  | nil => exact .nil
  | cons d ds ih =>
    obtain ⟨core', e, h'⟩ := h.step d
    have hs := step_spec c d s hF hB hk e
    have ho := dequeStep_off d l
    rw [evs]
    revert hs e h' ho
    rcases Spec.dequeStep d l with ⟨r, l'⟩
    intro e h' hs ho
    simp only at e h' hs
    revert hs
    rcases step c d ⟨F ++ core.work ++ B, core.len + k⟩ s with _ | ⟨it' | ⟨r', it'⟩, s'⟩ <;>
      simp only <;> intro hs
    · exact .crash trivial hs
    · obtain ⟨h0, F', B', h1, h2, rfl⟩ := hs
      obtain ⟨x, rfl, hx⟩ := h0
      · simp only at ho
        have hl := Off_length ho
        simp only [List.length_singleton] at hl
        have e1 : core'.len + (k + 1) = l.length + k := by have := h'.1; omega
        have hih := ih (k := k + 1) s' h1 h2 (fun _ => Nat.succ_pos k) h'
        have := Follows.lost (loss := fun a => ∃ x, a = [x] ∧ MayPanic c x) (n := k) (a := [x]) ho ⟨x, rfl, hx⟩ hih
        simp only [e1] at this ⊢
        exact this
    · obtain ⟨rfl, rfl⟩ := hs
      have hih := ih s' hF hB hk h'
      cases r' with
      | none =>
        obtain ⟨rfl, rfl⟩ := ho
        have e1 : core'.len + k = k := by have := h'.1; simp at this; omega
        have := Follows.none (d := d) hih
        simp only [e1] at this ⊢
        exact this
      | some x =>
        have e1 : core'.len + k = l'.length + k := by rw [h'.1]
        have := Follows.some ho hih
        simp only [e1] at this ⊢
        exact this

end BTreeInto

/-! ### `fixed::BTreeMap` -/

namespace FixedInto
open Verif.Fixed
open Verif.BTree (ANode Sharing)

/-- Without a panic `NodeIntoIter::next` is as always; with one nothing has changed. -/
theorem nextC_eq (c : Cl σ K V) (w : II K V) (s : σ) :
    match nextC c w s with
    | none => iiOps.next w = none
    | some (.unwound w', _) => w' = w
    | some (.done r, _) => iiOps.next w = some r := by
  simp only [nextC, iiOps]
  by_cases h1 : w.kx < w.ek ∧ w.kx ≤ w.ex
  · simp only [h1, and_self, if_true]
    rcases takeSlot w.own w.ks w.kx with _ | ⟨n, ks⟩ <;> rfl
  · simp only [h1, if_false]
    by_cases h2 : w.ex < w.ee
    · simp only [h2, if_true]
      rcases takeSlot w.own w.es w.ex with _ | ⟨e, es⟩
      · rfl
      · simp only
        rcases cloneIf c (!w.own) [e] s with ⟨_ | _, s'⟩ <;> rfl
    · simp only [h2, if_false]

/-- What a call does to the entries left, from the end worked on. -/
def CallOk (ws : List (II K V)) (len : Nat) :
    Option (Ends (List (II K V) × Nat) (Option (Bool × (K × V)) × List (II K V) × Nat) × σ) → Prop
  | none => False
  | some (.unwound r, _) => (∀ w ∈ r.1, w.Good) ∧ r.2 = len ∧ r.1.flatMap II.rem = ws.flatMap II.rem
  | some (.done r, _) => r.1 = (ws.flatMap II.rem).head? ∧ (∀ w ∈ r.2.1, w.Good) ∧
      r.2.2 = (ws.flatMap II.rem).tail.length ∧ r.2.1.flatMap II.rem = (ws.flatMap II.rem).tail

theorem loopC_ok (c : Cl σ K V) : ∀ {f : Nat} {ws : List (II K V)} {len : Nat} (s : σ),
    (∀ w ∈ ws, w.Good) → len = (ws.flatMap II.rem).length → (ws.map iiOps.cost).sum < f →
    CallOk ws len (loopC c f ws len s)
  | 0, _, _, _, _, _, hf => by omega
  | f + 1, [], len, s, hg, hl, hf => by simp [loopC, CallOk, hl]
  | f + 1, w :: ws, len, s, hg, hl, hf => by
    have hw := (ii_lawful (K := K) (V := V)).next w (hg w (by simp))
    have hc := nextC_eq c w s
    have hws : ∀ x ∈ ws, x.Good := fun x hx => hg x (by simp [hx])
    simp only [List.map_cons, List.sum_cons] at hf
    rw [loopC]
    revert hc
    rcases nextC c w s with _ | ⟨w' | ⟨w', _ | ⟨n⟩ | e⟩, s'⟩ <;> simp only <;> intro hc
    · rw [hc] at hw; exact hw
    · subst hc
      exact ⟨hg, rfl, rfl⟩
    · rw [hc] at hw
      obtain ⟨h1, h2⟩ := hw
      have hr : (w :: ws).flatMap II.rem = ws.flatMap II.rem := by simp [h1]
      have := loopC_ok c (f := f) (len := len) s' hws (by rw [← hr]; exact hl) (by omega)
      unfold CallOk at this ⊢
      rw [hr]; exact this
    · rw [hc] at hw
      obtain ⟨h1, h2⟩ := hw
      have h0 : len ≠ 0 := by rw [hl]; simp [h2]
      simp only [h0, if_false]
      refine ⟨by simp [h2], ?_, by simp [hl, h2], by simp [h2]⟩
      simp only [List.mem_cons]; rintro x (rfl | hx)
      · exact h1
      · exact hws x hx
    · rw [hc] at hw
      obtain ⟨h1, i, h2, h3, h4, h5⟩ := hw
      have hr : (w :: ws).flatMap II.rem = (i :: w' :: ws).flatMap II.rem := by simp [h4]
      simp only [h2]
      have := loopC_ok c (f := f) (ws := i :: w' :: ws) (len := len) s'
        (by
          simp only [List.mem_cons]; rintro x (rfl | rfl | hx)
          · exact h3
          · exact h1
          · exact hws x hx) (by rw [← hr]; exact hl)
        (by simp only [List.map_cons, List.sum_cons]; omega)
      unfold CallOk at this ⊢
      rw [hr]; exact this

/-- The entries of an iterator, from the end worked on. -/
def left (d : Bool) (it : Inner (II K V)) : List (Bool × (K × V)) :=
  (if d then it.work else it.work.reverse).flatMap II.rem

theorem left_perm (d : Bool) (it : Inner (II K V)) : (left d it).Perm (left true it) := by
  cases d
  · exact flatMap_reverse_perm _ _
  · exact .refl _

theorem step_ok (c : Cl σ K V) (d : Bool) {it : Inner (II K V)} (s : σ)
    (hi : it.Good iiOps II.Good II.rem) :
    match step c d it s with
    | none => False
    | some (.unwound it', _) => it'.Good iiOps II.Good II.rem ∧ left d it' = left d it
    | some (.done (r, it'), _) => it'.Good iiOps II.Good II.rem ∧ r = (left d it).head? ∧
        left d it' = (left d it).tail := by
  have hr : ∀ w : List (II K V), (if d then w else w.reverse).Perm w := by
    intro w; cases d
    · exact List.reverse_perm w
    · exact .refl _
  have hrr : ∀ w : List (II K V), (if d then (if d then w else w.reverse)
      else (if d then w else w.reverse).reverse) = w := by
    intro w; cases d <;> simp
  have h := loopC_ok c (f := (it.work.map iiOps.cost).sum + 1)
    (ws := if d then it.work else it.work.reverse) (len := it.len) s
    (fun w hw => hi.all w ((hr _).mem_iff.1 hw))
    (by rw [hi.len]; exact ((hr it.work).flatMap_right II.rem).length_eq.symm)
    (by rw [((hr it.work).map iiOps.cost).sum_nat]; omega)
  have hgood : ∀ (w : List (II K V)) (len : Nat), (∀ x ∈ w, x.Good) →
      len = (w.flatMap II.rem).length →
      (Inner.mk (if d then w else w.reverse) len).Good iiOps II.Good II.rem := fun w len h1 h2 =>
    ⟨fun x hx => h1 x ((hr _).mem_iff.1 hx), by
      rw [h2]; exact ((hr w).flatMap_right II.rem).length_eq.symm⟩
  unfold step
  revert h
  simp only
  rcases loopC c ((it.work.map iiOps.cost).sum + 1) (if d then it.work else it.work.reverse) it.len s
    with _ | ⟨⟨w, len⟩ | ⟨r, w, len⟩, s'⟩ <;> simp only [CallOk] <;> intro h
  · exact h
  · obtain ⟨h1, h2, h3⟩ := h
    refine ⟨hgood w len h1 ?_, ?_⟩
    · rw [h2, h3, hi.len]; exact ((hr it.work).flatMap_right II.rem).length_eq.symm
    · simp only [left, hrr]; exact h3
  · obtain ⟨h0, h1, h2, h3⟩ := h
    refine ⟨hgood w len h1 ?_, h0, ?_⟩
    · rw [h2, h3]
    · simp only [left, hrr]; exact h3

/-- The results of the calls that returned. -/
def returned {α : Type} (es : List (Ev α)) : List (Option α × Nat) :=
  es.filterMap (fun | .got r n => some (r, n) | _ => none)

theorem run_ok (c : Cl σ K V) (ds : List Bool) {it : Inner (II K V)} (s : σ)
    (hi : it.Good iiOps II.Good II.rem) :
    let es := evs Inner.len (step c) ds it s
    .crashed ∉ es ∧ es.length = ds.length ∧ Spec.Bag (left true it) (returned es) ∧
      ∃ it', after c ds it s = some it' ∧ it'.Good iiOps II.Good II.rem ∧
        ((returned es).filterMap (·.1) ++ left true it').Perm (left true it) := by
  induction ds generalizing it s with
  | nil => exact ⟨by simp [evs], rfl, .nil, it, rfl, hi, by simp [evs, returned]⟩
  | cons d ds ih =>
    have h := step_ok c d s hi
    have hp := left_perm d it
    simp only [evs, after]
    revert h
    rcases step c d it s with _ | ⟨it' | ⟨r, it'⟩, s'⟩ <;> simp only <;> intro h
    · exact h.elim
    · obtain ⟨h1, h2⟩ := h
      obtain ⟨a, b, e, it2, h3, h4, h5⟩ := ih s' h1
      have hq : (left true it').Perm (left true it) :=
        (left_perm d it').symm.trans (h2 ▸ hp)
      have er : ∀ n es, returned (.unwound n :: es : List (Ev (Bool × (K × V)))) = returned es :=
        fun _ _ => rfl
      refine ⟨by simpa using a, by simpa using b, ?_, it2, h3, h4, ?_⟩
      · rw [er]; exact e.perm hq.symm
      · rw [er]; exact h5.trans hq
    · obtain ⟨h1, h2, h3⟩ := h
      obtain ⟨a, b, e, it2, h4, h5, h6⟩ := ih s' h1
      have hq : (left true it').Perm (left d it).tail := h3 ▸ (left_perm d it').symm
      have hl : it'.len = (left true it').length := h1.len
      have er : ∀ r n es, returned (.got r n :: es : List (Ev (Bool × (K × V)))) =
        (r, n) :: returned es := fun _ _ _ => rfl
      refine ⟨by simpa using a, by simpa using b, ?_, it2, h4, h5, ?_⟩
      · rw [er]
        refine Spec.Bag.perm ?_ hp.symm
        subst h2
        rcases hd : left d it with _ | ⟨x, l⟩
        · rw [hd] at hq
          have h0 := hq.eq_nil
          rw [hl, h0]
          rw [h0] at e
          exact .none e
        · rw [hd] at hq
          rw [hl]
          exact .some (.cons x hq.symm) e
      · rw [er]
        refine List.Perm.trans ?_ hp
        subst h2
        rcases hd : left d it with _ | ⟨x, l⟩
        · rw [hd] at hq
          have h0 := hq.eq_nil
          rw [h0] at h6
          simpa using h6
        · rw [hd] at hq
          simpa using (List.Perm.cons x h6).trans (List.Perm.cons x hq)

theorem run_front (c : Cl σ K V) (n : Nat) {it : Inner (II K V)} (s : σ)
    (hi : it.Good iiOps II.Good II.rem) :
    Follows (· = []) False (left true it) 0 (List.replicate n true)
      (evs Inner.len (step c) (List.replicate n true) it s) := by
  induction n generalizing it s with
  | zero => exact .nil
  | succ n ih =>
    have h := step_ok c true s hi
    rw [List.replicate_succ, evs]
    revert h
    rcases step c true it s with _ | ⟨it' | ⟨r, it'⟩, s'⟩ <;> simp only <;> intro h
    · exact h.elim
    · obtain ⟨h1, h2⟩ := h
      have h3 := ih s' h1
      have hl : it'.len = (left true it).length + 0 := by rw [← h2]; exact h1.len
      rw [h2] at h3
      have := Follows.lost (loss := (· = [])) (crash := False) (l := left true it) (a := [])
        (d := true) (n := 0) (by simp [Off]) rfl h3
      simp only [hl] at this ⊢
      exact this
    · obtain ⟨h1, h2, h3⟩ := h
      have h4 := ih s' h1
      have hl : it'.len = (left true it').length + 0 := h1.len
      subst h2
      rcases hd : left true it with _ | ⟨x, l⟩
      · rw [hd] at h3
        have h3 : left true it' = [] := h3
        rw [h3] at h4 hl
        have := Follows.none (d := true) h4
        simp only [hl] at this ⊢
        exact this
      · rw [hd] at h3
        have h3 : left true it' = l := h3
        rw [h3] at h4 hl
        have := Follows.some (x := x) (d := true) (l := x :: l) (by simp [Off]) h4
        simp only [hl] at this ⊢
        exact this

end FixedInto
end Verif.Unwind
