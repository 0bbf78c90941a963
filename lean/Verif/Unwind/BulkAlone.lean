import Verif.Unwind.BulkSpec
/-!
# `append` and `split_off` of `AvlMap`s that share nothing never call `Clone`
-/
set_option linter.unusedVariables false
set_option linter.unusedSectionVars false
namespace Verif.Unwind
open Verif.Wild
universe w
variable {σ : Type w} {K V : Type}

/-- `x` does what the plain computation does, and calls no `Clone`. -/
def Alone {U A A' : Type} (g : A' → A) (p : Option A') (s : σ) (x : Option (Ends U A × σ)) : Prop :=
  x = p.map (fun a => (.done (g a), s))

theorem Alone.bind {U A A' B B' : Type} {g : A' → A} {g2 : B' → B} {p : Option A'} {s : σ}
    {x : Option (Ends U A × σ)} {h : A' → Option B'} {f : A → σ → Option (Ends U B × σ)}
    (hx : Alone g p s x) (hf : ∀ a, Alone g2 (h a) s (f (g a) s)) :
    Alone g2 (p.bind h) s (andThen x f) := by
  rw [Alone] at hx
  subst hx
  cases p with
  | none => rfl
  | some a => exact hf a

theorem Alone.done {U A A' : Type} {g : A' → A} {a : A} {a' : A'} {s : σ} (h : a = g a') :
    Alone (U := U) g (some a') s (some (.done a, s)) := by rw [h]; rfl

theorem Alone.none {U A A' : Type} {g : A' → A} {s : σ} : Alone (U := U) g none s none := rfl

theorem Alone.ite {U A A' : Type} {g : A' → A} {s : σ} {P : Prop} [Decidable P]
    {p1 p2 : Option A'} {x1 x2 : Option (Ends U A × σ)} (h1 : P → Alone g p1 s x1)
    (h2 : ¬ P → Alone g p2 s x2) :
    Alone g (if P then p1 else p2) s (if P then x1 else x2) := by
  by_cases h : P
  · rw [if_pos h, if_pos h]; exact h1 h
  · rw [if_neg h, if_neg h]; exact h2 h

theorem Alone.copy {A A' : Type} {c : Cl σ K V} {e : K × V} {s : σ} {g : A' → A}
    {p : Option A'} {f : Unit → σ → Option (Ends Unit A × σ)} (h : Alone g p s (f () s)) :
    Alone g p s (andThen (copyIf c false e s) f) := h

end Verif.Unwind

namespace Verif.Avl
open Verif.Wild Verif.Unwind Std
universe w
variable {σ : Type w} {K V : Type}

namespace STree

def of1 {R : Type} (x : Tree K V × R) : STree K V × R := (ofTree x.1, x.2)

theorem lost_clean {R : Type} {x : Option (Ends (STree K V) (STree K V × R) × σ)}
    {p : Option (Tree K V × R)} {s : σ} (h : x = p.map (clean s)) : Alone of1 p s (lost x) := by
  subst h
  cases p <;> rfl

theorem ofTree_mk (k : K) (v : V) (l r : Tree K V) :
    mk k v (ofTree l) (ofTree r) = ofTree (Tree.mk k v l r) := by
  simp [mk, Tree.mk, ofTree, height]

theorem joinRtC_alone (c : Cl σ K V) (k : K) (v : V) (right : Tree K V) (s : σ) :
    ∀ t : Tree K V,
      Alone ofTree (Tree.joinRt t k v right) s (joinRtC c k v (ofTree right) false (ofTree t) s)
  | .nil => rfl
  | .node lk lv lh rh l x => by
    rw [ofTree, joinRt_node, joinRtC]
    simp only [Bool.or_false, shareIf_false, ofTree_mk]
    simp only [height, erase, erase_ofTree]
    refine Alone.ite (fun _ => Alone.copy (Alone.ite (fun _ => Alone.ite (fun _ => ?_) fun _ => ?_)
      fun _ => ?_)) fun _ => Alone.none
    · exact Alone.done rfl
    · refine (lost_clean (rotRtC_alone c _ s)).bind fun y => ?_
      exact (lost_clean (rotLfC_alone c (.node lk lv lh _ l y.1) s)).bind fun z => Alone.done rfl
    · refine (joinRtC_alone c k v right s x).bind fun t1 => ?_
      simp only [erase_ofTree]
      refine Alone.ite (fun _ => Alone.done rfl) fun _ => ?_
      exact (lost_clean (rotLfC_alone c (.node lk lv lh _ l t1) s)).bind fun z => Alone.done rfl

theorem joinLfC_alone (c : Cl σ K V) (k : K) (v : V) (left : Tree K V) (s : σ) :
    ∀ t : Tree K V,
      Alone ofTree (Tree.joinLf left k v t) s (joinLfC c k v (ofTree left) false (ofTree t) s)
  | .nil => by rw [Tree.joinLf]; rfl
  | .node rk rv lh rh x r => by
    rw [ofTree, joinLf_node, joinLfC]
    simp only [Bool.or_false, shareIf_false, ofTree_mk]
    simp only [height, erase, erase_ofTree]
    refine Alone.ite (fun _ => Alone.copy (Alone.ite (fun _ => Alone.ite (fun _ => ?_) fun _ => ?_)
      fun _ => ?_)) fun _ => Alone.none
    · exact Alone.done rfl
    · refine (lost_clean (rotLfC_alone c _ s)).bind fun y => ?_
      refine (lost_clean (rotRtC_alone c (.node rk rv _ rh y.1 r) s)).bind fun z => ?_
      show Alone _ _ _ (match (ofTree z.1).bal? with
        | none => none
        | some b => if Tree.isBal b then some (.done (ofTree z.1), s) else none)
      rw [bal?_ofTree]
      cases z.1.bal? with
      | none => exact Alone.none
      | some b => exact Alone.ite (fun _ => Alone.done rfl) fun _ => Alone.none
    · refine (joinLfC_alone c k v left s x).bind fun t1 => ?_
      simp only [erase_ofTree]
      refine Alone.ite (fun _ => Alone.done rfl) fun _ => ?_
      exact (lost_clean (rotRtC_alone c (.node rk rv _ rh t1 r) s)).bind fun z => Alone.done rfl

theorem joinC_alone (c : Cl σ K V) (l : Tree K V) (k : K) (v : V) (r : Tree K V) (s : σ) :
    Alone ofTree (Tree.join l k v r) s (joinC c (ofTree l) k v (ofTree r) s) := by
  simp only [Tree.join, joinC, height, erase_ofTree]
  exact Alone.ite (fun _ => joinRtC_alone c k v r s l) fun _ =>
    Alone.ite (fun _ => joinLfC_alone c k v l s r) fun _ => Alone.done (ofTree_mk k v l r)

theorem join2_node (l r : Tree K V) (hl : l ≠ .nil) (hr : r ≠ .nil) : Tree.join2 l none r =
    (Tree.rmLeftmost r).bind fun x => x.2.1.bind fun y => Tree.join l y.1 y.2 x.1 := by
  cases l with
  | nil => exact absurd rfl hl
  | node =>
    cases r with
    | nil => exact absurd rfl hr
    | node =>
      simp only [Tree.join2]
      rcases Tree.rmLeftmost _ with _ | ⟨r', _ | ⟨k, v⟩, b⟩ <;> rfl

theorem join2C_alone (c : Cl σ K V) (l : Tree K V) (kv : Option (K × V)) (r : Tree K V) (s : σ) :
    Alone ofTree (Tree.join2 l kv r) s (join2C c (ofTree l) kv (ofTree r) s) := by
  rcases kv with _ | ⟨k, v⟩
  · by_cases hl : l = .nil
    · subst hl; simp only [Tree.join2, join2C, ofTree, isNil, if_true]; exact Alone.done rfl
    · by_cases hr : r = .nil
      · subst hr
        cases l with
        | nil => exact absurd rfl hl
        | node => simp only [Tree.join2, join2C, ofTree, isNil, if_true]; exact Alone.done rfl
      · rw [join2_node l r hl hr]
        have e1 : (ofTree l).isNil = false := by cases l with | nil => exact absurd rfl hl | node => rfl
        have e2 : (ofTree r).isNil = false := by cases r with | nil => exact absurd rfl hr | node => rfl
        simp only [join2C, e1, e2, Bool.false_eq_true, if_false]
        refine (lost_clean (rmLeftmostC_alone c s r)).bind fun x => ?_
        obtain ⟨x, _ | ⟨k, v⟩, b⟩ := x
        · exact Alone.none
        · exact joinC_alone c l k v x s
  · exact joinC_alone c l k v r s

def of3 (x : Tree K V × Option (K × V) × Tree K V) : STree K V × Option (K × V) × STree K V :=
  (ofTree x.1, x.2.1, ofTree x.2.2)

theorem splitC_alone (c : Cl σ K V) (p : K → Ordering) (s : σ) : ∀ t : Tree K V,
    Alone of3 (Tree.split p t) s (splitC c p false (ofTree t) s)
  | .nil => rfl
  | .node k v lh rh l r => by
    rw [ofTree, split_node, splitC]
    simp only [Bool.or_false, shareIf_false]
    refine Alone.copy ?_
    cases p k with
    | eq => exact Alone.done rfl
    | lt =>
      refine (splitC_alone c p s l).bind fun x => ?_
      exact (joinC_alone c x.2.2 k v r s).bind fun t => Alone.done rfl
    | gt =>
      refine (splitC_alone c p s r).bind fun x => ?_
      exact (joinC_alone c l k v x.1 s).bind fun t => Alone.done rfl

theorem mergeC_alone [Ord K] (c : Cl σ K V) (keepL keepR : Bool)
    (dec : K × V → K × V → Option (K × V)) (s : σ) : ∀ t1 t2 : Tree K V,
    Alone ofTree (Tree.merge keepL keepR dec t1 t2) s
      (mergeC c keepL keepR dec false (ofTree t1) (ofTree t2) s)
  | .nil, t2 => by
    simp only [ofTree, Tree.merge, mergeC]
    cases keepR <;> exact Alone.done rfl
  | .node k v lh rh l r, t2 => by
    rw [ofTree, mergeC]
    cases t2 with
    | nil =>
      simp only [isNil, ofTree, if_true, Tree.merge, shareIf_false]
      cases keepL <;> exact Alone.done rfl
    | node k2 v2 lh2 rh2 l2 r2 =>
      rw [merge_node _ _ _ _ _ _ _ _ _ (by simp)]
      simp only [isNil, ofTree, Bool.false_eq_true, if_false, Bool.or_false]
      refine Alone.copy ?_
      refine (splitC_alone c (compare k) s (.node k2 v2 lh2 rh2 l2 r2)).bind fun x => ?_
      refine (mergeC_alone c keepL keepR dec s l x.1).bind fun l' => ?_
      refine (mergeC_alone c keepL keepR dec s r x.2.2).bind fun r' => ?_
      exact join2C_alone c l' _ r' s

end STree

namespace SMap

/-- Two maps that share nothing. -/
def of2 (x : AvlMap K V × AvlMap K V) : SMap K V × SMap K V := (ofMap x.1, ofMap x.2)

theorem appendC_alone [Ord K] (c : Cl σ K V) (a b : AvlMap K V) (s : σ) :
    Alone of2 (a.append b) s (appendC c (ofMap a) (ofMap b) s) := by
  have h := STree.mergeC_alone c true true (fun _ r => some r) s a.root b.root
  simp only [appendC, STree.unionC, ofMap, AvlMap.append, Tree.union]
  rw [Alone] at h
  rw [h]
  cases Tree.merge true true _ a.root b.root with
  | none => rfl
  | some t => exact Alone.done (by simp [of2, ofMap, STree.ofTree])

theorem splitOffC_alone [Ord K] (c : Cl σ K V) (m : AvlMap K V) (p : K → Ordering) (s : σ) :
    Alone of2 (m.splitOff p) s (splitOffC c (ofMap m) p s) := by
  have h := STree.splitC_alone c p s m.root
  simp only [splitOffC, ofMap, AvlMap.splitOff]
  rw [Alone] at h
  rw [h]
  rcases Tree.split p m.root with _ | ⟨lhs, kv, rhs⟩
  · rfl
  · simp only [Option.map_some, STree.of3, STree.erase_ofTree]
    refine Alone.ite (fun _ => Alone.none) fun _ => ?_
    rcases kv with _ | ⟨k, v⟩
    · exact Alone.done rfl
    · simp only [STree.insC_alone]
      rcases Tree.ins k v rhs with _ | ⟨t, o, b⟩ <;> rfl

end SMap
end Verif.Avl
