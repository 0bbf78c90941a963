import Verif.Unwind.AvlMap
/-!
# An `AvlMap` that shares nothing never calls `Clone`
-/
set_option linter.unusedVariables false
namespace Verif.Avl
open Verif.Wild Verif.Unwind
universe w
variable {σ : Type w} {K V : Type}

namespace STree

@[simp] theorem shareIf_false : ∀ t : STree K V, t.shareIf false = t
  | nil => rfl
  | node .. => by simp [shareIf]

@[simp] theorem bal?_ofTree (t : Tree K V) : (ofTree t).bal? = t.bal? := by cases t <;> rfl

/-- The end of an operation that has copied nothing. -/
def clean {R : Type} (s : σ) (x : Tree K V × R) : Ends (STree K V) (STree K V × R) × σ :=
  (.done (ofTree x.1, x.2), s)

theorem rotLfC_alone (c : Cl σ K V) (t : Tree K V) (s : σ) :
    rotLfC c (ofTree t) s = (Tree.rotLf t).map (clean s) := by
  rcases t with _ | ⟨ka, va, alh, arh, x, _ | ⟨kb, vb, blh, brh, y, z⟩⟩ <;>
    simp [rotLfC, ofTree, Tree.rotLf, cloneIf, clean]

theorem rotRtC_alone (c : Cl σ K V) (t : Tree K V) (s : σ) :
    rotRtC c (ofTree t) s = (Tree.rotRt t).map (clean s) := by
  rcases t with _ | ⟨ka, va, alh, arh, _ | ⟨kb, vb, blh, brh, y, z⟩, x⟩ <;>
    simp [rotRtC, ofTree, Tree.rotRt, cloneIf, clean]

theorem rotRtLfC_alone (c : Cl σ K V) (t : Tree K V) (s : σ) :
    rotRtLfC c (ofTree t) s = (Tree.rotRtLf t).map (clean s) := by
  rcases t with _ | ⟨ka, va, alh, arh, x, _ | ⟨kb, vb, blh, brh, _ | ⟨kc, vc, clh, crh, y, z⟩, w⟩⟩ <;>
    simp [rotRtLfC, ofTree, Tree.rotRtLf, cloneIf, clean]

theorem rotLfRtC_alone (c : Cl σ K V) (t : Tree K V) (s : σ) :
    rotLfRtC c (ofTree t) s = (Tree.rotLfRt t).map (clean s) := by
  rcases t with _ | ⟨ka, va, alh, arh, _ | ⟨kb, vb, blh, brh, w, _ | ⟨kc, vc, clh, crh, y, z⟩⟩, x⟩ <;>
    simp [rotLfRtC, ofTree, Tree.rotLfRt, cloneIf, clean]

theorem rebalLfToRtC_alone (c : Cl σ K V) (t : Tree K V) (s : σ) :
    rebalLfToRtC c (ofTree t) s = (Tree.rebalLfToRt t).map (clean s) := by
  cases t with
  | nil => rfl
  | node k v lh rh l r =>
    have h1 := rotRtC_alone c (.node k v lh rh l r) s
    have h2 := rotLfRtC_alone c (.node k v lh rh l r) s
    simp only [ofTree] at h1 h2
    simp only [rebalLfToRtC, Tree.rebalLfToRt, ofTree, bal?_ofTree]
    cases l.bal? with
    | none => rfl
    | some b =>
      dsimp only
      split
      · exact h1
      · exact h2

theorem rebalRtToLfC_alone (c : Cl σ K V) (t : Tree K V) (s : σ) :
    rebalRtToLfC c (ofTree t) s = (Tree.rebalRtToLf t).map (clean s) := by
  cases t with
  | nil => rfl
  | node k v lh rh l r =>
    have h1 := rotLfC_alone c (.node k v lh rh l r) s
    have h2 := rotRtLfC_alone c (.node k v lh rh l r) s
    simp only [ofTree] at h1 h2
    simp only [rebalRtToLfC, Tree.rebalRtToLf, ofTree, bal?_ofTree]
    cases r.bal? with
    | none => rfl
    | some b =>
      dsimp only
      split
      · exact h1
      · exact h2

theorem afterInsLfC_alone (c : Cl σ K V) (k : K) (v : V) (lh rh : Int) (l r : Tree K V) (b : Bool)
    (s : σ) : afterInsLfC c k v lh rh (ofTree l) (ofTree r) b s =
      (Tree.afterInsLf k v lh rh l r b).map (clean s) := by
  simp only [afterInsLfC, Tree.afterInsLf]
  generalize lh + (if b = true then 1 else 0) = lh'
  have h := rebalLfToRtC_alone c (.node k v lh' rh l r) s
  simp only [ofTree] at h
  split
  · rw [h]
    cases Tree.rebalLfToRt (.node k v lh' rh l r) <;> rfl
  · rfl

theorem afterInsRtC_alone (c : Cl σ K V) (k : K) (v : V) (lh rh : Int) (l r : Tree K V) (b : Bool)
    (s : σ) : afterInsRtC c k v lh rh (ofTree l) (ofTree r) b s =
      (Tree.afterInsRt k v lh rh l r b).map (clean s) := by
  simp only [afterInsRtC, Tree.afterInsRt]
  generalize rh + (if b = true then 1 else 0) = rh'
  have h := rebalRtToLfC_alone c (.node k v lh rh' l r) s
  simp only [ofTree] at h
  split
  · rw [h]
    cases Tree.rebalRtToLf (.node k v lh rh' l r) <;> rfl
  · rfl

theorem insC_alone [Ord K] (c : Cl σ K V) (k : K) (v : V) (s : σ) : ∀ t : Tree K V,
    insC c k v false (ofTree t) s = (Tree.ins k v t).map (clean s)
  | .nil => rfl
  | .node nk nv lh rh l r => by
    simp only [ofTree, insC, cloneIf, Bool.or_false, Bool.false_eq_true, if_false, shareIf_false,
      Tree.ins]
    generalize compare k nk = o
    cases o with
    | eq => rfl
    | lt =>
      dsimp only
      rw [insC_alone c k v s l]
      rcases Tree.ins k v l with _ | ⟨l', o, b⟩
      · rfl
      · simp only [Option.map_some, clean, afterInsLfC_alone]
        cases Tree.afterInsLf nk nv lh rh l' r b <;> rfl
    | gt =>
      dsimp only
      rw [insC_alone c k v s r]
      rcases Tree.ins k v r with _ | ⟨r', o, b⟩
      · rfl
      · simp only [Option.map_some, clean, afterInsRtC_alone]
        cases Tree.afterInsRt nk nv lh rh l r' b <;> rfl

theorem getMutC_alone (c : Cl σ K V) (p : K → Ordering) (g : V → V) (s : σ) : ∀ t : Tree K V,
    getMutC c p g false (ofTree t) s = clean s (t.getMutWith p g)
  | .nil => rfl
  | .node k v lh rh l r => by
    simp only [ofTree, getMutC, cloneIf, Bool.or_false, Bool.false_eq_true, if_false, shareIf_false,
      Tree.getMutWith]
    generalize p k = o
    cases o with
    | eq => rfl
    | lt => dsimp only; rw [getMutC_alone c p g s l]; rfl
    | gt => dsimp only; rw [getMutC_alone c p g s r]; rfl

theorem afterRmLfC_alone (c : Cl σ K V) (k : K) (v : V) (lh rh : Int) (l r : Tree K V) (b : Bool)
    (s : σ) : afterRmLfC c k v lh rh (ofTree l) (ofTree r) b s =
      (Tree.afterRmLf k v lh rh l r b).map (clean s) := by
  simp only [afterRmLfC, Tree.afterRmLf]
  generalize lh - (if b = true then 1 else 0) = lh'
  have h := rebalRtToLfC_alone c (.node k v lh' rh l r) s
  simp only [ofTree] at h
  split
  · exact h
  · rfl

theorem afterRmRtC_alone (c : Cl σ K V) (k : K) (v : V) (lh rh : Int) (l r : Tree K V) (b : Bool)
    (s : σ) : afterRmRtC c k v lh rh (ofTree l) (ofTree r) b s =
      (Tree.afterRmRt k v lh rh l r b).map (clean s) := by
  simp only [afterRmRtC, Tree.afterRmRt]
  generalize rh - (if b = true then 1 else 0) = rh'
  have h := rebalLfToRtC_alone c (.node k v lh rh' l r) s
  simp only [ofTree] at h
  split
  · exact h
  · rfl

theorem rmLeftmostC_alone (c : Cl σ K V) (s : σ) : ∀ t : Tree K V,
    rmLeftmostC c false (ofTree t) s = (Tree.rmLeftmost t).map (clean s)
  | .nil => rfl
  | .node k v lh rh .nil r => by
    simp [ofTree, rmLeftmostC, cloneIf, isNil, Tree.rmLeftmost, clean]
  | .node k v lh rh (.node k1 v1 lh1 rh1 l1 r1) r => by
    have ih := rmLeftmostC_alone c s (.node k1 v1 lh1 rh1 l1 r1)
    rw [rmLeftmost_node (by simp)]
    generalize ht : Tree.node k1 v1 lh1 rh1 l1 r1 = t at *
    have hn : (ofTree t).isNil = false := by rw [← ht]; rfl
    rw [ofTree, rmLeftmostC]
    simp only [cloneIf, Bool.or_false, Bool.false_eq_true, if_false, shareIf_false, hn, ih]
    rcases Tree.rmLeftmost t with _ | ⟨l', o, b⟩
    · rfl
    · simp only [Option.map_some, clean, afterRmLfC_alone]
      cases Tree.afterRmLf k v lh rh l' r b <;> rfl

theorem rmRightmostC_alone (c : Cl σ K V) (s : σ) : ∀ t : Tree K V,
    rmRightmostC c false (ofTree t) s = (Tree.rmRightmost t).map (clean s)
  | .nil => rfl
  | .node k v lh rh l .nil => by
    simp [ofTree, rmRightmostC, cloneIf, isNil, Tree.rmRightmost, clean]
  | .node k v lh rh l (.node k1 v1 lh1 rh1 l1 r1) => by
    have ih := rmRightmostC_alone c s (.node k1 v1 lh1 rh1 l1 r1)
    rw [rmRightmost_node (by simp)]
    generalize ht : Tree.node k1 v1 lh1 rh1 l1 r1 = t at *
    have hn : (ofTree t).isNil = false := by rw [← ht]; rfl
    rw [ofTree, rmRightmostC]
    simp only [cloneIf, Bool.or_false, Bool.false_eq_true, if_false, shareIf_false, hn, ih]
    rcases Tree.rmRightmost t with _ | ⟨l', o, b⟩
    · rfl
    · simp only [Option.map_some, clean, afterRmRtC_alone]
      cases Tree.afterRmRt k v lh rh l l' b <;> rfl

theorem rmC_alone (c : Cl σ K V) (p : K → Ordering) (s : σ) : ∀ t : Tree K V,
    rmC c p false (ofTree t) s = (Tree.rm p t).map (clean s)
  | .nil => rfl
  | .node k v lh rh l r => by
    have ihl := rmC_alone c p s l
    have ihr := rmC_alone c p s r
    simp only [ofTree, rmC, cloneIf, Bool.or_false, Bool.false_eq_true, if_false, shareIf_false]
    cases hp : p k with
    | lt =>
      dsimp only
      rw [rm_lt hp, ihl]
      rcases Tree.rm p l with _ | ⟨l', o, b⟩
      · rfl
      · simp only [Option.map_some, clean, afterRmLfC_alone]
        cases Tree.afterRmLf k v lh rh l' r b <;> rfl
    | gt =>
      dsimp only
      rw [rm_gt hp, ihr]
      rcases Tree.rm p r with _ | ⟨l', o, b⟩
      · rfl
      · simp only [Option.map_some, clean, afterRmRtC_alone]
        cases Tree.afterRmRt k v lh rh l l' b <;> rfl
    | eq =>
      dsimp only
      simp only [rmHereC]
      cases l with
      | nil => cases r <;> simp [ofTree, isNil, Tree.rm, hp, clean]
      | node k1 v1 lh1 rh1 l1 r1 =>
        cases r with
        | nil => simp [ofTree, isNil, Tree.rm, hp, clean]
        | node k2 v2 lh2 rh2 l2 r2 =>
          rw [rmHere_node p hp (by simp) (by simp)]
          have hm := rmLeftmostC_alone c s (.node k2 v2 lh2 rh2 l2 r2)
          generalize hr : Tree.node k2 v2 lh2 rh2 l2 r2 = r at *
          generalize hl : Tree.node k1 v1 lh1 rh1 l1 r1 = l at *
          have h1 : (ofTree l).isNil = false := by rw [← hl]; rfl
          have h2 : (ofTree r).isNil = false := by rw [← hr]; rfl
          simp only [h1, h2, Bool.false_eq_true, if_false, hm, shareIf_false]
          rcases Tree.rmLeftmost r with _ | ⟨r', _ | ⟨sk, sv⟩, b⟩
          · rfl
          · rfl
          · simp only [Option.map_some, clean, afterRmRtC_alone]
            cases Tree.afterRmRt sk sv lh rh l r' b <;> rfl

end STree

namespace SMap

/-- The end of an operation that has copied nothing. -/
def clean {R : Type} (s : σ) (x : AvlMap K V × R) : Ends (SMap K V) (SMap K V × R) × σ :=
  (.done (ofMap x.1, x.2), s)

theorem insertC_alone [Ord K] (c : Cl σ K V) (k : K) (v : V) (m : AvlMap K V) (s : σ) :
    (ofMap m).insertC c k v s = (m.insert k v).map (clean s) := by
  simp only [insertC, ofMap, STree.insC_alone, AvlMap.insert]
  rcases Tree.ins k v m.root with _ | ⟨t, o, b⟩ <;> rfl

theorem getMutC_alone (c : Cl σ K V) (p : K → Ordering) (g : V → V) (m : AvlMap K V) (s : σ) :
    (ofMap m).getMutC c p g s = some (clean s (m.getMut p g)) := by
  simp only [getMutC, ofMap, STree.getMutC_alone, AvlMap.getMut]
  rfl

theorem popWithC_alone (len : Nat) (s : σ) (x : Option (Tree K V × Option (K × V) × Bool)) :
    popWithC len (x.map (STree.clean s)) = (AvlMap.popWith len x).map (clean s) := by
  rcases x with _ | ⟨t, _ | kv, b⟩
  · rfl
  · rfl
  · simp only [Option.map_some, STree.clean, popWithC, AvlMap.popWith]
    split <;> rfl

theorem takeC_alone (c : Cl σ K V) (w : Which K) (m : AvlMap K V) (s : σ) :
    (ofMap m).takeC c w s = (m.take w).map (clean s) := by
  cases w with
  | key p => simp only [takeC, ofMap, STree.rmC_alone, popWithC_alone]; rfl
  | first => simp only [takeC, ofMap, STree.rmLeftmostC_alone, popWithC_alone]; rfl
  | last => simp only [takeC, ofMap, STree.rmRightmostC_alone, popWithC_alone]; rfl

end SMap
end Verif.Avl
