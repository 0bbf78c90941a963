import Verif.Wild.Seq
/-!
# Comparisons that are honest but may panic

`Honest c p`: whenever `c` answers, its answer is that of `p`.  An operation that returns under
such a comparison has returned what it returns under `p`.
-/
set_option linter.unusedVariables false
namespace Verif.Wild
universe w
variable {σ : Type w} {K V : Type} {N R : Type}

/-- The comparison answers as `p` does, if it answers. -/
def Honest (c : Cmp σ K) (p : K → Ordering) : Prop := ∀ k s o, (c k s).1 = some o → o = p k

theorem tame_honest (p : K → Ordering) : Honest (tame p : Cmp σ K) p := by
  intro k s o h; simpa [tame] using h.symm

theorem Honest.of_eq {c : Cmp σ K} {p : K → Ordering} (h : Honest c p) {k : K} {s s' : σ}
    {o : Ordering} (e : c k s = (some o, s')) : p k = o := (h k s o (by rw [e])).symm

/-- If `x` returned, `y` is what it returned. -/
def Agree (x : Option (Ends N R × σ)) (y : Option R) : Prop :=
  ∀ r s, x = some (.done r, s) → y = some r

/-- The same, of an operation that cannot fail. -/
def AgreeT (x : Ends N R × σ) (y : R) : Prop := ∀ r s, x = (.done r, s) → y = r

/-- The same, of an operation that leaves nothing when it unwinds. -/
def AgreeO (x : Option (Option R × σ)) (y : Option R) : Prop :=
  ∀ r s, x = some (some r, s) → y = some r

theorem Agree.none {y : Option R} : Agree (none : Option (Ends N R × σ)) y := by
  intro r s h; cases h
theorem Agree.unwound {n : N} {s : σ} {y : Option R} : Agree (some (.unwound n, s)) y := by
  intro r s h; cases h
theorem Agree.done {r : R} {s : σ} : Agree (some ((.done r : Ends N R), s)) (some r) := by
  intro r s h; cases h; rfl
theorem Agree.map {y : Option R} {s : σ} :
    Agree (y.map (fun r => ((.done r : Ends N R), s))) y := by
  intro r s h; cases y <;> simp_all
theorem AgreeT.unwound {n : N} {s : σ} {y : R} : AgreeT ((.unwound n : Ends N R), s) y := by
  intro r s h; cases h
theorem AgreeT.done {r : R} {s : σ} : AgreeT ((.done r : Ends N R), s) r := by
  intro r s h; cases h; rfl
theorem AgreeO.none {y : Option R} : AgreeO (none : Option (Option R × σ)) y := by
  intro r s h; cases h
theorem AgreeO.unwound {s : σ} {y : Option R} : AgreeO (some (Option.none, s)) y := by
  intro r s h; cases h
theorem AgreeO.done {r : R} {s : σ} : AgreeO (some (some r, s)) (some r) := by
  intro r s h; cases h; rfl
theorem AgreeO.map {y : Option R} {s : σ} : AgreeO (y.map (fun r => (some r, s))) y := by
  intro r s h; cases y <;> simp_all

/-- `Agree` of an operation on a child that may not exist. -/
def AgreeK {N R : Type} (x : Option (Option (Ends N R × σ))) (y : Option (Option R)) : Prop :=
  (x = none ↔ y = none) ∧ ∀ r s, x = some (some (.done r, s)) → y = some (some r)

theorem AgreeK.none {N R : Type} : AgreeK (none : Option (Option (Ends N R × σ))) none :=
  ⟨by simp, by simp⟩

theorem AgreeK.some {N R : Type} {x : Option (Ends N R × σ)} {y : Option R} (h : Agree x y) :
    AgreeK (some x) (some y) := by
  refine ⟨by simp, fun r s e => ?_⟩
  rw [h r s (by simpa using e)]

theorem locateW_honest {c : Cmp σ K} {p : K → Ordering} (h : Honest c p) :
    ∀ (es : List (K × V)) (s : σ), ∀ r s', locateW c es s = (some r, s') →
      BTree.Node.locate p es = r
  | [], s, r, s', e => by cases e; rfl
  | x :: es, s, r, s', e => by
    rw [locateW] at e
    rw [BTree.Node.locate]
    rcases hx : c x.1 s with ⟨_ | o, s1⟩
    · rw [hx] at e; cases e
    · rw [hx] at e
      rw [h.of_eq hx]
      cases o with
      | lt => cases e; rfl
      | eq => cases e; rfl
      | gt =>
        have ih := locateW_honest h es s1
        dsimp only at e
        generalize locateW c es s1 = y at ih e
        rcases y with ⟨_ | y, s2⟩
        · cases e
        · rw [ih _ _ rfl]; cases e; rfl

theorem bsLoopW_honest {c : Cmp σ K} {p : K → Ordering} (h : Honest c p) (es : List (K × V)) :
    ∀ (fuel base size : Nat) (s : σ), AgreeO (bsLoopW c es fuel base size s)
      (Fixed.bsLoop (fun i => (es[i]?).map (fun e => p e.1)) fuel base size)
  | 0, _, _, _ => AgreeO.none
  | fuel + 1, base, size, s => by
    rw [bsLoopW, Fixed.bsLoop]
    by_cases hs : 1 < size
    · rw [if_pos hs, if_pos hs]
      cases he : es[base + size / 2]? with
      | none => exact AgreeO.none
      | some e =>
        dsimp only
        rcases hx : c e.1 s with ⟨_ | o, s1⟩
        · exact AgreeO.unwound
        · simp only [Option.map_some, h.of_eq hx]
          exact bsLoopW_honest h es fuel _ _ s1
    · rw [if_neg hs, if_neg hs]; exact AgreeO.done

theorem searchW_honest (lin : Bool) {c : Cmp σ K} {p : K → Ordering} (h : Honest c p)
    (es : List (K × V)) (s : σ) : AgreeO (searchW lin c es s) (Fixed.searchKeys lin p es) := by
  rw [searchW, Fixed.searchKeys]
  split
  · exact AgreeO.none
  · split
    · intro r s' e
      rw [locateW_honest h es s r s' (by simpa using e)]
    · rw [bsearchW, Fixed.bsearch]
      have hb := bsLoopW_honest h es (es.length + 1) 0 es.length s
      generalize bsLoopW c es (es.length + 1) 0 es.length s = y at hb ⊢
      rcases y with _ | ⟨_ | b, s1⟩
      · exact AgreeO.none
      · exact AgreeO.unwound
      · rw [hb _ _ rfl]
        dsimp only
        cases es[b]? with
        | none => exact AgreeO.none
        | some e =>
          dsimp only
          rcases hx : c e.1 s1 with ⟨_ | o, s2⟩
          · exact AgreeO.unwound
          · simp only [Option.map_some, h.of_eq hx]
            cases o <;> exact AgreeO.done

end Verif.Wild

/-! ### `AvlMap` -/

namespace Verif.Avl
open Verif.Wild
universe w
variable {σ : Type w} {K V : Type}

namespace Tree

theorem insW_honest [Ord K] {c : Cmp σ K} {k : K} (h : Honest c (compare k)) (v : V) :
    ∀ (t : Tree K V) (s : σ), Agree (insW c k v t s) (ins k v t)
  | nil, s => Agree.done
  | node nk nv lh rh l r, s => by
    rw [insW, ins]
    rcases hx : c nk s with ⟨_ | o, s1⟩
    · exact Agree.unwound
    · rw [h.of_eq hx]
      cases o with
      | eq => exact Agree.done
      | lt =>
        have ih := insW_honest h v l s1
        dsimp only
        generalize insW c k v l s1 = y at ih ⊢
        rcases y with _ | ⟨_ | ⟨l', old, tl⟩, s2⟩
        · exact Agree.none
        · exact Agree.unwound
        · rw [ih _ _ rfl]
          dsimp only
          cases afterInsLf nk nv lh rh l' r tl
          · exact Agree.none
          · exact Agree.done
      | gt =>
        have ih := insW_honest h v r s1
        dsimp only
        generalize insW c k v r s1 = y at ih ⊢
        rcases y with _ | ⟨_ | ⟨l', old, tl⟩, s2⟩
        · exact Agree.none
        · exact Agree.unwound
        · rw [ih _ _ rfl]
          dsimp only
          cases afterInsRt nk nv lh rh l l' tl
          · exact Agree.none
          · exact Agree.done

theorem rmW_honest {c : Cmp σ K} {p : K → Ordering} (h : Honest c p) :
    ∀ (t : Tree K V) (s : σ), Agree (rmW c t s) (rm p t)
  | nil, s => Agree.done
  | node nk nv lh rh l r, s => by
    rw [rmW, rm_node]
    rcases hx : c nk s with ⟨_ | o, s1⟩
    · exact Agree.unwound
    · rw [h.of_eq hx]
      cases o with
      | eq => exact Agree.map
      | lt =>
        have ih := rmW_honest h l s1
        dsimp only
        generalize rmW c l s1 = y at ih ⊢
        rcases y with _ | ⟨_ | ⟨l', old, tl⟩, s2⟩
        · exact Agree.none
        · exact Agree.unwound
        · rw [ih _ _ rfl]
          dsimp only
          cases afterRmLf nk nv lh rh l' r tl
          · exact Agree.none
          · exact Agree.done
      | gt =>
        have ih := rmW_honest h r s1
        dsimp only
        generalize rmW c r s1 = y at ih ⊢
        rcases y with _ | ⟨_ | ⟨l', old, tl⟩, s2⟩
        · exact Agree.none
        · exact Agree.unwound
        · rw [ih _ _ rfl]
          dsimp only
          cases afterRmRt nk nv lh rh l l' tl
          · exact Agree.none
          · exact Agree.done

theorem getW_honest {c : Cmp σ K} {p : K → Ordering} (h : Honest c p) :
    ∀ (t : Tree K V) (s : σ), AgreeT (getW c t s) (getKeyValue p t)
  | nil, s => AgreeT.done
  | node nk nv lh rh l r, s => by
    rw [getW, getKeyValue]
    rcases hx : c nk s with ⟨_ | o, s1⟩
    · exact AgreeT.unwound
    · rw [h.of_eq hx]
      cases o with
      | eq => exact AgreeT.done
      | lt => exact getW_honest h l s1
      | gt => exact getW_honest h r s1

theorem getMutW_honest {c : Cmp σ K} {p : K → Ordering} (h : Honest c p) (g : V → V) :
    ∀ (t : Tree K V) (s : σ), AgreeT (getMutW c g t s) (getMutWith p g t)
  | nil, s => AgreeT.done
  | node nk nv lh rh l r, s => by
    rw [getMutW, getMutWith]
    rcases hx : c nk s with ⟨_ | o, s1⟩
    · exact AgreeT.unwound
    · rw [h.of_eq hx]
      cases o with
      | eq => exact AgreeT.done
      | lt =>
        have ih := getMutW_honest h g l s1
        dsimp only
        generalize getMutW c g l s1 = y at ih ⊢
        rcases y with ⟨_ | ⟨l', b⟩, s2⟩
        · exact AgreeT.unwound
        · rw [ih _ _ rfl]; exact AgreeT.done
      | gt =>
        have ih := getMutW_honest h g r s1
        dsimp only
        generalize getMutW c g r s1 = y at ih ⊢
        rcases y with ⟨_ | ⟨l', b⟩, s2⟩
        · exact AgreeT.unwound
        · rw [ih _ _ rfl]; exact AgreeT.done

theorem splitW_honest {c : Cmp σ K} {p : K → Ordering} (h : Honest c p) :
    ∀ (t : Tree K V) (s : σ), AgreeO (splitW c t s) (split p t)
  | nil, s => AgreeO.done
  | node nk nv lh rh l r, s => by
    rw [splitW, split]
    rcases hx : c nk s with ⟨_ | o, s1⟩
    · exact AgreeO.unwound
    · rw [h.of_eq hx]
      cases o with
      | eq => exact AgreeO.done
      | lt =>
        have ih := splitW_honest h l s1
        dsimp only
        generalize splitW c l s1 = y at ih ⊢
        rcases y with _ | ⟨_ | ⟨l', kv, tl⟩, s2⟩
        · exact AgreeO.none
        · exact AgreeO.unwound
        · rw [ih _ _ rfl]
          dsimp only
          cases join tl nk nv r
          · exact AgreeO.none
          · exact AgreeO.done
      | gt =>
        have ih := splitW_honest h r s1
        dsimp only
        generalize splitW c r s1 = y at ih ⊢
        rcases y with _ | ⟨_ | ⟨l', kv, tl⟩, s2⟩
        · exact AgreeO.none
        · exact AgreeO.unwound
        · rw [ih _ _ rfl]
          dsimp only
          cases join l nk nv l'
          · exact AgreeO.none
          · exact AgreeO.done

theorem mergeW_honest [Ord K] {c : K → Cmp σ K} (h : ∀ k, Honest (c k) (compare k)) (kl kr : Bool)
    (dec : K × V → K × V → Option (K × V)) :
    ∀ (t1 t2 : Tree K V) (s : σ), AgreeO (mergeW kl kr dec c t1 t2 s) (merge kl kr dec t1 t2)
  | nil, t2, s => by cases kr <;> (simp only [mergeW, merge]; exact AgreeO.done)
  | node .., nil, s => by cases kl <;> (simp only [mergeW, merge]; exact AgreeO.done)
  | node k v lh rh l r, node k2 v2 lh2 rh2 l2 r2, s => by
    rw [mergeW, merge]
    have h1 := splitW_honest (h k) (node k2 v2 lh2 rh2 l2 r2) s
    generalize splitW (c k) (node k2 v2 lh2 rh2 l2 r2) s = y at h1 ⊢
    rcases y with _ | ⟨_ | ⟨lt, kv2, gt⟩, s1⟩
    · exact AgreeO.none
    · exact AgreeO.unwound
    · rw [h1 _ _ rfl]
      dsimp only
      have h2 := mergeW_honest h kl kr dec l lt s1
      generalize mergeW kl kr dec c l lt s1 = y at h2 ⊢
      rcases y with _ | ⟨_ | l', s2⟩
      · exact AgreeO.none
      · exact AgreeO.unwound
      · rw [h2 _ _ rfl]
        dsimp only
        have h3 := mergeW_honest h kl kr dec r gt s2
        generalize mergeW kl kr dec c r gt s2 = y at h3 ⊢
        rcases y with _ | ⟨_ | r', s3⟩
        · exact AgreeO.none
        · exact AgreeO.unwound
        · rw [h3 _ _ rfl]
          cases kv2 <;> exact AgreeO.map

end Tree
open Tree

namespace AvlMap

theorem getW_honest {c : Cmp σ K} {p : K → Ordering} (h : Honest c p) (m : AvlMap K V) (s : σ) :
    AgreeT (m.getW c s) (m.getKeyValue p) := Tree.getW_honest h m.root s

theorem getMutW_honest {c : Cmp σ K} {p : K → Ordering} (h : Honest c p) (m : AvlMap K V)
    (g : V → V) (s : σ) : AgreeT (m.getMutW c g s) (m.getMut p g) := by
  have ih := Tree.getMutW_honest h g m.root s
  rw [getMutW, getMut]
  generalize m.root.getMutW c g s = y at ih ⊢
  rcases y with ⟨_ | ⟨l', b⟩, s2⟩
  · exact AgreeT.unwound
  · rw [ih _ _ rfl]; exact AgreeT.done

theorem insertW_honest [Ord K] {c : Cmp σ K} {k : K} (h : Honest c (compare k)) (m : AvlMap K V)
    (v : V) (s : σ) : Agree (m.insertW c k v s) (m.insert k v) := by
  have ih := insW_honest h v m.root s
  rw [insertW, insert]
  generalize insW c k v m.root s = y at ih ⊢
  rcases y with _ | ⟨_ | ⟨t, old, b⟩, s2⟩
  · exact Agree.none
  · exact Agree.unwound
  · rw [ih _ _ rfl]; exact Agree.done

theorem removeW_honest {c : Cmp σ K} {p : K → Ordering} (h : Honest c p) (m : AvlMap K V) (s : σ) :
    Agree (m.removeW c s) (m.removeEntry p) := by
  have ih := rmW_honest h m.root s
  rw [removeW, removeEntry]
  generalize rmW c m.root s = y at ih ⊢
  rcases y with _ | ⟨_ | r, s2⟩
  · exact Agree.none
  · exact Agree.unwound
  · rw [ih _ _ rfl]; exact Agree.map

theorem appendW_honest [Ord K] {c : K → Cmp σ K} (h : ∀ k, Honest (c k) (compare k))
    (m other : AvlMap K V) (s : σ) : Agree (m.appendW other c s) (m.append other) := by
  have ih := mergeW_honest h true true (fun _ r => some r) m.root other.root s
  rw [appendW, append, union]
  generalize mergeW true true (fun _ r => some r) c m.root other.root s = y at ih ⊢
  rcases y with _ | ⟨_ | t, s2⟩
  · exact Agree.none
  · exact Agree.unwound
  · rw [ih _ _ rfl]; exact Agree.done

theorem newMergeW_honest [Ord K] {c : K → Cmp σ K} (h : ∀ k, Honest (c k) (compare k))
    (kl kr : Bool) (dec : K × V → K × V → Option (K × V)) (l r : AvlMap K V) (s : σ) :
    Agree (newMergeW kl kr dec l r c s)
      ((merge kl kr dec l.root r.root).map (fun t => ⟨t.size, t⟩)) := by
  have ih := mergeW_honest h kl kr dec l.root r.root s
  rw [newMergeW]
  generalize mergeW kl kr dec c l.root r.root s = y at ih ⊢
  rcases y with _ | ⟨_ | t, s2⟩
  · exact Agree.none
  · exact Agree.unwound
  · rw [ih _ _ rfl]; exact Agree.done

theorem splitOffW_honest [Ord K] {c : Cmp σ K} {p : K → Ordering} (h : Honest c p)
    {ck : K → Cmp σ K} (hk : ∀ k, Honest (ck k) (compare k)) (m : AvlMap K V) (s : σ) :
    Agree (m.splitOffW c ck s) (m.splitOff p) := by
  have ih := splitW_honest h m.root s
  rw [splitOffW, splitOff]
  generalize splitW c m.root s = y at ih ⊢
  rcases y with _ | ⟨_ | ⟨lhs, kv, rhs⟩, s2⟩
  · exact Agree.none
  · exact Agree.unwound
  · rw [ih _ _ rfl]
    dsimp only
    split
    · exact Agree.none
    · rcases kv with _ | ⟨k, v⟩
      · exact Agree.done
      · dsimp only
        have ih := insW_honest (hk k) v rhs s2
        generalize insW (ck k) k v rhs s2 = y at ih ⊢
        rcases y with _ | ⟨_ | ⟨t, old, b⟩, s2⟩
        · exact Agree.none
        · exact Agree.unwound
        · rw [ih _ _ rfl]; exact Agree.done

end AvlMap
end Verif.Avl

/-! ### `BTreeMap` -/

namespace Verif.BTree
open Verif.Wild
universe w
variable {σ : Type w} {K V : Type}

namespace Node

mutual
theorem containsW_honest {c : Cmp σ K} {p : K → Ordering} (h : Honest c p) :
    ∀ (n : Node K V) (s : σ), AgreeT (containsW c n s) (contains p n)
  | mk es ks, s => by
    have hl := locateW_honest h es s
    rw [containsW, contains]
    generalize locateW c es s = y at hl ⊢
    rcases y with ⟨_ | ⟨i, _ | _⟩, s1⟩
    · exact AgreeT.unwound
    · rw [hl _ _ rfl]; exact containsAtW_honest h i ks s1
    · rw [hl _ _ rfl]; exact AgreeT.done
theorem containsAtW_honest {c : Cmp σ K} {p : K → Ordering} (h : Honest c p) :
    ∀ (i : Nat) (ks : List (Node K V)) (s : σ), AgreeT (containsAtW c i ks s) (containsAt p i ks)
  | _, [], _ => by rw [containsAtW, containsAt]; exact AgreeT.done
  | 0, n :: _, s => by rw [containsAtW, containsAt]; exact containsW_honest h n s
  | i + 1, _ :: ks, s => by rw [containsAtW, containsAt]; exact containsAtW_honest h i ks s
end

mutual
theorem getW_honest {c : Cmp σ K} {p : K → Ordering} (h : Honest c p) :
    ∀ (n : Node K V) (s : σ), Agree (getW c n s) (some (get p n))
  | mk es ks, s => by
    have hl := locateW_honest h es s
    rw [getW, get]
    generalize locateW c es s = y at hl ⊢
    rcases y with ⟨_ | ⟨i, _ | _⟩, s1⟩
    · exact Agree.unwound
    · rw [hl _ _ rfl]; exact getAtW_honest h _ ks s1
    · rw [hl _ _ rfl]
      dsimp only
      cases es[i]?
      · exact Agree.none
      · exact Agree.done
theorem getAtW_honest {c : Cmp σ K} {p : K → Ordering} (h : Honest c p) :
    ∀ (i : Nat) (ks : List (Node K V)) (s : σ), Agree (getAtW c i ks s) (some (getAt p i ks))
  | _, [], _ => by rw [getAtW, getAt]; exact Agree.done
  | 0, n :: _, s => by rw [getAtW, getAt]; exact getW_honest h n s
  | i + 1, _ :: ks, s => by rw [getAtW, getAt]; exact getAtW_honest h i ks s
end

mutual
theorem getMutW_honest {c : Cmp σ K} {p : K → Ordering} (h : Honest c p) (g : V → V) :
    ∀ (n : Node K V) (s : σ), Agree (getMutW c g n s) (some (getMut p g n))
  | mk es ks, s => by
    have hl := locateW_honest h es s
    rw [getMutW, getMut]
    generalize locateW c es s = y at hl ⊢
    rcases y with ⟨_ | ⟨i, _ | _⟩, s1⟩
    · exact Agree.unwound
    · rw [hl _ _ rfl]
      have ih := getMutAtW_honest h g (descIdx i es ks.length) ks s1
      dsimp only
      rw [getMutAt_eq]
      generalize getMutAtW c g (descIdx i es ks.length) ks s1 = y at ih ⊢
      generalize ks[descIdx i es ks.length]? = z at ih ⊢
      rcases y with _ | _ | ⟨_ | ⟨n, b⟩, s2⟩
      · have hz : z = none := by simpa using ih.1
        subst hz
        exact Agree.done
      · exact Agree.none
      · exact Agree.unwound
      · have hz := ih.2 _ _ rfl
        cases z with
        | none => cases hz
        | some z =>
          have hz : getMut p g z = (n, b) := by simpa using hz
          simp only [hz]; exact Agree.done
    · rw [hl _ _ rfl]
      dsimp only
      cases hi : es[i]? with
      | none => exact Agree.none
      | some e =>
        obtain ⟨hlt, he⟩ := List.getElem?_eq_some_iff.mp hi
        obtain ⟨es1, x, es2, rfl, rfl⟩ := split_at es i hlt
        have hx : e = x := by simpa [get_mid] using hi.symm
        subst hx
        simp only [Option.map_some, set_mid, modify_mid, if_true]
        exact Agree.done
theorem getMutAtW_honest {c : Cmp σ K} {p : K → Ordering} (h : Honest c p) (g : V → V) :
    ∀ (i : Nat) (ks : List (Node K V)) (s : σ),
      AgreeK (getMutAtW c g i ks s) (ks[i]?.map (fun n => some (getMut p g n)))
  | _, [], _ => by rw [getMutAtW]; exact AgreeK.none
  | 0, n :: _, s => by rw [getMutAtW]; exact AgreeK.some (getMutW_honest h g n s)
  | i + 1, _ :: ks, s => by
    rw [getMutAtW, List.getElem?_cons_succ]; exact getMutAtW_honest h g i ks s
end

mutual
theorem insW_honest [Ord K] (N : Nat) {c : Cmp σ K} {k : K} (h : Honest c (compare k)) (v : V) :
    ∀ (n : Node K V) (s : σ), Agree (insW N c k v n s) (ins N k v n)
  | mk es ks, s => by
    have hl := locateW_honest h es s
    rw [insW, ins]
    generalize locateW c es s = y at hl ⊢
    rcases y with ⟨_ | ⟨i, _ | _⟩, s1⟩
    · exact Agree.unwound
    · rw [hl _ _ rfl]
      have ih := insAtW_honest N h v i ks s1
      dsimp only
      generalize insAtW N c k v i ks s1 = y at ih ⊢
      rcases y with _ | _ | ⟨_ | r, s2⟩
      · rw [ih.1.mp rfl]; exact Agree.map
      · exact Agree.none
      · exact Agree.unwound
      · rw [ih.2 _ _ rfl]
        cases r
        · exact Agree.done
        · exact Agree.map
        · exact Agree.done
    · rw [hl _ _ rfl]
      dsimp only
      cases es[i]?
      · exact Agree.none
      · exact Agree.done
theorem insAtW_honest [Ord K] (N : Nat) {c : Cmp σ K} {k : K} (h : Honest c (compare k)) (v : V) :
    ∀ (i : Nat) (ks : List (Node K V)) (s : σ), AgreeK (insAtW N c k v i ks s) (insAt N k v i ks)
  | _, [], _ => by rw [insAtW, insAt]; exact AgreeK.none
  | 0, n :: _, s => by rw [insAtW, insAt]; exact AgreeK.some (insW_honest N h v n s)
  | i + 1, _ :: ks, s => by rw [insAtW, insAt]; exact insAtW_honest N h v i ks s
end

mutual
theorem removeW_honest (N : Nat) {c : Cmp σ K} {p : K → Ordering} (h : Honest c p) :
    ∀ (n : Node K V) (s : σ), Agree (removeW N c n s) (remove N p n)
  | mk es ks, s => by
    have hl := locateW_honest h es s
    rw [removeW, remove]
    generalize locateW c es s = y at hl ⊢
    rcases y with ⟨_ | ⟨i, _ | _⟩, s1⟩
    · exact Agree.unwound
    · rw [hl _ _ rfl]
      have ih := removeAtW_honest N h (descIdx i es ks.length) ks s1
      dsimp only
      generalize removeAtW N c (descIdx i es ks.length) ks s1 = y at ih ⊢
      rcases y with _ | _ | ⟨_ | _ | ⟨kv, b, n⟩, s2⟩
      · rw [ih.1.mp rfl]; exact Agree.done
      · exact Agree.none
      · exact Agree.unwound
      · rw [ih.2 _ _ rfl]; exact Agree.done
      · rw [ih.2 _ _ rfl]
        simp only [Bool.false_eq_true, if_false]
        cases afterKid N i kv b es (ks.set (descIdx i es ks.length) n)
        · exact Agree.none
        · exact Agree.done
    · rw [hl _ _ rfl]
      simp only [if_true]
      split
      · rcases vRemove i es with _ | ⟨kv, es'⟩
        · exact Agree.none
        · exact Agree.done
      · rcases popLastKid N i ks with _ | _ | ⟨kv, b, n⟩
        · exact Agree.none
        · exact Agree.none
        · dsimp only
          cases es[i]? with
          | none => exact Agree.none
          | some old =>
            dsimp only
            cases afterKid N i old b (es.set i kv) (ks.set i n)
            · exact Agree.none
            · exact Agree.done
theorem removeAtW_honest (N : Nat) {c : Cmp σ K} {p : K → Ordering} (h : Honest c p) :
    ∀ (i : Nat) (ks : List (Node K V)) (s : σ), AgreeK (removeAtW N c i ks s) (removeAt N p i ks)
  | _, [], _ => by rw [removeAtW, removeAt]; exact AgreeK.none
  | 0, n :: _, s => by rw [removeAtW, removeAt]; exact AgreeK.some (removeW_honest N h n s)
  | i + 1, _ :: ks, s => by rw [removeAtW, removeAt]; exact removeAtW_honest N h i ks s
end

end Node
open Node

namespace BTreeMap

theorem getW_honest {c : Cmp σ K} {p : K → Ordering} (h : Honest c p) (m : BTreeMap K V) (s : σ) :
    Agree (m.getW c s) (some (m.getKeyValue p)) := by
  obtain ⟨len, _ | n⟩ := m
  · exact Agree.done
  · exact Node.getW_honest h n s

theorem containsW_honest {c : Cmp σ K} {p : K → Ordering} (h : Honest c p) (m : BTreeMap K V)
    (s : σ) : AgreeT (m.containsW c s) (m.containsKey p) := by
  obtain ⟨len, _ | n⟩ := m
  · exact AgreeT.done
  · exact Node.containsW_honest h n s

theorem getMutW_honest {c : Cmp σ K} {p : K → Ordering} (h : Honest c p) (m : BTreeMap K V)
    (g : V → V) (s : σ) : Agree (m.getMutW c g s) (some (m.getMut p g)) := by
  obtain ⟨len, _ | n⟩ := m
  · exact Agree.done
  · have ih := Node.getMutW_honest h g n s
    rw [getMutW, getMut]
    dsimp only
    generalize n.getMutW c g s = y at ih ⊢
    rcases y with _ | ⟨_ | ⟨n', b⟩, s1⟩
    · exact Agree.none
    · exact Agree.unwound
    · have e : n.getMut p g = (n', b) := by simpa using ih _ _ rfl
      rw [e]; exact Agree.done

theorem insertW_honest [Ord K] (N : Nat) {c : Cmp σ K} {k : K} (h : Honest c (compare k))
    (m : BTreeMap K V) (v : V) (s : σ) : Agree (m.insertW N c k v s) (m.insert N k v) := by
  obtain ⟨len, _ | n⟩ := m
  · exact Agree.done
  · have ih := insW_honest N h v n s
    rw [insertW, insert]
    dsimp only
    generalize n.insW N c k v s = y at ih ⊢
    rcases y with _ | ⟨_ | r, s1⟩
    · exact Agree.none
    · exact Agree.unwound
    · rw [ih _ _ rfl]
      cases r <;> exact Agree.done

theorem takeW_honest (N : Nat) {c : Cmp σ K} {p : K → Ordering} (h : Honest c p)
    (m : BTreeMap K V) (s : σ) :
    Agree (m.takeW N c s) (m.rmAndRebal (fun n => n.remove N p)) := by
  obtain ⟨len, _ | n⟩ := m
  · exact Agree.done
  · have ih := Node.removeW_honest N h n s
    rw [takeW]
    dsimp only
    generalize n.removeW N c s = y at ih ⊢
    rcases y with _ | ⟨_ | r, s1⟩
    · exact Agree.none
    · exact Agree.unwound
    · have e : (⟨len, some n⟩ : BTreeMap K V).rmAndRebal (fun n => n.remove N p) =
          (⟨len, some n⟩ : BTreeMap K V).rmAndRebal (fun _ => some r) := by
        simp only [rmAndRebal, ih _ _ rfl]
      rw [e]
      exact Agree.map

theorem removeW_honest (N : Nat) {c : Cmp σ K} {p : K → Ordering} (h : Honest c p)
    (m : BTreeMap K V) (s : σ) : ∀ r s', m.removeW N c s = some (.done r, s') →
      m.remove N p = some (r.1, r.2.map (·.2)) := by
  intro r s' e
  have h1 := containsW_honest h m s
  rw [removeW] at e
  rw [remove]
  generalize m.containsW c s = y at h1 e
  rcases y with ⟨_ | _ | _, s1⟩
  · cases e
  · cases e; rw [h1 _ _ rfl]; rfl
  · rw [h1 _ _ rfl, takeW_honest N h m s1 r s' e]; rfl

end BTreeMap
end Verif.BTree

/-! ### `fixed::BTreeMap` -/

namespace Verif.Fixed
open Verif.BTree Verif.BTree.Node Verif.Wild
universe w
variable {σ : Type w} {K V : Type}

mutual
theorem getW_honest (lin : Bool) {c : Cmp σ K} {p : K → Ordering} (h : Honest c p) :
    ∀ (n : Node K V) (s : σ), Agree (getW lin c n s) (get lin p n)
  | mk es ks, s => by
    have hl := searchW_honest lin h es s
    rw [getW, get]
    generalize searchW lin c es s = y at hl ⊢
    rcases y with _ | ⟨_ | ⟨i, _ | _⟩, s1⟩
    · exact Agree.none
    · exact Agree.unwound
    · rw [hl _ _ rfl]; exact getAtW_honest lin h _ ks s1
    · rw [hl _ _ rfl]
      dsimp only
      cases es[i]?
      · exact Agree.none
      · exact Agree.done
theorem getAtW_honest (lin : Bool) {c : Cmp σ K} {p : K → Ordering} (h : Honest c p) :
    ∀ (i : Nat) (ks : List (Node K V)) (s : σ), Agree (getAtW lin c i ks s) (getAt lin p i ks)
  | _, [], _ => by rw [getAtW, getAt]; exact Agree.done
  | 0, n :: _, s => by rw [getAtW, getAt]; exact getW_honest lin h n s
  | i + 1, _ :: ks, s => by rw [getAtW, getAt]; exact getAtW_honest lin h i ks s
end

mutual
theorem getMutW_honest (lin : Bool) {c : Cmp σ K} {p : K → Ordering} (h : Honest c p) (g : V → V) :
    ∀ (n : Node K V) (s : σ), Agree (getMutW lin c g n s) (getMut lin p g n)
  | mk es ks, s => by
    have hl := searchW_honest lin h es s
    rw [getMutW, getMut]
    generalize searchW lin c es s = y at hl ⊢
    rcases y with _ | ⟨_ | ⟨i, _ | _⟩, s1⟩
    · exact Agree.none
    · exact Agree.unwound
    · rw [hl _ _ rfl]
      have ih := getMutAtW_honest lin h g i ks s1
      dsimp only
      generalize getMutAtW lin c g i ks s1 = y at ih ⊢
      rcases y with _ | _ | ⟨_ | ⟨n, b⟩, s2⟩
      · rw [ih.1.mp rfl]; exact Agree.done
      · exact Agree.none
      · exact Agree.unwound
      · rw [ih.2 _ _ rfl]; exact Agree.done
    · rw [hl _ _ rfl]
      dsimp only
      cases es[i]?
      · exact Agree.none
      · exact Agree.done
theorem getMutAtW_honest (lin : Bool) {c : Cmp σ K} {p : K → Ordering} (h : Honest c p)
    (g : V → V) : ∀ (i : Nat) (ks : List (Node K V)) (s : σ),
      AgreeK (getMutAtW lin c g i ks s) (getMutAt lin p g i ks)
  | _, [], _ => by rw [getMutAtW, getMutAt]; exact AgreeK.none
  | 0, n :: _, s => by rw [getMutAtW, getMutAt]; exact AgreeK.some (getMutW_honest lin h g n s)
  | i + 1, _ :: ks, s => by rw [getMutAtW, getMutAt]; exact getMutAtW_honest lin h g i ks s
end

mutual
theorem insW_honest [Ord K] (lin : Bool) {c : Cmp σ K} {k : K} (h : Honest c (compare k)) (v : V) :
    ∀ (n : Node K V) (s : σ), Agree (insW lin c k v n s) (ins lin k v n)
  | mk es ks, s => by
    have hl := searchW_honest lin h es s
    rw [insW, ins]
    generalize searchW lin c es s = y at hl ⊢
    rcases y with _ | ⟨_ | ⟨i, _ | _⟩, s1⟩
    · exact Agree.none
    · exact Agree.unwound
    · rw [hl _ _ rfl]
      have ih := insAtW_honest lin h v i ks s1
      dsimp only
      generalize insAtW lin c k v i ks s1 = y at ih ⊢
      rcases y with _ | _ | ⟨_ | r, s2⟩
      · rw [ih.1.mp rfl]; exact Agree.map
      · exact Agree.none
      · exact Agree.unwound
      · rw [ih.2 _ _ rfl]
        cases r
        · exact Agree.done
        · exact Agree.map
        · exact Agree.done
    · rw [hl _ _ rfl]
      dsimp only
      cases es[i]?
      · exact Agree.none
      · exact Agree.done
theorem insAtW_honest [Ord K] (lin : Bool) {c : Cmp σ K} {k : K} (h : Honest c (compare k)) (v : V) :
    ∀ (i : Nat) (ks : List (Node K V)) (s : σ),
      AgreeK (insAtW lin c k v i ks s) (insAt lin k v i ks)
  | _, [], _ => by rw [insAtW, insAt]; exact AgreeK.none
  | 0, n :: _, s => by rw [insAtW, insAt]; exact AgreeK.some (insW_honest lin h v n s)
  | i + 1, _ :: ks, s => by rw [insAtW, insAt]; exact insAtW_honest lin h v i ks s
end

mutual
theorem removeW_honest (lin : Bool) {c : Cmp σ K} {p : K → Ordering} (h : Honest c p) :
    ∀ (n : Node K V) (s : σ), Agree (removeW lin c n s) (remove lin p n)
  | mk es ks, s => by
    have hl := searchW_honest lin h es s
    rw [removeW, remove]
    generalize searchW lin c es s = y at hl ⊢
    rcases y with _ | ⟨_ | ⟨i, _ | _⟩, s1⟩
    · exact Agree.none
    · exact Agree.unwound
    · rw [hl _ _ rfl]
      have ih := removeAtW_honest lin h i ks s1
      dsimp only
      generalize removeAtW lin c i ks s1 = y at ih ⊢
      rcases y with _ | _ | ⟨_ | _ | ⟨kv, b, n⟩, s2⟩
      · rw [ih.1.mp rfl]; exact Agree.done
      · exact Agree.none
      · exact Agree.unwound
      · rw [ih.2 _ _ rfl]; exact Agree.done
      · rw [ih.2 _ _ rfl]
        dsimp only
        cases afterKid i kv b es (ks.set i n)
        · exact Agree.none
        · exact Agree.done
    · rw [hl _ _ rfl]
      dsimp only
      split
      · rcases ivRemove MAX i es with _ | ⟨kv, es'⟩
        · exact Agree.none
        · exact Agree.done
      · rcases popGreatestKid i ks with _ | _ | ⟨kv, b, n⟩
        · exact Agree.none
        · exact Agree.none
        · dsimp only
          cases es[i]? with
          | none => exact Agree.none
          | some old =>
            dsimp only
            cases afterKid i old b (es.set i kv) (ks.set i n)
            · exact Agree.none
            · exact Agree.done
theorem removeAtW_honest (lin : Bool) {c : Cmp σ K} {p : K → Ordering} (h : Honest c p) :
    ∀ (i : Nat) (ks : List (Node K V)) (s : σ),
      AgreeK (removeAtW lin c i ks s) (removeAt lin p i ks)
  | _, [], _ => by rw [removeAtW, removeAt]; exact AgreeK.none
  | 0, n :: _, s => by rw [removeAtW, removeAt]; exact AgreeK.some (removeW_honest lin h n s)
  | i + 1, _ :: ks, s => by rw [removeAtW, removeAt]; exact removeAtW_honest lin h i ks s
end

namespace FMap

theorem getW_honest (lin : Bool) {c : Cmp σ K} {p : K → Ordering} (h : Honest c p) (m : FMap K V)
    (s : σ) : ∀ r s', m.getW lin c s = some (.done r, s') → m.get lin p = some (r.map (·.2)) := by
  obtain ⟨_ | n, len⟩ := m
  · intro r s' e; cases e; rfl
  · intro r s' e
    rw [get]
    dsimp only
    rw [Fixed.getW_honest lin h n s r s' e]; rfl

theorem getMutW_honest (lin : Bool) {c : Cmp σ K} {p : K → Ordering} (h : Honest c p)
    (m : FMap K V) (g : V → V) (s : σ) : Agree (m.getMutW lin c g s) (m.getMut lin p g) := by
  obtain ⟨_ | n, len⟩ := m
  · exact Agree.done
  · have ih := Fixed.getMutW_honest lin h g n s
    rw [getMutW, getMut]
    dsimp only
    generalize Fixed.getMutW lin c g n s = y at ih ⊢
    rcases y with _ | ⟨_ | ⟨n, b⟩, s1⟩
    · exact Agree.none
    · exact Agree.unwound
    · rw [ih _ _ rfl]; exact Agree.done

theorem insertW_honest [Ord K] (lin : Bool) {c : Cmp σ K} {k : K} (h : Honest c (compare k))
    (m : FMap K V) (v : V) (s : σ) : Agree (m.insertW lin c k v s) (m.insert lin k v) := by
  obtain ⟨_ | n, len⟩ := m
  · rw [insertW, insert]
    dsimp only
    cases ivPush MAX (k, v) []
    · exact Agree.none
    · exact Agree.done
  · have ih := insW_honest lin h v n s
    rw [insertW, insert]
    dsimp only
    generalize insW lin c k v n s = y at ih ⊢
    rcases y with _ | ⟨_ | r, s1⟩
    · exact Agree.none
    · exact Agree.unwound
    · rw [ih _ _ rfl]
      cases r with
      | replaced => exact Agree.done
      | absorbed => exact Agree.done
      | split lhs kv n' =>
        dsimp only
        cases ivPush MAX kv [] with
        | none => exact Agree.none
        | some es =>
          cases (kPush lhs []).bind (kPush n')
          · exact Agree.none
          · exact Agree.done

theorem removeW_honest (lin : Bool) {c : Cmp σ K} {p : K → Ordering} (h : Honest c p)
    (m : FMap K V) (s : σ) : ∀ r s', m.removeW lin c s = some (.done r, s') →
      m.remove lin p = some (r.1, r.2.map (·.2)) := by
  obtain ⟨_ | n, len⟩ := m
  · intro r s' e; cases e; rfl
  · intro r s' e
    have ih := Fixed.removeW_honest lin h n s
    rw [removeW] at e
    rw [remove]
    dsimp only at e ⊢
    generalize Fixed.removeW lin c n s = y at ih e
    rcases y with _ | ⟨_ | _ | x, s1⟩
    · cases e
    · cases e
    · cases e; rw [ih _ _ rfl]; rfl
    · rw [ih _ _ rfl]
      dsimp only at e
      cases hx : (FMap.rmAndRebal ⟨some n, len⟩ (some (some x)) : Option (FMap K V × Option (K × V))) with
      | none => rw [hx] at e; cases e
      | some y => rw [hx] at e; cases e; rfl

end FMap
end Verif.Fixed
