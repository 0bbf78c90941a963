import Verif.AvlHeap.Spec
import Verif.Avl.ShapeOps
import Verif.Avl.Depth
/-!
# Insertion, removal, join, split, merge and retain on reference-counted memory
-/
namespace Verif.AvlH
open Heap
open Avl (Tree)
variable {K V : Type}

/-! ## Sizes of results -/

theorem size_of_toList {t : Tree K V} {l : List (K × V)} (h : t.toList = l) : t.size = l.length := by
  rw [Tree.size_eq, h]

theorem ins_size_eq [Ord K] {k : K} {v : V} : ∀ {t t' : Tree K V} {old b},
    t.ins k v = some (t', old, b) → t'.size = t.size + (if old.isNone then 1 else 0) := by
  intro t
  induction t with
  | nil =>
    intro t' old b h
    simp only [Tree.ins, Option.some.injEq, Prod.mk.injEq] at h
    rw [← h.1, ← h.2.1]; simp [Tree.mk, Tree.size]
  | node nk nv lh rh l r ihl ihr =>
    intro t' old b h
    simp only [Tree.ins] at h
    split at h
    · simp only [Option.some.injEq, Prod.mk.injEq] at h
      rw [← h.1, ← h.2.1]; simp [Tree.size]
    · split at h
      · cases h
      · rename_i l' old' b' e
        simp only [Option.map_eq_some_iff, Prod.exists, Prod.mk.injEq] at h
        obtain ⟨t1, b1, h1, rfl, rfl, -⟩ := h
        have := size_of_toList (Tree.afterInsLf_toList h1)
        simp only [List.length_append, List.length_cons, ← Tree.size_eq] at this
        have := ihl e
        simp only [Tree.size]; omega
    · split at h
      · cases h
      · rename_i l' old' b' e
        simp only [Option.map_eq_some_iff, Prod.exists, Prod.mk.injEq] at h
        obtain ⟨t1, b1, h1, rfl, rfl, -⟩ := h
        have := size_of_toList (Tree.afterInsRt_toList h1)
        simp only [List.length_append, List.length_cons, ← Tree.size_eq] at this
        have := ihr e
        simp only [Tree.size]; omega

theorem ins_size [Ord K] {k : K} {v : V} {t t' : Tree K V} {old b}
    (h : t.ins k v = some (t', old, b)) : t'.size ≤ t.size + 1 := by
  rw [ins_size_eq h]; split <;> omega

theorem rmLeftmost_size {t t' : Tree K V} {kv sh} (h : t.rmLeftmost = some (t', kv, sh)) :
    t'.size = t.size - 1 := by
  rw [size_of_toList (Tree.rmLeftmost_toList h).1, List.length_tail, ← Tree.size_eq]

theorem rmRightmost_size {t t' : Tree K V} {kv sh} (h : t.rmRightmost = some (t', kv, sh)) :
    t'.size = t.size - 1 := by
  rw [size_of_toList (Tree.rmRightmost_toList h).1, List.length_dropLast, ← Tree.size_eq]

theorem rmLeftmost_size' {t t' : Tree K V} {kv sh} (h : t.rmLeftmost = some (t', kv, sh)) :
    t'.size + kv.toList.length = t.size := by
  obtain ⟨h1, h2⟩ := Tree.rmLeftmost_toList h
  rw [size_of_toList h1, Tree.size_eq, h2]
  cases t.toList <;> simp

theorem rmRightmost_size' {t t' : Tree K V} {kv sh} (h : t.rmRightmost = some (t', kv, sh)) :
    t'.size + kv.toList.length = t.size := by
  obtain ⟨h1, h2⟩ := Tree.rmRightmost_toList h
  rw [size_of_toList h1, Tree.size_eq, h2]
  cases t.toList <;> simp

theorem rm_size_eq {p : K → Ordering} : ∀ {t t' : Tree K V} {kv b},
    t.rm p = some (t', kv, b) → t'.size + kv.toList.length = t.size := by
  intro t
  induction t with
  | nil =>
    intro t' old b h
    simp only [Tree.rm, Option.some.injEq, Prod.mk.injEq] at h
    rw [← h.1, ← h.2.1]; rfl
  | node nk nv lh rh l r ihl ihr =>
    intro t' old b h
    simp only [Tree.rm] at h
    split at h
    · split at h
      · cases h
      · rename_i l' old' b' e
        simp only [Option.map_eq_some_iff, Prod.exists, Prod.mk.injEq] at h
        obtain ⟨t1, b1, h1, rfl, rfl, -⟩ := h
        have := size_of_toList (Tree.afterRmLf_toList h1)
        simp only [List.length_append, List.length_cons, ← Tree.size_eq] at this
        have := ihl e
        simp only [Tree.size]; omega
    · split at h
      · cases h
      · rename_i l' old' b' e
        simp only [Option.map_eq_some_iff, Prod.exists, Prod.mk.injEq] at h
        obtain ⟨t1, b1, h1, rfl, rfl, -⟩ := h
        have := size_of_toList (Tree.afterRmRt_toList h1)
        simp only [List.length_append, List.length_cons, ← Tree.size_eq] at this
        have := ihr e
        simp only [Tree.size]; omega
    · split at h
      · simp only [Option.some.injEq, Prod.mk.injEq] at h
        rw [← h.1, ← h.2.1]; simp [Tree.size]
      · simp only [Option.some.injEq, Prod.mk.injEq] at h
        rw [← h.1, ← h.2.1]; simp [Tree.size]; omega
      · simp only [Option.some.injEq, Prod.mk.injEq] at h
        rw [← h.1, ← h.2.1]; simp [Tree.size]
      · split at h
        · rename_i r' sk sv b' e
          simp only [Option.map_eq_some_iff, Prod.exists, Prod.mk.injEq] at h
          obtain ⟨t1, b1, h1, rfl, rfl, -⟩ := h
          have := size_of_toList (Tree.afterRmRt_toList h1)
          simp only [List.length_append, List.length_cons, ← Tree.size_eq] at this
          have := rmLeftmost_size' e
          simp [Tree.size] at this ⊢; omega
        · cases h

theorem rm_size {p : K → Ordering} {t t' : Tree K V} {kv b}
    (h : t.rm p = some (t', kv, b)) : t'.size ≤ t.size := by
  have := rm_size_eq h; omega

theorem join_size {l r t : Tree K V} {k : K} {v : V} (h : Tree.join l k v r = some t) :
    t.size = l.size + 1 + r.size := by
  rw [size_of_toList (Tree.join_toList h)]
  simp only [List.length_append, List.length_cons, ← Tree.size_eq]; omega

theorem join2_size {l r t : Tree K V} {kv : Option (K × V)} (h : Tree.join2 l kv r = some t) :
    t.size ≤ l.size + 1 + r.size := by
  rw [size_of_toList (Tree.join2_toList h)]
  simp only [List.length_append, ← Tree.size_eq]
  cases kv <;> simp <;> omega

theorem join2_none_size {l r t : Tree K V} (h : Tree.join2 l none r = some t) :
    t.size = l.size + r.size := by
  rw [size_of_toList (Tree.join2_toList h)]
  simp [Tree.size_eq]

theorem split_size {p : K → Ordering} : ∀ {t l' r' : Tree K V} {kv : Option (K × V)},
    t.split p = some (l', kv, r') → l'.size + kv.toList.length + r'.size = t.size := by
  intro t
  induction t with
  | nil =>
    intro l' r' kv h
    simp only [Tree.split, Option.some.injEq, Prod.mk.injEq] at h
    obtain ⟨rfl, rfl, rfl⟩ := h; rfl
  | node nk nv lh rh l r ihl ihr =>
    intro l' r' kv h
    simp only [Tree.split] at h
    split at h
    · simp only [Option.some.injEq, Prod.mk.injEq] at h
      obtain ⟨rfl, rfl, rfl⟩ := h; rfl
    · split at h
      · cases h
      · rename_i l1 kv1 r1 e
        simp only [Option.map_eq_some_iff, Prod.mk.injEq] at h
        obtain ⟨t1, h1, rfl, rfl, rfl⟩ := h
        have := ihl e
        have := join_size h1
        simp only [Tree.size]; omega
    · split at h
      · cases h
      · rename_i l1 kv1 r1 e
        simp only [Option.map_eq_some_iff, Prod.mk.injEq] at h
        obtain ⟨t1, h1, rfl, rfl, rfl⟩ := h
        have := ihr e
        have := join_size h1
        simp only [Tree.size]; omega

theorem merge_size [Ord K] {kl kr : Bool} {dec : K × V → K × V → Option (K × V)} :
    ∀ {t1 t2 t : Tree K V}, Tree.merge kl kr dec t1 t2 = some t → t.size ≤ t1.size + t2.size := by
  intro t1
  induction t1 with
  | nil =>
    intro t2 t h
    simp only [Tree.merge] at h
    split at h <;> cases h
    · omega
    · simp
  | node k v lh rh l r ihl ihr =>
    intro t2 t h
    cases t2 with
    | nil =>
      simp only [Tree.merge] at h
      split at h <;> cases h
      · omega
      · simp
    | node k2 v2 lh2 rh2 l2 r2 =>
      simp only [Tree.merge] at h
      split at h
      · cases h
      · rename_i lt kv2 gt e
        split at h
        · cases h
        · rename_i l' e1
          split at h
          · cases h
          · rename_i r' e2
            have := ihl e1
            have := ihr e2
            have := split_size e
            have := join2_size h
            simp only [Tree.size] at *
            omega

theorem retain_size {σ : Type} {f : σ → K → V → Option (σ × V × Bool)} :
    ∀ {t t' : Tree K V} {s s' : σ} {n : Nat}, Tree.retain f s t = some (s', t', n) →
      t'.size ≤ t.size := by
  intro t
  induction t with
  | nil =>
    intro t' s s' n h
    simp only [Tree.retain, Option.some.injEq, Prod.mk.injEq] at h
    rw [← h.2.1]
  | node k v lh rh l r ihl ihr =>
    intro t' s s' n h
    simp only [Tree.retain] at h
    split at h
    · cases h
    · rename_i s1 l' nl e1
      split at h
      · cases h
      · rename_i s2 r' nr e2
        have := ihl e1
        have := ihr e2
        split at h
        · cases h
        · simp only [Option.map_eq_some_iff, Prod.mk.injEq] at h
          obtain ⟨t1, h1, -, rfl, -⟩ := h
          have := join_size h1
          simp only [Tree.size]; omega
        · simp only [Option.map_eq_some_iff, Prod.mk.injEq] at h
          obtain ⟨t1, h1, -, rfl, -⟩ := h
          have := join2_none_size h1
          simp only [Tree.size]; omega

@[simp] theorem own_vt_nil : own none (vt (.nil : Tree K V)) = 0 := rfl

/-! ## Insertion and removal -/

theorem depth_le_size : ∀ t : Tree K V, t.depth ≤ t.size
  | .nil => Nat.le_refl _
  | .node _ _ _ _ l r => by
    have := depth_le_size l
    have := depth_le_size r
    simp only [Tree.depth, Tree.size]
    omega

theorem ins_spec_depth [Ord K] {D : Nat} {k : K} {v : V} : ∀ {t t' : Tree K V} {old : Option V} {b : Bool}
    {n : Nat} {r : Option Nat}, t.ins k v = some (t', old, b) → t.size + 1 ≤ D → t.depth ≤ n →
    wp (ins D k v n r) (own r (vt t)) (fun x L => ∃ r', x = (r', old, b) ∧ L = own r' (vt t')) := by
  intro t
  induction t with
  | nil =>
    intro t' old b n r h hD hn
    simp only [Tree.ins, Option.some.injEq, Prod.mk.injEq] at h
    obtain ⟨rfl, rfl, rfl⟩ := h
    refine wp_nil 0 (add_zero _).symm ?_
    rintro rfl
    have e : ins D k v n none =
        (optNew k v none none).bind fun r => .pure (r, none, true) := by cases n <;> rfl
    rw [e]
    have := optNew_spec (k := k) (v := v) (l := none) (r := none) (tl := .nil) (tr := .nil)
    rw [own_vt_nil, add_zero] at this
    wcall this
    rintro r' _ rfl
    exact wp_pure ⟨r', rfl, by simp⟩
  | node nk nv lh rh l r ihl ihr =>
    intro t' old b n rr h hD hn
    simp only [Tree.size] at hD
    simp only [Tree.depth] at hn
    obtain ⟨n, rfl⟩ : ∃ m, n = m + 1 := ⟨n - 1, by omega⟩
    refine wp_node 0 (add_zero _).symm ?_
    rintro a rfl
    simp only [ins]
    wcall makeMut_tree ?_
    · simp only [Tree.size]; omega
    rintro a _ rfl
    wcall openN_tree
    rintro _ _ ⟨l1, r1, rfl, rfl⟩
    simp only [Tree.ins] at h
    dsimp only
    cases hc : compare k nk with
    | eq =>
      simp only [hc, Option.some.injEq, Prod.mk.injEq] at h ⊢
      obtain ⟨rfl, rfl, rfl⟩ := h
      wcall closeN_tree
      rintro _ _ rfl
      refine wp_forget _ (by wframe) (wp_pure ⟨_, rfl, by simp⟩)
    | lt =>
      simp only [hc] at h ⊢
      split at h
      · cases h
      · rename_i l' old' b' e
        simp only [Option.map_eq_some_iff, Prod.exists, Prod.mk.injEq] at h
        obtain ⟨t1, b1, h1, rfl, rfl, rfl⟩ := h
        have := ins_size e
        wcall ihl e (by omega) (by omega)
        rintro _ _ ⟨l2, rfl, rfl⟩
        wcall afterInsLf_spec h1 (by omega)
        rintro _ _ ⟨r', rfl, rfl⟩
        exact wp_pure ⟨r', rfl, by simp⟩
    | gt =>
      simp only [hc] at h ⊢
      split at h
      · cases h
      · rename_i l' old' b' e
        simp only [Option.map_eq_some_iff, Prod.exists, Prod.mk.injEq] at h
        obtain ⟨t1, b1, h1, rfl, rfl, rfl⟩ := h
        have := ins_size e
        wcall ihr e (by omega) (by omega)
        rintro _ _ ⟨l2, rfl, rfl⟩
        wcall afterInsRt_spec h1 (by omega)
        rintro _ _ ⟨r', rfl, rfl⟩
        exact wp_pure ⟨r', rfl, by simp⟩

theorem rmLeftmost_spec_depth {D : Nat} : ∀ {t t' : Tree K V} {kv : Option (K × V)} {b : Bool}
    {n : Nat} {r : Option Nat}, t.rmLeftmost = some (t', kv, b) → t.size ≤ D → t.depth ≤ n →
    wp (rmLeftmost D n r) (own r (vt t))
      (fun x L => ∃ r', x = (r', kv, b) ∧ L = own r' (vt t')) := by
  intro t
  induction t with
  | nil =>
    intro t' old b n r h hD hn
    simp only [Tree.rmLeftmost, Option.some.injEq, Prod.mk.injEq] at h
    obtain ⟨rfl, rfl, rfl⟩ := h
    refine wp_nil 0 (add_zero _).symm ?_
    rintro rfl
    have e : (rmLeftmost D n none : Prog (ND K V) _) = .pure (none, none, false) := by
      cases n <;> rfl
    rw [e]
    exact wp_pure ⟨none, rfl, rfl⟩
  | node k v lh rh l r ihl ihr =>
    intro t' kv b n rr h hD hn
    simp only [Tree.size] at hD
    simp only [Tree.depth] at hn
    obtain ⟨n, rfl⟩ : ∃ m, n = m + 1 := ⟨n - 1, by omega⟩
    refine wp_node 0 (add_zero _).symm ?_
    rintro a rfl
    simp only [rmLeftmost]
    wcall makeMut_tree ?_
    · simp only [Tree.size]; omega
    rintro a _ rfl
    wcall readN_uown
    rintro _ _ ⟨rfl, rfl⟩
    cases l with
    | nil =>
      simp only [Tree.rmLeftmost, Option.some.injEq, Prod.mk.injEq] at h
      obtain ⟨rfl, rfl, rfl⟩ := h
      simp only [isNode_nil, Bool.false_eq_true, if_false]
      wcall takeNode_spec
      rintro _ _ ⟨l1, r1, rfl, rfl⟩
      refine wp_nil _ (by wframe) ?_
      rintro rfl
      exact wp_pure ⟨_, rfl, by simp⟩
    | node lk lv llh lrh ll lr =>
      simp only [Tree.rmLeftmost] at h
      simp only [isNode_node, if_true]
      split at h
      · cases h
      · rename_i l' kv' b' e
        simp only [Option.map_eq_some_iff, Prod.exists, Prod.mk.injEq] at h
        obtain ⟨t1, b1, h1, rfl, rfl, rfl⟩ := h
        wcall openN_tree
        rintro _ _ ⟨l1, r1, rfl, rfl⟩
        have := rmLeftmost_size e
        wcall ihl e (by omega) (by omega)
        rintro _ _ ⟨l2, rfl, rfl⟩
        wcall afterRmLf_spec h1 (by omega)
        rintro _ _ ⟨r', rfl, rfl⟩
        exact wp_pure ⟨r', rfl, by simp⟩

theorem rmRightmost_spec_depth {D : Nat} : ∀ {t t' : Tree K V} {kv : Option (K × V)} {b : Bool}
    {n : Nat} {r : Option Nat}, t.rmRightmost = some (t', kv, b) → t.size ≤ D → t.depth ≤ n →
    wp (rmRightmost D n r) (own r (vt t))
      (fun x L => ∃ r', x = (r', kv, b) ∧ L = own r' (vt t')) := by
  intro t
  induction t with
  | nil =>
    intro t' old b n r h hD hn
    simp only [Tree.rmRightmost, Option.some.injEq, Prod.mk.injEq] at h
    obtain ⟨rfl, rfl, rfl⟩ := h
    refine wp_nil 0 (add_zero _).symm ?_
    rintro rfl
    have e : (rmRightmost D n none : Prog (ND K V) _) = .pure (none, none, false) := by
      cases n <;> rfl
    rw [e]
    exact wp_pure ⟨none, rfl, rfl⟩
  | node k v lh rh l r ihl ihr =>
    intro t' kv b n rr h hD hn
    simp only [Tree.size] at hD
    simp only [Tree.depth] at hn
    obtain ⟨n, rfl⟩ : ∃ m, n = m + 1 := ⟨n - 1, by omega⟩
    refine wp_node 0 (add_zero _).symm ?_
    rintro a rfl
    simp only [rmRightmost]
    wcall makeMut_tree ?_
    · simp only [Tree.size]; omega
    rintro a _ rfl
    wcall readN_uown
    rintro _ _ ⟨rfl, rfl⟩
    cases r with
    | nil =>
      simp only [Tree.rmRightmost, Option.some.injEq, Prod.mk.injEq] at h
      obtain ⟨rfl, rfl, rfl⟩ := h
      simp only [isNode_nil, Bool.false_eq_true, if_false]
      wcall takeNode_spec
      rintro _ _ ⟨l1, r1, rfl, rfl⟩
      refine wp_nil _ (by wframe) ?_
      rintro rfl
      exact wp_pure ⟨_, rfl, by simp⟩
    | node lk lv llh lrh ll lr =>
      simp only [Tree.rmRightmost] at h
      simp only [isNode_node, if_true]
      split at h
      · cases h
      · rename_i l' kv' b' e
        simp only [Option.map_eq_some_iff, Prod.exists, Prod.mk.injEq] at h
        obtain ⟨t1, b1, h1, rfl, rfl, rfl⟩ := h
        wcall openN_tree
        rintro _ _ ⟨l1, r1, rfl, rfl⟩
        have := rmRightmost_size e
        wcall ihr e (by omega) (by omega)
        rintro _ _ ⟨l2, rfl, rfl⟩
        wcall afterRmRt_spec h1 (by omega)
        rintro _ _ ⟨r', rfl, rfl⟩
        exact wp_pure ⟨r', rfl, by simp⟩

theorem rm_none {D n : Nat} {p : K → Ordering} :
    (rm D p n none : Prog (ND K V) _) = .pure (none, none, false) := by cases n <;> rfl

theorem rm_spec_depth {D : Nat} {p : K → Ordering} : ∀ {t t' : Tree K V} {kv : Option (K × V)} {b : Bool}
    {n : Nat} {r : Option Nat}, t.rm p = some (t', kv, b) → t.size ≤ D → t.depth ≤ n →
    wp (rm D p n r) (own r (vt t)) (fun x L => ∃ r', x = (r', kv, b) ∧ L = own r' (vt t')) := by
  intro t
  induction t with
  | nil =>
    intro t' old b n r h hD hn
    simp only [Tree.rm, Option.some.injEq, Prod.mk.injEq] at h
    obtain ⟨rfl, rfl, rfl⟩ := h
    refine wp_nil 0 (add_zero _).symm ?_
    rintro rfl
    rw [rm_none]
    exact wp_pure ⟨none, rfl, rfl⟩
  | node k v lh rh l r ihl ihr =>
    intro t' kv b n rr h hD hn
    simp only [Tree.size] at hD
    simp only [Tree.depth] at hn
    obtain ⟨n, rfl⟩ : ∃ m, n = m + 1 := ⟨n - 1, by omega⟩
    refine wp_node 0 (add_zero _).symm ?_
    rintro a rfl
    simp only [rm]
    wcall makeMut_tree ?_
    · simp only [Tree.size]; omega
    rintro a _ rfl
    wcall readN_uown
    rintro _ _ ⟨rfl, rfl⟩
    simp only [Tree.rm] at h
    dsimp only
    cases hc : p k with
    | lt =>
      simp only [hc] at h ⊢
      split at h
      · cases h
      · rename_i l' kv' b' e
        simp only [Option.map_eq_some_iff, Prod.exists, Prod.mk.injEq] at h
        obtain ⟨t1, b1, h1, rfl, rfl, rfl⟩ := h
        wcall openN_tree
        rintro _ _ ⟨l1, r1, rfl, rfl⟩
        have := rm_size e
        wcall ihl e (by omega) (by omega)
        rintro _ _ ⟨l2, rfl, rfl⟩
        wcall afterRmLf_spec h1 (by omega)
        rintro _ _ ⟨r', rfl, rfl⟩
        exact wp_pure ⟨r', rfl, by simp⟩
    | gt =>
      simp only [hc] at h ⊢
      split at h
      · cases h
      · rename_i l' kv' b' e
        simp only [Option.map_eq_some_iff, Prod.exists, Prod.mk.injEq] at h
        obtain ⟨t1, b1, h1, rfl, rfl, rfl⟩ := h
        wcall openN_tree
        rintro _ _ ⟨l1, r1, rfl, rfl⟩
        have := rm_size e
        wcall ihr e (by omega) (by omega)
        rintro _ _ ⟨l2, rfl, rfl⟩
        wcall afterRmRt_spec h1 (by omega)
        rintro _ _ ⟨r', rfl, rfl⟩
        exact wp_pure ⟨r', rfl, by simp⟩
    | eq =>
      simp only [hc] at h ⊢
      cases l with
      | nil =>
        cases r with
        | nil =>
          simp only [Option.some.injEq, Prod.mk.injEq] at h
          obtain ⟨rfl, rfl, rfl⟩ := h
          simp only [isNode_nil]
          wcall takeNode_spec
          rintro _ _ ⟨l1, r1, rfl, rfl⟩
          refine wp_nil (r := l1) _ (by wframe) ?_
          rintro rfl
          refine wp_nil (r := r1) _ (by wframe) ?_
          rintro rfl
          exact wp_pure ⟨_, rfl, by simp⟩
        | node rk rv rlh rrh rl rr =>
          simp only [Option.some.injEq, Prod.mk.injEq] at h
          obtain ⟨rfl, rfl, rfl⟩ := h
          simp only [isNode_nil, isNode_node]
          wcall takeNode_spec
          rintro _ _ ⟨l1, r1, rfl, rfl⟩
          refine wp_nil (r := l1) _ (by wframe) ?_
          rintro rfl
          exact wp_pure ⟨_, rfl, by simp⟩
      | node lk lv llh lrh ll lr =>
        cases r with
        | nil =>
          simp only [Option.some.injEq, Prod.mk.injEq] at h
          obtain ⟨rfl, rfl, rfl⟩ := h
          simp only [isNode_nil, isNode_node]
          wcall takeNode_spec
          rintro _ _ ⟨l1, r1, rfl, rfl⟩
          refine wp_nil (r := r1) _ (by wframe) ?_
          rintro rfl
          exact wp_pure ⟨_, rfl, by simp⟩
        | node rk rv rlh rrh rl rr =>
          dsimp only at h
          simp only [isNode_node]
          split at h
          · rename_i r' sk sv b' e
            simp only [Option.map_eq_some_iff, Prod.exists, Prod.mk.injEq] at h
            obtain ⟨t1, b1, h1, rfl, rfl, rfl⟩ := h
            wcall openN_tree
            rintro _ _ ⟨l1, r1, rfl, rfl⟩
            have := rmLeftmost_size e
            wcall rmLeftmost_spec_depth e (by omega) (by omega)
            rintro _ _ ⟨l2, rfl, rfl⟩
            dsimp only
            wcall afterRmRt_spec h1 (by omega)
            rintro _ _ ⟨r', rfl, rfl⟩
            exact wp_pure ⟨r', rfl, by simp⟩
          · cases h

theorem ins_spec [Ord K] {D : Nat} {k : K} {v : V} {t t' : Tree K V} {old : Option V} {b : Bool}
    {n : Nat} {r : Option Nat} (h : t.ins k v = some (t', old, b)) (hD : t.size + 1 ≤ D)
    (hn : t.size ≤ n) :
    wp (ins D k v n r) (own r (vt t)) (fun x L => ∃ r', x = (r', old, b) ∧ L = own r' (vt t')) :=
  ins_spec_depth h hD (Nat.le_trans (depth_le_size t) hn)

theorem rmLeftmost_spec {D : Nat} {t t' : Tree K V} {kv : Option (K × V)} {b : Bool}
    {n : Nat} {r : Option Nat} (h : t.rmLeftmost = some (t', kv, b)) (hD : t.size ≤ D)
    (hn : t.size ≤ n) :
    wp (rmLeftmost D n r) (own r (vt t))
      (fun x L => ∃ r', x = (r', kv, b) ∧ L = own r' (vt t')) :=
  rmLeftmost_spec_depth h hD (Nat.le_trans (depth_le_size t) hn)

theorem rmRightmost_spec {D : Nat} {t t' : Tree K V} {kv : Option (K × V)} {b : Bool}
    {n : Nat} {r : Option Nat} (h : t.rmRightmost = some (t', kv, b)) (hD : t.size ≤ D)
    (hn : t.size ≤ n) :
    wp (rmRightmost D n r) (own r (vt t))
      (fun x L => ∃ r', x = (r', kv, b) ∧ L = own r' (vt t')) :=
  rmRightmost_spec_depth h hD (Nat.le_trans (depth_le_size t) hn)

theorem rm_spec {D : Nat} {p : K → Ordering} {t t' : Tree K V} {kv : Option (K × V)} {b : Bool}
    {n : Nat} {r : Option Nat} (h : t.rm p = some (t', kv, b)) (hD : t.size ≤ D)
    (hn : t.size ≤ n) :
    wp (rm D p n r) (own r (vt t)) (fun x L => ∃ r', x = (r', kv, b) ∧ L = own r' (vt t')) :=
  rm_spec_depth h hD (Nat.le_trans (depth_le_size t) hn)


/-! ## Join, split, merge, retain -/

theorem joinRt_spec {D : Nat} {k : K} {v : V} {tr : Tree K V} : ∀ {tl t : Tree K V} {n a : Nat}
    {r : Option Nat}, Tree.joinRt tl k v tr = some t → tl.size + 1 + tr.size ≤ D → tl.size ≤ n →
    wp (joinRt D k v n a r) (own (some a) (vt tl) + own r (vt tr))
      (fun x L => L = own x (vt t)) := by
  intro tl
  induction tl with
  | nil => intro t n a r h; cases h
  | node lk lv lh rh l c ihl ihc =>
    intro t n a r h hD hn
    simp only [Tree.size] at hD hn
    obtain ⟨n, rfl⟩ : ∃ m, n = m + 1 := ⟨n - 1, by omega⟩
    simp only [Tree.joinRt] at h
    simp only [joinRt]
    split at h
    · rename_i hh
      wcall readN_own
      rintro _ _ ⟨rfl, rfl⟩
      wcall height_spec
      rintro _ _ ⟨rfl, rfl⟩
      rw [if_pos (by exact hh)]
      wcall makeMut_tree ?_
      · simp only [Tree.size]; omega
      rintro a _ rfl
      wcall openN_tree
      rintro _ _ ⟨l1, c1, rfl, rfl⟩
      wcall height_spec
      rintro _ _ ⟨rfl, rfl⟩
      wcall height_spec
      rintro _ _ ⟨rfl, rfl⟩
      split at h
      · rename_i hc
        rw [if_pos hc]
        wcall optNew_spec (l := c1) (r := r) (tl := c) (tr := tr)
        rintro t1 _ rfl
        wcall height_spec
        rintro _ _ ⟨rfl, rfl⟩
        split at h
        · rename_i hb
          simp only [Option.some.injEq] at h
          subst h
          rw [if_pos hb]
          wcall closeN_tree
          rintro _ _ rfl
          exact wp_forget _ (by wframe) (wp_pure (by simp))
        · rename_i hb
          rw [if_neg hb]
          split at h
          · cases h
          · rename_i t1' sh e
            simp only [Option.map_eq_some_iff, Prod.exists, exists_and_right, exists_eq_right] at h
            obtain ⟨b', h1⟩ := h
            have hs := size_of_toList (Tree.rotRt_toList e)
            simp only [← Tree.size_eq, Tree.mk, Tree.size] at hs
            wcall rotRt_spec e (by simp only [Tree.mk, Tree.size]; omega)
            rintro _ _ ⟨r', rfl, rfl⟩
            wcall closeN_tree
            rintro _ _ rfl
            refine wp_forget _ (by wframe) ?_
            wcall rotLf_spec h1 (by simp only [Tree.size]; omega)
            rintro _ _ ⟨r', rfl, rfl⟩
            exact wp_pure (by simp)
      · rename_i hc
        rw [if_neg hc]
        split at h
        · cases h
        · rename_i t1 e
          have hs := size_of_toList (Tree.joinRt_toList e)
          simp only [List.length_append, List.length_cons, ← Tree.size_eq] at hs
          cases c with
          | nil => cases e
          | node ck cv clh crh cl cr =>
            refine wp_node (r := c1) _ (by wframe) ?_
            rintro c1 rfl
            dsimp only
            wcall ihc e (by omega) (by omega)
            rintro x _ rfl
            wcall height_spec
            rintro _ _ ⟨rfl, rfl⟩
            wcall closeN_tree
            rintro _ _ rfl
            refine wp_forget _ (by wframe) ?_
            split at h
            · rename_i hb
              simp only [Option.some.injEq] at h
              subst h
              rw [if_pos hb]
              exact wp_pure (by simp)
            · rename_i hb
              rw [if_neg hb]
              simp only [Option.map_eq_some_iff, Prod.exists, exists_and_right,
                exists_eq_right] at h
              obtain ⟨b', h1⟩ := h
              wcall rotLf_spec h1 (by simp only [Tree.size]; simp only [Tree.size] at hD hs; omega)
              rintro _ _ ⟨r', rfl, rfl⟩
              exact wp_pure (by simp)
    · cases h

theorem joinLf_spec {D : Nat} {k : K} {v : V} {tl : Tree K V} : ∀ {tr t : Tree K V} {n a : Nat}
    {r : Option Nat}, Tree.joinLf tl k v tr = some t → tl.size + 1 + tr.size ≤ D → tr.size ≤ n →
    wp (joinLf D k v n r a) (own r (vt tl) + own (some a) (vt tr))
      (fun x L => L = own x (vt t)) := by
  intro tr
  induction tr with
  | nil => intro t n a r h; cases h
  | node lk lv lh rh c l ihc ihl =>
    intro t n a r h hD hn
    simp only [Tree.size] at hD hn
    obtain ⟨n, rfl⟩ : ∃ m, n = m + 1 := ⟨n - 1, by omega⟩
    simp only [Tree.joinLf] at h
    simp only [joinLf]
    split at h
    · rename_i hh
      wcall readN_own
      rintro _ _ ⟨rfl, rfl⟩
      wcall height_spec
      rintro _ _ ⟨rfl, rfl⟩
      rw [if_pos (by exact hh)]
      wcall makeMut_tree ?_
      · simp only [Tree.size]; omega
      rintro a _ rfl
      wcall openN_tree
      rintro _ _ ⟨c1, l1, rfl, rfl⟩
      wcall height_spec
      rintro _ _ ⟨rfl, rfl⟩
      wcall height_spec
      rintro _ _ ⟨rfl, rfl⟩
      split at h
      · rename_i hc
        rw [if_pos hc]
        wcall optNew_spec (l := r) (r := c1) (tl := tl) (tr := c)
        rintro t1 _ rfl
        wcall height_spec
        rintro _ _ ⟨rfl, rfl⟩
        split at h
        · rename_i hb
          simp only [Option.some.injEq] at h
          subst h
          rw [if_pos hb]
          wcall closeN_tree
          rintro _ _ rfl
          exact wp_forget _ (by wframe) (wp_pure (by simp))
        · rename_i hb
          rw [if_neg hb]
          split at h
          · cases h
          · rename_i t1' sh e
            have hs := size_of_toList (Tree.rotLf_toList e)
            simp only [← Tree.size_eq, Tree.mk, Tree.size] at hs
            wcall rotLf_spec e (by simp only [Tree.mk, Tree.size]; omega)
            rintro _ _ ⟨r', rfl, rfl⟩
            wcall closeN_tree
            rintro _ _ rfl
            refine wp_forget _ (by wframe) ?_
            split at h
            · cases h
            · rename_i t2 b2 h1
              wcall rotRt_spec h1 (by simp only [Tree.size]; omega)
              rintro _ _ ⟨r', rfl, rfl⟩
              cases t2 with
              | nil => cases h
              | node k2 v2 lh2 rh2 l2 r2 =>
                refine wp_node _ (by wframe) ?_
                rintro a2 rfl
                dsimp only
                wcall readN_own
                rintro _ _ ⟨rfl, rfl⟩
                simp only [Tree.bal?] at h
                split at h
                · rename_i hb2
                  simp only [Option.some.injEq] at h
                  rw [if_pos (by exact hb2), h]
                  exact wp_pure (by simp)
                · cases h
      · rename_i hc
        rw [if_neg hc]
        split at h
        · cases h
        · rename_i t1 e
          have hs := size_of_toList (Tree.joinLf_toList e)
          simp only [List.length_append, List.length_cons, ← Tree.size_eq] at hs
          cases c with
          | nil => cases e
          | node ck cv clh crh cl cr =>
            refine wp_node (r := c1) _ (by wframe) ?_
            rintro c1 rfl
            dsimp only
            wcall ihc e (by omega) (by omega)
            rintro x _ rfl
            wcall height_spec
            rintro _ _ ⟨rfl, rfl⟩
            wcall closeN_tree
            rintro _ _ rfl
            refine wp_forget _ (by wframe) ?_
            split at h
            · rename_i hb
              simp only [Option.some.injEq] at h
              subst h
              rw [if_pos hb]
              exact wp_pure (by simp)
            · rename_i hb
              rw [if_neg hb]
              simp only [Option.map_eq_some_iff, Prod.exists, exists_and_right,
                exists_eq_right] at h
              obtain ⟨b', h1⟩ := h
              wcall rotRt_spec h1 (by simp only [Tree.size]; simp only [Tree.size] at hD hs; omega)
              rintro _ _ ⟨r', rfl, rfl⟩
              exact wp_pure (by simp)
    · cases h

theorem join_spec {D n : Nat} {k : K} {v : V} {tl tr t : Tree K V} {l r : Option Nat}
    (h : Tree.join tl k v tr = some t) (hD : tl.size + 1 + tr.size ≤ D)
    (hn : tl.size + tr.size ≤ n) :
    wp (join D n l k v r) (own l (vt tl) + own r (vt tr)) (fun x L => L = own x (vt t)) := by
  unfold Tree.join at h
  unfold join
  dsimp only at h
  wcall height_spec (r := r)
  rintro _ _ ⟨rfl, rfl⟩
  wcall height_spec (r := l)
  rintro _ _ ⟨rfl, rfl⟩
  split at h
  · rename_i hb
    rw [if_pos hb]
    cases tl with
    | nil => cases h
    | node lk lv llh lrh ll lr =>
      refine wp_node (r := l) _ (by wframe) ?_
      rintro a rfl
      exact joinRt_spec h hD (by omega)
  · rename_i hb
    rw [if_neg hb]
    split at h
    · rename_i hb
      rw [if_pos hb]
      cases tr with
      | nil => cases h
      | node lk lv llh lrh ll lr =>
        refine wp_node (r := r) _ (by wframe) ?_
        rintro a rfl
        dsimp only
        wtail joinLf_spec h hD (by omega)
        rintro x _ rfl
        simp
    · rename_i hb
      rw [if_neg hb]
      simp only [Option.some.injEq] at h
      subst h
      wtail optNew_spec
      rintro x _ rfl
      simp

theorem join2_spec {D n : Nat} {kv : Option (K × V)} {tl tr t : Tree K V} {l r : Option Nat}
    (h : Tree.join2 tl kv tr = some t) (hD : tl.size + 1 + tr.size ≤ D)
    (hn : tl.size + tr.size ≤ n) :
    wp (join2 D n l kv r) (own l (vt tl) + own r (vt tr)) (fun x L => L = own x (vt t)) := by
  cases kv with
  | some e => exact join_spec h hD hn
  | none =>
    simp only [Tree.join2] at h
    simp only [join2]
    cases tl with
    | nil =>
      simp only [Option.some.injEq] at h
      subst h
      refine wp_nil (r := l) _ (by wframe) ?_
      rintro rfl
      exact wp_pure (by simp)
    | node lk lv llh lrh ll lr =>
      refine wp_node (r := l) _ (by wframe) ?_
      rintro a rfl
      cases tr with
      | nil =>
        simp only [Option.some.injEq] at h
        subst h
        refine wp_nil (r := r) _ (by wframe) ?_
        rintro rfl
        exact wp_pure (by simp)
      | node rk rv rlh rrh rl rr =>
        refine wp_node (r := r) _ (by wframe) ?_
        rintro b rfl
        dsimp only at h ⊢
        split at h
        · rename_i r' k v sh e
          have := rmLeftmost_size e
          wcall rmLeftmost_spec e (by omega) (by omega)
          rintro _ _ ⟨r1, rfl, rfl⟩
          dsimp only
          wtail join_spec h (by omega) (by omega)
          rintro x _ rfl
          simp
        · cases h

theorem split_spec {D : Nat} {p : K → Ordering} : ∀ {t l' r' : Tree K V} {kv : Option (K × V)}
    {n : Nat} {r : Option Nat}, t.split p = some (l', kv, r') → t.size ≤ D → t.size ≤ n →
    wp (split D p n r) (own r (vt t))
      (fun x L => ∃ l1 r1, x = (l1, kv, r1) ∧ L = own l1 (vt l') + own r1 (vt r')) := by
  intro t
  induction t with
  | nil =>
    intro l' r' kv n r h hD hn
    simp only [Tree.split, Option.some.injEq, Prod.mk.injEq] at h
    obtain ⟨rfl, rfl, rfl⟩ := h
    refine wp_nil 0 (add_zero _).symm ?_
    rintro rfl
    have e : (split D p n none : Prog (ND K V) _) = .pure (none, none, none) := by cases n <;> rfl
    rw [e]
    exact wp_pure ⟨none, none, rfl, by simp⟩
  | node k v lh rh l r ihl ihr =>
    intro l' r' kv n rr h hD hn
    simp only [Tree.size] at hD hn
    obtain ⟨n, rfl⟩ : ∃ m, n = m + 1 := ⟨n - 1, by omega⟩
    refine wp_node 0 (add_zero _).symm ?_
    rintro a rfl
    simp only [split]
    wcall unwrapN_spec ?_
    · simp only [Tree.size]; omega
    rintro _ _ ⟨l1, r1, rfl, rfl⟩
    simp only [Tree.split] at h
    dsimp only
    cases hc : p k with
    | eq =>
      simp only [hc, Option.some.injEq, Prod.mk.injEq] at h ⊢
      obtain ⟨rfl, rfl, rfl⟩ := h
      exact wp_pure ⟨l1, r1, rfl, by simp⟩
    | lt =>
      simp only [hc] at h ⊢
      split at h
      · cases h
      · rename_i l2 kv2 r2 e
        simp only [Option.map_eq_some_iff, Prod.mk.injEq] at h
        obtain ⟨t1, h1, rfl, rfl, rfl⟩ := h
        have := split_size e
        wcall ihl e (by omega) (by omega)
        rintro _ _ ⟨l3, r3, rfl, rfl⟩
        wcall join_spec h1 (by omega) (by omega)
        rintro x _ rfl
        exact wp_pure ⟨_, _, rfl, by rw [add_comm]⟩
    | gt =>
      simp only [hc] at h ⊢
      split at h
      · cases h
      · rename_i l2 kv2 r2 e
        simp only [Option.map_eq_some_iff, Prod.mk.injEq] at h
        obtain ⟨t1, h1, rfl, rfl, rfl⟩ := h
        have := split_size e
        wcall ihr e (by omega) (by omega)
        rintro _ _ ⟨l3, r3, rfl, rfl⟩
        wcall join_spec h1 (by omega) (by omega)
        rintro x _ rfl
        exact wp_pure ⟨_, _, rfl, rfl⟩

theorem merge_spec [Ord K] {D : Nat} {kl kr : Bool} {dec : K × V → K × V → Option (K × V)} :
    ∀ {t1 t2 t : Tree K V} {n : Nat} {r1 r2 : Option Nat},
    Tree.merge kl kr dec t1 t2 = some t → t1.size + t2.size ≤ D → t1.size ≤ n →
    wp (merge D kl kr dec n r1 r2) (own r1 (vt t1) + own r2 (vt t2))
      (fun x L => L = own x (vt t)) := by
  intro t1
  induction t1 with
  | nil =>
    intro t2 t n r1 r2 h hD hn
    simp only [Tree.size] at hD
    refine wp_nil (r := r1) _ (by wframe) ?_
    rintro rfl
    have e : merge D kl kr dec n none r2 =
        if kr then .pure r2 else (drop D r2).bind fun _ => .pure none := by cases n <;> rfl
    rw [e]
    simp only [Tree.merge] at h
    cases kr with
    | true =>
      simp only [if_true, Option.some.injEq] at h ⊢
      subst h
      exact wp_pure (by simp)
    | false =>
      simp only [Bool.false_eq_true, if_false, Option.some.injEq] at h ⊢
      subst h
      wcall drop_spec (t := t2) (by omega)
      rintro _ _ rfl
      exact wp_pure (by simp)
  | node k v lh rh l r ihl ihr =>
    intro t2 t n r1 r2 h hD hn
    simp only [Tree.size] at hD hn
    refine wp_node (r := r1) _ (by wframe) ?_
    rintro a rfl
    cases t2 with
    | nil =>
      refine wp_nil (r := r2) _ (by wframe) ?_
      rintro rfl
      have e : merge D kl kr dec n (some a) none =
          if kl then .pure (some a) else (drop D (some a)).bind fun _ => .pure none := by
        cases n <;> rfl
      rw [e]
      simp only [Tree.merge] at h
      cases kl with
      | true =>
        simp only [if_true, Option.some.injEq] at h ⊢
        subst h
        exact wp_pure (by simp)
      | false =>
        simp only [Bool.false_eq_true, if_false, Option.some.injEq] at h ⊢
        subst h
        wcall drop_spec (t := .node k v lh rh l r) (by simp only [Tree.size]; omega)
        rintro _ _ rfl
        exact wp_pure (by simp)
    | node k2 v2 lh2 rh2 l2 r2' =>
      obtain ⟨n, rfl⟩ : ∃ m, n = m + 1 := ⟨n - 1, by omega⟩
      refine wp_node (r := r2) _ (by wframe) ?_
      rintro b rfl
      simp only [merge]
      simp only [Tree.merge] at h
      split at h
      · cases h
      · rename_i lt kv2 gt e
        split at h
        · cases h
        · rename_i l' e1
          split at h
          · cases h
          · rename_i r' e2
            have s1 := split_size e
            have s2 := merge_size e1
            have s3 := merge_size e2
            wcall unwrapN_spec (k := k) (v := v) (lh := lh) (rh := rh) (tl := l) (tr := r) ?_
            · simp only [Tree.size]; omega
            rintro _ _ ⟨l1, r1, rfl, rfl⟩
            wcall split_spec e (by omega) (by omega)
            rintro _ _ ⟨l3, r3, rfl, rfl⟩
            simp only [Tree.size] at s1 hD
            wcall ihl e1 (by omega) (by omega)
            rintro l4 _ rfl
            wcall ihr e2 (by omega) (by omega)
            rintro r4 _ rfl
            wtail join2_spec h ?_ ?_
            · omega
            · omega
            rintro x _ rfl
            simp

theorem retain_bal {σ : Type} {f : σ → K → V → Option (σ × V × Bool)} :
    ∀ {t t' : Tree K V} {s s' : σ} {n : Nat}, Tree.retain f s t = some (s', t', n) → t.Bal →
      t'.Bal ∧ n = t'.size := by
  intro t
  induction t with
  | nil =>
    intro t' s s' n h hB
    simp only [Tree.retain, Option.some.injEq, Prod.mk.injEq] at h
    obtain ⟨rfl, rfl, rfl⟩ := h
    exact ⟨hB, rfl⟩
  | node k v lh rh l r ihl ihr =>
    intro t' s s' n h hB
    obtain ⟨-, -, -, -, bl, br⟩ := hB
    simp only [Tree.retain] at h
    split at h
    · cases h
    · rename_i s1 l' nl e1
      split at h
      · cases h
      · rename_i s2 r' nr e2
        obtain ⟨b1, rfl⟩ := ihl e1 bl
        obtain ⟨b2, rfl⟩ := ihr e2 br
        split at h
        · cases h
        · simp only [Option.map_eq_some_iff, Prod.mk.injEq] at h
          obtain ⟨t1, h1, rfl, rfl, rfl⟩ := h
          obtain ⟨t2, h2, h3, -⟩ := Tree.join_shape l' k _ r' b1 b2
          rw [h1] at h2; cases h2
          exact ⟨h3, by rw [join_size h1]; omega⟩
        · simp only [Option.map_eq_some_iff, Prod.mk.injEq] at h
          obtain ⟨t1, h1, rfl, rfl, rfl⟩ := h
          obtain ⟨t2, h2, h3⟩ := Tree.join2_shape l' none r' b1 b2
          rw [h1] at h2; cases h2
          exact ⟨h3, by rw [join2_none_size h1]⟩

/-- What `retain` is to return. -/
def RetPost {σ : Type} (o : Option (σ × Tree K V × Nat)) (x : Option (σ × Option Nat × Nat))
    (L : Multiset (Handle (ND K V))) : Prop :=
  match o with
  | none => x = none ∧ L = 0
  | some (s', t', m) => ∃ r', x = some (s', r', m) ∧ L = own r' (vt t')

theorem retain_spec {σ : Type} {D : Nat} {f : σ → K → V → Option (σ × V × Bool)} :
    ∀ {t : Tree K V} {s : σ} {n : Nat} {r : Option Nat}, t.Bal → t.size ≤ D → t.size ≤ n →
    wp (retain D f n s r) (own r (vt t)) (RetPost (Tree.retain f s t)) := by
  intro t
  induction t with
  | nil =>
    intro s n r hB hD hn
    refine wp_nil 0 (add_zero _).symm ?_
    rintro rfl
    have e : (retain D f n s none : Prog (ND K V) _) = .pure (some (s, none, 0)) := by
      cases n <;> rfl
    rw [e]
    exact wp_pure ⟨none, rfl, by simp⟩
  | node k v lh rh l r ihl ihr =>
    intro s n rr hB hD hn
    obtain ⟨-, -, -, -, bl, br⟩ := hB
    simp only [Tree.size] at hD hn
    obtain ⟨n, rfl⟩ : ∃ m, n = m + 1 := ⟨n - 1, by omega⟩
    refine wp_node 0 (add_zero _).symm ?_
    rintro a rfl
    simp only [Tree.retain, retain]
    wcall incAt_spec (a := a) (u := false) (t := vt (.node k v lh rh l r))
      (ts := [vt l, vt r]) (path := []) (i := 0) (p := ⟨k, v, lh, rh⟩) rfl (by simp)
    rintro l1 _ rfl
    simp only [List.getElem_cons_zero]
    wcall ihl (s := s) (n := n) (r := l1) bl (by omega) (by omega)
    intro x L h1
    cases e1 : Tree.retain f s l with
    | none =>
      rw [e1] at h1
      obtain ⟨rfl, rfl⟩ := h1
      dsimp only
      wcall drop_spec (t := .node k v lh rh l r) (r := some a) (by simp only [Tree.size]; omega)
      rintro _ _ rfl
      exact wp_pure ⟨rfl, by simp⟩
    | some y =>
      obtain ⟨s1, l', nl⟩ := y
      rw [e1] at h1
      obtain ⟨l2, rfl, rfl⟩ := h1
      have z1 := retain_size e1
      obtain ⟨b1, -⟩ := retain_bal e1 bl
      dsimp only
      wcall incAt_spec (a := a) (u := false) (t := vt (.node k v lh rh l r))
        (ts := [vt l, vt r]) (path := []) (i := 1) (p := ⟨k, v, lh, rh⟩) rfl (by simp)
      rintro r1 _ rfl
      simp only [List.getElem_cons_succ, List.getElem_cons_zero]
      wcall ihr (s := s1) (n := n) (r := r1) br (by omega) (by omega)
      intro x L h2
      cases e2 : Tree.retain f s1 r with
      | none =>
        rw [e2] at h2
        obtain ⟨rfl, rfl⟩ := h2
        dsimp only
        wcall drop_spec (t := l') (r := l2) (by omega)
        rintro _ _ rfl
        wcall drop_spec (t := .node k v lh rh l r) (r := some a) (by simp only [Tree.size]; omega)
        rintro _ _ rfl
        exact wp_pure ⟨rfl, by simp⟩
      | some y =>
        obtain ⟨s2, r', nr⟩ := y
        rw [e2] at h2
        obtain ⟨r2, rfl, rfl⟩ := h2
        have z2 := retain_size e2
        obtain ⟨b2, -⟩ := retain_bal e2 br
        dsimp only
        wcall readN_spec (a := a) (u := false) (t := vt (.node k v lh rh l r)) (path := [])
          (k := k) (v := v) (lh := lh) (rh := rh) (tl := l) (tr := r) rfl
        rintro _ _ ⟨rfl, rfl⟩
        dsimp only
        rcases f s2 k v with _ | ⟨s3, v', b⟩
        · simp only [retainEnd]
          wcall drop_spec (t := r') (r := r2) (by omega)
          rintro _ _ rfl
          wcall drop_spec (t := l') (r := l2) (by omega)
          rintro _ _ rfl
          wcall drop_spec (t := .node k v lh rh l r) (r := some a) (by simp only [Tree.size]; omega)
          rintro _ _ rfl
          exact wp_pure ⟨rfl, by simp⟩
        · cases b
          · obtain ⟨t2, h2, -⟩ := Tree.join2_shape l' none r' b1 b2
            simp only [retainEnd, h2, Option.map_some]
            wcall join2_spec h2 (by omega) (by omega)
            rintro x _ rfl
            wcall drop_spec (t := .node k v lh rh l r) (r := some a) (by simp only [Tree.size]; omega)
            rintro _ _ rfl
            exact wp_pure ⟨_, rfl, by simp⟩
          · obtain ⟨t2, h2, -⟩ := Tree.join_shape l' k v' r' b1 b2
            simp only [retainEnd, h2, Option.map_some]
            wcall join_spec h2 (by omega) (by omega)
            rintro x _ rfl
            wcall drop_spec (t := .node k v lh rh l r) (r := some a) (by simp only [Tree.size]; omega)
            rintro _ _ rfl
            exact wp_pure ⟨_, rfl, by simp⟩

end Verif.AvlH
