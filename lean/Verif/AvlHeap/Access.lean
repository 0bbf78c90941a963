import Verif.AvlHeap.Ops
/-!
# Access functions of `avl.rs` on reference-counted memory
-/
namespace Verif.AvlH
open Heap
open Avl (Tree)
variable {K V : Type}

theorem sub_append {P : Type} : ∀ (t : VT P) (p q : List Nat),
    t.sub (p ++ q) = (t.sub p).bind (·.sub q)
  | t, [], q => by cases t <;> rfl
  | .nil, i :: is, q => rfl
  | .node d ts, i :: is, q => by
    show (match ts[i]? with | none => none | some t => t.sub (is ++ q)) =
      (match ts[i]? with | none => none | some t => t.sub is).bind _
    cases ts[i]? with
    | none => rfl
    | some t => exact sub_append t is q

theorem sub_kids {t : VT (ND K V)} {path : List Nat} {k : K} {v : V} {lh rh : Int}
    {tl tr : Tree K V} (hp : t.sub path = some (vt (.node k v lh rh tl tr))) :
    t.sub (path ++ [0]) = some (vt tl) ∧ t.sub (path ++ [1]) = some (vt tr) := by
  rw [sub_append, sub_append, hp]
  constructor <;> simp [vt, VT.sub]

section
variable {a : Nat} {t : VT (ND K V)} {u : Bool}

theorem lenAt_spec : ∀ {s : Tree K V} {n : Nat} {path : List Nat}, isNode s →
    t.sub path = some (vt s) → s.size ≤ n →
    wp (lenAt a n path) {⟨some a, t, u⟩} (fun x L => x = s.size ∧ L = {⟨some a, t, u⟩}) := by
  intro s
  induction s with
  | nil => intro n path h; simp at h
  | node k v lh rh l r ihl ihr =>
    intro n path _ hp hn
    simp only [Tree.size] at hn
    obtain ⟨n, rfl⟩ : ∃ m, n = m + 1 := ⟨n - 1, by omega⟩
    obtain ⟨hl, hr⟩ := sub_kids hp
    simp only [lenAt]
    wcall readN_spec hp
    rintro _ _ ⟨rfl, rfl⟩
    have q1 : wp (if isNode l then lenAt a n (path ++ [0]) else .pure 0) {⟨some a, t, u⟩}
        (fun x L => x = l.size ∧ L = {⟨some a, t, u⟩}) := by
      cases l with
      | nil => exact wp_pure ⟨rfl, rfl⟩
      | node => exact ihl rfl hl (by omega)
    have q2 : wp (if isNode r then lenAt a n (path ++ [1]) else .pure 0) {⟨some a, t, u⟩}
        (fun x L => x = r.size ∧ L = {⟨some a, t, u⟩}) := by
      cases r with
      | nil => exact wp_pure ⟨rfl, rfl⟩
      | node => exact ihr rfl hr (by omega)
    wcall q1
    rintro _ _ ⟨rfl, rfl⟩
    wcall q2
    rintro _ _ ⟨rfl, rfl⟩
    exact wp_pure ⟨rfl, by simp⟩

theorem getAt_spec {p : K → Ordering} : ∀ {s : Tree K V} {n : Nat} {path : List Nat}, isNode s →
    t.sub path = some (vt s) → s.size ≤ n →
    wp (getAt a p n path) {⟨some a, t, u⟩}
      (fun x L => x = s.getKeyValue p ∧ L = {⟨some a, t, u⟩}) := by
  intro s
  induction s with
  | nil => intro n path h; simp at h
  | node k v lh rh l r ihl ihr =>
    intro n path _ hp hn
    simp only [Tree.size] at hn
    obtain ⟨n, rfl⟩ : ∃ m, n = m + 1 := ⟨n - 1, by omega⟩
    obtain ⟨hl, hr⟩ := sub_kids hp
    simp only [getAt, Tree.getKeyValue]
    wcall readN_spec hp
    rintro _ _ ⟨rfl, rfl⟩
    rw [add_zero]
    dsimp only
    cases hc : p k with
    | eq => exact wp_pure ⟨rfl, rfl⟩
    | lt =>
      dsimp only
      cases l with
      | nil => exact wp_pure ⟨rfl, rfl⟩
      | node => exact ihl rfl hl (by omega)
    | gt =>
      dsimp only
      cases r with
      | nil => exact wp_pure ⟨rfl, rfl⟩
      | node => exact ihr rfl hr (by omega)

theorem firstAt_spec : ∀ {s : Tree K V} {n : Nat} {path : List Nat}, isNode s →
    t.sub path = some (vt s) → s.size ≤ n →
    wp (firstAt a n path) {⟨some a, t, u⟩} (fun x L => x = s.first ∧ L = {⟨some a, t, u⟩}) := by
  intro s
  induction s with
  | nil => intro n path h; simp at h
  | node k v lh rh l r ihl ihr =>
    intro n path _ hp hn
    simp only [Tree.size] at hn
    obtain ⟨n, rfl⟩ : ∃ m, n = m + 1 := ⟨n - 1, by omega⟩
    obtain ⟨hl, hr⟩ := sub_kids hp
    simp only [firstAt]
    wcall readN_spec hp
    rintro _ _ ⟨rfl, rfl⟩
    rw [add_zero]
    cases l with
    | nil => exact wp_pure ⟨rfl, rfl⟩
    | node => exact ihl rfl hl (by omega)

theorem lastAt_spec : ∀ {s : Tree K V} {n : Nat} {path : List Nat}, isNode s →
    t.sub path = some (vt s) → s.size ≤ n →
    wp (lastAt a n path) {⟨some a, t, u⟩} (fun x L => x = s.last ∧ L = {⟨some a, t, u⟩}) := by
  intro s
  induction s with
  | nil => intro n path h; simp at h
  | node k v lh rh l r ihl ihr =>
    intro n path _ hp hn
    simp only [Tree.size] at hn
    obtain ⟨n, rfl⟩ : ∃ m, n = m + 1 := ⟨n - 1, by omega⟩
    obtain ⟨hl, hr⟩ := sub_kids hp
    simp only [lastAt]
    wcall readN_spec hp
    rintro _ _ ⟨rfl, rfl⟩
    rw [add_zero]
    cases r with
    | nil => exact wp_pure ⟨rfl, rfl⟩
    | node => exact ihr rfl hr (by omega)

theorem forEachAt_spec {σ : Type} {f : σ → K → V → σ} : ∀ {s : Tree K V} {n : Nat}
    {path : List Nat} {x0 : σ}, isNode s → t.sub path = some (vt s) → s.size ≤ n →
    wp (forEachAt a f n path x0) {⟨some a, t, u⟩}
      (fun x L => x = s.forEach f x0 ∧ L = {⟨some a, t, u⟩}) := by
  intro s
  induction s with
  | nil => intro n path x0 h; simp at h
  | node k v lh rh l r ihl ihr =>
    intro n path x0 _ hp hn
    simp only [Tree.size] at hn
    obtain ⟨n, rfl⟩ : ∃ m, n = m + 1 := ⟨n - 1, by omega⟩
    obtain ⟨hl, hr⟩ := sub_kids hp
    simp only [forEachAt]
    wcall readN_spec hp
    rintro _ _ ⟨rfl, rfl⟩
    have q1 : wp (if isNode l then forEachAt a f n (path ++ [0]) x0 else .pure x0) {⟨some a, t, u⟩}
        (fun x L => x = l.forEach f x0 ∧ L = {⟨some a, t, u⟩}) := by
      cases l with
      | nil => exact wp_pure ⟨rfl, rfl⟩
      | node => exact ihl rfl hl (by omega)
    wcall q1
    rintro _ _ ⟨rfl, rfl⟩
    rw [add_zero]
    cases r with
    | nil => exact wp_pure ⟨rfl, rfl⟩
    | node => exact ihr rfl hr (by omega)

end

section
variable {s : Tree K V} {r : Option Nat} {n : Nat}

theorem len_spec (hn : s.size ≤ n) :
    wp (len n r) (own r (vt s)) (fun x L => x = s.size ∧ L = own r (vt s)) := by
  refine wp_tree_cases (r := r) (t := s) 0 (add_zero _).symm ?_ ?_
  · rintro rfl rfl
    exact wp_pure ⟨rfl, rfl⟩
  · rintro a k v lh rh l r' rfl rfl
    rw [add_zero]
    exact lenAt_spec (u := false) rfl rfl hn

theorem getKeyValue_spec {p : K → Ordering} (hn : s.size ≤ n) :
    wp (getKeyValue n p r) (own r (vt s)) (fun x L => x = s.getKeyValue p ∧ L = own r (vt s)) := by
  refine wp_tree_cases (r := r) (t := s) 0 (add_zero _).symm ?_ ?_
  · rintro rfl rfl
    exact wp_pure ⟨rfl, rfl⟩
  · rintro a k v lh rh l r' rfl rfl
    rw [add_zero]
    exact getAt_spec (u := false) rfl rfl hn

theorem first_spec (hn : s.size ≤ n) :
    wp (first n r) (own r (vt s)) (fun x L => x = s.first ∧ L = own r (vt s)) := by
  refine wp_tree_cases (r := r) (t := s) 0 (add_zero _).symm ?_ ?_
  · rintro rfl rfl
    exact wp_pure ⟨rfl, rfl⟩
  · rintro a k v lh rh l r' rfl rfl
    rw [add_zero]
    exact firstAt_spec (u := false) rfl rfl hn

theorem last_spec (hn : s.size ≤ n) :
    wp (last n r) (own r (vt s)) (fun x L => x = s.last ∧ L = own r (vt s)) := by
  refine wp_tree_cases (r := r) (t := s) 0 (add_zero _).symm ?_ ?_
  · rintro rfl rfl
    exact wp_pure ⟨rfl, rfl⟩
  · rintro a k v lh rh l r' rfl rfl
    rw [add_zero]
    exact lastAt_spec (u := false) rfl rfl hn

theorem forEach_spec {σ : Type} {f : σ → K → V → σ} {x0 : σ} (hn : s.size ≤ n) :
    wp (forEach n f x0 r) (own r (vt s)) (fun x L => x = s.forEach f x0 ∧ L = own r (vt s)) := by
  refine wp_tree_cases (r := r) (t := s) 0 (add_zero _).symm ?_ ?_
  · rintro rfl rfl
    exact wp_pure ⟨rfl, rfl⟩
  · rintro a k v lh rh l r' rfl rfl
    rw [add_zero]
    exact forEachAt_spec (u := false) rfl rfl hn

end

theorem getMutWith_spec_depth {D : Nat} {p : K → Ordering} {g : V → V} : ∀ {t : Tree K V}
    {n : Nat} {r : Option Nat}, t.size ≤ D → t.depth ≤ n →
    wp (getMutWith D p g n r) (own r (vt t))
      (fun x L => ∃ r', x = (r', (t.getMutWith p g).2) ∧ L = own r' (vt (t.getMutWith p g).1)) := by
  intro t
  induction t with
  | nil =>
    intro n r hD hn
    refine wp_nil 0 (add_zero _).symm ?_
    rintro rfl
    have e : (getMutWith D p g n none : Prog (ND K V) _) = .pure (none, false) := by
      cases n <;> rfl
    rw [e]
    exact wp_pure ⟨none, rfl, rfl⟩
  | node k v lh rh l r ihl ihr =>
    intro n rr hD hn
    simp only [Tree.size] at hD
    simp only [Tree.depth] at hn
    obtain ⟨n, rfl⟩ : ∃ m, n = m + 1 := ⟨n - 1, by omega⟩
    refine wp_node 0 (add_zero _).symm ?_
    rintro a rfl
    simp only [getMutWith]
    wcall makeMut_tree ?_
    · simp only [Tree.size]; omega
    rintro a _ rfl
    wcall openN_tree
    rintro _ _ ⟨l1, r1, rfl, rfl⟩
    simp only [Tree.getMutWith]
    cases hc : p k with
    | eq =>
      dsimp only
      wcall closeN_tree
      rintro _ _ rfl
      refine wp_forget _ (by wframe) (wp_pure ⟨_, rfl, by simp⟩)
    | lt =>
      dsimp only
      wcall ihl (by omega) (by omega)
      rintro _ _ ⟨l2, rfl, rfl⟩
      wcall closeN_tree
      rintro _ _ rfl
      refine wp_forget _ (by wframe) (wp_pure ⟨_, rfl, by simp⟩)
    | gt =>
      dsimp only
      wcall ihr (by omega) (by omega)
      rintro _ _ ⟨l2, rfl, rfl⟩
      wcall closeN_tree
      rintro _ _ rfl
      refine wp_forget _ (by wframe) (wp_pure ⟨_, rfl, by simp⟩)

theorem getMutWith_spec {D : Nat} {p : K → Ordering} {g : V → V} {t : Tree K V}
    {n : Nat} {r : Option Nat} (hD : t.size ≤ D) (hn : t.size ≤ n) :
    wp (getMutWith D p g n r) (own r (vt t))
      (fun x L => ∃ r', x = (r', (t.getMutWith p g).2) ∧ L = own r' (vt (t.getMutWith p g).1)) :=
  getMutWith_spec_depth hD (Nat.le_trans (depth_le_size t) hn)

theorem forEachMut_spec {σ : Type} {D : Nat} {f : σ → K → V → σ × V} : ∀ {t : Tree K V}
    {n : Nat} {s : σ} {r : Option Nat}, t.size ≤ D → t.size ≤ n →
    wp (forEachMut D f n s r) (own r (vt t))
      (fun x L => ∃ r', x = ((t.forEachMut f s).1, r') ∧ L = own r' (vt (t.forEachMut f s).2)) := by
  intro t
  induction t with
  | nil =>
    intro n s r hD hn
    refine wp_nil 0 (add_zero _).symm ?_
    rintro rfl
    have e : (forEachMut D f n s none : Prog (ND K V) _) = .pure (s, none) := by
      cases n <;> rfl
    rw [e]
    exact wp_pure ⟨none, rfl, rfl⟩
  | node k v lh rh l r ihl ihr =>
    intro n s rr hD hn
    simp only [Tree.size] at hD hn
    obtain ⟨n, rfl⟩ : ∃ m, n = m + 1 := ⟨n - 1, by omega⟩
    refine wp_node 0 (add_zero _).symm ?_
    rintro a rfl
    simp only [forEachMut]
    wcall makeMut_tree ?_
    · simp only [Tree.size]; omega
    rintro a _ rfl
    wcall openN_tree
    rintro _ _ ⟨l1, r1, rfl, rfl⟩
    wcall ihl (by omega) (by omega)
    rintro _ _ ⟨l2, rfl, rfl⟩
    wcall ihr (by omega) (by omega)
    rintro _ _ ⟨r2, rfl, rfl⟩
    wcall closeN_tree
    rintro _ _ rfl
    refine wp_forget _ (by wframe) (wp_pure ⟨_, rfl, by simp [Tree.forEachMut]⟩)

end Verif.AvlH
