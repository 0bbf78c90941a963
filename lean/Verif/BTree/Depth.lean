import Mathlib.Algebra.Order.Ring.Nat
import Mathlib.Tactic.Ring
import Verif.BTree.Shape
/-!
# B-tree shape and depth (C19), stated without reference to the invariant used in the proofs
-/
namespace Verif.BTree
variable {K V : Type _}

mutual
/-- The depths of all leaves (nodes without children), the root being at depth 1
(specification). -/
def Node.leafDepths : Node K V → List Nat
  | .mk _ [] => [1]
  | .mk _ (c :: ks) => Node.leafDepthsL (c :: ks)
def Node.leafDepthsL : List (Node K V) → List Nat
  | [] => []
  | c :: ks => (Node.leafDepths c).map (· + 1) ++ Node.leafDepthsL ks
end

mutual
/-- The nodes properly below a node (specification). -/
def Node.desc : Node K V → List (Node K V)
  | .mk _ ks => Node.descL ks
def Node.descL : List (Node K V) → List (Node K V)
  | [] => []
  | c :: ks => c :: Node.desc c ++ Node.descL ks
end

theorem leafDepthsL_mem {ks : List (Node K V)} {d : Nat} :
    d ∈ Node.leafDepthsL ks ↔ ∃ c ∈ ks, ∃ d' ∈ Node.leafDepths c, d = d' + 1 := by
  induction ks with
  | nil => simp [Node.leafDepthsL]
  | cons c ks ih =>
    simp only [Node.leafDepthsL, List.mem_append, List.mem_map, ih, List.mem_cons,
      exists_eq_or_imp]
    constructor
    · rintro (⟨a, h1, h2⟩ | h)
      · exact Or.inl ⟨a, h1, h2.symm⟩
      · exact Or.inr h
    · rintro (⟨a, h1, h2⟩ | h)
      · exact Or.inl ⟨a, h1, h2.symm⟩
      · exact Or.inr h

theorem descL_mem {ks : List (Node K V)} {x : Node K V} :
    x ∈ Node.descL ks ↔ ∃ c ∈ ks, x = c ∨ x ∈ Node.desc c := by
  induction ks with
  | nil => simp [Node.descL]
  | cons c ks ih =>
    simp only [Node.descL, List.cons_append, List.mem_cons, List.mem_append, ih, exists_eq_or_imp]
    constructor
    · rintro (h | h | h)
      · exact Or.inl (Or.inl h)
      · exact Or.inl (Or.inr h)
      · exact Or.inr h
    · rintro ((h | h) | h)
      · exact Or.inl h
      · exact Or.inr (Or.inl h)
      · exact Or.inr (Or.inr h)

/-- A well-populated inner or leaf node: between `N` and `2N+1` entries, and no children or
one more than entries. -/
def Node.Populated (N : Nat) (n : Node K V) : Prop :=
  N ≤ n.elems.length ∧ n.elems.length ≤ 2 * N + 1 ∧
    (n.kids = [] ∨ n.kids.length = n.elems.length + 1)

theorem ok_leafDepths {N : Nat} : ∀ {h lo : Nat} {n : Node K V}, Node.Ok N lo h n →
    n.leafDepths ≠ [] ∧ ∀ d ∈ n.leafDepths, d = h + 1 := by
  intro h
  induction h with
  | zero =>
    intro lo n hn
    obtain ⟨es, ks⟩ := n
    obtain ⟨rfl, -, -⟩ := hn
    simp [Node.leafDepths]
  | succ h ih =>
    intro lo n hn
    obtain ⟨es, ks⟩ := n
    obtain ⟨hl, -, -, hk⟩ := hn
    match ks, hl with
    | c :: ks, _ =>
      rw [Node.leafDepths]
      constructor
      · obtain ⟨h1, -⟩ := ih (hk c (by simp))
        obtain ⟨d, hd⟩ := List.exists_mem_of_ne_nil _ h1
        exact List.ne_nil_of_mem (leafDepthsL_mem.2 ⟨c, by simp, d, hd, rfl⟩)
      · intro d hd
        obtain ⟨c', hc, d', hd', rfl⟩ := leafDepthsL_mem.1 hd
        rw [(ih (hk c' hc)).2 d' hd']

theorem ok_desc {N : Nat} : ∀ {h lo : Nat} {n : Node K V}, Node.Ok N lo h n →
    ∀ x ∈ n.desc, Node.Populated N x := by
  intro h
  induction h with
  | zero =>
    intro lo n hn x hx
    obtain ⟨es, ks⟩ := n
    obtain ⟨rfl, -, -⟩ := hn
    simp [Node.desc, Node.descL] at hx
  | succ h ih =>
    intro lo n hn x hx
    obtain ⟨es, ks⟩ := n
    obtain ⟨hl, -, -, hk⟩ := hn
    rw [Node.desc] at hx
    obtain ⟨c, hc, rfl | hx⟩ := descL_mem.1 hx
    · have hok := hk x hc
      obtain ⟨es', ks'⟩ := x
      refine ⟨hok.lo_le, hok.le_hi, ?_⟩
      cases h with
      | zero => exact Or.inl hok.1
      | succ h => exact Or.inr hok.1
    · exact ih (hk c hc) x hx

theorem inter_size_ge {M : Nat} : ∀ {ks : List (Node K V)} {es : List (K × V)},
    ks.length = es.length + 1 → (∀ c ∈ ks, M ≤ (Node.toList c).length) →
    ks.length * M + es.length ≤ (Node.inter ks es).length := by
  intro ks
  induction ks with
  | nil => intro es h; simp at h
  | cons c ks ih =>
    intro es h hk
    have hc := hk c (by simp)
    cases es with
    | nil =>
      have : ks = [] := by simpa using h
      subst this
      simp [Node.inter_cons]; exact hc
    | cons e es =>
      have := ih (es := es) (by simpa using h) (fun c hc => hk c (by simp [hc]))
      simp only [Node.inter_cons, Node.post_cons, List.length_append, List.length_cons,
        Nat.add_mul, Nat.one_mul]
      omega

/-- A non-root node of height `h` has at least `(N+1)^(h+1) - 1` entries below it. -/
theorem ok_size {N : Nat} : ∀ {h : Nat} {n : Node K V}, Node.Ok N N h n →
    (N + 1) ^ (h + 1) ≤ n.toList.length + 1 := by
  intro h
  induction h with
  | zero =>
    intro n hn
    obtain ⟨es, ks⟩ := n
    obtain ⟨rfl, h1, -⟩ := hn
    simpa using h1
  | succ h ih =>
    intro n hn
    obtain ⟨es, ks⟩ := n
    obtain ⟨hl, h1, -, hk⟩ := hn
    have h2 := inter_size_ge (M := (N + 1) ^ (h + 1) - 1) hl (fun c hc => by
      have := ih (hk c hc); omega)
    rw [Node.toList_mk]
    have hp : 1 ≤ (N + 1) ^ (h + 1) := Nat.one_le_pow _ _ (by omega)
    generalize hP : (N + 1) ^ (h + 1) = P at h2 hp
    rw [pow_succ, hP]
    obtain ⟨Q, rfl⟩ : ∃ Q, P = Q + 1 := ⟨P - 1, by omega⟩
    rw [hl] at h2
    simp only [Nat.add_sub_cancel] at h2
    have h3 : (N + 1) * Q ≤ (es.length + 1) * Q := Nat.mul_le_mul_right _ (by omega)
    have e1 : (Q + 1) * (N + 1) = (N + 1) * Q + N + 1 := by ring
    omega

/-- A root of height `h ≥ 1`. -/
theorem ok_size_root {N : Nat} : ∀ {h : Nat} {n : Node K V}, Node.Ok N 1 h n →
    2 * (N + 1) ^ h ≤ n.toList.length + 1 := by
  intro h n hn
  cases h with
  | zero =>
    obtain ⟨es, ks⟩ := n
    obtain ⟨rfl, h1, -⟩ := hn
    simp; omega
  | succ h =>
    obtain ⟨es, ks⟩ := n
    obtain ⟨hl, h1, -, hk⟩ := hn
    have h2 := inter_size_ge (M := (N + 1) ^ (h + 1) - 1) hl (fun c hc => by
      have := ok_size (hk c hc); omega)
    rw [Node.toList_mk]
    have hp : 1 ≤ (N + 1) ^ (h + 1) := Nat.one_le_pow _ _ (by omega)
    generalize (N + 1) ^ (h + 1) = P at h2 hp
    obtain ⟨Q, rfl⟩ : ∃ Q, P = Q + 1 := ⟨P - 1, by omega⟩
    rw [hl] at h2
    simp only [Nat.add_sub_cancel] at h2
    have h3 : 2 * Q ≤ (es.length + 1) * Q := Nat.mul_le_mul_right _ (by omega)
    omega

end Verif.BTree
