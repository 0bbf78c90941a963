import Verif.AvlHeap.Model
import Verif.Heap.Tac
/-!
# The node functions of `avl.rs` on reference-counted memory, against those on values

Each function, run with a link that stands for the value `t`, does not panic, leaves the handles
of everybody else alone and returns a link that stands for what `Verif.Avl.Model` computes from
`t`.
-/
namespace Verif.AvlH
open Heap
open Avl (Tree)
variable {K V : Type}

/-- The value of a tree. -/
def vt : Tree K V → VT (ND K V)
  | .nil => .nil
  | .node k v lh rh l r => .node ⟨k, v, lh, rh⟩ [vt l, vt r]

/-- Is there a node? -/
def isNode : Tree K V → Bool
  | .nil => false
  | .node .. => true

@[simp] theorem isNode_nil : isNode (.nil : Tree K V) = false := rfl
@[simp] theorem isNode_node {k : K} {v : V} {lh rh : Int} {l r : Tree K V} :
    isNode (.node k v lh rh l r) = true := rfl

/-- Shorthand: a node whose contents have been moved out. -/
abbrev hole (a : Nat) (d : ND K V) : Multiset (Handle (ND K V)) := uown a (.node d [])

theorem vt_dep : ∀ (t : Tree K V) {n : Nat}, t.size ≤ n → (vt t).Dep n
  | .nil, _, _ => .nil
  | .node k v lh rh l r, n, h => by
    simp only [Tree.size] at h
    obtain ⟨m, rfl⟩ : ∃ m, n = m + 1 := ⟨n - 1, by omega⟩
    refine .node ?_
    intro t ht
    rcases List.mem_cons.1 ht with rfl | ht
    · exact vt_dep l (by omega)
    · rw [List.mem_singleton] at ht
      subst ht
      exact vt_dep r (by omega)

theorem two_links {s t : VT (ND K V)} {ks : List (Option Nat)} (h : [s, t].length = ks.length) :
    ∃ l r, ks = [l, r] := by
  match ks, h with
  | [l, r], _ => exact ⟨l, r, rfl⟩

theorem wp_tree_cases {α : Type} {p : Prog (ND K V) α} {r : Option Nat} {t : Tree K V}
    {M : Multiset (Handle (ND K V))} {Q : α → Multiset (Handle (ND K V)) → Prop}
    (G : Multiset (Handle (ND K V))) (hM : M = own r (vt t) + G)
    (hn : r = none → t = .nil → wp p G Q)
    (hs : ∀ a k v lh rh l r', r = some a → t = .node k v lh rh l r' →
      wp p (own (some a) (vt (.node k v lh rh l r')) + G) Q) :
    wp p M Q := by
  refine wp_own_cases G hM ?_ ?_
  · intro h1 h2
    cases t with
    | nil => exact hn h1 rfl
    | node => cases h2
  · intro a q ts h1 h2
    cases t with
    | nil => cases h2
    | node k v lh rh l r' =>
      simp only [vt, VT.node.injEq] at h2
      obtain ⟨rfl, rfl⟩ := h2
      exact hs a k v lh rh l r' h1 rfl

/-- An empty link owns nothing. -/
theorem wp_nil {α : Type} {p : Prog (ND K V) α} {r : Option Nat}
    {M : Multiset (Handle (ND K V))} {Q : α → Multiset (Handle (ND K V)) → Prop}
    (G : Multiset (Handle (ND K V))) (hM : M = own r (vt .nil) + G)
    (hn : r = none → wp p G Q) : wp p M Q := by
  refine wp_tree_cases G hM (fun h _ => hn h) ?_
  intro a k v lh rh l r' _ h
  cases h

/-- A link that stands for a node. -/
theorem wp_node {α : Type} {p : Prog (ND K V) α} {r : Option Nat} {k : K} {v : V} {lh rh : Int}
    {tl tr : Tree K V}
    {M : Multiset (Handle (ND K V))} {Q : α → Multiset (Handle (ND K V)) → Prop}
    (G : Multiset (Handle (ND K V))) (hM : M = own r (vt (.node k v lh rh tl tr)) + G)
    (hn : ∀ a, r = some a → wp p (own (some a) (vt (.node k v lh rh tl tr)) + G) Q) : wp p M Q := by
  refine wp_tree_cases G hM (fun _ h => nomatch h) ?_
  intro a k' v' lh' rh' l r' h1 h2
  rw [← h2]
  exact hn a h1

/-! ## Access to a node -/

theorem openN_spec {a : Nat} {d : ND K V} {s t : VT (ND K V)} :
    wp (openN a) (uown a (.node d [s, t]))
      (fun x L => ∃ l r, x = (d, l, r) ∧ L = hole a d + (own l s + own r t)) := by
  unfold openN
  wcall open_spec
  rintro _ _ ⟨ks, rfl, h, rfl⟩
  obtain ⟨l, r, rfl⟩ := two_links h
  exact wp_pure ⟨l, r, rfl, by simp⟩

theorem openN_tree {a : Nat} {k : K} {v : V} {lh rh : Int} {tl tr : Tree K V} :
    wp (openN a) (uown a (vt (.node k v lh rh tl tr)))
      (fun x L => ∃ l r, x = (⟨k, v, lh, rh⟩, l, r) ∧
        L = hole a ⟨k, v, lh, rh⟩ + (own l (vt tl) + own r (vt tr))) := openN_spec

theorem closeN_spec {a : Nat} {d d' : ND K V} {l r : Option Nat} {s t : VT (ND K V)} :
    wp (closeN a d' l r) (hole a d + (own l s + own r t))
      (fun _ L => L = uown a (.node d' [s, t])) := by
  have := close_spec (a := a) (p := d) (q := d') (ks := [l, r]) (ts := [s, t]) rfl
  simp only [owns_cons, owns_nil, add_zero] at this
  exact this

theorem closeN_tree {a : Nat} {d d' : ND K V} {l r : Option Nat} {tl tr : Tree K V} :
    wp (closeN a d' l r) (hole a d + (own l (vt tl) + own r (vt tr)))
      (fun _ L => L = uown a (vt (.node d'.key d'.val d'.lh d'.rh tl tr))) := closeN_spec

/-- Where a subtree is. -/
theorem readN_spec {a : Nat} {t : VT (ND K V)} {u : Bool} {path : List Nat} {k : K} {v : V}
    {lh rh : Int} {tl tr : Tree K V} (hp : t.sub path = some (vt (.node k v lh rh tl tr))) :
    wp (readN a path) {⟨some a, t, u⟩} (fun x L =>
      x = (⟨k, v, lh, rh⟩, isNode tl, isNode tr) ∧ L = {⟨some a, t, u⟩}) := by
  unfold readN
  wcall (read_spec hp)
  rintro ⟨d, ks⟩ _ ⟨rfl, h1, h2, rfl⟩
  obtain ⟨l, r, rfl⟩ := two_links h1
  have e : ∀ (x : Option Nat) (s : Tree K V), (x = none ↔ vt s = .nil) →
      x.isSome = isNode s := by
    intro x s hx
    cases s with
    | nil => rw [hx.2 rfl]; simp
    | node =>
      cases x with
      | none => cases hx.1 rfl
      | some => simp
  have h3 := h2 0 (by simp) (by simp)
  have h4 := h2 1 (by simp) (by simp)
  refine wp_pure ⟨?_, by simp⟩
  dsimp only
  rw [e l tl (by simpa using h3), e r tr (by simpa using h4)]

theorem readN_own {a : Nat} {k : K} {v : V} {lh rh : Int} {tl tr : Tree K V} :
    wp (readN a []) (own (some a) (vt (.node k v lh rh tl tr))) (fun x L =>
      x = (⟨k, v, lh, rh⟩, isNode tl, isNode tr) ∧
        L = own (some a) (vt (.node k v lh rh tl tr))) := readN_spec (u := false) rfl

theorem readN_uown {a : Nat} {k : K} {v : V} {lh rh : Int} {tl tr : Tree K V} :
    wp (readN a []) (uown a (vt (.node k v lh rh tl tr))) (fun x L =>
      x = (⟨k, v, lh, rh⟩, isNode tl, isNode tr) ∧
        L = uown a (vt (.node k v lh rh tl tr))) := readN_spec (u := true) rfl

theorem makeMut_tree {D a : Nat} {k : K} {v : V} {lh rh : Int} {tl tr : Tree K V}
    (hD : (Tree.node k v lh rh tl tr).size ≤ D) :
    wp (makeMut D a) (own (some a) (vt (.node k v lh rh tl tr)))
      (fun a' L => L = uown a' (vt (.node k v lh rh tl tr))) := wp_makeMut (vt_dep _ hD)

theorem takeNode_spec {a : Nat} {k : K} {v : V} {lh rh : Int} {tl tr : Tree K V} :
    wp (takeNode a) (uown a (vt (.node k v lh rh tl tr)))
      (fun x L => ∃ l r, x = (⟨k, v, lh, rh⟩, l, r) ∧ L = own l (vt tl) + own r (vt tr)) := by
  unfold takeNode
  rw [vt]
  wcall tryUnwrap_spec
  rintro _ _ ⟨ks, rfl, h, rfl⟩
  obtain ⟨l, r, rfl⟩ := two_links h
  exact wp_pure ⟨l, r, rfl, by simp⟩

theorem unwrapN_spec {D a : Nat} {k : K} {v : V} {lh rh : Int} {tl tr : Tree K V}
    (hD : (Tree.node k v lh rh tl tr).size ≤ D) :
    wp (unwrapN D a) (own (some a) (vt (.node k v lh rh tl tr)))
      (fun x L => ∃ l r, x = (⟨k, v, lh, rh⟩, l, r) ∧ L = own l (vt tl) + own r (vt tr)) := by
  unfold unwrapN
  wcall (wp_unwrapOrClone (vt_dep _ hD))
  rintro _ _ ⟨ks, rfl, h, rfl⟩
  obtain ⟨l, r, rfl⟩ := two_links h
  exact wp_pure ⟨l, r, rfl, by simp⟩

theorem drop_spec {D : Nat} {r : Option Nat} {t : Tree K V} (hD : t.size ≤ D) :
    wp (drop D r) (own r (vt t)) (fun _ L => L = 0) := wp_drop (vt_dep _ hD)

theorem height_spec {r : Option Nat} {t : Tree K V} :
    wp (height r) (own r (vt t)) (fun x L => x = t.height ∧ L = own r (vt t)) := by
  refine wp_tree_cases (r := r) (t := t) 0 (add_zero _).symm ?_ ?_
  · rintro rfl rfl
    exact wp_pure ⟨rfl, rfl⟩
  · rintro a k v lh rh l r' rfl rfl
    unfold height
    wcall readN_own
    rintro _ _ ⟨rfl, rfl⟩
    exact wp_pure ⟨rfl, by simp⟩

theorem optNew_spec {k : K} {v : V} {l r : Option Nat} {tl tr : Tree K V} :
    wp (optNew k v l r) (own l (vt tl) + own r (vt tr))
      (fun x L => L = own x (vt (.mk k v tl tr))) := by
  unfold optNew
  wcall height_spec (r := l) (t := tl)
  rintro _ _ ⟨rfl, rfl⟩
  wcall height_spec (r := r) (t := tr)
  rintro _ _ ⟨rfl, rfl⟩
  have := alloc_spec (p := (⟨k, v, tl.height, tr.height⟩ : ND K V)) (ks := [l, r])
    (ts := [vt tl, vt tr]) rfl
  simp only [owns_cons, owns_nil, add_zero] at this
  wcall this
  rintro a _ rfl
  exact wp_forget _ rfl (wp_pure (by simp [vt, Tree.mk]))

/-- A link that is known to be ours alone is a link. -/
theorem wp_weaken {α : Type} {p : Prog (ND K V) α} {a : Nat} {t : VT (ND K V)}
    {M : Multiset (Handle (ND K V))} {Q : α → Multiset (Handle (ND K V)) → Prop}
    (G : Multiset (Handle (ND K V))) (hM : M = uown a t + G)
    (h : wp p (own (some a) t + G) Q) : wp p M Q := wp_forget G hM h

/-! ## Rotations -/

theorem rotLf_spec {D : Nat} {t t' : Tree K V} {sh : Bool} {r : Option Nat}
    (h : t.rotLf = some (t', sh)) (hD : t.size ≤ D) :
    wp (rotLf D r) (own r (vt t)) (fun x L => ∃ r', x = (r', sh) ∧ L = own r' (vt t')) := by
  unfold Tree.rotLf at h
  split at h
  · rename_i ka va alh arh x kb vb blh brh y z
    simp only [Option.some.injEq, Prod.mk.injEq] at h
    obtain ⟨rfl, rfl⟩ := h
    simp only [Tree.size] at hD
    refine wp_node 0 (add_zero _).symm ?_
    rintro a rfl
    unfold rotLf
    wcall makeMut_tree ?_
    · simp only [Tree.size]; omega
    rintro a _ rfl
    wcall openN_tree
    rintro _ _ ⟨x1, b, rfl, rfl⟩
    refine wp_node _ (by wframe) ?_
    rintro b rfl
    dsimp only
    wcall makeMut_tree ?_
    · simp only [Tree.size]; omega
    rintro b _ rfl
    wcall openN_tree
    rintro _ _ ⟨y1, z1, rfl, rfl⟩
    wcall closeN_tree
    rintro _ _ rfl
    refine wp_forget _ (by wframe) ?_
    wcall closeN_tree
    rintro _ _ rfl
    refine wp_forget _ (by wframe) ?_
    exact wp_pure ⟨_, rfl, by simp [vt, ND.height]⟩
  · cases h

theorem rotRt_spec {D : Nat} {t t' : Tree K V} {sh : Bool} {r : Option Nat}
    (h : t.rotRt = some (t', sh)) (hD : t.size ≤ D) :
    wp (rotRt D r) (own r (vt t)) (fun x L => ∃ r', x = (r', sh) ∧ L = own r' (vt t')) := by
  unfold Tree.rotRt at h
  split at h
  · rename_i ka va alh arh kb vb blh brh x y z
    simp only [Option.some.injEq, Prod.mk.injEq] at h
    obtain ⟨rfl, rfl⟩ := h
    simp only [Tree.size] at hD
    refine wp_node 0 (add_zero _).symm ?_
    rintro a rfl
    unfold rotRt
    wcall makeMut_tree ?_
    · simp only [Tree.size]; omega
    rintro a _ rfl
    wcall openN_tree
    rintro _ _ ⟨b, z1, rfl, rfl⟩
    refine wp_node _ (by wframe) ?_
    rintro b rfl
    dsimp only
    wcall makeMut_tree ?_
    · simp only [Tree.size]; omega
    rintro b _ rfl
    wcall openN_tree
    rintro _ _ ⟨x1, y1, rfl, rfl⟩
    wcall closeN_tree
    rintro _ _ rfl
    refine wp_forget _ (by wframe) ?_
    wcall closeN_tree
    rintro _ _ rfl
    refine wp_forget _ (by wframe) ?_
    exact wp_pure ⟨_, rfl, by simp [vt, ND.height]⟩
  · cases h

theorem rotRtLf_spec {D : Nat} {t t' : Tree K V} {sh : Bool} {r : Option Nat}
    (h : t.rotRtLf = some (t', sh)) (hD : t.size ≤ D) :
    wp (rotRtLf D r) (own r (vt t)) (fun x L => ∃ r', x = (r', sh) ∧ L = own r' (vt t')) := by
  unfold Tree.rotRtLf at h
  split at h
  · rename_i ka va alh arh x kb vb blh brh kc vc clh crh y z w
    simp only [Option.some.injEq, Prod.mk.injEq] at h
    obtain ⟨rfl, rfl⟩ := h
    simp only [Tree.size] at hD
    refine wp_node 0 (add_zero _).symm ?_
    rintro a rfl
    unfold rotRtLf
    wcall makeMut_tree ?_
    · simp only [Tree.size]; omega
    rintro a _ rfl
    wcall openN_tree
    rintro _ _ ⟨x1, b, rfl, rfl⟩
    refine wp_node _ (by wframe) ?_
    rintro b rfl
    dsimp only
    wcall makeMut_tree ?_
    · simp only [Tree.size]; omega
    rintro b _ rfl
    wcall openN_tree
    rintro _ _ ⟨c, w1, rfl, rfl⟩
    refine wp_node _ (by wframe) ?_
    rintro c rfl
    dsimp only
    wcall makeMut_tree ?_
    · simp only [Tree.size]; omega
    rintro c _ rfl
    wcall openN_tree
    rintro _ _ ⟨y1, z1, rfl, rfl⟩
    wcall closeN_tree
    rintro _ _ rfl
    refine wp_forget _ (by wframe) ?_
    wcall closeN_tree
    rintro _ _ rfl
    refine wp_forget _ (by wframe) ?_
    wcall closeN_tree
    rintro _ _ rfl
    refine wp_forget _ (by wframe) ?_
    exact wp_pure ⟨_, rfl, by simp [vt, ND.height]⟩
  · cases h

theorem rotLfRt_spec {D : Nat} {t t' : Tree K V} {sh : Bool} {r : Option Nat}
    (h : t.rotLfRt = some (t', sh)) (hD : t.size ≤ D) :
    wp (rotLfRt D r) (own r (vt t)) (fun x L => ∃ r', x = (r', sh) ∧ L = own r' (vt t')) := by
  unfold Tree.rotLfRt at h
  split at h
  · rename_i ka va alh arh kb vb blh brh x kc vc clh crh y z w
    simp only [Option.some.injEq, Prod.mk.injEq] at h
    obtain ⟨rfl, rfl⟩ := h
    simp only [Tree.size] at hD
    refine wp_node 0 (add_zero _).symm ?_
    rintro a rfl
    unfold rotLfRt
    wcall makeMut_tree ?_
    · simp only [Tree.size]; omega
    rintro a _ rfl
    wcall openN_tree
    rintro _ _ ⟨b, w1, rfl, rfl⟩
    refine wp_node _ (by wframe) ?_
    rintro b rfl
    dsimp only
    wcall makeMut_tree ?_
    · simp only [Tree.size]; omega
    rintro b _ rfl
    wcall openN_tree
    rintro _ _ ⟨x1, c, rfl, rfl⟩
    refine wp_node _ (by wframe) ?_
    rintro c rfl
    dsimp only
    wcall makeMut_tree ?_
    · simp only [Tree.size]; omega
    rintro c _ rfl
    wcall openN_tree
    rintro _ _ ⟨y1, z1, rfl, rfl⟩
    wcall closeN_tree
    rintro _ _ rfl
    refine wp_forget _ (by wframe) ?_
    wcall closeN_tree
    rintro _ _ rfl
    refine wp_forget _ (by wframe) ?_
    wcall closeN_tree
    rintro _ _ rfl
    refine wp_forget _ (by wframe) ?_
    exact wp_pure ⟨_, rfl, by simp [vt, ND.height]⟩
  · cases h

theorem rebalLfToRt_spec {D a : Nat} {t t' : Tree K V} {sh : Bool}
    (h : t.rebalLfToRt = some (t', sh)) (hD : t.size ≤ D) :
    wp (rebalLfToRt D a) (uown a (vt t)) (fun x L => ∃ r', x = (r', sh) ∧ L = own r' (vt t')) := by
  unfold Tree.rebalLfToRt at h
  split at h
  · cases h
  · rename_i k v lh rh l r
    cases l with
    | nil => cases h
    | node lk lv llh lrh ll lr =>
      simp only [Tree.bal?] at h
      unfold rebalLfToRt
      wcall isUnique_spec
      rintro _ _ ⟨rfl, rfl⟩
      simp only [if_true, add_zero]
      wcall readN_uown
      rintro _ _ ⟨rfl, rfl⟩
      simp only [isNode_node, if_true, add_zero]
      wcall readN_spec (k := lk) (v := lv) (lh := llh) (rh := lrh) (tl := ll) (tr := lr) ?_
      · rfl
      rintro _ _ ⟨rfl, rfl⟩
      refine wp_forget 0 (by rfl) ?_
      rw [add_zero]
      split at h
      · rename_i hb
        rw [if_pos (by exact hb)]
        exact rotRt_spec h hD
      · rename_i hb
        rw [if_neg (by exact hb)]
        exact rotLfRt_spec h hD

theorem rebalRtToLf_spec {D a : Nat} {t t' : Tree K V} {sh : Bool}
    (h : t.rebalRtToLf = some (t', sh)) (hD : t.size ≤ D) :
    wp (rebalRtToLf D a) (uown a (vt t)) (fun x L => ∃ r', x = (r', sh) ∧ L = own r' (vt t')) := by
  unfold Tree.rebalRtToLf at h
  split at h
  · cases h
  · rename_i k v lh rh l r
    cases r with
    | nil => cases h
    | node lk lv llh lrh ll lr =>
      simp only [Tree.bal?] at h
      unfold rebalRtToLf
      wcall isUnique_spec
      rintro _ _ ⟨rfl, rfl⟩
      simp only [if_true, add_zero]
      wcall readN_uown
      rintro _ _ ⟨rfl, rfl⟩
      simp only [isNode_node, if_true, add_zero]
      wcall readN_spec (k := lk) (v := lv) (lh := llh) (rh := lrh) (tl := ll) (tr := lr) ?_
      · rfl
      rintro _ _ ⟨rfl, rfl⟩
      refine wp_forget 0 (by rfl) ?_
      rw [add_zero]
      split at h
      · rename_i hb
        rw [if_pos (by exact hb)]
        exact rotLf_spec h hD
      · rename_i hb
        rw [if_neg (by exact hb)]
        exact rotRtLf_spec h hD

theorem afterInsLf_spec {D a : Nat} {d0 : ND K V} {k : K} {v : V} {lh rh : Int} {l r : Option Nat}
    {tl tr t' : Tree K V} {b b' : Bool} (h : Tree.afterInsLf k v lh rh tl tr b = some (t', b'))
    (hD : tl.size + 1 + tr.size ≤ D) :
    wp (afterInsLf D a ⟨k, v, lh, rh⟩ l r b) (hole a d0 + (own l (vt tl) + own r (vt tr)))
      (fun x L => ∃ r', x = (r', b') ∧ L = own r' (vt t')) := by
  unfold Tree.afterInsLf at h
  unfold afterInsLf
  dsimp only at h ⊢
  generalize lh + (if b = true then 1 else 0) = x at h ⊢
  wcall closeN_tree
  rintro _ _ rfl
  rw [add_zero]
  split at h
  · rename_i hb
    rw [if_pos (by exact hb)]
    simp only [Option.map_eq_some_iff, Prod.exists, Prod.mk.injEq] at h
    obtain ⟨t1, s1, h1, rfl, rfl⟩ := h
    wcall rebalLfToRt_spec h1 (by simpa [Tree.size] using hD)
    rintro _ _ ⟨r', rfl, rfl⟩
    exact wp_pure ⟨r', rfl, by simp⟩
  · rename_i hb
    rw [if_neg (by exact hb)]
    simp only [Option.some.injEq, Prod.mk.injEq] at h
    obtain ⟨rfl, rfl⟩ := h
    refine wp_forget 0 (add_zero _).symm (wp_pure ⟨_, rfl, by simp⟩)

theorem afterInsRt_spec {D a : Nat} {d0 : ND K V} {k : K} {v : V} {lh rh : Int} {l r : Option Nat}
    {tl tr t' : Tree K V} {b b' : Bool} (h : Tree.afterInsRt k v lh rh tl tr b = some (t', b'))
    (hD : tl.size + 1 + tr.size ≤ D) :
    wp (afterInsRt D a ⟨k, v, lh, rh⟩ l r b) (hole a d0 + (own l (vt tl) + own r (vt tr)))
      (fun x L => ∃ r', x = (r', b') ∧ L = own r' (vt t')) := by
  unfold Tree.afterInsRt at h
  unfold afterInsRt
  dsimp only at h ⊢
  generalize rh + (if b = true then 1 else 0) = x at h ⊢
  wcall closeN_tree
  rintro _ _ rfl
  rw [add_zero]
  split at h
  · rename_i hb
    rw [if_pos (by exact hb)]
    simp only [Option.map_eq_some_iff, Prod.exists, Prod.mk.injEq] at h
    obtain ⟨t1, s1, h1, rfl, rfl⟩ := h
    wcall rebalRtToLf_spec h1 (by simpa [Tree.size] using hD)
    rintro _ _ ⟨r', rfl, rfl⟩
    exact wp_pure ⟨r', rfl, by simp⟩
  · rename_i hb
    rw [if_neg (by exact hb)]
    simp only [Option.some.injEq, Prod.mk.injEq] at h
    obtain ⟨rfl, rfl⟩ := h
    refine wp_forget 0 (add_zero _).symm (wp_pure ⟨_, rfl, by simp⟩)

theorem afterRmLf_spec {D a : Nat} {d0 : ND K V} {k : K} {v : V} {lh rh : Int} {l r : Option Nat}
    {tl tr t' : Tree K V} {b b' : Bool} (h : Tree.afterRmLf k v lh rh tl tr b = some (t', b'))
    (hD : tl.size + 1 + tr.size ≤ D) :
    wp (afterRmLf D a ⟨k, v, lh, rh⟩ l r b) (hole a d0 + (own l (vt tl) + own r (vt tr)))
      (fun x L => ∃ r', x = (r', b') ∧ L = own r' (vt t')) := by
  unfold Tree.afterRmLf at h
  unfold afterRmLf
  dsimp only at h ⊢
  generalize lh - (if b = true then 1 else 0) = x at h ⊢
  wcall closeN_tree
  rintro _ _ rfl
  rw [add_zero]
  split at h
  · rename_i hb
    rw [if_pos (by exact hb)]
    exact rebalRtToLf_spec h (by simpa [Tree.size] using hD)
  · rename_i hb
    rw [if_neg (by exact hb)]
    simp only [Option.some.injEq, Prod.mk.injEq] at h
    obtain ⟨rfl, rfl⟩ := h
    refine wp_forget 0 (add_zero _).symm (wp_pure ⟨_, rfl, by simp⟩)

theorem afterRmRt_spec {D a : Nat} {d0 : ND K V} {k : K} {v : V} {lh rh : Int} {l r : Option Nat}
    {tl tr t' : Tree K V} {b b' : Bool} (h : Tree.afterRmRt k v lh rh tl tr b = some (t', b'))
    (hD : tl.size + 1 + tr.size ≤ D) :
    wp (afterRmRt D a ⟨k, v, lh, rh⟩ l r b) (hole a d0 + (own l (vt tl) + own r (vt tr)))
      (fun x L => ∃ r', x = (r', b') ∧ L = own r' (vt t')) := by
  unfold Tree.afterRmRt at h
  unfold afterRmRt
  dsimp only at h ⊢
  generalize rh - (if b = true then 1 else 0) = x at h ⊢
  wcall closeN_tree
  rintro _ _ rfl
  rw [add_zero]
  split at h
  · rename_i hb
    rw [if_pos (by exact hb)]
    exact rebalLfToRt_spec h (by simpa [Tree.size] using hD)
  · rename_i hb
    rw [if_neg (by exact hb)]
    simp only [Option.some.injEq, Prod.mk.injEq] at h
    obtain ⟨rfl, rfl⟩ := h
    refine wp_forget 0 (add_zero _).symm (wp_pure ⟨_, rfl, by simp⟩)

end Verif.AvlH
