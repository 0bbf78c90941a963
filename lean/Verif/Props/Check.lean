import Verif.Avl.Depth
import Verif.BTree.Depth
import Verif.BTree.ChkIff
import Verif.Fixed.Chk
import Verif.Props.Fixed
/-!
# The self-checks of the maps (C67)

`chk` is what the tests of the crate rely on.  Validity is stated by the true depths of the
trees, not by the invariants used in the proofs.
-/
set_option linter.unusedSectionVars false
namespace Verif.BTree
variable {K V : Type _}

/-- A B-tree: all leaves at one depth, every node below the root populated, the root holding
between 1 and `2N+1` entries (specification). -/
def Node.IsBTree (N : Nat) (r : Node K V) : Prop :=
  (∃ d, ∀ x ∈ r.leafDepths, x = d) ∧ (∀ n ∈ r.desc, Node.Populated N n) ∧
    1 ≤ r.elems.length ∧ r.elems.length ≤ 2 * N + 1 ∧
    (r.kids = [] ∨ r.kids.length = r.elems.length + 1)

theorem ok_of_shape {N : Nat} : ∀ (n : Node K V) (lo d : Nat), (∀ x ∈ n.leafDepths, x = d) →
    (∀ x ∈ n.desc, Node.Populated N x) → lo ≤ n.elems.length → n.elems.length ≤ 2 * N + 1 →
    (n.kids = [] ∨ n.kids.length = n.elems.length + 1) → ∃ h, Node.Ok N lo h n
  | .mk es [], lo, d, h1, h2, h3, h4, h5 => ⟨0, rfl, h3, h4⟩
  | .mk es (c :: ks), lo, d, h1, h2, h3, h4, h5 => by
    have hk : ∀ c' ∈ c :: ks, ∃ h, Node.Ok N N h c' ∧ h + 2 = d := by
      intro c' hc
      have hp : Node.Populated N c' := h2 c' (descL_mem.2 ⟨c', hc, Or.inl rfl⟩)
      have hd : ∀ x ∈ c'.leafDepths, x = d - 1 := fun x hx => by
        have := h1 (x + 1) (leafDepthsL_mem.2 ⟨c', hc, x, hx, rfl⟩)
        omega
      obtain ⟨h, ho⟩ := ok_of_shape c' N (d - 1) hd
        (fun x hx => h2 x (descL_mem.2 ⟨c', hc, Or.inr hx⟩)) hp.1 hp.2.1 hp.2.2
      obtain ⟨e1, e2⟩ := ok_leafDepths ho
      obtain ⟨x, hx⟩ := List.exists_mem_of_ne_nil _ e1
      have a := h1 (x + 1) (leafDepthsL_mem.2 ⟨c', hc, x, hx, rfl⟩)
      have b := e2 x hx
      exact ⟨h, ho, by omega⟩
    obtain ⟨h, ho, hd⟩ := hk c (by simp)
    refine ⟨h + 1, ?_, h3, h4, ?_⟩
    · rcases h5 with h5 | h5
      · cases h5
      · exact h5
    · intro c' hc
      obtain ⟨h', ho', hd'⟩ := hk c' hc
      have : h' = h := by omega
      exact this ▸ ho'
termination_by n => sizeOf n
decreasing_by
  have := List.sizeOf_lt_of_mem hc
  simp_wf
  simp at this
  omega

theorem ok_iff_isBTree {N : Nat} {n : Node K V} : (∃ h, Node.Ok N 1 h n) ↔ n.IsBTree N := by
  constructor
  · rintro ⟨h, ho⟩
    refine ⟨⟨h + 1, (ok_leafDepths ho).2⟩, ok_desc ho, ho.lo_le, ho.le_hi, ?_⟩
    obtain ⟨es, ks⟩ := n
    cases h with
    | zero => exact Or.inl ho.1
    | succ h => exact Or.inr ho.1
  · rintro ⟨⟨d, h1⟩, h2, h3, h4, h5⟩
    exact ok_of_shape n 1 d h1 h2 h3 h4 h5

end Verif.BTree

namespace Verif.Avl
variable {K V : Type _}

theorem isAvl_bal : ∀ {t : Tree K V}, t.IsAvl → t.Bal
  | .nil, _ => trivial
  | .node k v lh rh l r, ⟨h1, h2, h3, h4, h5, h6⟩ => by
    have a := isAvl_bal h5
    have b := isAvl_bal h6
    have a2 := (bal_isAvl a).2
    have b2 := (bal_isAvl b).2
    refine ⟨?_, ?_, ?_, ?_, a, b⟩ <;> omega

end Verif.Avl

namespace Verif.Props
open Std Verif.Demo

section
variable {K V : Type _} [Ord K] [TransOrd K]

/-- C67, `AvlMap`.  `chk` accepts a map, reachable or not, just if its keys ascend strictly, at
each node the cached heights are the true depths of the subtrees and differ by at most one, and
`len` is the number of entries. -/
theorem C67_avl (m : Avl.AvlMap K V) :
    m.chk = true ↔ m.root.IsAvl ∧ m.abs.Pairwise (fun a b => compare a.1 b.1 = .lt) ∧
      m.len = m.abs.length := by
  rw [Avl.AvlMap.chk_eq_true]
  exact ⟨fun h => ⟨(Avl.bal_isAvl h.bal).1, h.sorted, h.len_eq⟩,
    fun h => ⟨Avl.isAvl_bal h.1, h.2.1, h.2.2⟩⟩

/-- C67, `AvlMap`.  Every map that programs build passes. -/
theorem C67_avl_reachable {m : Avl.AvlMap K V} (h : Avl.Reachable m) : m.chk = true :=
  Avl.AvlMap.chk_eq_true.2 h.wf

/-- C67, `BTreeMap`, for maps none of whose nodes has more children than entries and one more
(`NoExtra`).  `chk` does not panic, and accepts just the B-trees with strictly ascending keys
and the right `len`.

Missing: an excess of children is not noticed (`C67_btree_false`). -/
theorem C67_btree_partial {N : Nat} (hN : 1 ≤ N) (m : BTree.BTreeMap K V)
    (hm : ∀ n, m.root = some n → ∀ x ∈ n :: n.desc, x.kids.length ≤ x.elems.length + 1) :
    ∃ r, m.chk N = some r ∧
      (r = .ok () ↔ (∀ n, m.root = some n → n.IsBTree N) ∧
        m.abs.Pairwise (fun a b => compare a.1 b.1 = .lt) ∧ m.len = m.abs.length) := by
  have hx : ∀ n : BTree.Node K V,
      (∀ x ∈ n :: n.desc, x.kids.length ≤ x.elems.length + 1) → BTree.NoExtra n := by
    intro n
    induction n using BTree.Node.rec
      (motive_2 := fun ks => ∀ c ∈ ks,
        (∀ x ∈ c :: c.desc, x.kids.length ≤ x.elems.length + 1) → BTree.NoExtra c) with
    | mk es ks ih =>
      intro h
      refine .mk (h (.mk es ks) (by simp)) fun c hc => ih c hc fun x hx => h x ?_
      refine List.mem_cons_of_mem _ (BTree.descL_mem.2 ⟨c, hc, ?_⟩)
      simpa using hx
    | nil => rename_i hc _; cases hc
    | cons c ks ih1 ih2 =>
      rename_i c' hc h
      rcases List.mem_cons.1 hc with rfl | hc
      · exact ih1 h
      · exact ih2 c' hc h
  obtain ⟨r, h1, h2⟩ := BTree.BTreeMap.chk_iff hN fun n hn => hx n (hm n hn)
  refine ⟨r, h1, h2.trans ?_⟩
  constructor
  · intro w
    exact ⟨fun n hn => BTree.ok_iff_isBTree.1 (w.root hn).1, w.sorted, w.len_eq⟩
  · obtain ⟨len, root⟩ := m
    rintro ⟨h3, h4, h5⟩
    cases root with
    | none => exact h5
    | some n => exact ⟨BTree.ok_iff_isBTree.2 (h3 n rfl), h4, h5⟩

/-- C67, `BTreeMap`.  Every map that programs build passes. -/
theorem C67_btree_reachable {N : Nat} (hN : 1 ≤ N) {m : BTree.BTreeMap K V}
    (h : BTree.Reachable N m) : m.chk N = some (.ok ()) := by
  have w := h.wf hN
  have hx : ∀ n, m.root = some n → BTree.NoExtra n := fun n hn => by
    obtain ⟨⟨ht, ho⟩, -⟩ := w.root hn
    exact (BTree.Node.Ok.iterOk hN false ho (Nat.le_refl 1)).noExtra
  obtain ⟨r, h1, h2⟩ := BTree.BTreeMap.chk_iff hN hx
  rw [h1, h2.2 w]

end

/-- A tree with an excess child, of the key 9, between the second and the last. -/
def excess : BTree.BTreeMap Nat Nat :=
  ⟨6, some (.mk [(2, 0), (4, 0)]
    [.mk [(1, 0)] [], .mk [(3, 0)] [], .mk [(9, 0), (9, 0)] [], .mk [(5, 0), (6, 0)] []])⟩

/-- C67 fails for `BTreeMap`: `chk` accepts a tree which is no B-tree, of eight entries where
`len` is six. -/
theorem C67_btree_false : ∃ m : BTree.BTreeMap Nat Nat, m.chk 1 = some (.ok ()) ∧
    ∃ r, m.root = some r ∧ ¬ r.IsBTree 1 ∧ m.len = 6 ∧ r.desc.length = 4 ∧
      (r.desc.flatMap (·.elems)).length + r.elems.length = 8 :=
  ⟨excess, by decide +kernel, _, rfl, fun h => by
    have := h.2.2.2.2
    simp [BTree.Node.kids, BTree.Node.elems] at this, rfl, by decide +kernel, by decide +kernel⟩

section
variable {K V : Type} [Ord K] [TransOrd K]

/-- C67, `btree::fixed::BTreeMap`.  The assertions of `chk` hold just for the B-trees with
strictly ascending keys and the right `len`. -/
theorem C67_fixed (m : Fixed.FMap K V) :
    m.chk = true ↔ (∀ n, m.root = some n → n.IsBTree 5) ∧
      m.toList.Pairwise (fun a b => compare a.1 b.1 = .lt) ∧ m.len = m.toList.length := by
  rw [Fixed.FMap.chk_iff]
  exact ⟨fun h => ⟨fun n hn => BTree.ok_iff_isBTree.1 (h.shape n hn), h.sorted, h.len⟩,
    fun h => ⟨h.2.1, h.2.2, fun n hn => BTree.ok_iff_isBTree.2 (h.1 n hn)⟩⟩

/-- C67, `btree::fixed::BTreeMap`.  Every map that programs build passes. -/
theorem C67_fixed_reachable {lin : Bool} {m : Fixed.FMap K V} (h : Fixed.Reachable lin m) :
    m.chk = true := (Fixed.FMap.chk_iff m).2 h.wf

end

-- accepted
example := C67_avl_reachable avl5_reachable
example := C67_btree_reachable (Nat.le_refl 1) bt_reachable
example := C67_fixed_reachable fm_reachable
-- rejected: a wrong cached height; keys out of order across a subtree; a wrong length
example : (⟨2, .node 1 0 0 0 .nil (.node 2 0 0 0 .nil .nil)⟩ : Avl.AvlMap Nat Nat).chk = false ∧
    (⟨4, .node 5 0 2 1 (.node 2 0 0 1 .nil (.node 6 0 0 0 .nil .nil)) (.node 7 0 0 0 .nil .nil)⟩ :
      Avl.AvlMap Nat Nat).chk = false ∧
    (⟨2, .node 5 0 0 0 .nil .nil⟩ : Avl.AvlMap Nat Nat).chk = false := by decide +kernel
-- rejected: a child missing (and for `fixed`, a child too much)
example : (⟨4, some (.mk [(2, 0), (4, 0)] [.mk [(1, 0)] [], .mk [(3, 0)] []])⟩ :
      BTree.BTreeMap Nat Nat).chk 1 = some (.error .unsorted) ∧
    (⟨2, some (.mk [(2, 0), (1, 0)] [])⟩ : BTree.BTreeMap Nat Nat).chk 1 =
      some (.error .unsorted) ∧
    (⟨some (.mk [(2, 0)] [.mk [(1, 0)] []]), 2⟩ : Fixed.FMap Nat Nat).chk = false := by
  decide +kernel
-- the hypothesis of the partial theorem holds for the wrong trees just rejected
example := C67_btree_partial (Nat.le_refl 1)
  (⟨4, some (.mk [(2, 0), (4, 0)] [.mk [(1, 0)] [], .mk [(3, 0)] []])⟩ : BTree.BTreeMap Nat Nat)
  (by
    intro n hn x hx
    cases hn
    simp [BTree.Node.desc, BTree.Node.descL] at hx
    rcases hx with rfl | rfl | rfl <;> simp [BTree.Node.kids, BTree.Node.elems])
example := C67_fixed fm
example := C67_avl avl5

end Verif.Props
