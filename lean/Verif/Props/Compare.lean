import Verif.Wild.Count
import Verif.Wild.SeqCount
import Verif.Props.Wild
import Verif.Avl.Reach
/-!
# Property C65: how many comparisons the operations make

`counted c` is the comparison `c` with a counter in its state that is raised by every call.  `c` is
arbitrary (`Verif.Props.Wild`), so the bounds hold for lawful orders as for any other.  The maps are those
that a program can hold.
-/
set_option linter.unusedVariables false
namespace Verif.DemoC
open Verif.Wild Verif.Demo

/-- A map with keys too big for the linear search, built with honest and dishonest comparisons. -/
def fprog : List (Fixed.FMap.WCmd Nat Nat Nat) :=
  [.extend 0 honest (wents 40), .extend 0 moody (wents 9), .remove 0 (honest 7)]

/-- What they leave. -/
@[irreducible] def fst : Fixed.FMap.Maps Nat Nat × Nat :=
  (Fixed.FMap.wrun false (fun _ => Fixed.FMap.new) 0 fprog).getD (fun _ => Fixed.FMap.new, 0)

theorem fst_eq : Fixed.FMap.wrun false (fun _ => Fixed.FMap.new) 0 fprog = some fst := by
  have : (Fixed.FMap.wrun false (fun _ => Fixed.FMap.new) 0 fprog).isSome = true := by decide +kernel
  exact (Option.some_get this).symm.trans (by rw [fst, Option.get_eq_getD])

end Verif.DemoC

namespace Verif.Props
open Verif.Wild Verif.Demo Std
universe w u
variable {σ : Type w} {τ : Type u} {K V : Type}

/-! ## `AvlMap` -/
section avl
open Verif.Avl Verif.Avl.AvlMap
variable [Ord K] [TransOrd K]

/-- Maps built by any program with lawless comparisons but without `append`, `split_off` and `retain`, and
maps built by any program with lawful ones. -/
theorem held_avl {m : AvlMap K V} (h : HeldA τ m ∨ Reachable m) : m.Inv := by
  rcases h with h | h
  · exact h.inv
  · exact h.wf.inv

/-- C65.  `get`, `get_mut`, `insert` and `remove` on an `AvlMap` of `n` entries make `q` comparisons
with `fib (q + 2) ≤ n + 1`, so that `q ≤ 1.45 log2 (n + 1)`. -/
theorem C65_avl {m : AvlMap K V} (h : HeldA τ m ∨ Reachable m) (c : Cmp σ K) (g : V → V) (k : K) (v : V)
    (s : σ) :
    (∃ r s' q, m.getW (counted c) (s, 0) = (r, (s', q)) ∧ Nat.fib (q + 2) ≤ m.len + 1 ∧
      2 ^ (20 * q) ≤ (m.len + 1) ^ 29) ∧
    (∃ r s' q, m.getMutW (counted c) g (s, 0) = (r, (s', q)) ∧ Nat.fib (q + 2) ≤ m.len + 1 ∧
      2 ^ (20 * q) ≤ (m.len + 1) ^ 29) ∧
    (∃ r s' q, m.insertW (counted c) k v (s, 0) = some (r, (s', q)) ∧ Nat.fib (q + 2) ≤ m.len + 1 ∧
      2 ^ (20 * q) ≤ (m.len + 1) ^ 29) ∧
    (∃ r s' q, m.removeW (counted c) (s, 0) = some (r, (s', q)) ∧ Nat.fib (q + 2) ≤ m.len + 1 ∧
      2 ^ (20 * q) ≤ (m.len + 1) ^ 29) := by
  have hi := held_avl h
  have key : ∀ q, q ≤ m.root.depth → Nat.fib (q + 2) ≤ m.len + 1 ∧
      2 ^ (20 * q) ≤ (m.len + 1) ^ 29 := by
    intro q hq
    have := Nat.le_trans (Nat.fib_mono (show q + 2 ≤ m.root.depth + 2 by omega)) hi.fib
    exact ⟨this, two_pow_le _ _ this⟩
  refine ⟨?_, ?_, ?_, ?_⟩
  · have := Tree.getW_count (counted_ticks c) m.root (s, 0)
    exact ⟨_, _, _, rfl, key _ (by simpa using this)⟩
  · have := getMutW_count (counted_ticks c) g m (s, 0)
    rcases e : m.getMutW (counted c) g (s, 0) with ⟨r, s', q⟩
    rw [e] at this
    exact ⟨r, s', q, rfl, key _ (by simpa using this)⟩
  · obtain ⟨r, ⟨s', q⟩, e, -⟩ := insertW_spec (counted c) hi k v (s, 0)
    have := insertW_count (counted_ticks c) k v m (s, 0) _ _ e
    exact ⟨r, s', q, e, key _ (by simpa using this)⟩
  · obtain ⟨r, ⟨s', q⟩, e, -⟩ := removeW_spec (counted c) hi (s, 0)
    have := removeW_count (counted_ticks c) m (s, 0) _ _ e
    exact ⟨r, s', q, e, key _ (by simpa using this)⟩

/-- In a map of 15 entries, 5 comparisons are allowed and 4 are made. -/
example : HeldA Nat (ast.1 0) ∧ (ast.1 0).len = 15 ∧ Nat.fib (5 + 2) ≤ 16 ∧ 16 < Nat.fib (6 + 2) ∧
    ((ast.1 0).insertW (counted (honest 3)) 3 30 (0, 0)).map (·.2.2) = some 4 ∧
    ((ast.1 0).insertW (counted (moody 6)) 6 60 (0, 0)).map (·.2.2) = some 4 ∧
    ((ast.1 0).removeW (counted (fun _ s => (some .lt, s))) (0, 0)).map (·.2.2) = some 3 :=
  ⟨ast_held 0, by decide +kernel, by decide, by decide, by decide +kernel, by decide +kernel,
    by decide +kernel⟩

/-- C65.  `append` and the set operations on maps of `n1` and `n2` entries make at most
`min n1 (d1 * n2) * d2` comparisons, where `d1` and `d2` are at least the greatest depths of trees of `n1` and `n2`
entries: one search in the second map for every entry of the first, and no more than that for the
paths to the entries of the second. -/
theorem C65_avl_merge {m1 m2 : AvlMap K V} (h1 : HeldA τ m1 ∨ Reachable m1)
    (h2 : HeldA τ m2 ∨ Reachable m2) (c : K → Cmp σ K) (kl kr : Bool)
    (dec : K × V → K × V → Option (K × V)) (s : σ) {d1 d2 : Nat}
    (hd1 : m1.len + 1 < Nat.fib (d1 + 3)) (hd2 : m2.len + 1 < Nat.fib (d2 + 3)) :
    (∃ r s' q, m1.appendW m2 (fun k => counted (c k)) (s, 0) = some (r, (s', q)) ∧
      q ≤ min m1.len (d1 * m2.len) * d2) ∧
    (∃ r s' q, newMergeW kl kr dec m1 m2 (fun k => counted (c k)) (s, 0) = some (r, (s', q)) ∧
      q ≤ min m1.len (d1 * m2.len) * d2) := by
  have i1 := held_avl h1
  have i2 := held_avl h2
  have hs : m1.root.size = m1.len := by rw [i1.len_eq, Tree.size_eq]; rfl
  have hd : m1.root.depth ≤ d1 := Tree.depth_le i1.bal (Nat.le_of_eq i1.len_eq.symm) hd1
  have hle : min m1.root.size (m1.root.depth * m2.len) * d2 ≤ min m1.len (d1 * m2.len) * d2 := by
    rw [hs]
    have : m1.root.depth * m2.len ≤ d1 * m2.len := Nat.mul_le_mul_right _ hd
    exact Nat.mul_le_mul_right _ (by omega)
  constructor
  · obtain ⟨r, ⟨s', q⟩, e, -⟩ := Tree.mergeW_spec true true (fun _ r => some r)
      (fun k => counted (c k)) m1.root m2.root i1.bal i2.bal (s, 0)
    have hc := appendW_count (m := m1) (μ := (·.2)) (fun k => counted_ticks (c k)) i2 hd2 (s, 0)
    rcases r with _ | t
    · refine ⟨_, s', q, by rw [appendW, e], ?_⟩
      have := hc _ _ (by rw [appendW, e])
      simp only at this; omega
    · refine ⟨_, s', q, by rw [appendW, e], ?_⟩
      have := hc _ _ (by rw [appendW, e])
      simp only at this; omega
  · obtain ⟨r, ⟨s', q⟩, e, -⟩ := Tree.mergeW_spec kl kr dec
      (fun k => counted (c k)) m1.root m2.root i1.bal i2.bal (s, 0)
    have hc := newMergeW_count (l := m1) (μ := (·.2)) (fun k => counted_ticks (c k)) kl kr dec i2 hd2
      (s, 0)
    rcases r with _ | t
    · refine ⟨_, s', q, by rw [newMergeW, e], ?_⟩
      have := hc _ _ (by rw [newMergeW, e])
      simp only at this; omega
    · refine ⟨_, s', q, by rw [newMergeW, e], ?_⟩
      have := hc _ _ (by rw [newMergeW, e])
      simp only at this; omega

/-- 9 and 7 entries: at most 36 comparisons one way and 28 the other; 9 and 12 are made. -/
example : (hst.1 0).len = 9 ∧ (hst.1 1).len = 7 ∧ 9 + 1 < Nat.fib (4 + 3) ∧ 7 + 1 < Nat.fib (4 + 3) ∧
    ((hst.1 0).appendW (hst.1 1) (fun k => counted (honest k)) (0, 0)).map (·.2.2) = some 9 ∧
    ((hst.1 1).appendW (hst.1 0) (fun k => counted (honest k)) (0, 0)).map (·.2.2) = some 12 := by
  decide +kernel

/-- C65.  `split_off` makes at most twice, and `extend` by `n2` entries at most `n2` times, as many
comparisons as the greatest depth of a tree with the entries there are or may come to be. -/
theorem C65_avl_split_extend {m : AvlMap K V} (h : HeldA τ m ∨ Reachable m) (c : Cmp σ K)
    (ck : K → Cmp σ K) (es : List (K × V)) (s : σ) {d : Nat} :
    (m.len + 1 < Nat.fib (d + 3) → ∃ r s' q,
      m.splitOffW (counted c) (fun k => counted (ck k)) (s, 0) = some (r, (s', q)) ∧ q ≤ 2 * d) ∧
    (m.len + es.length < Nat.fib (d + 3) → ∃ r s' q,
      m.extendW (fun k => counted (ck k)) es (s, 0) = some (r, (s', q)) ∧ q ≤ es.length * d) := by
  have hi := held_avl h
  constructor
  · intro hd
    obtain ⟨r, ⟨s', q⟩, e, -⟩ := splitOffW_spec (c := counted c) hi (fun k => counted (ck k)) (s, 0)
    have := splitOffW_count (μ := (·.2)) (counted_ticks c) (fun k => counted_ticks (ck k)) hi hd (s, 0)
      _ _ e
    exact ⟨r, s', q, e, by simpa using this⟩
  · intro hd
    obtain ⟨r, ⟨s', q⟩, e, -⟩ := extendW_spec hi (fun k => counted (ck k)) es (s, 0)
    have := extendW_count (μ := (·.2)) (fun k => counted_ticks (ck k)) hi es hd (s, 0) _ _ e
    exact ⟨r, s', q, e, by simpa using this⟩

/-- At most 8 and 12 comparisons; 6 and 10 are made. -/
example : 9 + 1 < Nat.fib (4 + 3) ∧ 9 + 3 < Nat.fib (4 + 3) ∧
    ((hst.1 0).splitOffW (counted (honest 4)) (fun k => counted (honest k)) (0, 0)).map (·.2.2) =
      some 6 ∧
    ((hst.1 0).extendW (fun k => counted (honest k)) [(20, 1), (5, 2), (7, 3)] (0, 0)).map (·.2.2) =
      some 10 := by
  decide +kernel

end avl

/-! ## `BTreeMap` -/
section btree
open Verif.BTree Verif.BTree.BTreeMap
variable {N : Nat}

/-- C65.  `get`, `get_mut` and `insert` on a `BTreeMap<K, V, N>` make at most `2N + 1` comparisons for
each of the `h + 1` levels that fewer than `2 (N+1)^(h+1) - 1` entries can have; `contains_key` too;
and `remove`, which searches twice, at most twice as many. -/
theorem C65_btree (hN : 1 ≤ N) {m : BTreeMap K V} (hm : HeldB τ N m) (c : Cmp σ K) (g : V → V) (k : K)
    (v : V) (s : σ) {h : Nat} (hh : m.len + 1 < 2 * (N + 1) ^ (h + 1)) :
    (∃ r s' q, m.getW (counted c) (s, 0) = some (r, (s', q)) ∧ q ≤ (2 * N + 1) * (h + 1)) ∧
    (∃ r s' q, m.containsW (counted c) (s, 0) = (r, (s', q)) ∧ q ≤ (2 * N + 1) * (h + 1)) ∧
    (∃ r s' q, m.getMutW (counted c) g (s, 0) = some (r, (s', q)) ∧ q ≤ (2 * N + 1) * (h + 1)) ∧
    (∃ r s' q, m.insertW N (counted c) k v (s, 0) = some (r, (s', q)) ∧
      q ≤ (2 * N + 1) * (h + 1)) ∧
    (∃ r s' q, m.removeW N (counted c) (s, 0) = some (r, (s', q)) ∧
      q ≤ 2 * ((2 * N + 1) * (h + 1))) := by
  have hi := hm.inv hN
  have hl := hi.low hh
  refine ⟨?_, ?_, ?_, ?_, ?_⟩
  · obtain ⟨r, ⟨s', q⟩, e, -⟩ := getW_spec N (counted c) hi (s, 0)
    exact ⟨r, s', q, e, by simpa using getW_count (counted_ticks c) hl (s, 0) _ _ e⟩
  · have := containsW_count (counted_ticks c) hl (s, 0)
    rcases e : m.containsW (counted c) (s, 0) with ⟨r, s', q⟩
    rw [e] at this
    exact ⟨r, s', q, rfl, by simpa using this⟩
  · obtain ⟨r, ⟨s', q⟩, e, -⟩ := getMutW_spec N (counted c) hi g (s, 0)
    exact ⟨r, s', q, e, by simpa using getMutW_count (counted_ticks c) g hl (s, 0) _ _ e⟩
  · obtain ⟨r, ⟨s', q⟩, e, -⟩ := insertW_spec N (counted c) hi k v (s, 0)
    exact ⟨r, s', q, e, by simpa using insertW_count (counted_ticks c) k v hl (s, 0) _ _ e⟩
  · obtain ⟨r, ⟨s', q⟩, e, -⟩ := removeW_spec N (counted c) hN hi (s, 0)
    exact ⟨r, s', q, e, by simpa using removeW_count (counted_ticks c) hl (s, 0) _ _ e⟩

/-- 33 entries with `N = 1`: at most 5 levels, 15 comparisons, 30 for `remove`. -/
example : (bst.1 0).len = 33 ∧ 33 + 1 < 2 * (1 + 1) ^ (4 + 1) ∧
    ((bst.1 0).getW (counted (fun _ s => (some .gt, s))) (0, 0)).map (·.2.2) = some 9 ∧
    ((bst.1 0).insertW 1 (counted (fun _ s => (some .gt, s))) 3 3 (0, 0)).map (·.2.2) = some 9 ∧
    ((bst.1 0).removeW 1 (counted (honest 3)) (0, 0)).map (·.2.2) = some 8 := by
  decide +kernel

/-- C65.  `extend` and `append` make at most as many comparisons as that number of insertions into a
map of the size that it may come to have. -/
theorem C65_btree_extend (hN : 1 ≤ N) (o : Sharing K V) {m m2 : BTreeMap K V} (hm : HeldB τ N m)
    (h2 : HeldB τ N m2) (c : K → Cmp σ K) (es : List (K × V)) (s : σ) {h : Nat} :
    (m.len + es.length < 2 * (N + 1) ^ (h + 1) → ∃ r s' q,
      m.extendW N (fun k => counted (c k)) es (s, 0) = some (r, (s', q)) ∧
        q ≤ es.length * ((2 * N + 1) * (h + 1))) ∧
    (m.len + m2.len < 2 * (N + 1) ^ (h + 1) → ∃ r s' q,
      m.appendW N o m2 (fun k => counted (c k)) (s, 0) = some (r, (s', q)) ∧
        q ≤ m2.len * ((2 * N + 1) * (h + 1))) := by
  constructor
  · intro hh
    obtain ⟨r, ⟨s', q⟩, e, -⟩ := extendW_spec N (hm.inv hN) (fun k => counted (c k)) es (s, 0)
    have := extendW_count (μ := (·.2)) (fun k => counted_ticks (c k)) (hm.inv hN) es hh (s, 0) _ _ e
    exact ⟨r, s', q, e, by simpa using this⟩
  · intro hh
    obtain ⟨r, ⟨s', q⟩, e, -⟩ := appendW_spec hN o (hm.inv hN) (h2.inv hN) (fun k => counted (c k)) (s, 0)
    have := appendW_count (μ := (·.2)) hN o (fun k => counted_ticks (c k)) (hm.inv hN) (h2.inv hN) hh
      (s, 0) _ _ e
    exact ⟨r, s', q, e, by simpa using this⟩

/-- At most 45 comparisons for three more entries, and 90 for six; 18 and 27 are made. -/
example : 33 + 3 < 2 * (1 + 1) ^ (4 + 1) ∧ (bst.1 2).len = 6 ∧
    ((bst.1 0).extendW 1 (fun k => counted (honest k)) [(20, 1), (5, 2), (7, 3)] (0, 0)).map (·.2.2) =
      some 18 ∧
    ((bst.1 0).appendW 1 .shared (bst.1 2) (fun k => counted (honest k)) (0, 0)).map (·.2.2) =
      some 27 := by
  decide +kernel

/-- C65.  `retain` and `split_off` insert every entry again: on a map of `n` entries they make at most as
many comparisons as `n` insertions, and `split_off` `n` more to tell the two parts apart.  The
comparisons of `split_off` with its argument (`g`) and those of the insertions count alike; what
the closure of `retain` does is not counted. -/
theorem C65_btree_retain (hN : 1 ≤ N) (o : Sharing K V) {m : BTreeMap K V} (hm : HeldB τ N m)
    (c : K → Cmp σ K) (f : K → V → σ → Option (V × Bool) × σ) (g : K → σ → Option Bool × σ) (s : σ)
    {h : Nat} (hh : m.len < 2 * (N + 1) ^ (h + 1)) :
    (∃ r s' q, m.retainW N o (fun k => counted (c k))
        (fun k v t => ((f k v t.1).1, ((f k v t.1).2, t.2))) (s, 0) = some (r, (s', q)) ∧
        q ≤ m.len * ((2 * N + 1) * (h + 1))) ∧
    (∃ r s' q, m.splitOffW N o (fun k => counted (c k))
        (fun k t => ((g k t.1).1, ((g k t.1).2, t.2 + 1))) (s, 0) = some (r, (s', q)) ∧
        q ≤ m.len * ((2 * N + 1) * (h + 1) + 1)) := by
  constructor
  · obtain ⟨r, ⟨s', q⟩, e, -⟩ := retainW_spec hN o (hm.inv hN) (fun k => counted (c k))
      (fun k v t => ((f k v t.1).1, ((f k v t.1).2, t.2))) (s, 0)
    have := retainW_count (μ := (·.2)) (d := 0) hN o (fun k => counted_ticks (c k))
      (fun _ _ _ => Nat.le_refl _) (hm.inv hN) hh (s, 0) _ _ e
    exact ⟨r, s', q, e, by simpa using this⟩
  · obtain ⟨r, ⟨s', q⟩, e, -⟩ := splitOffW_spec hN o (hm.inv hN) (fun k => counted (c k))
      (fun k t => ((g k t.1).1, ((g k t.1).2, t.2 + 1))) (s, 0)
    have := splitOffW_count (μ := (·.2)) (d := 1) hN o (fun k => counted_ticks (c k))
      (fun _ _ => Nat.le_refl _) (hm.inv hN) hh (s, 0) _ _ e
    exact ⟨r, s', q, e, by simpa using this⟩

/-- At most 495 and 528 comparisons for 33 entries; 101 and 169 are made. -/
example : (bst.1 0).len = 33 ∧ 33 < 2 * (1 + 1) ^ (4 + 1) ∧
    ((bst.1 0).retainW 1 .shared (fun k => counted (honest k))
      (fun k v t => (some (v + 1, k % 3 != 0), t)) (0, 0)).map (·.2.2) = some 101 ∧
    ((bst.1 0).splitOffW 1 .shared (fun k => counted (honest k))
      (fun k t => (some (decide (9 > k)), (t.1, t.2 + 1))) (0, 0)).map (·.2.2) = some 169 := by
  decide +kernel

/-- A comparison on a state with a counter that it leaves alone. -/
def uncounted (c : Cmp σ K) : Cmp (σ × Nat) K :=
  fun k t => ((c k t.1).1, ((c k t.1).2, t.2))

/-- C65.  `retain` calls its closure at most once per entry, and `split_off` compares its argument at
most once with each key. -/
theorem C65_btree_retain_calls (hN : 1 ≤ N) (o : Sharing K V) {m : BTreeMap K V} (hm : HeldB τ N m)
    (c : K → Cmp σ K) (f : K → V → σ → Option (V × Bool) × σ) (g : K → σ → Option Bool × σ) (s : σ) :
    (∃ r s' q, m.retainW N o (fun k => uncounted (c k))
        (fun k v t => ((f k v t.1).1, ((f k v t.1).2, t.2 + 1))) (s, 0) = some (r, (s', q)) ∧
        q ≤ m.len) ∧
    (∃ r s' q, m.splitOffW N o (fun k => uncounted (c k))
        (fun k t => ((g k t.1).1, ((g k t.1).2, t.2 + 1))) (s, 0) = some (r, (s', q)) ∧
        q ≤ m.len) := by
  have hh : m.len < 2 * (N + 1) ^ (m.len + 1) := by
    have h1 : m.len + 1 < 2 ^ (m.len + 1) := Nat.lt_two_pow_self
    have h2 : 2 ^ (m.len + 1) ≤ (N + 1) ^ (m.len + 1) := Nat.pow_le_pow_left (by omega) _
    omega
  -- a call counts for more than all comparisons can
  have fit : ∀ B q : Nat, q * (m.len * B + 1) ≤ m.len * (B + (m.len * B + 1)) → q ≤ m.len := by
    intro B q h
    refine Classical.byContradiction fun hq => ?_
    have h1 : (m.len + 1) * (m.len * B + 1) ≤ q * (m.len * B + 1) := Nat.mul_le_mul_right _ (by omega)
    rw [Nat.mul_add m.len B, Nat.succ_mul] at *
    omega
  constructor
  · obtain ⟨r, ⟨s', q⟩, e, -⟩ := retainW_spec hN o (hm.inv hN) (fun k => uncounted (c k))
      (fun k v t => ((f k v t.1).1, ((f k v t.1).2, t.2 + 1))) (s, 0)
    have := retainW_count (μ := fun t => t.2 * (m.len * ((2 * N + 1) * (m.len + 1)) + 1))
      (d := m.len * ((2 * N + 1) * (m.len + 1)) + 1) hN o (fun k _ _ => Nat.le_succ _)
      (fun _ _ t => by simp only [Nat.succ_mul]; omega) (hm.inv hN) hh (s, 0) _ _ e
    exact ⟨r, s', q, e, fit _ q (by simpa using this)⟩
  · obtain ⟨r, ⟨s', q⟩, e, -⟩ := splitOffW_spec hN o (hm.inv hN) (fun k => uncounted (c k))
      (fun k t => ((g k t.1).1, ((g k t.1).2, t.2 + 1))) (s, 0)
    have := splitOffW_count (μ := fun t => t.2 * (m.len * ((2 * N + 1) * (m.len + 1)) + 1))
      (d := m.len * ((2 * N + 1) * (m.len + 1)) + 1) hN o (fun k _ _ => Nat.le_succ _)
      (fun _ t => by simp only [Nat.succ_mul]; omega) (hm.inv hN) hh (s, 0) _ _ e
    exact ⟨r, s', q, e, fit _ q (by simpa using this)⟩

/-- 33 calls for 33 entries. -/
example : (bst.1 0).len = 33 ∧
    ((bst.1 0).retainW 1 .shared (fun k => uncounted (honest k))
      (fun k v t => (some (v + 1, k % 3 != 0), (t.1, t.2 + 1))) (0, 0)).map (·.2.2) = some 33 ∧
    ((bst.1 0).splitOffW 1 .shared (fun k => uncounted (honest k))
      (fun k t => (some (decide (9 > k)), (t.1, t.2 + 1))) (0, 0)).map (·.2.2) = some 33 := by
  decide +kernel

end btree

/-! ## `fixed::BTreeMap` -/
section fixed
open Verif.Fixed Verif.Fixed.FMap

theorem perNode_max (lin : Bool) : perNode lin 11 = if lin then 11 else 5 := by
  cases lin
  · rw [perNode, if_neg (by simp), halvings, dif_pos (by omega), halvings, dif_pos (by omega),
      halvings, dif_pos (by omega), halvings, dif_pos (by omega), halvings, dif_neg (by omega)]
    rfl
  · rfl

/-- C65.  In `fixed::BTreeMap` each of the `h + 1` levels that fewer than `2 * 6^(h+1) - 1` entries can
have costs at most 11 comparisons if the keys are small (linear search), and 5 if not (binary search). -/
theorem C65_fixed {lin : Bool} {m : FMap K V} (hm : HeldF τ lin m) (c : Cmp σ K) (g : V → V) (k : K)
    (v : V) (s : σ) {h : Nat} (hh : m.len + 1 < 2 * 6 ^ (h + 1)) :
    (∃ r s' q, m.getW lin (counted c) (s, 0) = some (r, (s', q)) ∧
      q ≤ (if lin then 11 else 5) * (h + 1)) ∧
    (∃ r s' q, m.getMutW lin (counted c) g (s, 0) = some (r, (s', q)) ∧
      q ≤ (if lin then 11 else 5) * (h + 1)) ∧
    (∃ r s' q, m.insertW lin (counted c) k v (s, 0) = some (r, (s', q)) ∧
      q ≤ (if lin then 11 else 5) * (h + 1)) ∧
    (∃ r s' q, m.removeW lin (counted c) (s, 0) = some (r, (s', q)) ∧
      q ≤ (if lin then 11 else 5) * (h + 1)) := by
  have hi := hm.inv
  have hl : m.Low h := hi.low hh
  rw [← perNode_max]
  refine ⟨?_, ?_, ?_, ?_⟩
  · obtain ⟨r, ⟨s', q⟩, e, -⟩ := getW_spec lin (counted c) hi (s, 0)
    exact ⟨r, s', q, e, by simpa using getW_count (counted_ticks c) hl (s, 0) _ _ e⟩
  · obtain ⟨r, ⟨s', q⟩, e, -⟩ := getMutW_spec lin (counted c) hi g (s, 0)
    exact ⟨r, s', q, e, by simpa using getMutW_count (counted_ticks c) g hl (s, 0) _ _ e⟩
  · obtain ⟨r, ⟨s', q⟩, e, -⟩ := insertW_spec lin (counted c) hi k v (s, 0)
    exact ⟨r, s', q, e, by simpa using insertW_count (counted_ticks c) k v hl (s, 0) _ _ e⟩
  · obtain ⟨r, ⟨s', q⟩, e, -⟩ := removeW_spec lin (counted c) hi (s, 0)
    exact ⟨r, s', q, e, by simpa using removeW_count (counted_ticks c) hl (s, 0) _ _ e⟩

theorem fstC_held (i : Nat) : HeldF Nat false (DemoC.fst.1 i) :=
  ⟨DemoC.fprog, 0, DemoC.fst.2, DemoC.fst.1, i, DemoC.fst_eq, rfl⟩

/-- Two levels: at most 22 comparisons with the linear search and 10 with the binary one. -/
example : (Demo.fst.1 0).len = 34 ∧ 34 + 1 < 2 * 6 ^ (1 + 1) ∧
    ((Demo.fst.1 0).getW true (counted (fun _ s => (some .gt, s))) (0, 0)).map (·.2.2) = some 9 ∧
    ((Demo.fst.1 0).removeW true (counted (honest 12)) (0, 0)).map (·.2.2) = some 8 ∧
    (DemoC.fst.1 0).len = 31 ∧
    ((DemoC.fst.1 0).getW false (counted (fun _ s => (some .gt, s))) (0, 0)).map (·.2.2) = some 7 ∧
    ((DemoC.fst.1 0).removeW false (counted (honest 12)) (0, 0)).map (·.2.2) = some 7 := by
  decide +kernel

/-- C65.  `extend`. -/
theorem C65_fixed_extend {lin : Bool} {m : FMap K V} (hm : HeldF τ lin m) (c : K → Cmp σ K)
    (es : List (K × V)) (s : σ) {h : Nat} (hh : m.len + es.length < 2 * 6 ^ (h + 1)) :
    ∃ r s' q, m.extendW lin (fun k => counted (c k)) es (s, 0) = some (r, (s', q)) ∧
      q ≤ es.length * ((if lin then 11 else 5) * (h + 1)) := by
  obtain ⟨r, ⟨s', q⟩, e, -⟩ := extendW_spec lin hm.inv (fun k => counted (c k)) es (s, 0)
  have := extendW_count (μ := (·.2)) (fun k => counted_ticks (c k)) hm.inv es hh (s, 0) _ _ e
  rw [perNode_max] at this
  exact ⟨r, s', q, e, by simpa using this⟩

/-- Three more entries: at most 30 comparisons. -/
example : 31 + 3 < 2 * 6 ^ (1 + 1) ∧
    ((DemoC.fst.1 0).extendW false (fun k => counted (honest k)) [(20, 1), (5, 2), (7, 3)]
      (0, 0)).map (·.2.2) = some 21 := by
  decide +kernel

end fixed
end Verif.Props
