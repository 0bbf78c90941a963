import Verif.Wild.RangeCount
import Verif.Wild.AvlRangeCount
import Verif.Props.Compare
import Verif.Props.WildHonest
import Verif.Props.AvlMap
import Verif.Props.BTreeMap
/-!
# C76 Range queries with a lawless `Ord`

`range` and `range_mut` compare the bounds with keys of the map.  Here each of these comparisons
is any function of the key and of a state, which it may change; it may contradict itself and it
may panic.  The iterators that `range` and `range_mut` return compare nothing.
-/
set_option linter.unusedVariables false
namespace Verif.Demo
open Verif.Wild

/-- Tests of an `AvlMap` range that go round, and panic at every 29th call. -/
def moodyTests : Avl.Tests Nat Nat :=
  let c := fun (j : Nat) (k s : Nat) =>
    (if s % 29 = 28 then none else some (decide ((k + s * j) % 3 = 0)), s + 1)
  ⟨c 1, c 2, c 5⟩

/-- A comparison of `q` with the identity of a key, which panics at every ninth call. -/
def wearyKey (q : Nat) : Cmp Nat CKey := fun k s =>
  (if s % 9 = 8 then none else some (compare q k.id), s + 1)

theorem wearyKey_honest (q : Nat) : Honest (wearyKey q) (fun k => compare q k.id) := by
  intro k s o h
  simp only [wearyKey] at h
  split at h
  · cases h
  · exact (Option.some.inj h).symm

/-- The tests of `range(lo..hi)`, which panic at every 20th call. -/
def wearyTests (lo hi : Nat) : Avl.Tests Nat CKey :=
  let c := fun (p : Nat → Bool) (k : CKey) (s : Nat) => (if s % 20 = 19 then none else some (p k.id), s + 1)
  ⟨c (fun k => compare hi k != .gt), c (fun k => compare lo k != .lt),
    c (fun k => compare lo k != .gt && compare hi k == .gt)⟩

/-- The keys some calls of an iterator yielded. -/
def yielded (r : Option (List (Option (Nat × Nat) × Nat))) : List Nat :=
  (r.getD []).filterMap (fun y => y.1.map (·.1))

/-- How a range query ended: `none` if the crate panicked, `some none` if a comparison did, else
the keys that 34 calls yield. -/
def queryB (r : Option (Ends Unit (BTree.InnerIter (BTree.NIter (Nat × Nat) (BTree.Node Nat Nat))) × Nat)) :
    Option (Option (List Nat)) :=
  r.map (fun r => match r.1 with
    | .unwound _ => none
    | .done it => some (yielded (BTree.nodeOps.run (List.replicate 34 true) it)))

/-- The same for `AvlMap`. -/
def queryA (r : Option (Ends Unit (Avl.Iter Nat Nat) × Nat)) : Option (Option (List Nat)) :=
  r.map (fun r => match r.1 with
    | .unwound _ => none
    | .done it => some (yielded (it.run (List.replicate 34 true))))

end Verif.Demo

namespace Verif.Props
open Verif.Wild Verif.Demo Std
universe w
variable {σ : Type w} {K V : Type}

/-! ## `BTreeMap` -/
section btree
open Verif.BTree Verif.BTree.BTreeMap
variable {N : Nat}

/-- C76.  On any map a program with lawless comparisons holds, `range` and `range_mut` with any
bounds return an iterator, or unwind because a comparison panicked, or panic themselves, and
that only if `k2 < k1` was answered yes or the lower bound is exclusive.  The iterator yields
entries of the map, each at most once and in the order of the map: under every schedule of
calls it does what the double-ended iterator of a sublist of the entries does. -/
theorem C76_btree_range (hN : 1 ≤ N) {m : BTreeMap K V} (h : HeldB σ N m) (lt : σ → Option Bool × σ)
    (lb ub : WBnd σ K) (s : σ) :
    match m.rangeW lt lb ub s with
    | none => (∃ s, (lt s).1 = some true) ∨ ∃ c, lb = .excluded c
    | some (.unwound _, _) => (∃ s, (lt s).1 = none) ∨ ∃ e ∈ m.abs, ∃ c s, (c e.1 s).1 = none ∧
        (lb = .included c ∨ lb = .excluded c ∨ ub = .included c ∨ ub = .excluded c)
    | some (.done it, _) => ∃ l, l.Sublist m.abs ∧ ∀ ds, nodeOps.run ds it =
        some ((Spec.dequeRun ds l).map (fun x => (x.1, x.2 + (m.len - l.length)))) := by
  have hm := h.inv hN
  have := rangeW_spec hm lt lb ub s
  rcases hr : m.rangeW lt lb ub s with _ | ⟨u | it, s'⟩ <;> rw [hr] at this <;> simp only at this ⊢
  · refine this.imp_right fun h => ?_
    cases lb <;> simp_all [WBnd.ex]
  · refine this.imp_right ?_
    rintro (h | h)
    · cases lb with
      | unbounded => exact h.elim
      | included c => obtain ⟨e, he, s, h⟩ := h; exact ⟨e, he, c, s, h, .inl rfl⟩
      | excluded c => obtain ⟨e, he, s, h⟩ := h; exact ⟨e, he, c, s, h, .inr (.inl rfl)⟩
    · cases ub with
      | unbounded => exact h.elim
      | included c => obtain ⟨e, he, s, h⟩ := h; exact ⟨e, he, c, s, h, .inr (.inr (.inl rfl))⟩
      | excluded c => obtain ⟨e, he, s, h⟩ := h; exact ⟨e, he, c, s, h, .inr (.inr (.inr rfl))⟩
  · obtain ⟨h1, h2, h3⟩ := this
    refine ⟨_, h3, fun ds => ?_⟩
    letI : Ord K := anyOrd
    haveI : TransOrd K := anyTrans
    refine (nodeSpecN (K := K) (V := V) hN).run ds _ h2 ?_
    have := h3.length_le
    have := hm.len
    omega

/-- A panic of a comparison, all of a stretch, entries that are not next to each other (after 4
and 5 would come 6), and a panic of the crate. -/
example :
    let q := fun lb ub s => queryB ((bst.1 0).rangeW (fun s => (some false, s)) lb ub s)
    q (.included (moody 7)) (.included (moody 19)) 15 = some none ∧
      q (.excluded (moody 5)) (.included (moody 20)) 3 = some (some [3, 4]) ∧
      q (.included (moody 7)) (.included (moody 19)) 14 = some (some [4, 0, 8]) ∧
      q (.excluded (moody 5)) (.included (moody 20)) 1 = none := by decide +kernel

/-- C76.  The crate's own panic in the third case does occur, without `k2 < k1` and without an
exclusive upper bound: it takes a comparison that says both that a key is equal to the lower
bound and that it is above the upper one. -/
theorem C76_btree_range_may_panic : ∃ (m : BTreeMap Nat Nat) (lb ub : Cmp Nat Nat),
    HeldB Nat 1 m ∧ (∀ k s, (lb k s).1 ≠ none ∧ (ub k s).1 ≠ none) ∧
    m.rangeW (fun s => (some false, s)) (.excluded lb) (.included ub) 0 = none :=
  ⟨bst.1 0, allEq 0, fun _ s => (some .lt, s), bst_held 0, by simp [allEq], by decide +kernel⟩

/-- C76.  With comparisons that keep to an order whenever they answer, `range` and `range_mut`
of a reachable map yield exactly the entries within the bounds, whatever other comparisons
panic or might have; and they panic themselves only for inverted bounds and for two bounds that
exclude one and the same stored key, and never return an iterator for those, as without a panicking
comparison (C23, C24). -/
theorem C76_btree_range_honest {Q : Type} [Ord K] [TransOrd K] [Ord Q] [TransOrd Q] (hN : 1 ≤ N)
    {m : BTreeMap K V} (hm : BTree.Reachable N m) {f : K → Q}
    (hf : ∀ a b, compare (f a) (f b) = compare a b) {lt : σ → Option Bool × σ} {lb ub : WBnd σ K}
    {lo hi : QBnd Q} (hl : lb.Keeps f lo) (hu : ub.Keeps f hi)
    (hlt : ∀ s b s', lb.given = true → ub.given = true → lt s = (some b, s') → lo.bad hi = b)
    (s : σ) :
    let l := m.abs.filter (fun e => (lo.bnd f).okLo e.1 && (hi.bnd f).okHi e.1)
    match m.rangeW lt lb ub s with
    | none => lo.bad hi = true ∨ ∃ q1 q2, lo = .excluded q1 ∧ hi = .excluded q2 ∧
        compare q1 q2 = .eq ∧ ∃ e ∈ m.abs, compare q1 (f e.1) = .eq
    | some (.unwound _, _) => (∃ s, (lt s).1 = none) ∨ lb.Panics m.abs ∨ ub.Panics m.abs
    | some (.done it, _) => lo.bad hi = false ∧ (¬ ∃ q1 q2, lo = .excluded q1 ∧ hi = .excluded q2 ∧
        compare q1 q2 = .eq ∧ ∃ e ∈ m.abs, compare q1 (f e.1) = .eq) ∧ ∀ ds, nodeOps.run ds it =
        some ((Spec.dequeRun ds l).map (fun x => (x.1, x.2 + (m.len - l.length)))) := by
  intro l
  have hw := hm.wf hN
  have hs := rangeW_spec hw.inv lt lb ub s
  have hh := rangeW_honest (m := m) hl hu hlt s
  obtain ⟨-, hr2⟩ := range_spec hN hw hf lo hi
  have hgood : ¬ m.range f lo hi = none → lo.bad hi = false ∧ ¬ BothExclude f lo hi m.abs := by
    intro hne
    obtain ⟨hr1, -⟩ := range_spec hN hw hf lo hi
    by_cases hb : lo.bad hi = true
    · exact (hne (hr1 (.inl hb))).elim
    · exact ⟨by simpa using hb, fun h => hne (hr1 (.inr h))⟩
  rcases hr : m.rangeW lt lb ub s with _ | ⟨u | it, s'⟩ <;> rw [hr] at hs hh <;> simp only at hs hh ⊢
  · refine Classical.byContradiction fun hcon => ?_
    rw [not_or] at hcon
    obtain ⟨it, e, -⟩ := hr2 (by simpa using hcon.1) hcon.2
    rw [hh] at e; cases e
  · exact hs
  · obtain ⟨h1, h2⟩ := hgood (by rw [hh]; simp)
    refine ⟨h1, h2, fun ds => ?_⟩
    obtain ⟨it', e, e1, e2, e3⟩ := hr2 h1 h2
    rw [hh] at e; cases e
    obtain ⟨slack, h4, h5, -⟩ := range_run_spec hN hw e1 e2 e3 ds
    have : m.len - l.length = slack := by
      have : l = Spec.range (lo.bnd f) (hi.bnd f) m.abs := rfl
      rw [this]; omega
    rw [this]; exact h5

/-- The hypotheses hold of `range(2..5)` on the map of the examples, with comparisons that panic at
every ninth call; it does panic, or yields what it should. -/
example : BTree.Reachable 1 bt ∧ WBnd.Keeps CKey.id (.included (wearyKey 2)) (.included 2) ∧
    WBnd.Keeps CKey.id (.excluded (wearyKey 5)) (.excluded 5) ∧ QBnd.bad (.included 2) (.excluded 5) = false :=
  ⟨bt_reachable, .included (wearyKey_honest 2), .excluded (wearyKey_honest 5), rfl⟩
example :
    let q := fun s => (bt.rangeW (fun s => (some false, s)) (.included (wearyKey 2))
      (.excluded (wearyKey 5)) s).map (fun r => match r.1 with
        | .unwound _ => none
        | .done it => some (((nodeOps.run [true, true, true, true] it).getD []).map
            (fun y => y.1.map (·.1.id))))
    q 0 = some (some [some 2, some 3, some 4, none]) ∧ q 7 = some none := by decide +kernel

/-- C65.  `range` and `range_mut` on a `BTreeMap<K, V, N>` make at most `4N + 3` comparisons for each
of the `h + 1` levels that fewer than `2 (N+1)^(h+1) - 1` entries can have, and one of the bounds with
each other; with only one bound, at most `2N + 1` for each level. -/
theorem C65_btree_range {τ : Type} (hN : 1 ≤ N) {m : BTreeMap K V} (hm : HeldB τ N m)
    (lt : σ → Option Bool × σ) (lb ub : WBnd σ K) (s : σ) {h : Nat}
    (hh : m.len + 1 < 2 * (N + 1) ^ (h + 1)) {r s' q}
    (e : m.rangeW (fun s => ((lt s.1).1, ((lt s.1).2, s.2 + 1))) lb.counted ub.counted (s, 0) =
      some (r, (s', q))) :
    q ≤ (4 * N + 3) * (h + 1) + 1 ∧
      (lb = .unbounded ∨ ub = .unbounded → q ≤ (2 * N + 1) * (h + 1)) := by
  have hl := (hm.inv hN).low hh
  have := rangeW_count (μ := (·.2)) (fun s => by simp) lb.counted_ticks ub.counted_ticks hl (s, 0) _ _ e
  have h4 : (2 * N + 1) * (h + 1) ≤ (4 * N + 3) * (h + 1) := Nat.mul_le_mul_right _ (by omega)
  simp only [Nat.zero_add] at this
  constructor
  · refine Nat.le_trans this ?_
    unfold cap
    split <;> (try split) <;> omega
  · intro hb
    refine Nat.le_trans this ?_
    unfold cap
    have hg : (lb.counted.given && ub.counted.given) = false := by
      rcases hb with rfl | rfl
      · rfl
      · rw [Bool.and_comm]; rfl
    rw [hg]
    simp only [Bool.false_eq_true, if_false]
    split <;> omega

/-- 33 entries with `N = 1`, so at most 5 levels: at most 36 comparisons with two bounds, 15 with one. -/
example : (bst.1 0).len = 33 ∧ 33 + 1 < 2 * (1 + 1) ^ (4 + 1) ∧
    ((bst.1 0).rangeW (fun s => (some false, (s.1, s.2 + 1))) (WBnd.counted (.included (honest 3)))
      (WBnd.counted (.excluded (honest 20))) (0, 0)).map (·.2.2) = some 12 ∧
    ((bst.1 0).rangeW (fun s => (some false, (s.1, s.2 + 1))) (WBnd.counted (.included (honest 3)))
      WBnd.unbounded (0, 0)).map (·.2.2) = some 4 := by
  decide +kernel

end btree

/-! ## `AvlMap` -/
section avl
open Verif.Avl Verif.Avl.AvlMap

/-- C76.  On any map a program with lawless comparisons holds, `range` and `range_mut` return an
iterator, or unwind because a comparison with a key of the map panicked; they never panic
themselves.  The iterator yields entries of the map, each at most once and in the order of the
map. -/
theorem C76_avl_range {cs : List (AvlMap.WCmd σ K V)} {s0 s1 : σ} {st : AvlMap.Maps K V}
    (h : AvlMap.wrun (fun _ => new) s0 cs = some (st, s1)) (i : Nat) (t : Tests σ K) (s : σ) :
    ∃ r s', (st i).rangeW t s = some (r, s') ∧
      match r with
      | .unwound _ => ∃ e ∈ (st i).abs, ∃ s,
          (t.ubLe e.1 s).1 = none ∨ (t.lbGe e.1 s).1 = none ∨ (t.holds e.1 s).1 = none
      | .done it => ∃ l, l.Sublist (st i).abs ∧ ∀ ds, it.run ds =
          some ((Spec.dequeRun ds l).map (fun x => (x.1, x.2 + ((st i).len - l.length)))) := by
  obtain ⟨st', s'', e', ho⟩ := AvlMap.wrun_over cs (st := fun _ => new) s0 (fun _ => inv_new.over)
  rw [h] at e'
  cases e'
  have := rangeW_spec t (st i) s
  rcases hr : (st i).rangeW t s with _ | ⟨u | it, s'⟩ <;> rw [hr] at this <;> simp only at this
  · exact ⟨_, _, rfl, this⟩
  · obtain ⟨h1, h2⟩ := this
    refine ⟨_, _, rfl, _, h2, fun ds => ?_⟩
    refine Iter.run_spec ds it _ ?_
    have := h2.length_le
    have h3 := (ho i).le
    rw [AvlMap.abs] at h3
    omega

/-- A panic of a comparison, and entries that are not next to each other. -/
example :
    let q := fun s => queryA ((ast.1 0).rangeW moodyTests s)
    (ast.1 0).abs.map (·.1) = [0, 1, 4, 7, 8, 11, 14, 15, 18, 21, 25, 7, 21, 7, 4] ∧
      q 0 = some (some [18, 7, 21, 7]) ∧ q 1 = some (some [7, 8, 14]) ∧ q 16 = some none := by
  decide +kernel
example := C76_avl_range ast_eq 0 moodyTests 0

/-- C76.  With comparisons that keep to an order whenever they answer, `range` and `range_mut`
of a reachable map yield exactly the entries within the bounds. -/
theorem C76_avl_range_honest [Ord K] [TransOrd K] {m : AvlMap K V} (hm : Avl.Reachable m)
    {t : Tests σ K} {lo hi : Bnd K} (hlo : lo.Lawful) (hhi : hi.Lawful) (ht : t.Honest lo hi)
    (s : σ) :
    let l := m.abs.filter (fun e => lo.okLo e.1 && hi.okHi e.1)
    ∃ r s', m.rangeW t s = some (r, s') ∧
      match r with
      | .unwound _ => t.Panics m.abs
      | .done it => ∀ ds, it.run ds =
          some ((Spec.dequeRun ds l).map (fun x => (x.1, x.2 + (m.len - l.length)))) := by
  intro l
  have := rangeW_spec t m s
  rcases hr : m.rangeW t s with _ | ⟨u | it, s'⟩ <;> rw [hr] at this <;> simp only at this
  · exact ⟨_, _, rfl, this⟩
  · refine ⟨_, _, rfl, fun ds => ?_⟩
    obtain ⟨slack, h1, h2⟩ := C12_avl_range hm hlo hhi ds
    rw [rangeW_honest ht hr]
    have : m.len - l.length = slack := by
      have : l.length + slack = m.len := h2
      omega
    rw [this]; exact h1

/-- The tests of `range(2..5)`, which panic at every 20th call, are such tests. -/
theorem wearyTests_honest (lo hi : Nat) : (wearyTests lo hi).Honest
    (.included (fun k : CKey => compare lo k.id)) (.excluded (fun k => compare hi k.id)) := by
  constructor <;> intro k s b s' h <;> simp only [wearyTests] at h <;> split at h <;> cases h <;> rfl
example :
    let q := fun s => (avl5.rangeW (wearyTests 2 5) s).map (fun r => match r.1 with
      | .unwound _ => none
      | .done it => some (((it.run [true, true, true, true]).getD []).map (fun y => y.1.map (·.1.id))))
    q 0 = some (some [some 2, some 3, some 4, none]) ∧ q 12 = some none := by decide +kernel
example : Avl.Reachable avl5 ∧ Bnd.Lawful (.included (fun k : CKey => compare 2 k.id)) ∧
    Bnd.Lawful (.excluded (fun k : CKey => compare 5 k.id)) :=
  ⟨avl5_reachable, isProbe_compare (⟨2, 0⟩ : CKey), isProbe_compare (⟨5, 0⟩ : CKey)⟩

/-- C65.  `range` and `range_mut` of an `AvlMap` of `n` entries make at most `8 n` comparisons, whatever the
answers; and at most `8 d`, where `d` is at least the greatest depth of a tree of `n` entries, if the answers keep to
some bounds (no order is asked for).  `contains` counts as two comparisons. -/
theorem C65_avl_range [Ord K] [TransOrd K] {m : AvlMap K V} (h : HeldA τ m ∨ Avl.Reachable m)
    (t : Tests σ K) (s : σ) :
    ∃ r s' q, m.rangeW t.counted (s, 0) = some (r, (s', q)) ∧ q ≤ 8 * m.len ∧
      ∀ lo hi d, t.Honest lo hi → m.len + 1 < Nat.fib (d + 3) → q ≤ 8 * d := by
  have hi := held_avl h
  have h0 := rangeW_spec t.counted m (s, 0)
  rcases hr : m.rangeW t.counted (s, 0) with _ | ⟨r, s', q⟩
  · rw [hr] at h0; exact h0.elim
  refine ⟨r, s', q, rfl, ?_, fun lo hi' d ht hd => ?_⟩
  · have := AvlMap.rangeW_nodes t.counted_ticks m (s, 0) _ _ hr
    rw [Tree.size_eq] at this
    have hl := hi.len_eq
    rw [AvlMap.abs] at hl
    simp only at this
    omega
  · have := AvlMap.rangeW_depth t.counted_ticks ht.counted m (s, 0) _ _ hr
    have hdep : m.root.depth ≤ d := Tree.depth_le hi.bal (n := m.len) (Nat.le_of_eq hi.len_eq.symm) hd
    simp only at this
    omega

/-- The tests of `range(lo..hi)`. -/
def plainTests (lo hi : Nat) : Tests Nat Nat :=
  ⟨fun k s => (some (compare hi k != .gt), s), fun k s => (some (compare lo k != .lt), s),
    fun k s => (some (compare lo k != .gt && compare hi k == .gt), s)⟩

/-- Tests that fail. -/
def falseTests : Tests Nat Nat :=
  ⟨fun _ s => (some false, s), fun _ s => (some false, s), fun _ s => (some false, s)⟩

/-- At most 40 comparisons for 15 entries and bounds that are kept to; 14 are made.  Where the answer is
always `false`, there are more: 44, of at most 120. -/
example : HeldA Nat (ast.1 0) ∧ (ast.1 0).len = 15 ∧ 15 + 1 < Nat.fib (5 + 3) ∧
    (plainTests 4 9).Honest (.included (compare 4)) (.excluded (compare 9)) ∧
    ((ast.1 0).rangeW (plainTests 4 9).counted (0, 0)).map (·.2.2) = some 14 ∧
    ((ast.1 0).rangeW falseTests.counted (0, 0)).map (·.2.2) = some 44 := by
  refine ⟨ast_held 0, by decide +kernel, by decide, ⟨?_, ?_, ?_⟩, by decide +kernel, by decide +kernel⟩ <;>
    (intro k s b s' e; cases e; rfl)

end avl

end Verif.Props
