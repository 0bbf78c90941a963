import Verif.Props.Demo
import Verif.Avl.Depth
import Verif.Spec.Lex
/-!
# Properties of `AvlMap`

`Reachable m` says that `m` results from a history of public operations; `m.abs` is the
sequence of entries that iteration yields (C11).  `Spec.*` are functions on sorted lists of
entries.
-/
set_option linter.unusedSectionVars false
namespace Verif.Props
open Std Verif.Avl Verif.Demo
variable {K V : Type} [Ord K] [TransOrd K]

/-! ## C01 insert -/

/-- C01.  `insert` never panics; it returns the value stored before under an equal key; then
lookups of keys equal to `k` find exactly `(k, v)`, other lookups are unchanged; the entries
are strictly ascending and are the old ones with `(k, v)` put in; `len` grows by one exactly
if nothing was returned. -/
theorem C01_avl_insert {m : AvlMap K V} (h : Reachable m) (k : K) (v : V) :
    ∃ m', m.insert k v = some (m', m.get (compare k)) ∧ Reachable m' ∧
      (∀ p, IsProbe p →
        m'.getKeyValue p = if p k = .eq then some (k, v) else m.getKeyValue p) ∧
      Sorted m'.abs ∧ m'.abs = Spec.insert k v m.abs ∧
      m'.len = m.len + (if (m.get (compare k)).isNone then 1 else 0) := by
  have w := h.wf
  obtain ⟨m', e, w', a⟩ := AvlMap.insert_spec w k v
  have hg : m.get (compare k) = (Spec.find (compare k) m.abs).map (·.2) := by
    rw [AvlMap.get, AvlMap.getKeyValue_spec w (isProbe_compare k)]
  refine ⟨m', by rw [e, hg], h.insert e, ?_, w'.sorted, a, ?_⟩
  · intro p hp
    rw [AvlMap.getKeyValue_spec w' hp, AvlMap.getKeyValue_spec w hp, a, find_insert w.sorted hp]
  · rw [w'.len_eq, w.len_eq, a, length_insert w.sorted, hg]
    by_cases hf : (Spec.find (compare k) m.abs).isSome = true
    · obtain ⟨x, hx⟩ := Option.isSome_iff_exists.1 hf; simp [hx]
    · simp at hf; simp [hf]

-- replacing an equal key (the key stored becomes the new one), and adding a new one
example : (avl5.insert ⟨2, 9⟩ 22).map (fun x => (x.1.abs.map (·.1.tag), x.1.len, x.2)) =
    some ([0, 9, 0, 0, 0], 5, some 21) := by decide
example : (avl5.insert ⟨7, 9⟩ 70).map (fun x => (x.1.len, x.2)) = some (6, none) := by decide
example := C01_avl_insert avl5_reachable ⟨2, 9⟩ 22

/-! ## C02 removal -/

/-- C02.  Removal returns the entry equal to the probe and leaves exactly the others. -/
theorem C02_avl_remove {m : AvlMap K V} (h : Reachable m) {p : K → Ordering} (hp : IsProbe p) :
    ∃ m', m.removeEntry p = some (m', m.getKeyValue p) ∧ m.remove p = some (m', m.get p) ∧
      Reachable m' ∧ m'.abs = m.abs.filter (fun e => p e.1 != .eq) ∧
      (∀ q, IsProbe q →
        m'.getKeyValue q = (m.getKeyValue q).filter (fun e => p e.1 != .eq)) ∧
      m'.len + (if (m.getKeyValue p).isSome then 1 else 0) = m.len := by
  have w := h.wf
  obtain ⟨m', e, w', a⟩ := AvlMap.removeEntry_spec w hp
  have hg := AvlMap.getKeyValue_spec w hp
  refine ⟨m', by rw [e, hg], ?_, h.removeEntry hp e, a, ?_, ?_⟩
  · simp only [AvlMap.remove, e, Option.map_some, AvlMap.get, hg]
  · intro q hq
    rw [AvlMap.getKeyValue_spec w' hq, AvlMap.getKeyValue_spec w hq, a, find_erase w.sorted hp hq]
  · rw [w'.len_eq, w.len_eq, a, hg]; exact length_erase hp w.sorted

/-- C02.  `pop_first` and `pop_last` remove the ends. -/
theorem C02_avl_pop {m : AvlMap K V} (h : Reachable m) :
    (∃ m', m.popFirst = some (m', m.abs.head?) ∧ Reachable m' ∧ m'.abs = m.abs.tail ∧
      m'.len = m.len - 1) ∧
    (∃ m', m.popLast = some (m', m.abs.getLast?) ∧ Reachable m' ∧ m'.abs = m.abs.dropLast ∧
      m'.len = m.len - 1) := by
  have w := h.wf
  obtain ⟨m1, e1, w1, a1⟩ := AvlMap.popFirst_spec w
  obtain ⟨m2, e2, w2, a2⟩ := AvlMap.popLast_spec w
  exact ⟨⟨m1, e1, h.popFirst e1, a1, by rw [w1.len_eq, w.len_eq, a1, List.length_tail]⟩,
    ⟨m2, e2, h.popLast e2, a2, by rw [w2.len_eq, w.len_eq, a2, List.length_dropLast]⟩⟩

-- removing the root of a two-child subtree
example : (avl5.removeEntry (compare (⟨3, 8⟩ : CKey))).map (fun x => (x.1.abs.map (·.1.id), x.2)) =
    some ([1, 2, 4, 5], some (⟨3, 0⟩, 30)) := by decide
example := C02_avl_remove avl5_reachable (isProbe_compare (⟨3, 8⟩ : CKey))
example := C02_avl_pop avl5_reachable

/-! ## C03 depth -/

/-- C03.  Cached heights are the true depths and siblings differ by at most one; a map of `n`
entries has depth at most `1.45 · log₂(n+1)` (stated without logarithms), in fact
`fib (depth+2) ≤ n+1`. -/
theorem C03_avl_depth {m : AvlMap K V} (h : Reachable m) :
    m.root.IsAvl ∧ Nat.fib (m.root.depth + 2) ≤ m.len + 1 ∧
      2 ^ (20 * m.root.depth) ≤ (m.len + 1) ^ 29 := by
  have w := h.wf
  have a := (bal_isAvl w.bal).1
  have f := fib_le a
  have hl : m.len = m.root.size := by rw [w.len_eq, Tree.size_eq]; rfl
  rw [← hl] at f
  exact ⟨a, f, two_pow_le _ _ f⟩

/-- C03.  With fewer than `2^64` entries the depth is at most 92, so every cached height (and
every height plus the two by which a rebalancing step can exceed it) fits an `i8`. -/
theorem C03_avl_i8 {m : AvlMap K V} (h : Reachable m) (hn : m.len < 2 ^ 64) :
    m.root.depth ≤ 92 ∧ m.root.height = m.root.depth ∧ m.root.height + 2 ≤ 127 := by
  have w := h.wf
  obtain ⟨a, f, -⟩ := C03_avl_depth h
  have hd : m.root.depth ≤ 92 := by
    by_contra hc
    have h1 := Nat.fib_mono (show 95 ≤ m.root.depth + 2 by omega)
    have h2 : 2 ^ 64 < Nat.fib 95 := by decide +kernel
    omega
  have hh := (bal_isAvl w.bal).2
  exact ⟨hd, hh, by omega⟩

example : avl5.root.depth = 3 ∧ avl5.len = 5 := by decide
example := C03_avl_i8 avl5_reachable (by decide)

/-! ## C04 no internal panic -/

/-- C04.  None of the operations panics on reachable maps, whatever the arguments;
`new_join` does not even if its precondition is violated (with debug assertions off). -/
theorem C04_avl_no_panic {m m2 : AvlMap K V} (h : Reachable m) (h2 : Reachable m2) :
    (∀ k v, (m.insert k v).isSome) ∧
    (∀ p, IsProbe p → (m.removeEntry p).isSome ∧ (m.remove p).isSome ∧ (m.splitOff p).isSome) ∧
    m.popFirst.isSome ∧ m.popLast.isSome ∧ (m.append m2).isSome ∧
    (AvlMap.newUnion m m2).isSome ∧ (AvlMap.newIntersect m m2).isSome ∧
    (AvlMap.newDiff m m2).isSome ∧ (AvlMap.newSymDiff m m2).isSome ∧
    (∀ k v, (AvlMap.newJoin false m k v m2).isSome) ∧
    (∀ es, (m.extend es).isSome) ∧
    (∀ ds, (m.iter.run ds).isSome) ∧
    (∀ lb ub ds, lb.Lawful → ub.Lawful → ((m.range lb ub).run ds).isSome) ∧
    (∀ (σ : Type) (f : σ → K → V → σ × V × Bool) s,
      ∃ s' m', m.retain (fun s k v => some (f s k v)) s = .done s' m') ∧
    (m.serialize).isSome := by
  have w := h.wf
  have w2 := h2.wf
  refine ⟨?_, ?_, ?_, ?_, ?_, ?_, ?_, ?_, ?_, ?_, ?_, ?_, ?_, ?_, ?_⟩
  · intro k v; obtain ⟨_, e, _⟩ := AvlMap.insert_spec w k v; simp [e]
  · intro p hp
    obtain ⟨_, e, _⟩ := AvlMap.removeEntry_spec w hp
    obtain ⟨_, _, e', _⟩ := AvlMap.splitOff_spec w hp
    simp [AvlMap.remove, e, e']
  · obtain ⟨_, e, _⟩ := AvlMap.popFirst_spec w; simp [e]
  · obtain ⟨_, e, _⟩ := AvlMap.popLast_spec w; simp [e]
  · obtain ⟨_, e, _⟩ := AvlMap.append_spec w w2; simp [e]
  · obtain ⟨_, e, _⟩ := AvlMap.newUnion_spec w w2; simp [e]
  · obtain ⟨_, e, _⟩ := AvlMap.newIntersect_spec w w2; simp [e]
  · obtain ⟨_, e, _⟩ := AvlMap.newDiff_spec w w2; simp [e]
  · obtain ⟨_, e, _⟩ := AvlMap.newSymDiff_spec w w2; simp [e]
  · intro k v
    obtain ⟨t, e, _⟩ := Tree.join_shape m.root k v m2.root w.bal w2.bal
    simp [AvlMap.newJoin, e]
  · intro es; obtain ⟨_, e, _⟩ := AvlMap.extend_spec w es; simp [e]
  · intro ds
    rw [Iter.run_spec ds m.iter 0 (by rw [AvlMap.iter, items_iterOf]; exact w.len_eq)]; rfl
  · intro lb ub ds hl hu
    have hi := items_rangeOf hl hu m.len w.sorted
    have hle : (Verif.Avl.items (m.range lb ub).work).length ≤ (m.range lb ub).len := by
      show (Verif.Avl.items (rangeOf lb ub m.len m.root).work).length ≤ m.len
      rw [hi, w.len_eq]; exact List.length_filter_le _ _
    rw [Iter.run_spec ds (m.range lb ub)
      ((m.range lb ub).len - (Verif.Avl.items (m.range lb ub).work).length) (by omega)]
    rfl
  · intro σ f s
    obtain ⟨s', m', e, _⟩ := AvlMap.retain_spec w f s; exact ⟨s', m', e⟩
  · rw [AvlMap.serialize, drain_spec]
    · rfl
    · rw [AvlMap.iter, items_iterOf]; exact Nat.le_of_eq w.len_eq.symm
    · rw [AvlMap.iter, items_iterOf, Tree.size_eq]; omega

example := C04_avl_no_panic avl5_reachable avl3_reachable

/-! ## C05 split_off -/

/-- C05. -/
theorem C05_avl_splitOff {m : AvlMap K V} (h : Reachable m) {p : K → Ordering} (hp : IsProbe p) :
    ∃ a b, m.splitOff p = some (a, b) ∧ Reachable a ∧ Reachable b ∧
      a.abs = m.abs.filter (fun e => p e.1 == .gt) ∧
      b.abs = m.abs.filter (fun e => p e.1 != .gt) ∧
      a.len = a.abs.length ∧ b.len = b.abs.length ∧ a.root.IsAvl ∧ b.root.IsAvl := by
  obtain ⟨a, b, e, w1, w2, h1, h2⟩ := AvlMap.splitOff_spec h.wf hp
  exact ⟨a, b, e, h.splitL hp e, h.splitR hp e, h1, h2, w1.len_eq, w2.len_eq,
    (bal_isAvl w1.bal).1, (bal_isAvl w2.bal).1⟩

example : (avl5.splitOff (compare (⟨3, 8⟩ : CKey))).map
    (fun x => (x.1.abs.map (·.1.id), x.2.abs.map (·.1.id))) = some ([1, 2], [3, 4, 5]) := by decide
example := C05_avl_splitOff avl5_reachable (isProbe_compare (⟨3, 8⟩ : CKey))

/-! ## C06 append / union -/

/-- C06.  A lookup in the merged map finds the entry of `b` if there is one, else that of
`a`; the entries are those of successive insertion of `b` into `a`; `b` ends up empty. -/
theorem C06_avl_append {a b : AvlMap K V} (ha : Reachable a) (hb : Reachable b) :
    ∃ m, a.append b = some (m, AvlMap.new) ∧ AvlMap.newUnion a b = some m ∧ Reachable m ∧
      (∀ p, IsProbe p → m.getKeyValue p = (b.getKeyValue p).or (a.getKeyValue p)) ∧
      m.abs = Spec.insertAll a.abs b.abs ∧ Sorted m.abs ∧ m.len = m.abs.length := by
  have wa := ha.wf
  have wb := hb.wf
  obtain ⟨m, e, w, h⟩ := AvlMap.newUnion_spec wa wb
  obtain ⟨m2, e2, w2, h2⟩ := AvlMap.append_spec wa wb
  have : m2 = m := by
    simp only [AvlMap.append, AvlMap.newUnion] at e e2
    cases hu : Tree.union a.root b.root <;> simp_all
  subst this
  refine ⟨m2, e2, e, ha.union hb e, ?_, h, w.sorted, w.len_eq⟩
  intro p hp
  rw [AvlMap.getKeyValue_spec w hp, AvlMap.getKeyValue_spec wa hp, AvlMap.getKeyValue_spec wb hp, h,
    Spec.find_union hp wa.sorted wb.sorted]

example : (AvlMap.newUnion avl5 avl3).map (fun x => x.abs.map (fun e => (e.1.id, e.1.tag, e.2))) =
    some [(1, 0, 10), (2, 7, 200), (3, 0, 30), (4, 7, 400), (5, 0, 50), (6, 7, 600)] := by decide
example := C06_avl_append avl5_reachable avl3_reachable

/-! ## C07 intersection, difference, symmetric difference -/

/-- C07. -/
theorem C07_avl_set_ops {a b : AvlMap K V} (ha : Reachable a) (hb : Reachable b) :
    (∃ m, AvlMap.newIntersect a b = some m ∧ Reachable m ∧
      m.abs = a.abs.filter (fun e => b.containsKey (compare e.1))) ∧
    (∃ m, AvlMap.newDiff a b = some m ∧ Reachable m ∧
      m.abs = a.abs.filter (fun e => !b.containsKey (compare e.1))) ∧
    (∃ m, AvlMap.newSymDiff a b = some m ∧ Reachable m ∧ Sorted m.abs ∧
      ∀ e, e ∈ m.abs ↔ (e ∈ a.abs ∧ b.containsKey (compare e.1) = false) ∨
        (e ∈ b.abs ∧ a.containsKey (compare e.1) = false)) := by
  have wa := ha.wf
  have wb := hb.wf
  have hc : ∀ {b : AvlMap K V}, b.WF → ∀ e : K × V,
      b.containsKey (compare e.1) = Spec.hasKey e.1 b.abs := by
    intro b wb e
    rw [AvlMap.containsKey, AvlMap.get, AvlMap.getKeyValue_spec wb (isProbe_compare _),
      hasKey_eq_isSome]
    simp [Spec.find]
  obtain ⟨m1, e1, w1, h1⟩ := AvlMap.newIntersect_spec wa wb
  obtain ⟨m2, e2, w2, h2⟩ := AvlMap.newDiff_spec wa wb
  obtain ⟨m3, e3, w3, h3⟩ := AvlMap.newSymDiff_spec wa wb
  refine ⟨⟨m1, e1, ha.intersect hb e1, ?_⟩, ⟨m2, e2, ha.diff hb e2, ?_⟩,
    ⟨m3, e3, ha.symDiff hb e3, w3.sorted, ?_⟩⟩
  · rw [h1, Spec.inter]; congr 1; funext e; rw [hc wb]
  · rw [h2, Spec.diff]; congr 1; funext e; rw [hc wb]
  · intro e
    have hs := Spec.find_symDiff e.1 wa.sorted wb.sorted
    rw [← h3] at hs
    have hfa := fun x => find_eq_some (isProbe_compare e.1) wa.sorted (e := x)
    have hfb := fun x => find_eq_some (isProbe_compare e.1) wb.sorted (e := x)
    have hk : e ∈ m3.abs ↔ Spec.find (compare e.1) m3.abs = some e := by
      rw [find_eq_some (isProbe_compare e.1) w3.sorted]; simp
    have hka : e ∈ a.abs ↔ Spec.find (compare e.1) a.abs = some e := by rw [hfa]; simp
    have hkb : e ∈ b.abs ↔ Spec.find (compare e.1) b.abs = some e := by rw [hfb]; simp
    rw [hk, hs, hka, hkb, hc wa, hc wb, hasKey_eq_isSome, hasKey_eq_isSome]
    simp only [Spec.find]
    cases (a.abs.find? fun x => compare e.1 x.1 == .eq) <;>
      cases (b.abs.find? fun x => compare e.1 x.1 == .eq) <;> simp

example : (AvlMap.newIntersect avl5 avl3).map (fun x => x.abs.map (fun e => (e.1.id, e.1.tag))) =
    some [(2, 1), (4, 0)] := by decide
example : (AvlMap.newSymDiff avl5 avl3).map (fun x => x.abs.map (fun e => (e.1.id, e.1.tag))) =
    some [(1, 0), (3, 0), (5, 0), (6, 7)] := by decide
example := C07_avl_set_ops avl5_reachable avl3_reachable

/-! ## C08 new_join -/

/-- C08. -/
theorem C08_avl_join (debug : Bool) {l r : AvlMap K V} (hl : Reachable l) (hr : Reachable r)
    {k : K} {v : V} (h1 : ∀ e ∈ l.abs, compare e.1 k = .lt)
    (h2 : ∀ e ∈ r.abs, compare k e.1 = .lt) :
    ∃ m, AvlMap.newJoin debug l k v r = some m ∧ Reachable m ∧ m.abs = l.abs ++ (k, v) :: r.abs ∧
      m.len = l.len + 1 + r.len ∧ m.root.IsAvl := by
  obtain ⟨m, e, w, a⟩ := AvlMap.newJoin_spec debug hl.wf hr.wf (v := v) h1 h2
  refine ⟨m, e, ?_, a, ?_, (bal_isAvl w.bal).1⟩
  · cases debug with
    | true => exact hl.joinChecked hr e
    | false => exact hl.joinUnchecked hr h1 h2 e
  · rw [w.len_eq, a, hl.wf.len_eq, hr.wf.len_eq]; simp; omega

-- joining very different sizes (5 entries with 0)
example : (AvlMap.newJoin true avl5 ⟨9, 0⟩ 90 AvlMap.new).map (fun x => (x.len, x.root.depth)) =
    some (6, 3) := by decide
example := C08_avl_join true avl5_reachable Reachable.new (k := ⟨9, 0⟩) (v := 90)
  (by rw [avl5_abs]; decide) (by decide)

/-! ## C09 retain -/

/-- C09.  `retain` with a closure that does not panic calls it exactly once per entry (in the
order `order`, a permutation of the entries), and what is left is exactly the entries kept
by these calls, with the values the closure left in them, in ascending order. -/
theorem C09_avl_retain {σ : Type} {m : AvlMap K V} (h : Reachable m)
    (f : σ → K → V → σ × V × Bool) (s : σ) :
    ∃ s' m', m.retain (fun s k v => some (f s k v)) s = .done s' m' ∧ Reachable m' ∧
      Sorted m'.abs ∧ m'.len = m'.abs.length ∧
      ∃ order : List (K × V), order.Perm m.abs ∧ s' = (Spec.calls f s order).1 ∧
        m'.abs.Perm (Spec.calls f s order).2 := by
  obtain ⟨s', m', e, w, -, hx⟩ := AvlMap.retain_spec h.wf f s
  exact ⟨s', m', e, h.retain e, w.sorted, w.len_eq, hx⟩

/-- C09 for a closure without state: exactly the accepted entries, in order. -/
theorem C09_avl_retain_pure {m : AvlMap K V} (h : Reachable m) (f : K → V → V × Bool) :
    ∃ s' m', m.retain (σ := Unit) (fun _ k v => some ((), f k v)) () = .done s' m' ∧
      m'.abs = (m.abs.filter (fun e => (f e.1 e.2).2)).map (fun e => (e.1, (f e.1 e.2).1)) := by
  obtain ⟨s', m', e, w, -, order, p1, -, p2⟩ :=
    AvlMap.retain_spec h.wf (σ := Unit) (fun _ k v => ((), f k v)) ()
  refine ⟨s', m', e, ?_⟩
  have hcalls : ∀ l : List (K × V), (Spec.calls (σ := Unit) (fun _ k v => ((), f k v)) () l).2 =
      (l.filter (fun e => (f e.1 e.2).2)).map (fun e => (e.1, (f e.1 e.2).1)) := by
    intro l
    induction l with
    | nil => rfl
    | cons x l ih =>
      simp only [Spec.calls, ih, List.filter_cons]
      split <;> simp
  rw [hcalls] at p2
  have p3 := p2.trans ((p1.filter _).map _)
  refine Sorted.ext w.sorted ?_ (fun e => p3.mem_iff)
  refine Sorted.of_keys_sublist h.wf.sorted ?_
  rw [List.map_map]
  exact List.Sublist.map _ List.filter_sublist

example : (match avl5.retain (σ := List Nat) (fun s k v => some (s ++ [k.id], v + 1, v != 30)) [] with
    | .done _ m => some (m.abs.map (·.2), m.len)
    | .panicked _ => none) = some ([11, 22, 41, 51], 4) := by decide
example := C09_avl_retain avl5_reachable (σ := List Nat) (fun s k v => (s ++ [k.id], v + 1, v != 30)) []

/-! ## C10 order of visits of `retain`: false -/

/-- C10 is **false**: `AvlMap::retain` visits in post-order.  On the map `{1, 2, 3}` a
closure recording its keys sees `1, 3, 2`. -/
theorem C10_avl_retain_order_fails :
    ∃ m : AvlMap Nat Nat, Reachable m ∧ ∃ s' m',
      m.retain (σ := List Nat) (fun s k v => some (s ++ [k], v, true)) [] = .done s' m' ∧
      m.abs.map (·.1) = [1, 2, 3] ∧ s' = [1, 3, 2] := by
  refine ⟨(AvlMap.fromIter [(1, 1), (2, 2), (3, 3)]).getD .new, ?_, _, _, rfl, by decide, by decide⟩
  exact Reachable.extend Reachable.new
    (show AvlMap.new.extend [(1, 1), (2, 2), (3, 3)] = some _ by decide)

/-- C10, the part that holds: every entry is visited exactly once (in some order), and the
entries kept do end up in ascending order.  Missing: the order of visits is not ascending. -/
theorem C10_avl_retain_order_partial {σ : Type} {m : AvlMap K V} (h : Reachable m)
    (f : σ → K → V → σ × V × Bool) (s : σ) :
    ∃ s' m', m.retain (fun s k v => some (f s k v)) s = .done s' m' ∧ Sorted m'.abs ∧
      ∃ order : List (K × V), order.Perm m.abs ∧ s' = (Spec.calls f s order).1 := by
  obtain ⟨s', m', e, _, hs, _, o, h1, h2, _⟩ := C09_avl_retain h f s
  exact ⟨s', m', e, hs, o, h1, h2⟩

/-! ## C11 iteration -/

/-- C11.  Any schedule of `next` (`true`) and `next_back` (`false`) on `iter` (and
`iter_mut`, `into_iter`, `keys`, …, which run the same code) yields what consuming the sorted
entry list from the two ends yields, with `len()` exact after each call; exhaustion is
permanent. -/
theorem C11_avl_iter {m : AvlMap K V} (h : Reachable m) (ds : List Bool) :
    m.iter.run ds = some (Spec.dequeRun ds m.abs) ∧ Sorted m.abs ∧ m.iter.len = m.abs.length := by
  have w := h.wf
  have hi : Verif.Avl.items m.iter.work = m.abs := items_iterOf _ _
  refine ⟨?_, w.sorted, w.len_eq⟩
  rw [Iter.run_spec ds m.iter 0 (by rw [hi]; exact w.len_eq), hi]
  simp

example := C11_avl_iter avl5_reachable [true, false, false, true, true, true, false]
example : Spec.dequeRun [true, false, false, true, true, true, false] [1, 2, 3, 4, 5] =
    [(some 1, 4), (some 5, 3), (some 4, 2), (some 2, 1), (some 3, 0), (none, 0), (none, 0)] := by
  decide

/-! ## C12 range -/

/-- C12.  Under any schedule, `range` yields exactly the entries satisfying both bounds, in
order; the reported upper bound is the number of remaining items plus a constant `slack ≥ 0`
(the number of entries outside the bounds).  Nothing is assumed about the bounds' mutual
order: inverted bounds give an empty range. -/
theorem C12_avl_range {m : AvlMap K V} (h : Reachable m) {lo hi : Bnd K} (hlo : lo.Lawful)
    (hhi : hi.Lawful) (ds : List Bool) :
    ∃ slack, (m.range lo hi).run ds = some ((Spec.dequeRun ds
        (m.abs.filter (fun e => lo.okLo e.1 && hi.okHi e.1))).map
          (fun x => (x.1, x.2 + slack))) ∧
      (m.abs.filter (fun e => lo.okLo e.1 && hi.okHi e.1)).length + slack = m.len := by
  have w := h.wf
  have hi' := items_rangeOf hlo hhi m.len w.sorted
  have hle : (Spec.range lo hi m.abs).length ≤ m.len := by
    rw [w.len_eq]; exact List.length_filter_le _ _
  refine ⟨m.len - (Spec.range lo hi m.abs).length, ?_, ?_⟩
  · have := Iter.run_spec ds (m.range lo hi) (m.len - (Spec.range lo hi m.abs).length) (by
      show m.len = (Verif.Avl.items (rangeOf lo hi m.len m.root).work).length + _
      rw [hi']; simp only [AvlMap.abs] at hle ⊢; omega)
    rw [this]
    simp only [AvlMap.range, hi']
    rfl
  · have e : (m.abs.filter (fun e => lo.okLo e.1 && hi.okHi e.1)) = Spec.range lo hi m.abs := rfl
    rw [e]; omega

-- 2 ≤ k < 5, and an inverted pair of bounds
example := C12_avl_range avl5_reachable
  (lo := .included (compare ⟨2, 0⟩)) (hi := .excluded (compare ⟨5, 0⟩))
  (isProbe_compare _) (isProbe_compare _) [true, false, true, true]
example : Spec.range (.included (compare ⟨2, 0⟩)) (.excluded (compare ⟨5, 0⟩)) avl5.abs =
    [(⟨2, 1⟩, 21), (⟨3, 0⟩, 30), (⟨4, 0⟩, 40)] := by decide
example : Spec.range (.included (compare ⟨4, 0⟩)) (.excluded (compare ⟨2, 0⟩)) avl5.abs = [] := by
  decide

/-! ## C13 in-place mutation -/

/-- C13, `get_mut`: only the entry equal to the probe changes, by the function applied to
it; number of entries, `len` and shape are unchanged. -/
theorem C13_avl_getMut {m : AvlMap K V} (h : Reachable m) {p : K → Ordering} (hp : IsProbe p)
    (g : V → V) :
    let r := m.getMut p g
    r.2 = m.containsKey p ∧ Reachable r.1 ∧ r.1.len = m.len ∧ r.1.root.skel = m.root.skel ∧
      r.1.abs = m.abs.map (fun e => if p e.1 = .eq then (e.1, g e.2) else e) := by
  obtain ⟨-, h2, h3⟩ := AvlMap.getMut_spec h.wf hp g
  refine ⟨?_, h.getMut hp, rfl, skel_getMutWith p g m.root, h2⟩
  rw [h3, AvlMap.containsKey, AvlMap.get, AvlMap.getKeyValue_spec h.wf hp]; simp

/-- C13, `iter_mut`/`values_mut`: under any schedule, each entry handed out is the one the
read-only iterator would yield, the slots handed out are distinct, and after writing `w i`
through the reference to slot `i`, exactly these slots have changed, to what was written. -/
theorem C13_avl_iterMut {m : AvlMap K V} (h : Reachable m) (ds : List Bool) (w : Nat → V) :
    ∃ slots m', m.iterMutRun ds w = some (Spec.dequeRun ds m.abs, slots, m') ∧ Reachable m' ∧
      slots = (Spec.dequeRun ds m.abs.zipIdx).filterMap (fun y => y.1.map (·.2)) ∧
      slots.Nodup ∧ m'.len = m.len ∧ m'.root.skel = m.root.skel ∧
      m'.abs = m.abs.zipIdx.map (fun x => if x.2 ∈ slots then (x.1.1, w x.2) else x.1) := by
  have wf := h.wf
  have hlab := label_toList 0 m.root
  have hi : Verif.Avl.items (iterOf m.len (m.root.label 0)).work = (m.root.label 0).toList :=
    items_iterOf _ _
  have hrun := Iter.run_spec ds (iterOf m.len (m.root.label 0)) 0 (by
    rw [hi, hlab]; simp only [List.length_map, List.length_zipIdx]; exact wf.len_eq)
  rw [hi, hlab, dequeRun_map] at hrun
  simp only [Nat.add_zero, List.map_map] at hrun
  have e := AvlMap.iterMutRun_eq w hrun
  have hseen : seenOf ((Spec.dequeRun ds (m.root.toList.zipIdx)).map
      ((fun x => (x.1, x.2)) ∘ fun x => (x.1.map fun x => (x.1.1, x.2, x.1.2), x.2))) =
      Spec.dequeRun ds m.abs := by
    have := dequeRun_map Prod.fst ds (m.root.toList.zipIdx)
    rw [List.zipIdx_map_fst] at this
    rw [AvlMap.abs, this, seenOf, List.map_map]
    apply List.map_congr_left
    intro x _
    simp only [Function.comp, Option.map_map]
    congr 1
  have hslots : slotsOf ((Spec.dequeRun ds (m.root.toList.zipIdx)).map
      ((fun x => (x.1, x.2)) ∘ fun x => (x.1.map fun x => (x.1.1, x.2, x.1.2), x.2))) =
      (Spec.dequeRun ds m.abs.zipIdx).filterMap (fun y => y.1.map (·.2)) := by
    rw [slotsOf, List.filterMap_map]
    simp only [AvlMap.abs]
    congr 1
    funext y
    simp only [Function.comp, Option.map_map]
    rfl
  rw [hseen, hslots] at e
  refine ⟨_, _, e, h.iterMut e, rfl, ?_, rfl, skel_store _ _ _ _, store_toList _ _ _ _⟩
  have hnd : (m.abs.zipIdx.map (·.2)).Nodup := by
    rw [List.zipIdx_map_snd]; exact List.nodup_range'
  obtain ⟨rest, hperm⟩ := dequeRun_yields ds m.abs.zipIdx
  have h2 := (hperm.map (·.2)).nodup_iff.2 hnd
  rw [List.map_append] at h2
  have h3 := (List.nodup_append.1 h2).1
  rw [List.map_filterMap] at h3
  exact h3

/-- C13, `range_mut`: the same within the bounds. -/
theorem C13_avl_rangeMut {m : AvlMap K V} (h : Reachable m) {lo hi : Bnd K} (hlo : lo.Lawful)
    (hhi : hi.Lawful) (ds : List Bool) (w : Nat → V) :
    ∃ seen slots m', m.rangeMutRun lo hi ds w = some (seen, slots, m') ∧ Reachable m' ∧
      seen.map (·.1) = (Spec.dequeRun ds (Spec.range lo hi m.abs)).map (·.1) ∧
      slots = (Spec.dequeRun ds (m.abs.zipIdx.filter
        (fun x => lo.okLo x.1.1 && hi.okHi x.1.1))).filterMap (fun y => y.1.map (·.2)) ∧
      slots.Nodup ∧ m'.len = m.len ∧ m'.root.skel = m.root.skel ∧
      m'.abs = m.abs.zipIdx.map (fun x => if x.2 ∈ slots then (x.1.1, w x.2) else x.1) := by
  have wf := h.wf
  have hlab := label_toList 0 m.root
  have hsl : Sorted (m.root.label 0).toList := by
    refine Sorted.of_keys_sublist wf.sorted ?_
    rw [hlab, List.map_map]
    have h2 := congrArg (List.map (fun x : K × V => x.1)) (List.zipIdx_map_fst 0 m.root.toList)
    rw [List.map_map] at h2
    rw [show ((fun x : K × (Nat × V) => x.1) ∘ fun x : (K × V) × Nat => (x.1.1, (x.2, x.1.2))) =
      ((fun x : K × V => x.1) ∘ Prod.fst) from rfl, h2]
    exact List.Sublist.refl _
  have hi' := items_rangeOf hlo hhi m.len hsl
  have hrange : Spec.range lo hi (m.root.label 0).toList =
      (m.abs.zipIdx.filter (fun x => lo.okLo x.1.1 && hi.okHi x.1.1)).map
        (fun x => (x.1.1, (x.2, x.1.2))) := by
    rw [hlab, Spec.range, List.filter_map]; rfl
  rw [hrange] at hi'
  generalize hsel : m.abs.zipIdx.filter (fun x => lo.okLo x.1.1 && hi.okHi x.1.1) = sel at hi'
  have hselr : sel.map Prod.fst = Spec.range lo hi m.abs := by
    rw [← hsel, Spec.range]
    have := List.filter_map (f := Prod.fst)
      (p := fun e : K × V => lo.okLo e.1 && hi.okHi e.1) (l := m.abs.zipIdx)
    rw [List.zipIdx_map_fst] at this
    rw [this]; rfl
  have hselLen : sel.length ≤ m.len := by
    rw [← hsel, wf.len_eq]
    refine Nat.le_trans (List.length_filter_le _ _) ?_
    rw [List.length_zipIdx]
  have hrun := Iter.run_spec ds (rangeOf lo hi m.len (m.root.label 0)) (m.len - sel.length) (by
    rw [hi']; simp only [List.length_map]; show m.len = _; omega)
  rw [hi', dequeRun_map] at hrun
  simp only [List.map_map] at hrun
  have e := AvlMap.rangeMutRun_eq w hrun
  refine ⟨_, _, _, e, h.rangeMut e, ?_, ?_, ?_, rfl, skel_store _ _ _ _,
    store_toList _ _ _ _⟩
  · rw [← hselr, dequeRun_map, seenOf, List.map_map, List.map_map, List.map_map]
    apply List.map_congr_left
    intro x _
    simp only [Function.comp, Option.map_map]
    congr 1
  · rw [slotsOf, List.filterMap_map]
    congr 1
    funext y
    simp only [Function.comp, Option.map_map]
    rfl
  · have hnd : (sel.map (·.2)).Nodup := by
      have h0 : (m.abs.zipIdx.map (·.2)).Nodup := by
        rw [List.zipIdx_map_snd]; exact List.nodup_range'
      rw [← hsel]
      exact h0.sublist (List.Sublist.map _ List.filter_sublist)
    obtain ⟨rest, hperm⟩ := dequeRun_yields ds sel
    have h2 := (hperm.map (·.2)).nodup_iff.2 hnd
    rw [List.map_append] at h2
    have h3 := (List.nodup_append.1 h2).1
    rw [List.map_filterMap] at h3
    rw [slotsOf, List.filterMap_map]
    refine Eq.mp (congrArg _ ?_) h3
    congr 1
    funext y
    simp only [Function.comp, Option.map_map]
    rfl

/-- C13, `for_each_mut`: visits in ascending order, each value replaced by what the closure
left there; keys, `len`, shape unchanged. -/
theorem C13_avl_forEachMut {σ : Type} {m : AvlMap K V} (h : Reachable m) (f : σ → K → V → σ × V)
    (s : σ) :
    let r := m.forEachMut f s
    Reachable r.2 ∧ r.2.len = m.len ∧ r.2.root.skel = m.root.skel ∧
      (r.1, r.2.abs) = Spec.calls (fun s k v => ((f s k v).1, (f s k v).2, true)) s m.abs := by
  refine ⟨h.forEachMut, rfl, skel_forEachMut f s m.root, ?_⟩
  rw [(AvlMap.forEachMut_spec h.wf f s).2]
  have : ∀ (l : List (K × V)) (s : σ), Tree.mapCalls f s l =
      Spec.calls (fun s k v => ((f s k v).1, (f s k v).2, true)) s l := by
    intro l
    induction l with
    | nil => intro s; rfl
    | cons x l ih => intro s; simp [Tree.mapCalls, Spec.calls, ih]
  exact this _ _

example := C13_avl_getMut avl5_reachable (isProbe_compare (⟨2, 5⟩ : CKey)) (· + 1)
example := C13_avl_iterMut avl5_reachable [true, false, true] (fun i => 1000 + i)
example := C13_avl_rangeMut avl5_reachable (lo := .excluded (compare ⟨2, 0⟩)) (hi := .unbounded)
  (isProbe_compare _) trivial [true, false] (fun i => 1000 + i)
example : (avl5.forEachMut (σ := Nat) (fun s _ v => (s + v, v + s)) 0).2.abs.map (·.2) =
    [10, 31, 61, 101, 151] := by decide

/-! ## C14 len -/

/-- C14 for AvlMap. -/
theorem C14_avl_len {m : AvlMap K V} (h : Reachable m) :
    m.len = m.abs.length ∧ (m.isEmpty = true ↔ m.abs = []) := by
  have := h.wf.len_eq
  refine ⟨this, ?_⟩
  simp [AvlMap.isEmpty, this]

example := C14_avl_len avl5_reachable

/-! ## C15 a panicking closure in `retain`: false for AvlMap -/

/-- C15 is **false** for AvlMap: if the closure panics (here at its first call), the map left
behind is empty but still reports its old length. -/
theorem C15_avl_retain_panic_fails :
    ∃ m : AvlMap CKey Nat, Reachable m ∧ ∃ m',
      m.retain (σ := Unit) (fun _ _ _ => none) () = .panicked m' ∧
      m'.abs = [] ∧ m'.len = 5 ∧ m'.isEmpty = false :=
  ⟨avl5, avl5_reachable, _, rfl, by decide, by decide, by decide⟩

/-- C15, in full for what does happen: whenever the closure panics, at whichever call, the
map left behind holds no entries and reports the old length; so it is consistent exactly
if it was empty.  Missing: consistency for non-empty maps, which is false. -/
theorem C15_avl_retain_panic_partial {σ : Type} {m m' : AvlMap K V} (h : Reachable m)
    {f : σ → K → V → Option (σ × V × Bool)} {s : σ} (hp : m.retain f s = .panicked m') :
    m'.abs = [] ∧ m'.len = m.len ∧ (m'.len = m'.abs.length ↔ m.abs = []) := by
  unfold AvlMap.retain at hp
  split at hp
  · simp only [AvlMap.RetainEnd.panicked.injEq] at hp
    subst hp
    refine ⟨rfl, rfl, ?_⟩
    show m.len = 0 ↔ _
    rw [h.wf.len_eq]; simp
  · simp at hp

/-! ## C16 equality, order, hash -/

/-- C16 for AvlMap, equality: never a panic; equal iff the entry sequences have the same
length and are elementwise `==`, so for a lawful `==` iff they are equal. -/
theorem C16_avl_eq (eqE : K × V → K × V → Bool) {a b : AvlMap K V}
    (ha : Reachable a) (hb : Reachable b) :
    ∃ r, AvlMap.eqMap eqE a b = some r ∧
      (r = true ↔ a.abs.length = b.abs.length ∧ ∀ x ∈ a.abs.zip b.abs, eqE x.1 x.2 = true) ∧
      (∀ (_ : BEq K) (_ : LawfulBEq K) (_ : BEq V) (_ : LawfulBEq V),
        eqE = (fun x y => x == y) → (r = true ↔ a.abs = b.abs)) := by
  rw [AvlMap.eqMap, AvlMap.iterList_spec ha.wf, AvlMap.iterList_spec hb.wf, ha.wf.len_eq,
    hb.wf.len_eq]
  refine ⟨decide (a.abs.length = b.abs.length) && (a.abs.zip b.abs).all (fun z => eqE z.1 z.2),
    ?_, ?_, ?_⟩
  · by_cases h : a.abs.length = b.abs.length <;> simp [h]
  · simp
  · rintro _ _ _ _ rfl
    rw [Bool.and_eq_true, decide_eq_true_iff]
    exact Spec.zip_all_beq

/-- C16 for AvlMap, order: `cmp` never panics; it is `Less` exactly if, after a common prefix of
equal entries, either the first map ends and the second does not, or its next entry is less;
`Equal` exactly if the sequences have the same length and equal entries; `partial_cmp` agrees
with `cmp`. -/
theorem C16_avl_cmp (cmpE : K × V → K × V → Ordering) {a b : AvlMap K V} (ha : Reachable a)
    (hb : Reachable b) :
    ∃ o, AvlMap.cmpMap cmpE a b = some o ∧
    (o = .lt ↔
      ∃ a1 b1 a2 b2, a.abs = a1 ++ a2 ∧ b.abs = b1 ++ b2 ∧
        (a1.length = b1.length ∧ ∀ x ∈ a1.zip b1, cmpE x.1 x.2 = .eq) ∧
        ((a2 = [] ∧ b2 ≠ []) ∨ ∃ x y a3 b3, a2 = x :: a3 ∧ b2 = y :: b3 ∧ cmpE x y = .lt)) ∧
    (o = .eq ↔
      a.abs.length = b.abs.length ∧ ∀ x ∈ a.abs.zip b.abs, cmpE x.1 x.2 = .eq) ∧
    AvlMap.partialCmpMap (fun x y => some (cmpE x y)) a b = some (some o) := by
  rw [AvlMap.cmpMap, AvlMap.partialCmpMap, AvlMap.iterList_spec ha.wf, AvlMap.iterList_spec hb.wf]
  refine ⟨_, rfl, ?_, Spec.lexCmp_eq_iff, congrArg some (Spec.lexPartialCmp_total _ _)⟩
  rw [Spec.lexCmp_lt_iff]
  simp only [Spec.lexCmp_eq_iff]

/-- C16 for AvlMap, hash: what is fed to the hasher is determined by the entries; equal maps
hash equally. -/
theorem C16_avl_hash {σ : Type} (hLen : σ → Nat → σ) (hK : σ → K → σ) (hV : σ → V → σ)
    {a b : AvlMap K V} (ha : Reachable a) (hb : Reachable b) (s : σ) :
    a.hashMap hLen hK hV s =
        a.abs.foldl (fun s e => hV (hK s e.1) e.2) (hLen s a.abs.length) ∧
      (a.abs = b.abs → a.hashMap hLen hK hV s = b.hashMap hLen hK hV s) := by
  have key : ∀ {a : AvlMap K V}, Reachable a → a.hashMap hLen hK hV s =
      a.abs.foldl (fun s e => hV (hK s e.1) e.2) (hLen s a.abs.length) := by
    intro a ha
    rw [AvlMap.hashMap, AvlMap.forEach, Tree.forEach_toList, ha.wf.len_eq]
    rfl
  exact ⟨key ha, fun h => by rw [key ha, key hb, h]⟩

-- the same entries in differently shaped trees
example : ∃ a b : AvlMap Nat Nat, Reachable a ∧ Reachable b ∧ a.root ≠ b.root ∧
    AvlMap.eqMap (fun x y => x == y) a b = some true := by
  refine ⟨(AvlMap.fromIter [(1, 1), (2, 2)]).getD .new, (AvlMap.fromIter [(2, 2), (1, 1)]).getD .new,
    ?_, ?_, by decide, by decide +kernel⟩
  · exact .extend .new (show AvlMap.new.extend [(1, 1), (2, 2)] = some _ by decide)
  · exact .extend .new (show AvlMap.new.extend [(2, 2), (1, 1)] = some _ by decide)

/-! ## C26 bulk construction -/

/-- C26 for AvlMap: collecting (`from_iter`, `From<[_; N]>`) and `extend`: a lookup finds the
*last* pair of the sequence whose key matches, else what was there before. -/
theorem C26_avl_bulk {m : AvlMap K V} (h : Reachable m) (es : List (K × V)) :
    ∃ m', m.extend es = some m' ∧ Reachable m' ∧ Sorted m'.abs ∧
      m'.abs = Spec.insertAll m.abs es ∧
      ∀ p, IsProbe p → m'.getKeyValue p =
        (es.reverse.find? (fun e => p e.1 == .eq)).or (m.getKeyValue p) := by
  obtain ⟨m', e, w, a⟩ := AvlMap.extend_spec h.wf es
  refine ⟨m', e, h.extend e, w.sorted, a, ?_⟩
  intro p hp
  rw [AvlMap.getKeyValue_spec w hp, AvlMap.getKeyValue_spec h.wf hp, ← Spec.find_insertAll hp h.wf.sorted es]
  congr 1

example := C26_avl_bulk (K := CKey) (V := Nat) Reachable.new ents

/-! ## C27 entry API -/

/-- C27 for AvlMap: `entry(k).or_insert_with_key(default)` followed by a write `g` through the
returned reference.  If `k` is present the closure is not run and only the value under `k`
changes; otherwise it is run once and `(k, g v)` is inserted.  No panic (the `unwrap`
succeeds). -/
theorem C27_avl_entry {σ : Type} {m : AvlMap K V} (h : Reachable m) (k : K)
    (default : σ → K → σ × V) (s : σ) (g : V → V) :
    ∃ s' m', (avlTrait K V).orInsertWithKey m k default s g = some (s', m') ∧ Reachable m' ∧
      (if m.containsKey (compare k) then
        s' = s ∧ m'.abs = m.abs.map (fun e => if compare k e.1 = .eq then (e.1, g e.2) else e)
      else s' = (default s k).1 ∧ m'.abs = Spec.insert k (g (default s k).2) m.abs) := by
  have hk := isProbe_compare k
  by_cases hc : m.containsKey (compare k) = true
  · obtain ⟨h1, h2, -, -, h5⟩ := C13_avl_getMut h hk g
    refine ⟨s, (m.getMut (compare k) g).1, ?_, h2, by rw [if_pos hc]; exact ⟨rfl, h5⟩⟩
    have e : (m.getMut (compare k) g).2 = true := h1.trans hc
    simp only [Lib.MapTrait.orInsertWithKey, avlTrait, hc, if_true, e]
  · obtain ⟨m1, e1, r1, -, -, a1, -⟩ := C01_avl_insert h k (default s k).2
    obtain ⟨h1, h2, -, -, h5⟩ := C13_avl_getMut r1 hk g
    have hc1 : m1.containsKey (compare k) = true := by
      rw [AvlMap.containsKey, AvlMap.get, AvlMap.getKeyValue_spec r1.wf hk, a1,
        find_insert h.wf.sorted hk]
      simp
    refine ⟨(default s k).1, (m1.getMut (compare k) g).1, ?_, h2, ?_⟩
    · simp only [Lib.MapTrait.orInsertWithKey, avlTrait, hc, e1, Option.map_some]
      have e : (m1.getMut (compare k) g).2 = true := h1.trans hc1
      simp [e]
    · rw [if_neg hc]
      refine ⟨rfl, ?_⟩
      rw [h5, a1]
      simp only [Spec.insert, List.map_append, List.map_cons, cmp_self, if_true]
      congr 1
      · refine (List.map_congr_left ?_).trans (List.map_id _)
        intro e he
        have := (List.mem_filter.1 he).2
        simp at this; simp [this]
      · congr 1
        refine (List.map_congr_left ?_).trans (List.map_id _)
        intro e he
        have := (List.mem_filter.1 he).2
        simp at this; simp [this]

/-- C27: `and_modify` applies `f` exactly to the value under `k`, if any; `first_entry` and
`last_entry` (the entry of the first/last key) address the least and greatest entry. -/
theorem C27_avl_and_modify {m : AvlMap K V} (h : Reachable m) (k : K) (f : V → V) :
    Reachable ((avlTrait K V).andModify m k f) ∧
    ((avlTrait K V).andModify m k f).abs =
      m.abs.map (fun e => if compare k e.1 = .eq then (e.1, f e.2) else e) ∧
    m.firstKeyValue = m.abs.head? ∧ m.lastKeyValue = m.abs.getLast? := by
  obtain ⟨-, h2, -, -, h5⟩ := C13_avl_getMut h (isProbe_compare k) f
  exact ⟨h2, h5, Tree.first_toList _, Tree.last_toList _⟩

example : ((avlTrait CKey Nat).orInsertWithKey (σ := Nat) avl5 ⟨2, 9⟩ (fun n _ => (n + 1, 0)) 0
    (· + 5)).map (fun x => (x.1, x.2.abs.map (fun e => (e.1.tag, e.2)))) =
    some (0, [(0, 10), (1, 26), (0, 30), (0, 40), (0, 50)]) := by decide
example := C27_avl_entry avl5_reachable (⟨9, 9⟩ : CKey) (σ := Nat) (fun n _ => (n + 1, 0)) 0 (· + 5)

/-! ## C28 lookups -/

/-- C28 for AvlMap: a lookup finds the unique entry equal to the probe, if any. -/
theorem C28_avl_lookup {m : AvlMap K V} (h : Reachable m) {p : K → Ordering} (hp : IsProbe p) :
    (∀ e, m.getKeyValue p = some e ↔ e ∈ m.abs ∧ p e.1 = .eq) ∧
    (∀ e₁ ∈ m.abs, ∀ e₂ ∈ m.abs, p e₁.1 = .eq → p e₂.1 = .eq → e₁ = e₂) ∧
    m.get p = (m.getKeyValue p).map (·.2) ∧
    (m.containsKey p = true ↔ ∃ e ∈ m.abs, p e.1 = .eq) ∧
    ((m.getMut p id).2 = m.containsKey p) ∧ m.index p = m.get p ∧
    m.firstKeyValue = m.abs.head? ∧ m.lastKeyValue = m.abs.getLast? := by
  have w := h.wf
  have hg := AvlMap.getKeyValue_spec w hp
  refine ⟨?_, ?_, rfl, ?_, (C13_avl_getMut h hp id).1, rfl, Tree.first_toList _, Tree.last_toList _⟩
  · intro e; rw [hg, find_eq_some hp w.sorted]
  · intro e1 h1 e2 h2 p1 p2
    exact w.sorted.eq_of_mem h1 h2 (probe_eq_imp hp p1 p2)
  · rw [AvlMap.containsKey, AvlMap.get, hg]
    simp only [Option.isSome_map]
    rw [Option.isSome_iff_exists]
    simp only [find_eq_some hp w.sorted]

/-- Borrowed forms: a projection `f` of the keys whose order is consistent gives lawful
probes. -/
theorem C28_borrow {Q : Type} [Ord Q] [TransOrd Q] (f : K → Q)
    (hf : ∀ a b, compare (f a) (f b) = compare a b) (q : Q) :
    IsProbe (fun k => compare q (f k)) := isProbe_borrow f hf q

example := C28_avl_lookup avl5_reachable (C28_borrow CKey.id (fun _ _ => rfl) 2)

/-! ## C30, C32, C33 serde -/

/-- C30.  Deserializing the entries `es` (in any order, with any repeats) with any hint below
`usize::MAX` gives the map obtained by inserting them one after another; if the deserializer
reports an error, so does the result.  Holds with and without debug assertions. -/
theorem C30_avl_deserialize (debug : Bool) {usizeMax : Nat} (hint : Option Nat)
    (hh : ∀ n, hint = some n → n < usizeMax) (es : List (K × V)) :
    deserialize debug usizeMax hint es true = some (.error ()) ∧
    ∃ m, deserialize debug usizeMax hint es false = some (.ok m) ∧ Reachable m ∧
      m.abs = Spec.insertAll [] es := by
  have h1 := Lib.MapTrait.visitMap_ok (avl_sound (K := K) (V := V)) debug hint hh es true
  have h2 := Lib.MapTrait.visitMap_ok (avl_sound (K := K) (V := V)) debug hint hh es false
  simp only [if_true, Bool.false_eq_true, if_false] at h1 h2
  obtain ⟨m, e, w, a⟩ := h2
  exact ⟨h1, m, e, .deserialize hh e, a⟩

example := C30_avl_deserialize true (usizeMax := 2 ^ 64 - 1) (some 4) (by decide) ents

/-- C32 is **false**: a size hint of `usize::MAX` panics, whatever the data, in `len + 1`
(with overflow checks; without them `len + 1` wraps to 0 and the `assert!(len > 0)` of the
recursive call fails). -/
theorem C32_avl_hint_max_panics (debug err : Bool) (usizeMax : Nat) (hu : 2 < usizeMax)
    (es : List (K × V)) :
    deserialize debug usizeMax (some usizeMax) es err = none := by
  match usizeMax, hu with
  | u + 1, hu =>
    have : (avlTrait K V).buildByHalves (u + 1) err (u + 1) es = none := by
      rw [Lib.MapTrait.buildByHalves, if_neg (by omega),
        if_neg (by show ¬ u + 1 ≤ 2; omega), if_pos (by omega)]
    simp only [deserialize, Lib.MapTrait.visitMap, this]

/-- C32, the part that holds: no panic for any other hint. -/
theorem C32_avl_hint_partial (debug err : Bool) {usizeMax : Nat} (hint : Option Nat)
    (hh : ∀ n, hint = some n → n < usizeMax) (es : List (K × V)) :
    (deserialize debug usizeMax hint es err).isSome := by
  obtain ⟨h1, m, h2, _⟩ := C30_avl_deserialize debug hint hh es
  cases err
  · simp [h2]
  · simp [h1]

/-- C33 for AvlMap: round trip, with any hint; in particular with the announced length. -/
theorem C33_avl_round_trip (debug : Bool) {usizeMax : Nat} {m : AvlMap K V} (h : Reachable m)
    (hint : Option Nat) (hh : ∀ n, hint = some n → n < usizeMax) :
    m.serialize = some (m.abs.length, m.abs) ∧ ∃ m',
      deserialize debug usizeMax hint m.abs false = some (.ok m') ∧ m'.abs = m.abs := by
  have w := h.wf
  obtain ⟨-, m', e, -, a⟩ := C30_avl_deserialize debug hint hh m.abs
  refine ⟨?_, m', e, ?_⟩
  · have hi : Verif.Avl.items m.iter.work = m.abs := items_iterOf _ _
    rw [AvlMap.serialize, drain_spec, hi, ← w.len_eq]
    · rfl
    · rw [hi]; exact Nat.le_of_eq w.len_eq.symm
    · rw [hi, Tree.size_eq, AvlMap.abs]; omega
  · rw [a]; exact Spec.insertAll_sorted w.sorted

example := C33_avl_round_trip true (usizeMax := 2 ^ 64 - 1) avl5_reachable (some 5) (by decide)

end Verif.Props
