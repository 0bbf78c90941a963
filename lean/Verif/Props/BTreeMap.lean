import Verif.Props.DemoBTree
import Verif.BTree.Depth
import Verif.BTree.Skel
import Verif.Spec.Lex
/-!
# Properties of `BTreeMap`

`Reachable N m` says that `m`, a `BTreeMap<K, V, N>`, results from a history of public
operations; `m.abs` is the sequence of entries that iteration yields (C22).  An `o : Sharing K V`
is an arbitrary pattern of which nodes are shared with clones, for operations that consume a map.
-/
set_option linter.unusedSectionVars false
namespace Verif.Props
open Std Verif.BTree Verif.Demo
variable {K V : Type} [Ord K] [TransOrd K] {N : Nat}

/-! ## C17 insert -/

/-- C17.  `insert` never panics; it returns the value stored before under an equal key; then
lookups of keys equal to `k` find exactly `(k, v)`, other lookups are unchanged; the entries
are strictly ascending and are the old ones with `(k, v)` put in; `len` grows by one exactly
if nothing was returned. -/
theorem C17_btree_insert (hN : 1 ≤ N) {m : BTreeMap K V} (h : Reachable N m) (k : K) (v : V) :
    ∃ m', m.insert N k v = some (m', m.get (compare k)) ∧ Reachable N m' ∧
      (∀ p, IsProbe p →
        m'.getKeyValue p = if p k = .eq then some (k, v) else m.getKeyValue p) ∧
      Sorted m'.abs ∧ m'.abs = Spec.insert k v m.abs ∧
      m'.len = m.len + (if (m.get (compare k)).isNone then 1 else 0) := by
  have w := h.wf hN
  obtain ⟨m', e, w', a⟩ := BTreeMap.insert_spec w k v
  have hg : m.get (compare k) = (Spec.find (compare k) m.abs).map (·.2) := by
    rw [BTreeMap.get, BTreeMap.getKeyValue_spec w (isProbe_compare k)]
  refine ⟨m', by rw [e, hg], h.insert e, ?_, w'.sorted, a, ?_⟩
  · intro p hp
    rw [BTreeMap.getKeyValue_spec w' hp, BTreeMap.getKeyValue_spec w hp, a,
      find_insert w.sorted hp]
  · rw [w'.len_eq, w.len_eq, a, length_insert w.sorted, hg]
    by_cases hf : (Spec.find (compare k) m.abs).isSome = true
    · obtain ⟨x, hx⟩ := Option.isSome_iff_exists.1 hf; simp [hx]
    · simp at hf; simp [hf]

-- replacing an equal key (the key stored becomes the new one), and adding one, which splits
example : (bt.insert 1 ⟨2, 9⟩ 22).map (fun x => (x.1.abs.map (·.1.tag), x.1.len, x.2)) =
    some ([0, 9, 0, 0, 0, 0, 0, 0, 0, 0, 0], 11, some 21) := by decide +kernel
example : (bt.insert 1 ⟨12, 9⟩ 120).map (fun x => (x.1.len, x.2)) = some (12, none) := by
  decide +kernel
example := C17_btree_insert (Nat.le_refl 1) bt_reachable ⟨2, 9⟩ 22

/-! ## C18 removal -/

/-- C18.  `remove` returns the value stored under a key equal to the probe and leaves exactly
the other entries. -/
theorem C18_btree_remove (hN : 1 ≤ N) {m : BTreeMap K V} (h : Reachable N m) {p : K → Ordering}
    (hp : IsProbe p) :
    ∃ m', m.remove N p = some (m', m.get p) ∧
      Reachable N m' ∧ m'.abs = m.abs.filter (fun e => p e.1 != .eq) ∧
      (∀ q, IsProbe q →
        m'.getKeyValue q = (m.getKeyValue q).filter (fun e => p e.1 != .eq)) ∧
      m'.len + (if (m.get p).isSome then 1 else 0) = m.len := by
  have w := h.wf hN
  obtain ⟨m', e, w', a⟩ := BTreeMap.remove_spec hN w hp
  have hg : m.get p = (Spec.find p m.abs).map (·.2) := by
    rw [BTreeMap.get, BTreeMap.getKeyValue_spec w hp]
  refine ⟨m', by rw [e, hg], h.remove hp e, a, ?_, ?_⟩
  · intro q hq
    rw [BTreeMap.getKeyValue_spec w' hq, BTreeMap.getKeyValue_spec w hq, a,
      find_erase w.sorted hp hq]
  · rw [w'.len_eq, w.len_eq, a, hg, Option.isSome_map]; exact length_erase hp w.sorted

/-- C18.  `pop_first` and `pop_last` remove the ends. -/
theorem C18_btree_pop (hN : 1 ≤ N) {m : BTreeMap K V} (h : Reachable N m) :
    (∃ m', m.popFirst N = some (m', m.abs.head?) ∧ Reachable N m' ∧ m'.abs = m.abs.tail ∧
      m'.len = m.len - 1) ∧
    (∃ m', m.popLast N = some (m', m.abs.getLast?) ∧ Reachable N m' ∧ m'.abs = m.abs.dropLast ∧
      m'.len = m.len - 1) := by
  have w := h.wf hN
  obtain ⟨m1, e1, w1, a1⟩ := BTreeMap.popFirst_spec hN w
  obtain ⟨m2, e2, w2, a2⟩ := BTreeMap.popLast_spec hN w
  exact ⟨⟨m1, e1, h.popFirst e1, a1, by rw [w1.len_eq, w.len_eq, a1, List.length_tail]⟩,
    ⟨m2, e2, h.popLast e2, a2, by rw [w2.len_eq, w.len_eq, a2, List.length_dropLast]⟩⟩

-- removing an entry of the root
example : (bt.remove 1 (compare (⟨4, 8⟩ : CKey))).map (fun x => (x.1.abs.map (·.1.id), x.2)) =
    some ([1, 2, 3, 5, 6, 7, 8, 9, 10, 11], some 40) := by decide +kernel
example := C18_btree_remove (Nat.le_refl 1) bt_reachable (isProbe_compare (⟨5, 8⟩ : CKey))
example := C18_btree_pop (Nat.le_refl 1) bt_reachable

/-! ## C19 shape and depth -/

/-- C19.  All leaves are at the same depth `d`; every node below the root holds between `N` and
`2N+1` entries and has no or one more child than entries; the root holds between 1 and `2N+1`;
a map of `n` entries has `2 (N+1)^(d-1) ≤ n+1`, i.e. `d ≤ log_{N+1}((n+1)/2) + 1`. -/
theorem C19_btree_depth (hN : 1 ≤ N) {m : BTreeMap K V} (h : Reachable N m) {r : Node K V}
    (hr : m.root = some r) :
    ∃ d, r.leafDepths ≠ [] ∧ (∀ x ∈ r.leafDepths, x = d) ∧
      (∀ n ∈ r.desc, N ≤ n.elems.length ∧ n.elems.length ≤ 2 * N + 1 ∧
        (n.kids = [] ∨ n.kids.length = n.elems.length + 1)) ∧
      1 ≤ r.elems.length ∧ r.elems.length ≤ 2 * N + 1 ∧
      (r.kids = [] ∨ r.kids.length = r.elems.length + 1) ∧
      2 * (N + 1) ^ (d - 1) ≤ m.len + 1 := by
  have w := h.wf hN
  obtain ⟨⟨ht, h1⟩, h2⟩ := w.root hr
  obtain ⟨l1, l2⟩ := ok_leafDepths h1
  refine ⟨ht + 1, l1, l2, ok_desc h1, h1.lo_le, h1.le_hi, ?_, ?_⟩
  · obtain ⟨es, ks⟩ := r
    cases ht with
    | zero => exact Or.inl h1.1
    | succ ht => exact Or.inr h1.1
  · rw [w.len_eq, h2]; exact ok_size_root h1

-- `bt` has three levels
example : bt.root.map (fun r => (r.leafDepths, r.elems.map (·.1.id))) =
    some ([3, 3, 3, 3, 3], [4]) := by decide +kernel
example : ∃ r, bt.root = some r ∧ r.desc.length = 7 :=
  ⟨_, getD_of_isSome (.mk [] []) (by decide +kernel), by decide +kernel⟩

/-! ## C20 no internal panic -/

/-- C20.  None of the operations panics on reachable maps, whatever the arguments and whatever
nodes are shared. -/
theorem C20_btree_no_panic (hN : 1 ≤ N) {m m2 : BTreeMap K V} (h : Reachable N m)
    (h2 : Reachable N m2) (o : Sharing K V) :
    (∀ k v, (m.insert N k v).isSome) ∧
    (∀ p, IsProbe p → (m.remove N p).isSome ∧ (m.splitOff N o p).isSome) ∧
    (m.popFirst N).isSome ∧ (m.popLast N).isSome ∧ (m.append N o m2).isSome ∧
    m.firstKeyValue.isSome ∧
    (∀ es, (m.extend N es).isSome) ∧
    (∀ ds, (nodeOps.run ds m.iter).isSome) ∧
    (∀ ds, (intoOps.run ds (m.intoIter o)).isSome) ∧
    (∀ ds w, (m.iterMutRun ds w).isSome) ∧
    (∀ (σ : Type) (f : σ → K → V → σ × V × Bool) s,
      ∃ s' m', m.retain N o (fun s k v => some (f s k v)) s = .done s' m') ∧
    (∀ eqE, (BTreeMap.eqMap eqE m m2).isSome) ∧ (∀ cmpE, (BTreeMap.cmpMap cmpE m m2).isSome) ∧
    (m.serialize).isSome := by
  have w := h.wf hN
  have w2 := h2.wf hN
  refine ⟨?_, ?_, ?_, ?_, ?_, ?_, ?_, ?_, ?_, ?_, ?_, ?_, ?_, ?_⟩
  · intro k v; obtain ⟨_, e, _⟩ := BTreeMap.insert_spec w k v; simp [e]
  · intro p hp
    obtain ⟨_, e, _⟩ := BTreeMap.remove_spec hN w hp
    obtain ⟨_, _, e', _⟩ := BTreeMap.splitOff_spec hN w o p
    simp [e, e']
  · obtain ⟨_, e, _⟩ := BTreeMap.popFirst_spec hN w; simp [e]
  · obtain ⟨_, e, _⟩ := BTreeMap.popLast_spec hN w; simp [e]
  · obtain ⟨_, e, _⟩ := BTreeMap.append_spec hN w w2 o; simp [e]
  · rw [BTreeMap.firstKeyValue_spec hN w]; rfl
  · intro es; obtain ⟨_, e, _⟩ := BTreeMap.extend_spec w es; simp [e]
  · intro ds; rw [BTreeMap.iter_run_spec hN w]; rfl
  · intro ds; rw [BTreeMap.intoIter_run_spec hN w]; rfl
  · intro ds ww; obtain ⟨_, _, e, _⟩ := BTreeMap.iterMutRun_spec hN w ds ww; simp [e]
  · intro σ f s
    obtain ⟨m', e, _⟩ := BTreeMap.retain_spec hN w o f s; exact ⟨_, m', e⟩
  · intro eqE
    rw [BTreeMap.eqMap, BTreeMap.iterList_spec hN w, BTreeMap.iterList_spec hN w2]
    split <;> rfl
  · intro cmpE
    rw [BTreeMap.cmpMap, BTreeMap.iterList_spec hN w, BTreeMap.iterList_spec hN w2]; rfl
  · rw [BTreeMap.serialize, BTreeMap.iterList_spec hN w]; rfl

example := C20_btree_no_panic (Nat.le_refl 1) bt_reachable bt3_reachable Sharing.shared

/-! ## C21 the parameter N = 0 -/

/-- C21 is **false** for `N = 0`: with two keys inserted, `iter().next()`, `first_key_value()`,
and `pop_first()` panic. -/
theorem C21_btree_N0_fails :
    ∃ m : BTreeMap Nat Nat, BTreeMap.fromIter 0 [(1, 10), (2, 20)] = some m ∧ Reachable 0 m ∧
      m.len = 2 ∧ nodeOps.run [true] m.iter = none ∧ m.firstKeyValue = none ∧
      m.popFirst 0 = none := by
  have e : BTreeMap.fromIter 0 [(1, 10), (2, 20)] = some _ :=
    getD_of_isSome (BTreeMap.new : BTreeMap Nat Nat) (by decide +kernel)
  refine ⟨_, e, .extend .new e, by decide +kernel, by decide +kernel, by decide +kernel, ?_⟩
  have : ((BTreeMap.fromIter 0 [(1, 10), (2, 20)]).getD (BTreeMap.new : BTreeMap Nat Nat)).popFirst 0
    |>.isNone := by decide +kernel
  exact Option.isNone_iff_eq_none.1 this

/-- C21, what holds for every `N` including 0: building a map by insertion never panics, and
lookups in it find the last pair inserted for the key.  Missing: for `N = 0` iteration,
`first_key_value` and removal panic (`C21_btree_N0_fails`); for `N ≥ 1` everything works
(C17–C25). -/
theorem C21_btree_any_N_partial (N : Nat) (es : List (K × V)) :
    ∃ m, BTreeMap.fromIter N es = some m ∧ m.abs = Spec.insertAll [] es ∧
      m.len = m.abs.length ∧ Sorted m.abs ∧
      ∀ p, IsProbe p → m.getKeyValue p = es.reverse.find? (fun e => p e.1 == .eq) ∧
        m.containsKey p = (es.reverse.find? (fun e => p e.1 == .eq)).isSome := by
  obtain ⟨m, e, w, a⟩ := BTreeMap.extend_spec (N := N) BTreeMap.wf_new es
  refine ⟨m, e, a, w.len_eq, w.sorted, ?_⟩
  intro p hp
  have : Spec.find p m.abs = es.reverse.find? (fun e => p e.1 == .eq) := by
    rw [a, BTreeMap.abs]
    show Spec.find p (Spec.insertAll [] es) = _
    have := Spec.find_insertAll hp (l := []) List.Pairwise.nil es
    rw [this]; simp [Spec.find]
  rw [BTreeMap.getKeyValue_spec w hp, BTreeMap.containsKey_spec w hp, this]
  exact ⟨rfl, rfl⟩

example : (BTreeMap.fromIter 0 bents).map (fun m => (m.len, m.get (compare (⟨2, 5⟩ : CKey)))) =
    some (11, some 21) := by decide +kernel

/-! ## C22 iteration -/

/-- C22.  Any schedule of `next` (`true`) and `next_back` (`false`) on `iter` (and `keys`,
`values`, which map its results) and on `into_iter` (whatever nodes are shared; and `into_keys`,
`into_values`) yields what consuming the sorted entry list from the two ends yields, with
`len()` exact after each call; exhaustion is permanent. For `iter_mut` see C13. -/
theorem C22_btree_iter (hN : 1 ≤ N) {m : BTreeMap K V} (h : Reachable N m) (o : Sharing K V)
    (ds : List Bool) :
    nodeOps.run ds m.iter = some (Spec.dequeRun ds m.abs) ∧
    intoOps.run ds (m.intoIter o) = some (Spec.dequeRun ds m.abs) ∧
    Sorted m.abs ∧ m.iter.len = m.abs.length ∧ (m.intoIter o).len = m.abs.length := by
  have w := h.wf hN
  refine ⟨BTreeMap.iter_run_spec hN w ds, BTreeMap.intoIter_run_spec hN w o ds, w.sorted, ?_, ?_⟩
  · unfold BTreeMap.iter iterOf
    cases hr : m.root with
    | none => simp [BTreeMap.abs, hr]
    | some n => simpa using w.len_eq
  · unfold BTreeMap.intoIter intoIterOf
    cases hr : m.root with
    | none => simp [BTreeMap.abs, hr]
    | some n => simpa using w.len_eq

example := C22_btree_iter (Nat.le_refl 1) bt_reachable Sharing.unique
  [true, false, false, true, true, true, false]
example : nodeOps.run [true, false, true, false] bt.iter =
    some [(some (⟨1, 0⟩, 10), 10), (some (⟨11, 0⟩, 110), 9), (some (⟨2, 1⟩, 21), 8),
      (some (⟨10, 0⟩, 100), 7)] := by decide +kernel

/-! ## C23 range -/

/-- C23.  For keys `k` borrowed as `f k`: `range` panics exactly if the upper bound is less than
the lower one or both exclude the same stored key; otherwise, under any schedule it yields
exactly the entries satisfying both bounds, in order.  `size_hint` after any schedule brackets
the number of remaining items. -/
theorem C23_btree_range {Q : Type} [Ord Q] [TransOrd Q] (hN : 1 ≤ N) {m : BTreeMap K V}
    (h : Reachable N m) {f : K → Q} (hf : ∀ a b, compare (f a) (f b) = compare a b)
    (lo hi : QBnd Q) :
    (m.range f lo hi = none ↔
      (∃ a b, (lo = .included a ∨ lo = .excluded a) ∧ (hi = .included b ∨ hi = .excluded b) ∧
        compare b a = .lt) ∨
      (∃ a b, lo = .excluded a ∧ hi = .excluded b ∧ compare a b = .eq ∧
        ∃ e ∈ m.abs, compare a (f e.1) = .eq)) ∧
    (∀ it, m.range f lo hi = some it → ∀ ds,
      ∃ slack it', nodeOps.run ds it = some ((Spec.dequeRun ds (m.abs.filter
          (fun e => (lo.bnd f).okLo e.1 && (hi.bnd f).okHi e.1))).map
            (fun x => (x.1, x.2 + slack))) ∧
        nodeOps.after ds it = some it' ∧
        (sizeHint N it').1 ≤ (Spec.dequeRest ds (m.abs.filter
          (fun e => (lo.bnd f).okLo e.1 && (hi.bnd f).okHi e.1))).length ∧
        (Spec.dequeRest ds (m.abs.filter
          (fun e => (lo.bnd f).okLo e.1 && (hi.bnd f).okHi e.1))).length ≤ (sizeHint N it').2) := by
  have w := h.wf hN
  obtain ⟨r1, r2⟩ := BTreeMap.range_spec hN w hf lo hi
  have hbad : lo.bad hi = true ↔
      (∃ a b, (lo = .included a ∨ lo = .excluded a) ∧ (hi = .included b ∨ hi = .excluded b) ∧
        compare b a = .lt) := by
    cases lo <;> cases hi <;> simp [QBnd.bad]
  rw [hbad] at r1
  constructor
  · constructor
    · intro hn
      by_cases hb : lo.bad hi = true
      · exact Or.inl (hbad.1 hb)
      · by_cases hx : BTreeMap.BothExclude f lo hi m.abs
        · exact Or.inr hx
        · obtain ⟨it, e, _⟩ := r2 (by simpa using hb) hx
          rw [e] at hn; simp at hn
    · intro hn; exact r1 hn
  · intro it he ds
    have hb : lo.bad hi = false := by
      by_contra hc
      have := r1 (Or.inl (hbad.1 (by simpa using hc)))
      rw [this] at he; simp at he
    have hx : ¬ BTreeMap.BothExclude f lo hi m.abs := by
      intro hc
      have := r1 (Or.inr hc)
      rw [this] at he; simp at he
    obtain ⟨it2, e, e1, e2, e3⟩ := r2 hb hx
    rw [e] at he
    simp only [Option.some.injEq] at he
    subst he
    obtain ⟨slack, -, s2, it', s3, s4, s5⟩ := BTreeMap.range_run_spec hN w e1 e2 e3 ds
    exact ⟨slack, it', s2, s3, s4, by rw [s5]; exact Nat.le_add_right _ _⟩

-- 2 ≤ id < 9 with keys borrowed as their ids
example := C23_btree_range (Nat.le_refl 1) bt_reachable (f := CKey.id) (fun _ _ => rfl)
  (.included 2) (.excluded 9)
example : ((bt.range CKey.id (.included 2) (.excluded 9)).bind
    (nodeOps.run [true, false, false, true])).map (fun l => l.map (fun x => x.1.map (·.1.id))) =
    some [some 2, some 8, some 7, some 3] := by decide +kernel
example : (bt.range CKey.id (.included 9) (.excluded 2)).isNone := by decide +kernel

/-! ## C24 equal excluded bounds -/

/-- C24 is **false**: with the same bounds `(Excluded 4, Excluded 4)`, `range` panics on the map
`{4}` and not on the map `{5}` (nor on the empty one). -/
theorem C24_btree_excluded_fails :
    ∃ m1 m2 : BTreeMap Nat Nat, Reachable 1 m1 ∧ Reachable 1 m2 ∧
      m1.abs = [(4, 0)] ∧ m2.abs = [(5, 0)] ∧
      (m1.range id (.excluded 4) (.excluded 4)).isNone ∧
      (m2.range id (.excluded 4) (.excluded 4)).isSome := by
  have e : ∀ k : Nat, (BTreeMap.fromIter 1 [(k, 0)] : Option (BTreeMap Nat Nat)).isSome →
      Reachable 1 ((BTreeMap.fromIter 1 [(k, 0)]).getD (BTreeMap.new : BTreeMap Nat Nat)) :=
    fun k hk => .extend .new (getD_of_isSome _ hk)
  exact ⟨_, _, e 4 (by decide +kernel), e 5 (by decide +kernel), by decide +kernel,
    by decide +kernel, by decide +kernel, by decide +kernel⟩

/-- C24, what holds: for two equal excluded bounds `range` panics exactly if an equal key is
stored, and otherwise yields nothing.  Missing: independence of the contents, which is false. -/
theorem C24_btree_excluded_partial {Q : Type} [Ord Q] [TransOrd Q] (hN : 1 ≤ N)
    {m : BTreeMap K V} (h : Reachable N m) {f : K → Q}
    (hf : ∀ a b, compare (f a) (f b) = compare a b) (q : Q) :
    (m.range f (.excluded q) (.excluded q) = none ↔ m.containsKey (fun k => compare q (f k)) = true) ∧
    (∀ it, m.range f (.excluded q) (.excluded q) = some it →
      ∀ ds, ∃ n, nodeOps.run ds it = some (ds.map (fun _ => (none, n)))) := by
  obtain ⟨h1, h2⟩ := C23_btree_range hN h hf (.excluded q) (.excluded q)
  constructor
  · rw [h1, BTreeMap.containsKey_spec (h.wf hN) (isProbe_borrow f hf q), Option.isSome_iff_exists]
    simp only [find_eq_some (isProbe_borrow f hf q) (h.wf hN).sorted]
    constructor
    · rintro (⟨a, b, ha, hb, hc⟩ | ⟨a, b, ha, hb, -, e, he, hx⟩)
      · simp only [reduceCtorEq, false_or, QBnd.excluded.injEq] at ha hb
        subst ha; subst hb
        simp at hc
      · simp only [QBnd.excluded.injEq] at ha
        subst ha
        exact ⟨e, he, hx⟩
    · rintro ⟨e, he, hx⟩
      exact Or.inr ⟨q, q, rfl, rfl, cmp_self q, e, he, hx⟩
  · intro it he ds
    obtain ⟨slack, it', e, -⟩ := h2 it he ds
    refine ⟨slack, ?_⟩
    have hnil : m.abs.filter (fun e => (Bnd.okLo ((QBnd.excluded q).bnd f) e.1 &&
        Bnd.okHi ((QBnd.excluded q).bnd f) e.1)) = [] := by
      rw [List.filter_eq_nil_iff]
      intro e _
      simp only [QBnd.bnd, Bnd.okLo, Bnd.okHi]
      cases compare q (f e.1) <;> simp
    rw [e, hnil]
    congr 1
    clear e he h2 it' hnil
    induction ds with
    | nil => rfl
    | cons d ds ih =>
      simp only [Spec.dequeRun, List.map_cons]
      have : (Spec.dequeStep d ([] : List (K × V))) = (none, []) := by
        cases d <;> rfl
      rw [this]
      simp only [List.length_nil, Nat.zero_add]
      rw [ih]

example := C24_btree_excluded_partial (Nat.le_refl 1) bt_reachable (f := CKey.id) (fun _ _ => rfl) 4

/-! ## C25 bulk operations -/

/-- C25.  `append`: `other`'s entries win and `other` is left empty. -/
theorem C25_btree_append (hN : 1 ≤ N) {a b : BTreeMap K V} (ha : Reachable N a)
    (hb : Reachable N b) (o : Sharing K V) :
    ∃ m, a.append N o b = some (m, BTreeMap.new) ∧ Reachable N m ∧
      (∀ p, IsProbe p → m.getKeyValue p = (b.getKeyValue p).or (a.getKeyValue p)) ∧
      m.abs = Spec.insertAll a.abs b.abs ∧ Sorted m.abs ∧ m.len = m.abs.length := by
  have wa := ha.wf hN
  have wb := hb.wf hN
  obtain ⟨m, e, w, h⟩ := BTreeMap.append_spec hN wa wb o
  refine ⟨m, e, ha.appendL hb e, ?_, h, w.sorted, w.len_eq⟩
  intro p hp
  rw [BTreeMap.getKeyValue_spec w hp, BTreeMap.getKeyValue_spec wa hp,
    BTreeMap.getKeyValue_spec wb hp, h, ← Spec.find_union hp wa.sorted wb.sorted]
  rfl

/-- C25.  `retain` calls the closure once per entry in ascending order, threading its state, and
leaves exactly the entries it accepted, with the values it left in them. -/
theorem C25_btree_retain {σ : Type} (hN : 1 ≤ N) {m : BTreeMap K V} (h : Reachable N m)
    (o : Sharing K V) (f : σ → K → V → σ × V × Bool) (s : σ) :
    ∃ s' m', m.retain N o (fun s k v => some (f s k v)) s = .done s' m' ∧ Reachable N m' ∧
      (s', m'.abs) = Spec.calls f s m.abs ∧ Sorted m'.abs ∧ m'.len = m'.abs.length := by
  obtain ⟨m', e, w, a⟩ := BTreeMap.retain_spec hN (h.wf hN) o f s
  exact ⟨_, m', e, h.retain e, by rw [a], w.sorted, w.len_eq⟩

/-- C25.  `split_off`. -/
theorem C25_btree_splitOff (hN : 1 ≤ N) {m : BTreeMap K V} (h : Reachable N m)
    (o : Sharing K V) {p : K → Ordering} (hp : IsProbe p) :
    ∃ a b, m.splitOff N o p = some (a, b) ∧ Reachable N a ∧ Reachable N b ∧
      a.abs = m.abs.filter (fun e => p e.1 == .gt) ∧
      b.abs = m.abs.filter (fun e => p e.1 != .gt) ∧
      a.len = a.abs.length ∧ b.len = b.abs.length := by
  obtain ⟨a, b, e, w1, w2, h1, h2⟩ := BTreeMap.splitOff_spec hN (h.wf hN) o p
  exact ⟨a, b, e, h.splitL hp e, h.splitR hp e, h1, h2, w1.len_eq, w2.len_eq⟩

example : (bt.append 1 Sharing.unique bt3).map
    (fun x => x.1.abs.map (fun e => (e.1.id, e.1.tag, e.2))) =
    some [(1, 0, 10), (2, 7, 200), (3, 0, 30), (4, 7, 400), (5, 0, 50), (6, 0, 60), (7, 0, 70),
      (8, 0, 80), (9, 0, 90), (10, 0, 100), (11, 0, 110), (12, 7, 600)] := by decide +kernel
example : (match bt.retain 1 Sharing.shared (σ := List Nat)
      (fun s k v => some (s ++ [k.id], v + 1, v % 20 == 10)) [] with
    | .done s m => some (s, m.abs.map (·.2), m.len)
    | .panicked _ => none) =
    some ([1, 2, 3, 4, 5, 6, 7, 8, 9, 10, 11], [11, 31, 51, 71, 91, 111], 6) := by decide +kernel
example : (bt.splitOff 1 Sharing.unique (compare (⟨4, 8⟩ : CKey))).map
    (fun x => (x.1.abs.map (·.1.id), x.2.abs.map (·.1.id))) =
    some ([1, 2, 3], [4, 5, 6, 7, 8, 9, 10, 11]) := by decide +kernel
example := C25_btree_append (Nat.le_refl 1) bt_reachable bt3_reachable Sharing.shared

/-! ## C13 in-place mutation -/

/-- C13 for BTreeMap, `get_mut`: only the entry equal to the probe changes; keys, `len` and
the shape of the tree are unchanged. -/
theorem C13_btree_getMut (hN : 1 ≤ N) {m : BTreeMap K V} (h : Reachable N m) {p : K → Ordering}
    (hp : IsProbe p) (g : V → V) :
    let r := m.getMut p g
    r.2 = m.containsKey p ∧ Reachable N r.1 ∧ r.1.skel = m.skel ∧
      r.1.abs = m.abs.map (fun e => if p e.1 = .eq then (e.1, g e.2) else e) := by
  obtain ⟨-, h2, h3, h4⟩ := BTreeMap.getMut_spec (h.wf hN) hp g
  exact ⟨by rw [h4, BTreeMap.containsKey_spec (h.wf hN) hp], h.getMut hp,
    BTreeMap.skel_getMut p g m, h2⟩

/-- C13 for BTreeMap, `iter_mut`/`values_mut`: under any schedule, each entry handed out is the
one the read-only iterator would yield, the slots handed out are distinct, and after writing
`w i` through the reference to slot `i`, exactly these slots have changed, to what was written. -/
theorem C13_btree_iterMut (hN : 1 ≤ N) {m : BTreeMap K V} (h : Reachable N m) (ds : List Bool)
    (w : Nat → V) :
    ∃ slots m', m.iterMutRun ds w = some (Spec.dequeRun ds m.abs, slots, m') ∧ Reachable N m' ∧
      slots = (Spec.dequeRun ds m.abs.zipIdx).filterMap (fun y => y.1.map (·.2)) ∧
      slots.Nodup ∧ m'.skel = m.skel ∧
      m'.abs = m.abs.zipIdx.map (fun x => if x.2 ∈ slots then (x.1.1, w x.2) else x.1) := by
  obtain ⟨slots, m', e, -, h1, h2, h3, h4⟩ := BTreeMap.iterMutRun_spec hN (h.wf hN) ds w
  refine ⟨slots, m', e, h.iterMut e, h1, h2, ?_, h4⟩
  simp only [BTreeMap.iterMutRun, Option.map_eq_some_iff] at e
  obtain ⟨ys, -, e⟩ := e
  simp only [Prod.mk.injEq] at e
  rw [← e.2.2]; exact BTreeMap.skel_store _ _ _

/-- C13 for BTreeMap, `range_mut`: the same within the bounds, and it panics when `range` does. -/
theorem C13_btree_rangeMut {Q : Type} [Ord Q] [TransOrd Q] (hN : 1 ≤ N) {m : BTreeMap K V}
    (h : Reachable N m) {f : K → Q} (hf : ∀ a b, compare (f a) (f b) = compare a b)
    (lo hi : QBnd Q) (ds : List Bool) (w : Nat → V) :
    (m.rangeMutRun f lo hi ds w = none ↔ m.range f lo hi = none) ∧
    ∀ r, m.rangeMutRun f lo hi ds w = some r →
      ∃ seen slots m', r = (seen, slots, m') ∧ Reachable N m' ∧
      seen.map (·.1) = (Spec.dequeRun ds (Spec.range (lo.bnd f) (hi.bnd f) m.abs)).map (·.1) ∧
      slots = (Spec.dequeRun ds (m.abs.zipIdx.filter (fun x =>
        (lo.bnd f).okLo x.1.1 && (hi.bnd f).okHi x.1.1))).filterMap (fun y => y.1.map (·.2)) ∧
      slots.Nodup ∧ m'.skel = m.skel ∧
      m'.abs = m.abs.zipIdx.map (fun x => if x.2 ∈ slots then (x.1.1, w x.2) else x.1) := by
  obtain ⟨r1, r2⟩ := BTreeMap.rangeMutRun_spec hN (h.wf hN) hf lo hi ds w
  obtain ⟨q1, q2⟩ := BTreeMap.range_spec hN (h.wf hN) hf lo hi
  by_cases hc : lo.bad hi = true ∨ BTreeMap.BothExclude f lo hi m.abs
  · rw [r1 hc, q1 hc]
    exact ⟨by simp, by simp⟩
  · have hb : lo.bad hi = false := by
      by_contra hcc; exact hc (Or.inl (by simpa using hcc))
    have hx : ¬ BTreeMap.BothExclude f lo hi m.abs := fun hh => hc (Or.inr hh)
    obtain ⟨slack, slots, m', e, -, -, h1, h2, h3, h4⟩ := r2 hb hx
    obtain ⟨it, e2, -⟩ := q2 hb hx
    refine ⟨by rw [e, e2]; simp, ?_⟩
    intro r hr
    rw [e] at hr
    simp only [Option.some.injEq] at hr
    subst hr
    refine ⟨_, slots, m', rfl, h.rangeMut e, ?_, h1, h2, ?_, h4⟩
    · simp [List.map_map, Function.comp]
    · unfold BTreeMap.rangeMutRun at e
      split at e
      · simp at e
      · simp only [Option.map_eq_some_iff] at e
        obtain ⟨ys, _, e⟩ := e
        simp only [Prod.mk.injEq] at e
        rw [← e.2.2]; exact BTreeMap.skel_store _ _ _

example := C13_btree_getMut (Nat.le_refl 1) bt_reachable (isProbe_compare (⟨2, 5⟩ : CKey)) (· + 1)
example := C13_btree_iterMut (Nat.le_refl 1) bt_reachable [true, false, true] (fun i => 1000 + i)
example := C13_btree_rangeMut (Nat.le_refl 1) bt_reachable (f := CKey.id) (fun _ _ => rfl)
  (.excluded 2) .unbounded [true, false] (fun i => 1000 + i)
example : (bt.rangeMutRun CKey.id (.excluded 2) .unbounded [true, false] (fun i => 1000 + i)).map
    (fun x => x.2.2.abs.map (·.2)) =
    some [10, 21, 1002, 40, 50, 60, 70, 80, 90, 100, 1010] := by decide +kernel

/-! ## C14 len -/

/-- C14 for BTreeMap. -/
theorem C14_btree_len (hN : 1 ≤ N) {m : BTreeMap K V} (h : Reachable N m) :
    m.len = m.abs.length ∧ (m.isEmpty = true ↔ m.abs = []) := by
  have := (h.wf hN).len_eq
  refine ⟨this, ?_⟩
  simp [BTreeMap.isEmpty, this]

example := C14_btree_len (Nat.le_refl 1) bt_reachable

/-! ## C15 a panicking closure in `retain` -/

/-- C15 for BTreeMap: whenever the closure panics, at whichever call, the map left behind is
empty, says so, and is usable. -/
theorem C15_btree_retain_panic {σ : Type} (hN : 1 ≤ N) {m m' : BTreeMap K V} (h : Reachable N m)
    {o : Sharing K V} {f : σ → K → V → Option (σ × V × Bool)} {s : σ}
    (hp : m.retain N o f s = .panicked m') :
    Reachable N m' ∧ m'.len = m'.abs.length ∧ m'.abs = [] ∧ m'.isEmpty = true := by
  refine ⟨h.retainPanic hp, ?_⟩
  have : m' = BTreeMap.new := by
    rw [BTreeMap.retain, BTreeMap.intoList_spec hN (h.wf hN)] at hp
    dsimp only at hp
    split at hp
    · simp only [BTreeMap.RetainEnd.panicked.injEq] at hp; exact hp.symm
    · simp at hp
  subst this
  exact ⟨rfl, rfl, rfl⟩

-- a closure that panics at its third call
example : (match bt.retain 1 Sharing.shared (σ := Nat)
      (fun s _ v => if s = 2 then none else some (s + 1, v, true)) 0 with
    | .done _ _ => none
    | .panicked m => some (m.len, m.abs.length)) = some (0, 0) := by decide +kernel

/-! ## C16 equality, order -/

/-- C16 for BTreeMap, equality. -/
theorem C16_btree_eq (hN : 1 ≤ N) (eqE : K × V → K × V → Bool) {a b : BTreeMap K V}
    (ha : Reachable N a) (hb : Reachable N b) :
    ∃ r, BTreeMap.eqMap eqE a b = some r ∧
      (r = true ↔ a.abs.length = b.abs.length ∧ ∀ x ∈ a.abs.zip b.abs, eqE x.1 x.2 = true) ∧
      (∀ (_ : BEq K) (_ : LawfulBEq K) (_ : BEq V) (_ : LawfulBEq V),
        eqE = (fun x y => x == y) → (r = true ↔ a.abs = b.abs)) := by
  have wa := ha.wf hN
  have wb := hb.wf hN
  rw [BTreeMap.eqMap, BTreeMap.iterList_spec hN wa, BTreeMap.iterList_spec hN wb, wa.len_eq,
    wb.len_eq]
  refine ⟨decide (a.abs.length = b.abs.length) && (a.abs.zip b.abs).all (fun z => eqE z.1 z.2),
    ?_, ?_, ?_⟩
  · by_cases h : a.abs.length = b.abs.length <;> simp [h]
  · simp
  · rintro _ _ _ _ rfl
    rw [Bool.and_eq_true, decide_eq_true_iff]
    exact Spec.zip_all_beq

/-- C16 for BTreeMap, order. -/
theorem C16_btree_cmp (hN : 1 ≤ N) (cmpE : K × V → K × V → Ordering) {a b : BTreeMap K V}
    (ha : Reachable N a) (hb : Reachable N b) :
    ∃ o, BTreeMap.cmpMap cmpE a b = some o ∧
    (o = .lt ↔
      ∃ a1 b1 a2 b2, a.abs = a1 ++ a2 ∧ b.abs = b1 ++ b2 ∧
        (a1.length = b1.length ∧ ∀ x ∈ a1.zip b1, cmpE x.1 x.2 = .eq) ∧
        ((a2 = [] ∧ b2 ≠ []) ∨ ∃ x y a3 b3, a2 = x :: a3 ∧ b2 = y :: b3 ∧ cmpE x y = .lt)) ∧
    (o = .eq ↔
      a.abs.length = b.abs.length ∧ ∀ x ∈ a.abs.zip b.abs, cmpE x.1 x.2 = .eq) ∧
    BTreeMap.partialCmpMap (fun x y => some (cmpE x y)) a b = some (some o) := by
  rw [BTreeMap.cmpMap, BTreeMap.partialCmpMap, BTreeMap.iterList_spec hN (ha.wf hN),
    BTreeMap.iterList_spec hN (hb.wf hN)]
  refine ⟨_, rfl, ?_, Spec.lexCmp_eq_iff, congrArg some (Spec.lexPartialCmp_total _ _)⟩
  rw [Spec.lexCmp_lt_iff]
  simp only [Spec.lexCmp_eq_iff]

-- the same entries in differently shaped trees
example : bt.root.map (·.desc.map (·.elems.map (·.1.id))) ≠
      bt'.root.map (·.desc.map (·.elems.map (·.1.id))) ∧
    BTreeMap.eqMap (fun x y => x == y) bt bt' = some true ∧
    BTreeMap.cmpMap (fun x y => (compare x.1 y.1).then (compare x.2 y.2)) bt bt3 = some .lt := by
  decide +kernel
example := C16_btree_eq (Nat.le_refl 1) (fun x y => x == y) bt_reachable bt'_reachable

/-! ## C26 bulk construction -/

/-- C26 for BTreeMap: collecting (`from_iter`, `From<[_; N]>`) and `extend`: a lookup finds the
*last* pair of the sequence whose key matches, else what was there before. -/
theorem C26_btree_bulk (hN : 1 ≤ N) {m : BTreeMap K V} (h : Reachable N m) (es : List (K × V)) :
    ∃ m', m.extend N es = some m' ∧ Reachable N m' ∧ Sorted m'.abs ∧
      m'.abs = Spec.insertAll m.abs es ∧
      ∀ p, IsProbe p → m'.getKeyValue p =
        (es.reverse.find? (fun e => p e.1 == .eq)).or (m.getKeyValue p) := by
  have w0 := h.wf hN
  obtain ⟨m', e, w, a⟩ := BTreeMap.extend_spec w0 es
  refine ⟨m', e, h.extend e, w.sorted, a, ?_⟩
  intro p hp
  rw [BTreeMap.getKeyValue_spec w hp, BTreeMap.getKeyValue_spec w0 hp,
    ← Spec.find_insertAll hp w0.sorted es]
  congr 1

example := C26_btree_bulk (K := CKey) (V := Nat) (Nat.le_refl 1) Reachable.new bents

/-! ## C27 entry API -/

/-- C27 for BTreeMap: `entry(k).or_insert_with_key(default)` followed by a write `g` through the
returned reference.  If `k` is present the closure is not run and only the value under `k`
changes; otherwise it is run once and `(k, g v)` is inserted.  No panic. -/
theorem C27_btree_entry {σ : Type} (hN : 1 ≤ N) {m : BTreeMap K V} (h : Reachable N m) (k : K)
    (default : σ → K → σ × V) (s : σ) (g : V → V) :
    ∃ s' m', (btreeTrait K V N).orInsertWithKey m k default s g = some (s', m') ∧
      Reachable N m' ∧
      (if m.containsKey (compare k) then
        s' = s ∧ m'.abs = m.abs.map (fun e => if compare k e.1 = .eq then (e.1, g e.2) else e)
      else s' = (default s k).1 ∧ m'.abs = Spec.insert k (g (default s k).2) m.abs) := by
  have hk := isProbe_compare k
  by_cases hc : m.containsKey (compare k) = true
  · obtain ⟨h1, h2, -, h5⟩ := C13_btree_getMut hN h hk g
    refine ⟨s, (m.getMut (compare k) g).1, ?_, h2, by rw [if_pos hc]; exact ⟨rfl, h5⟩⟩
    have e : (m.getMut (compare k) g).2 = true := h1.trans hc
    simp only [Lib.MapTrait.orInsertWithKey, btreeTrait, hc, if_true, e]
  · obtain ⟨m1, e1, r1, -, -, a1, -⟩ := C17_btree_insert hN h k (default s k).2
    obtain ⟨h1, h2, -, h5⟩ := C13_btree_getMut hN r1 hk g
    have hc1 : m1.containsKey (compare k) = true := by
      rw [BTreeMap.containsKey_spec (r1.wf hN) hk, a1, find_insert (h.wf hN).sorted hk]
      simp
    refine ⟨(default s k).1, (m1.getMut (compare k) g).1, ?_, h2, ?_⟩
    · simp only [Lib.MapTrait.orInsertWithKey, btreeTrait, hc, e1, Option.map_some]
      have e : (m1.getMut (compare k) g).2 = true := h1.trans hc1
      simp [e]
    · rw [if_neg hc]
      refine ⟨rfl, ?_⟩
      rw [h5, a1]
      simp only [Spec.insert, List.map_append, List.map_cons, cmp_self, if_true]
      congr 1
      · refine (List.map_congr_left ?_).trans (List.map_id _)
        intro e he
        have := (List.mem_filter.1 he).2
        simp at this; simp [this]
      · congr 1
        refine (List.map_congr_left ?_).trans (List.map_id _)
        intro e he
        have := (List.mem_filter.1 he).2
        simp at this; simp [this]

/-- C27: `and_modify` applies `f` exactly to the value under `k`, if any; `first_entry` and
`last_entry` (the entry of the first/last key) address the least and greatest entry. -/
theorem C27_btree_and_modify (hN : 1 ≤ N) {m : BTreeMap K V} (h : Reachable N m) (k : K)
    (f : V → V) :
    Reachable N ((btreeTrait K V N).andModify m k f) ∧
    ((btreeTrait K V N).andModify m k f).abs =
      m.abs.map (fun e => if compare k e.1 = .eq then (e.1, f e.2) else e) ∧
    m.firstKeyValue = some m.abs.head? ∧ m.lastKeyValue = m.abs.getLast? := by
  obtain ⟨-, h2, -, h5⟩ := C13_btree_getMut hN h (isProbe_compare k) f
  exact ⟨h2, h5, BTreeMap.firstKeyValue_spec hN (h.wf hN), BTreeMap.lastKeyValue_spec hN (h.wf hN)⟩

example : ((btreeTrait CKey Nat 1).orInsertWithKey (σ := Nat) bt3 ⟨2, 9⟩ (fun n _ => (n + 1, 0)) 0
    (· + 5)).map (fun x => (x.1, x.2.abs.map (fun e => (e.1.tag, e.2)))) =
    some (0, [(7, 205), (7, 400), (7, 600)]) := by decide +kernel
example := C27_btree_entry (Nat.le_refl 1) bt_reachable (⟨19, 9⟩ : CKey) (σ := Nat)
  (fun n _ => (n + 1, 0)) 0 (· + 5)

/-! ## C28 lookups -/

/-- C28 for BTreeMap: a lookup finds the unique entry equal to the probe, if any. -/
theorem C28_btree_lookup (hN : 1 ≤ N) {m : BTreeMap K V} (h : Reachable N m) {p : K → Ordering}
    (hp : IsProbe p) :
    (∀ e, m.getKeyValue p = some e ↔ e ∈ m.abs ∧ p e.1 = .eq) ∧
    (∀ e₁ ∈ m.abs, ∀ e₂ ∈ m.abs, p e₁.1 = .eq → p e₂.1 = .eq → e₁ = e₂) ∧
    m.get p = (m.getKeyValue p).map (·.2) ∧
    (m.containsKey p = true ↔ ∃ e ∈ m.abs, p e.1 = .eq) ∧
    ((m.getMut p id).2 = m.containsKey p) ∧
    m.firstKeyValue = some m.abs.head? ∧ m.lastKeyValue = m.abs.getLast? := by
  have w := h.wf hN
  have hg := BTreeMap.getKeyValue_spec w hp
  refine ⟨?_, ?_, rfl, ?_, (C13_btree_getMut hN h hp id).1, BTreeMap.firstKeyValue_spec hN w,
    BTreeMap.lastKeyValue_spec hN w⟩
  · intro e; rw [hg, find_eq_some hp w.sorted]
  · intro e1 h1 e2 h2 p1 p2
    exact w.sorted.eq_of_mem h1 h2 (probe_eq_imp hp p1 p2)
  · rw [BTreeMap.containsKey_spec w hp, Option.isSome_iff_exists]
    simp only [find_eq_some hp w.sorted]

example := C28_btree_lookup (Nat.le_refl 1) bt_reachable
  (isProbe_borrow CKey.id (fun _ _ => rfl) 2)

/-! ## C31, C32, C33 serde -/

/-- C31.  Deserializing the entries `es` (in any order, with any repeats) with any hint below
`usize::MAX` gives the map obtained by inserting them one after another; if the deserializer
reports an error, so does the result.  Holds with and without debug assertions. -/
theorem C31_btree_deserialize (hN : 1 ≤ N) (debug : Bool) {usizeMax : Nat} (hint : Option Nat)
    (hh : ∀ n, hint = some n → n < usizeMax) (es : List (K × V)) :
    deserialize N debug usizeMax hint es true = some (.error ()) ∧
    ∃ m, deserialize N debug usizeMax hint es false = some (.ok m) ∧ Reachable N m ∧
      m.abs = Spec.insertAll [] es := by
  have h1 := Lib.MapTrait.visitMap_ok (btree_sound (K := K) (V := V) hN) debug hint hh es true
  have h2 := Lib.MapTrait.visitMap_ok (btree_sound (K := K) (V := V) hN) debug hint hh es false
  simp only [if_true, Bool.false_eq_true, if_false] at h1 h2
  obtain ⟨m, e, w, a⟩ := h2
  exact ⟨h1, m, e, .deserialize hh e, a⟩

example := C31_btree_deserialize (Nat.le_refl 1) true (usizeMax := 2 ^ 64 - 1) (some 9) (by decide)
  bents

/-- C32 is **false** for BTreeMap, too: a size hint of `usize::MAX` panics, whatever the data. -/
theorem C32_btree_hint_max_panics (debug err : Bool) (usizeMax : Nat) (hu : 2 * N + 2 < usizeMax)
    (es : List (K × V)) :
    deserialize N debug usizeMax (some usizeMax) es err = none := by
  match usizeMax, hu with
  | u + 1, hu =>
    have : (btreeTrait K V N).buildByHalves (u + 1) err (u + 1) es = none := by
      rw [Lib.MapTrait.buildByHalves, if_neg (by omega),
        if_neg (by show ¬ u + 1 ≤ 2 * N + 2; omega), if_pos (by omega)]
    simp only [deserialize, Lib.MapTrait.visitMap, this]

example := C32_btree_hint_max_panics (N := 6) true false (2 ^ 64 - 1) (by decide) bents

/-- C32, the part that holds: no panic for any other hint. -/
theorem C32_btree_hint_partial (hN : 1 ≤ N) (debug err : Bool) {usizeMax : Nat}
    (hint : Option Nat) (hh : ∀ n, hint = some n → n < usizeMax) (es : List (K × V)) :
    (deserialize N debug usizeMax hint es err).isSome := by
  obtain ⟨h1, m, h2, _⟩ := C31_btree_deserialize hN debug hint hh es
  cases err
  · simp [h2]
  · simp [h1]

/-- C33 for BTreeMap: round trip, with any hint; in particular with the announced length. -/
theorem C33_btree_round_trip (hN : 1 ≤ N) (debug : Bool) {usizeMax : Nat} {m : BTreeMap K V}
    (h : Reachable N m) (hint : Option Nat) (hh : ∀ n, hint = some n → n < usizeMax) :
    m.serialize = some (m.abs.length, m.abs) ∧ ∃ m',
      deserialize N debug usizeMax hint m.abs false = some (.ok m') ∧ m'.abs = m.abs := by
  have w := h.wf hN
  obtain ⟨-, m', e, -, a⟩ := C31_btree_deserialize hN debug hint hh m.abs
  refine ⟨?_, m', e, ?_⟩
  · rw [BTreeMap.serialize, BTreeMap.iterList_spec hN w, ← w.len_eq]; rfl
  · rw [a]; exact Spec.insertAll_sorted w.sorted

example := C33_btree_round_trip (Nat.le_refl 1) true (usizeMax := 2 ^ 64 - 1) bt_reachable
  (some 11) (by decide)

end Verif.Props
