import Verif.Fixed.Reach
import Verif.Fixed.IterSame
import Verif.Props.DemoBTree
/-!
# Properties of `btree::fixed::BTreeMap`

`Reachable lin m` says that `m` results from a history of public operations; `m.toList` is what
`iter` yields (C47).  `lin` is the choice of linear or binary search, which the code makes from
the size of the key type.  An outer `none` is a panic or undefined behaviour (an uninitialised
or moved-out slot read, an array bound exceeded).
-/
set_option linter.unusedSectionVars false
namespace Verif.Demo
open Verif.Fixed

/-- Thirty insertions in a scrambled order, one key repeated. -/
def fents : List (CKey × Nat) :=
  (List.range 30).map (fun i => (⟨(i * 7 + 3) % 29, i⟩, i))

/-- A map of 29 entries, in a tree of two levels. -/
def fm : FMap CKey Nat := (FMap.fromIter true fents).getD FMap.new

theorem fm_eq : FMap.fromIter true fents = some fm := getD_of_isSome _ (by decide +kernel)

theorem fm_reachable : Fixed.Reachable true fm := .extend .new fm_eq

theorem fm_keys : fm.toList.map (·.1.id) = List.range 29 ∧
    (fm.root.map (fun n => n.kids.length)) = some 4 := by decide +kernel

end Verif.Demo

namespace Verif.Props
open Std Verif.Fixed Verif.Demo
open Verif.BTree (Sharing)
variable {K V : Type} [Ord K] [TransOrd K] {lin : Bool}

/-! ## C47 the operations -/

/-- C47.  `insert` returns the value stored before under an equal key; then lookups of keys
equal to `k` find `v`, other lookups are unchanged, and the entries are the old ones with
`(k, v)` put in. -/
theorem C47_fixed_insert {m : FMap K V} (h : Reachable lin m) (k : K) (v : V) :
    ∃ m' o, m.get lin (compare k) = some o ∧ m.insert lin k v = some (m', o) ∧
      Reachable lin m' ∧
      (∀ p, IsProbe p → m'.get lin p = if p k = .eq then some (some v) else m.get lin p) ∧
      Sorted m'.toList ∧ m'.toList = Spec.insert k v m.toList ∧
      m'.len = m.len + (if o.isNone then 1 else 0) := by
  have w := h.wf
  obtain ⟨m', e, w', a⟩ := FMap.insert_spec (lin := lin) w k v
  refine ⟨m', _, FMap.get_spec w (isProbe_compare k), e, h.insert e, ?_, w'.sorted, a, ?_⟩
  · intro p hp
    rw [FMap.get_spec w' hp, FMap.get_spec w hp, a, find_insert w.sorted hp]
    split <;> rfl
  · rw [w'.len, w.len, a, length_insert w.sorted]
    cases Spec.find (compare k) m.toList <;> simp

/-- C47.  `remove` returns the value stored under a key equal to the probe and leaves exactly
the other entries. -/
theorem C47_fixed_remove {m : FMap K V} (h : Reachable lin m) {p : K → Ordering}
    (hp : IsProbe p) :
    ∃ m' o, m.get lin p = some o ∧ m.remove lin p = some (m', o) ∧ Reachable lin m' ∧
      m'.toList = m.toList.filter (fun e => p e.1 != .eq) ∧
      (∀ q, IsProbe q → m'.get lin q =
        some (((m.toList.find? (fun e => q e.1 == .eq)).filter
          (fun e => p e.1 != .eq)).map (·.2))) ∧
      m'.len + (if o.isSome then 1 else 0) = m.len := by
  have w := h.wf
  obtain ⟨m', e, w', a⟩ := FMap.remove_spec (lin := lin) w hp
  refine ⟨m', _, FMap.get_spec w hp, e, h.remove hp e, a, ?_, ?_⟩
  · intro q hq
    rw [FMap.get_spec w' hq, a, find_erase w.sorted hp hq]; rfl
  · rw [w'.len, w.len, a, Option.isSome_map]; exact length_erase hp w.sorted

/-- C47.  `get` and `get_mut` find the value of the one entry whose key equals the probe, if
there is one; a write through `get_mut` changes that value only. -/
theorem C47_fixed_get {m : FMap K V} (h : Reachable lin m) {p : K → Ordering} (hp : IsProbe p) :
    (∃ o, m.get lin p = some o ∧
      (∀ v, o = some v ↔ ∃ e ∈ m.toList, p e.1 = .eq ∧ e.2 = v)) ∧
    (∀ g, ∃ m' b, m.getMut lin p g = some (m', b) ∧ Reachable lin m' ∧
      (b = true ↔ ∃ e ∈ m.toList, p e.1 = .eq) ∧ m'.len = m.len ∧
      m'.toList = m.toList.map (fun e => if p e.1 = .eq then (e.1, g e.2) else e)) := by
  have w := h.wf
  refine ⟨⟨_, FMap.get_spec w hp, ?_⟩, ?_⟩
  · intro v
    rw [Option.map_eq_some_iff]
    constructor
    · rintro ⟨e, h1, h2⟩
      rw [find_eq_some hp w.sorted] at h1
      exact ⟨e, h1.1, h1.2, h2⟩
    · rintro ⟨e, h1, h2, h3⟩
      exact ⟨e, (find_eq_some hp w.sorted).2 ⟨h1, h2⟩, h3⟩
  · intro g
    obtain ⟨m', e, -, a, l⟩ := FMap.getMut_spec (lin := lin) w hp g
    refine ⟨m', _, e, h.getMut hp e, ?_, l, ?_⟩
    · rw [Option.isSome_iff_exists]
      constructor
      · rintro ⟨x, hx⟩
        rw [find_eq_some hp w.sorted] at hx
        exact ⟨x, hx⟩
      · rintro ⟨x, hx⟩
        exact ⟨x, (find_eq_some hp w.sorted).2 hx⟩
    · rw [a]; simp [BTree.Node.updAt]

/-- C47.  `iter` and `into_iter`, driven by `next`, yield the entries in ascending order with an
exact `len`, and then `None`; `len` and `is_empty` agree with them; `clear` empties. -/
theorem C47_fixed_iter {m : FMap K V} (h : Reachable lin m) (n : Nat) :
    Sorted m.toList ∧ m.len = m.toList.length ∧ (m.isEmpty = true ↔ m.toList = []) ∧
    m.clear.toList = [] ∧
    m.iterRun (List.replicate n true) = some (Spec.dequeRun (List.replicate n true) m.toList) ∧
    (∀ s : Sharing K V, ∃ ys d, m.intoRun s (List.replicate n true) = some (ys, d, []) ∧
      ys.map (fun y => (y.1.map (·.2), y.2)) =
        Spec.dequeRun (List.replicate n true) m.toList) := by
  have w := h.wf
  refine ⟨w.sorted, w.len, ?_, rfl, FMap.iterRun_front w n, fun s => FMap.intoRun_front s w n⟩
  simp [FMap.isEmpty, w.len]

/-- C47.  `extend` and `from_iter` insert the entries one after the other. -/
theorem C47_fixed_extend {m : FMap K V} (h : Reachable lin m) (es : List (K × V)) :
    (∃ m', m.extend lin es = some m' ∧ Reachable lin m' ∧
      m'.toList = es.foldl (fun l e => Spec.insert e.1 e.2 l) m.toList) ∧
    (∃ m' : FMap K V, FMap.fromIter lin es = some m' ∧ Reachable lin m' ∧
      m'.toList = es.foldl (fun l e => Spec.insert e.1 e.2 l) []) := by
  obtain ⟨m1, e1, -, a1⟩ := FMap.extend_spec (lin := lin) h.wf es
  obtain ⟨m2, e2, -, a2⟩ := FMap.extend_spec (lin := lin) (FMap.wf_new (K := K) (V := V)) es
  exact ⟨⟨m1, e1, h.extend e1, a1⟩, ⟨m2, e2, .extend .new e2, a2⟩⟩

-- replacing an equal key, adding one (which splits a leaf), removing, and binary search
example : (fm.insert true ⟨5, 99⟩ 500).map (fun x => (x.1.len, x.2)) = some (29, some 21) := by
  decide +kernel
example : (fm.insert false ⟨40, 99⟩ 500).map (fun x => (x.1.len, x.2)) = some (30, none) := by
  decide +kernel
example : (fm.remove false (compare (⟨5, 99⟩ : CKey))).map (fun x => (x.1.toList.map (·.1.id), x.2))
    = some ((List.range 29).filter (· ≠ 5), some 21) := by decide +kernel
example := C47_fixed_insert fm_reachable ⟨5, 99⟩ 500
example := C47_fixed_remove fm_reachable (isProbe_compare (⟨5, 8⟩ : CKey))
example := C47_fixed_get fm_reachable (isProbe_compare (⟨5, 8⟩ : CKey))
example := C47_fixed_iter fm_reachable 31
example := C47_fixed_extend fm_reachable [(⟨5, 8⟩, 1), (⟨77, 8⟩, 1), (⟨5, 9⟩, 2)]

/-! ## C48 iteration from both ends

False: `InnerIter::next_back` (core.rs:1285-1303) advances the last node iterator with `next`. -/

/-- C48 fails: on every reachable map, `next_back` on a fresh iterator yields the *smallest*
entry, and a whole run of `next_back` yields the entries in *ascending* order. -/
theorem C48_fixed_back_ascends {m : FMap K V} (h : Reachable lin m) (n : Nat) :
    m.iterRun (List.replicate n false) =
      some (Spec.dequeRun (List.replicate n true) m.toList) ∧
    (∀ s : Sharing K V, ∃ ys d, m.intoRun s (List.replicate n false) = some (ys, d, []) ∧
      ys.map (fun y => (y.1.map (·.2), y.2)) =
        Spec.dequeRun (List.replicate n true) m.toList) :=
  ⟨FMap.iterRun_back h.wf n, fun s => FMap.intoRun_back s h.wf n⟩

/-- C48 fails: it is not true that on every reachable map and for every schedule the results are
those of consuming the ascending list of entries from both ends. -/
theorem C48_fixed_false :
    ¬ ∀ m : FMap CKey Nat, Reachable true m → ∀ ds : List Bool,
      m.iterRun ds = some (Spec.dequeRun ds m.toList) := by
  intro h
  have h1 := h fm fm_reachable [false]
  rw [show [false] = List.replicate 1 false from rfl, (C48_fixed_back_ascends fm_reachable 1).1] at h1
  have h2 : (Spec.dequeRun [true] fm.toList).map (fun y => y.1.map (·.1.id)) = [some 0] := by
    decide +kernel
  have h3 : (Spec.dequeRun [false] fm.toList).map (fun y => y.1.map (·.1.id)) = [some 28] := by
    decide +kernel
  have h4 := congrArg (fun l => l.map (fun y => y.1.map (·.1.id))) (Option.some.inj h1)
  simp only [List.replicate] at h4
  rw [h2, h3] at h4
  simp at h4

/-- C48, the part that holds: under every schedule of `next` and `next_back`, `iter`,
`into_iter` and `iter_mut` do not fail, yield every entry at most once, keep `len` exact and
return `None` exactly when all entries were yielded; `iter_mut` hands out distinct values and a
write changes the entry it was yielded with and nothing else.  With `next` only, the order is
ascending (`C47_fixed_iter`).  Missing: the order of what `next_back` yields, which is wrong. -/
theorem C48_fixed_partial {m : FMap K V} (h : Reachable lin m) (ds : List Bool) :
    (∃ ys, m.iterRun ds = some ys ∧ ys.length = ds.length ∧ Spec.Bag m.toList ys) ∧
    (∀ s : Sharing K V, ∃ ys d, m.intoRun s ds = some (ys, d, []) ∧ ys.length = ds.length ∧
      Spec.Bag m.toList (ys.map (fun y => (y.1.map (·.2), y.2)))) ∧
    (∀ w : Nat → V, ∃ ys m', Spec.Bag m.toList.zipIdx ys ∧ ys.length = ds.length ∧
      m.iterMutRun ds w = some (ys.map (fun y => (y.1.map (·.1), y.2)),
        ys.filterMap (fun y => y.1.map (·.2)), m') ∧ Reachable lin m' ∧
      (ys.filterMap (fun y => y.1.map (·.2))).Nodup ∧ m'.len = m.len ∧
      m'.toList = m.toList.zipIdx.map (fun x =>
        if x.2 ∈ ys.filterMap (fun y => y.1.map (·.2)) then (x.1.1, w x.2) else x.1)) := by
  have w := h.wf
  refine ⟨FMap.iterRun_spec w ds, ?_, ?_⟩
  · intro s
    obtain ⟨ys, d, e, l, b, -⟩ := FMap.intoRun_spec s w ds
    exact ⟨ys, d, e, l, b⟩
  · intro g
    obtain ⟨ys, m', b, l, e, -, h1, h2, h3⟩ := FMap.iterMutRun_spec w ds g
    exact ⟨ys, m', b, l, e, h.iterMut e, h1, h2, h3⟩

/-- C48: `into_iter` yields what `iter` yields, in the same order and with the same lengths, under
every schedule and whichever nodes are shared. -/
theorem C48_fixed_same {m : FMap K V} (h : Reachable lin m) (ds : List Bool) (s : Sharing K V) :
    (m.intoRun s ds).map (fun r => r.1.map (fun y => (y.1.map (·.2), y.2))) = m.iterRun ds ∧
    (m.iterRun ds).isSome :=
  ⟨FMap.intoRun_eq s h.wf ds, by obtain ⟨ys, e, -⟩ := FMap.iterRun_spec h.wf ds; simp [e]⟩

-- the first three results of `next_back`, and a mixed schedule
example : (fm.iterRun [false, false, false]).map (fun ys => ys.map (fun y => (y.1.map (·.1.id), y.2)))
    = some [(some 0, 28), (some 1, 27), (some 2, 26)] := by decide +kernel
example : (fm.iterRun [true, false, true, false, false]).map
    (fun ys => ys.map (fun y => (y.1.map (·.1.id), y.2))) =
    some [(some 0, 28), (some 6, 27), (some 1, 26), (some 7, 25), (some 8, 24)] := by
  decide +kernel
example := C48_fixed_back_ascends fm_reachable 31
example := C48_fixed_partial fm_reachable [true, false, true]
example := C48_fixed_same fm_reachable [true, false, true] Sharing.shared

/-! ## C50 `into_iter` destroys or moves out everything once -/

/-- C50.  However `into_iter` is driven and whenever it is dropped, and whichever nodes are
shared with other maps: no slot is read after it was moved out; the entries moved out to the
caller together with those destroyed by the drop are exactly those that dropping the map
itself would have destroyed, each once; none is lost. -/
theorem C50_fixed_into_iter_once {m : FMap K V} (h : Reachable lin m) (s : Sharing K V)
    (ds : List Bool) :
    ∃ ys d lost, m.intoRun s ds = some (ys, d, lost) ∧ lost = [] ∧
      (((ys.filterMap (·.1)).filter (·.1)).map (·.2) ++ d).Perm
        (match m.root with | none => [] | some n => dropNode (s.annot n)) := by
  obtain ⟨ys, d, e, -, -, p⟩ := FMap.intoRun_spec s h.wf ds
  exact ⟨ys, d, [], e, rfl, p⟩

/-- C50, the two extremes: of a map that shares nothing, every entry is moved out or destroyed
exactly once; of a map whose root is shared, every entry yielded is a clone and none is
destroyed. -/
theorem C50_fixed_into_iter_extremes {m : FMap K V} (h : Reachable lin m) (ds : List Bool) :
    (∃ ys d, m.intoRun Sharing.unique ds = some (ys, d, []) ∧
      (((ys.filterMap (·.1)).filter (·.1)).map (·.2) ++ d).Perm m.toList) ∧
    (∃ ys, m.intoRun Sharing.shared ds = some (ys, [], []) ∧
      (ys.filterMap (·.1)).filter (·.1) = []) := by
  constructor
  · obtain ⟨ys, d, e, -, -, p⟩ := FMap.intoRun_spec Sharing.unique h.wf ds
    refine ⟨ys, d, e, p.trans ?_⟩
    rw [FMap.toList]
    cases m.root with
    | none => exact .refl _
    | some n => exact dropNode_all n
  · obtain ⟨ys, d, e, -, -, p⟩ := FMap.intoRun_spec Sharing.shared h.wf ds
    have := (p.trans (show List.Perm _ [] from by
      cases m.root with
      | none => exact .refl _
      | some n => obtain ⟨es, ks⟩ := n; simp [Sharing.shared, BTree.ANode.all, dropNode])).eq_nil
    simp only [List.append_eq_nil_iff] at this
    obtain ⟨h1, rfl⟩ := this
    exact ⟨ys, e, by simpa [moved] using h1⟩

-- dropped after three calls: 3 moved out, 26 destroyed
example : (fm.intoRun Sharing.unique [true, false, true]).map
    (fun r => (r.1.map (fun y => (y.1.map (fun e => (e.1, e.2.1.id)), y.2)), r.2.1.length, r.2.2.length))
    = some ([(some (true, 0), 28), (some (true, 6), 27), (some (true, 1), 26)], 26, 0) := by
  decide +kernel
example := C50_fixed_into_iter_once fm_reachable Sharing.unique [true, false, true]
example := C50_fixed_into_iter_extremes fm_reachable [true, false, true]

end Verif.Props
