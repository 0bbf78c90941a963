import Verif.Fixed.ProvSpec
import Verif.Props.Fixed
/-!
# C73: pointers stay within the memory they were derived from

The property is false under Stacked Borrows: the accessors of `InlineVec` make a slice of `len`
slots out of a reference to slot 0.  `C73_stacked_false` says that almost every operation on
a map of two or more entries is affected.  Starting the accessors from the pointer to the whole
array would repair all operations except `remove`: `C73_merge_false` says that `merge_kids`, which
writes behind a slice through the start of the slice, is still affected.  `C73_partial` says that
nothing else is wrong: where a reference reaches the whole array, all accesses are in reach and of
initialised memory, in particular no accessor is called on an empty vector.
-/
set_option linter.unusedSectionVars false
namespace Verif.Props
open Std Verif.Fixed Verif.Demo Verif.BTree.Node
open Verif.BTree (Sharing)
variable {K V : Type} [Ord K] [TransOrd K] {lin : Bool}

theorem keysOk_stacked {es : List (K × V)} (h : es.length ≠ 1) :
    keysOk Rule.stacked es = false := by
  cases e : keysOk Rule.stacked es with
  | false => rfl
  | true => exact absurd ((keysOk_len e).2.2 rfl) h

theorem kidsOk_stacked {α : Type} {ks : List α} (h : 2 ≤ ks.length) :
    kidsOk Rule.stacked ks = false := by
  by_cases hl : ks.length ≤ 12
  · rw [kidsOk_eq hl]
    have : ks.isEmpty = false := by cases ks <;> simp_all
    rw [this, reach, if_neg (by omega), if_pos ⟨rfl, h⟩]; rfl
  · have : ks.isEmpty = false := by cases ks <;> simp_all
    simp only [kidsOk, this, Bool.false_or, IVec.load, unit_length, hl, if_false, Option.bind_none,
      Option.isSome_none]

/-- A node with two entries or more below it: the search is out of reach, or goes on to the
children, which are. -/
theorem stacked_node {p : K → Ordering} {h : Nat} {es : List (K × V)}
    {ks : List (BTree.Node K V)} (hn : Ok 5 1 h (.mk es ks)) (hp : IsProbe p)
    (hs : Sorted (BTree.Node.toList (.mk es ks)))
    (h2 : 2 ≤ (BTree.Node.toList (.mk es ks)).length)
    (hm : ∀ e ∈ BTree.Node.toList (.mk es ks), p e.1 ≠ .eq) :
    searchKeysP Rule.stacked lin p es = none ∨
    ((∃ i, searchKeysP Rule.stacked lin p es = some (i, false)) ∧
      kidsOk Rule.stacked ks = false) := by
  by_cases h1 : es.length = 1
  · right
    have hk : 2 ≤ ks.length := by
      cases h with
      | zero =>
        obtain ⟨rfl, -, -⟩ := hn
        rw [toList_mk, inter_nil] at h2
        omega
      | succ h => obtain ⟨a, -, -, -⟩ := hn; omega
    refine ⟨?_, kidsOk_stacked hk⟩
    have hse := sorted_elems (ks := ks) (es := es) (by rw [← toList_mk]; exact hs)
    rw [searchKeysP]
    by_cases hok : keysOk Rule.stacked es = true
    · rw [if_pos hok, searchKeys_eq hp hse (by omega)]
      obtain ⟨es1, es2, e1, -, -, hl⟩ := locate_spec p es
      cases hb : (locate p es).2 with
      | false => exact ⟨(locate p es).1, by rw [← hb]⟩
      | true =>
        rw [hb, if_pos rfl] at hl
        obtain ⟨x, es3, e2, hx⟩ := hl
        refine absurd hx (hm x ?_)
        rw [toList_mk]
        exact (sublist_inter ks es).subset (by rw [e1, e2]; simp)
    · refine absurd ?_ hok
      rw [keysOk_eq (by omega), h1]; rfl
  · left
    rw [searchKeysP, keysOk_stacked h1]; rfl

/-- C73 is false under Stacked Borrows.  On every map of two entries or more, `iter` is undefined,
and so are `get`, `get_mut`, `remove` and `insert` of a key that is not in the map; with twelve
or more, `into_iter` is too. -/
theorem C73_stacked_false {m : FMap K V} (hm : Reachable lin m) (h2 : 2 ≤ m.len) :
    (∀ p, IsProbe p → (∀ e ∈ m.toList, p e.1 ≠ .eq) →
      m.getP .stacked lin p = none ∧ (∀ g, m.getMutP .stacked lin p g = none) ∧
      m.removeP .stacked lin p = none) ∧
    (∀ k v, (∀ e ∈ m.toList, compare k e.1 ≠ .eq) → m.insertP .stacked lin k v = none) ∧
    (∀ ds, m.iterRunP .stacked ds = none) ∧
    (12 ≤ m.len → ∀ s ds, m.intoRunP .stacked s ds = none) := by
  have w := hm.wf
  have hlen := w.len
  have hsort := w.sorted
  have hshape := w.shape
  obtain ⟨root, len⟩ := m
  cases root with
  | none => simp [FMap.toList] at hlen; simp only at h2; omega
  | some n =>
    obtain ⟨h, hn⟩ := hshape n rfl
    obtain ⟨es, ks⟩ := n
    simp only [FMap.toList] at hlen hsort h2 ⊢
    rw [hlen] at h2
    have key : ∀ p : K → Ordering, IsProbe p →
        (∀ e ∈ BTree.Node.toList (.mk es ks), p e.1 ≠ .eq) → _ :=
      fun p hp hm => stacked_node (lin := lin) hn hp hsort h2 hm
    have hk : es.length ≠ 1 ∨ 2 ≤ ks.length := by
      cases h with
      | zero =>
        obtain ⟨rfl, -, -⟩ := hn
        rw [toList_mk, inter_nil] at h2
        omega
      | succ h => obtain ⟨a, b, -, -⟩ := hn; omega
    refine ⟨fun p hp hm => ⟨?_, fun g => ?_, ?_⟩, fun k v hm => ?_, fun ds => ?_, fun h12 s ds => ?_⟩
    · rw [FMap.getP]
      dsimp only
      rw [getP]
      rcases key p hp hm with e | ⟨⟨i, e⟩, e2⟩
      · rw [e]; rfl
      · rw [e, e2]; rfl
    · rw [FMap.getMutP]
      dsimp only
      rw [getMutP]
      rcases key p hp hm with e | ⟨⟨i, e⟩, e2⟩
      · rw [e]; rfl
      · rw [e, e2]; rfl
    · rw [FMap.removeP]
      dsimp only
      rw [removeP]
      rcases key p hp hm with e | ⟨⟨i, e⟩, e2⟩
      · rw [e]; rfl
      · rw [e, e2]; rfl
    · rw [FMap.insertP]
      dsimp only
      rw [insP]
      rcases key _ (isProbe_compare k) hm with e | ⟨⟨i, e⟩, e2⟩
      · rw [e]
      · rw [e, e2]; rfl
    · have : (niOpsP Rule.stacked).make (.mk es ks) = none := by
        show (if kidsOk Rule.stacked ks && keysOk Rule.stacked es && valsOk Rule.stacked es then _
          else none) = none
        rcases hk with hk | hk
        · simp [keysOk_stacked hk]
        · simp [kidsOk_stacked hk]
      simp only [FMap.iterRunP, NOps.start, this, Option.map_none, Option.bind_none]
    · have hks : 2 ≤ ks.length := by
        cases h with
        | zero =>
          obtain ⟨rfl, -, b⟩ := hn
          rw [toList_mk, inter_nil] at hlen
          omega
        | succ h => obtain ⟨a, b, -, -⟩ := hn; omega
      have hf := s.forget_annot (.mk es ks)
      have : (s.annot (.mk es ks)).kids.length = ks.length := by
        rw [← List.length_map (f := BTree.ANode.forget), ← BTree.ANode.forget_kids, hf]; rfl
      have hmk : (iiOpsP Rule.stacked).make ((s.annot (.mk es ks)).own, s.annot (.mk es ks))
          = none := by
        show (if kidsOk Rule.stacked (s.annot (.mk es ks)).kids then _ else none) = none
        rw [kidsOk_stacked (by omega)]; rfl
      simp only [FMap.intoRunP, NOps.start, Option.map_some, hmk, Option.map_none]

/-- C73, a second fault: `merge_kids` copies the elements of the right node behind those of the
left one through the start of the slice of the left one's elements.  As long as a slice reaches
its own elements only, this is undefined, whichever pointer the slice was made from. -/
theorem C73_merge_false {r : Rule} (hs : r.slice = true) {at_ : Nat} {es : List (K × V)}
    {ks : List (BTree.Node K V)} {c : BTree.Node K V} (hc : ks[at_ + 1]? = some c)
    (hne : c.elems ≠ []) (hl : ks.length ≤ 12) : mergeKidsP r at_ es ks = none := by
  obtain ⟨res, rks⟩ := c
  rw [mergeKidsP]
  by_cases h0 : ks.isEmpty = true
  · rw [if_pos h0]
  rw [if_neg h0, kRemove_at hc hl]
  dsimp only
  cases ivRemove 11 at_ es with
  | none => rfl
  | some q =>
    obtain ⟨mid, es'⟩ := q
    simp only [Option.bind_eq_bind, Option.bind_some]
    split
    · split
      · rfl
      · rename_i les lks _
        cases ivPush 11 mid les with
        | none => rfl
        | some les' => rw [Option.bind_some, ivAppendP_slice (l' := res) hs hne]; rfl
    · rfl

/-- C73, what does hold.  If a reference to a slot reaches the whole array, all operations
except `remove` stay in reach on every map: they do what the plain model says.  If a slice does
too, `remove` stays in reach as well.  Missing: Stacked Borrows, under which C73 is false. -/
theorem C73_partial {r : Rule} (hr : r.one = false) {m : FMap K V} (hm : Reachable lin m) :
    (∀ p, IsProbe p → ∃ o, m.getP r lin p = some o ∧
      ∀ v, o = some v ↔ ∃ e ∈ m.toList, p e.1 = .eq ∧ e.2 = v) ∧
    (∀ p g, IsProbe p → ∃ m' b, m.getMutP r lin p g = some (m', b) ∧ Reachable lin m' ∧
      m'.toList = m.toList.map (fun e => if p e.1 = .eq then (e.1, g e.2) else e)) ∧
    (∀ k v, ∃ m' o, m.insertP r lin k v = some (m', o) ∧ Reachable lin m' ∧
      m'.toList = Spec.insert k v m.toList) ∧
    (∀ n, m.iterRunP r (List.replicate n true) =
      some (Spec.dequeRun (List.replicate n true) m.toList)) ∧
    (∀ ds, m.iterRunP r ds = m.iterRun ds) ∧
    (∀ s ds, m.intoRunP r s ds = m.intoRun s ds) ∧
    (r.slice = false → ∀ p, IsProbe p → ∃ m' o, m.removeP r lin p = some (m', o) ∧
      Reachable lin m' ∧ m'.toList = m.toList.filter (fun e => p e.1 != .eq)) := by
  have hi := hm.wf.inv
  refine ⟨fun p hp => ?_, fun p g hp => ?_, fun k v => ?_, fun n => ?_,
    FMap.iterRunP_free hr hi, FMap.intoRunP_free hr hi, fun hs p hp => ?_⟩
  · rw [FMap.getP_free hr hi]
    exact (C47_fixed_get hm hp).1
  · rw [FMap.getMutP_free hr hi]
    obtain ⟨m', b, e, r', -, -, l⟩ := (C47_fixed_get hm hp).2 g
    exact ⟨m', b, e, r', l⟩
  · rw [FMap.insertP_free hr hi]
    obtain ⟨m', o, -, e, r', -, -, l, -⟩ := C47_fixed_insert hm k v
    exact ⟨m', o, e, r', l⟩
  · rw [FMap.iterRunP_free hr hi]
    exact (C47_fixed_iter hm n).2.2.2.2.1
  · rw [FMap.removeP_free hr hs hi]
    obtain ⟨m', o, -, e, r', l, -⟩ := C47_fixed_remove hm hp
    exact ⟨m', o, e, r', l⟩

/-- C73 holds under every rule on maps of at most one entry. -/
theorem C73_small_partial (r : Rule) {m : FMap K V} (hm : Reachable lin m) (h1 : m.len ≤ 1)
    (p : K → Ordering) (g : V → V) (k : K) (v : V) (ds : List Bool) :
    m.getP r lin p = m.get lin p ∧ m.getMutP r lin p g = m.getMut lin p g ∧
    m.insertP r lin k v = m.insert lin k v ∧ m.removeP r lin p = m.remove lin p ∧
    m.iterRunP r ds = m.iterRun ds := by
  have w := hm.wf
  have hlen := w.len
  have hshape := w.shape
  obtain ⟨root, len⟩ := m
  have hrun : ∀ it : Inner (NI K V), (∀ w ∈ it.work, w.ks = []) →
      (niOpsP r).run ds it = niOps.run ds it := by
    refine NOps.run_same (o := niOps) (o' := niOpsP r) (G := fun w : NI K V => w.ks = [])
      (P := fun _ => False) rfl rfl (fun c h => h.elim) (fun c i h => h.elim) ?_ ds
    intro w w' a hg e
    simp only [niOps, hg] at e
    split at e
    · split at e <;> cases e <;> exact ⟨rfl, by simp⟩
    · cases e; exact ⟨rfl, by simp⟩
  cases root with
  | none =>
    refine ⟨rfl, rfl, rfl, rfl, ?_⟩
    simp only [FMap.iterRunP, FMap.iterRun, FMap.iter, NOps.start, Option.bind_some]
    rw [hrun _ (by simp)]
  | some n =>
    obtain ⟨h, hn⟩ := hshape n rfl
    obtain ⟨es, ks⟩ := n
    simp only [FMap.toList] at hlen h1
    have hks : ks = [] ∧ es.length = 1 := by
      cases h with
      | zero =>
        obtain ⟨rfl, a, b⟩ := hn
        rw [toList_mk, inter_nil] at hlen
        exact ⟨rfl, by omega⟩
      | succ h =>
        exfalso
        obtain ⟨a, b, -, d⟩ := hn
        cases ks with
        | nil => simp at a
        | cons c ks =>
          have h5 := (d c (by simp)).lo_le
          have hsub : c.elems.length ≤ (BTree.Node.toList (.mk es (c :: ks))).length := by
            rw [toList_mk, inter_cons]
            have : c.elems.length ≤ c.toList.length := by
              obtain ⟨ces, cks⟩ := c
              rw [toList_mk]
              exact (sublist_inter cks ces).length_le
            rw [List.length_append]; omega
          omega
    obtain ⟨rfl, he⟩ := hks
    have k1 : keysOk r es = true := by
      rw [keysOk_eq (by omega), he, reach]; simp
    have k2 : valsOk r es = true := by
      rw [valsOk_eq (by omega), he, reach]; simp
    have k3 : kidsOk r ([] : List (BTree.Node K V)) = true := rfl
    have k4 : ∀ p : K → Ordering, searchKeysP r lin p es = searchKeys lin p es := by
      intro p; rw [searchKeysP, k1]; rfl
    refine ⟨?_, ?_, ?_, ?_, ?_⟩
    · simp only [FMap.getP, FMap.get]
      rw [Fixed.getP, Fixed.get, k4, k1, k2, k3]
      rcases searchKeys lin p es with _ | ⟨i, _ | _⟩ <;> rfl
    · simp only [FMap.getMutP, FMap.getMut]
      rw [Fixed.getMutP, Fixed.getMut, k4, k2, k3]
      rcases searchKeys lin p es with _ | ⟨i, _ | _⟩ <;> rfl
    · simp only [FMap.insertP, FMap.insert]
      rw [insP, Fixed.ins, k4, k1, k2, k3]
      rcases searchKeys lin (compare k) es with _ | ⟨i, _ | _⟩
      · rfl
      · rfl
      · rfl
    · simp only [FMap.removeP, FMap.remove]
      rw [Fixed.removeP, Fixed.remove, k4, k1, k2, k3]
      rcases searchKeys lin p es with _ | ⟨i, _ | _⟩
      · rfl
      · rfl
      · rfl
    · have hmk : (niOpsP r).make (.mk es []) = niOps.make (.mk es []) := by
        show (if kidsOk r [] && keysOk r es && valsOk r es then _ else none) = _
        rw [k1, k2, k3]; rfl
      simp only [FMap.iterRunP, FMap.iterRun, FMap.iter, NOps.start, hmk]
      cases em : niOps.make (.mk es []) with
      | none => rfl
      | some i =>
        simp only [Option.map_some, Option.bind_some]
        rw [hrun]
        intro w hw
        simp only [List.mem_singleton] at hw
        subst hw
        simp only [niOps] at em
        split at em
        · cases em
        · cases em; rfl

/-! ### Examples -/

-- 29 entries in two levels
example : 2 ≤ fm.len ∧ 12 ≤ fm.len := by decide +kernel
example := C73_stacked_false fm_reachable (by decide +kernel)
example : (fm.getP .stacked true (compare (⟨5, 0⟩ : CKey))).isNone = true ∧
    (fm.getP .whole true (compare (⟨5, 0⟩ : CKey))) = some (some 21) := by decide +kernel
example := C73_partial (r := .repaired) rfl fm_reachable
example := (C73_partial (r := .whole) rfl fm_reachable).2.2.2.2.2.2 rfl

/-- Twelve entries: a root with one and two leaves. -/
def f12 : FMap CKey Nat :=
  (FMap.fromIter true ((List.range 12).map (fun i => ((⟨i, 0⟩ : CKey), i)))).getD FMap.new

theorem f12_reachable : Fixed.Reachable true f12 :=
  .extend .new (show FMap.extend true FMap.new ((List.range 12).map (fun i => ((⟨i, 0⟩ : CKey), i)))
    = some f12 from getD_of_isSome _ (by decide +kernel))

-- removing the greatest key merges the leaves: fine as the slots go, but out of reach
example : (f12.root.map (fun n => n.kids.map (fun c => c.elems.length))) = some [6, 5] ∧
    (f12.remove true (compare (⟨11, 0⟩ : CKey))).isSome = true ∧
    (f12.removeP .whole true (compare (⟨11, 0⟩ : CKey))).isSome = true ∧
    (f12.removeP .repaired true (compare (⟨11, 0⟩ : CKey))).isNone = true := by decide +kernel
example := C73_merge_false (r := .repaired) (K := CKey) (V := Nat) rfl (at_ := 0)
  (es := [(⟨6, 0⟩, 6)]) (ks := [.mk [(⟨5, 0⟩, 5)] [], .mk [(⟨7, 0⟩, 7)] []]) rfl (by decide)
  (by decide)

/-- One entry. -/
def f1 : FMap CKey Nat := (FMap.fromIter true [((⟨5, 0⟩ : CKey), 5)]).getD FMap.new

theorem f1_reachable : Fixed.Reachable true f1 :=
  .extend .new (show FMap.extend true FMap.new [((⟨5, 0⟩ : CKey), 5)] = some f1 from
    getD_of_isSome _ (by decide +kernel))

example := C73_small_partial .stacked f1_reachable (by decide +kernel)
  (compare (⟨5, 0⟩ : CKey)) (· + 1) ⟨5, 1⟩ 3 [true]
example : f1.getP .stacked true (compare (⟨5, 0⟩ : CKey)) = some (some 5) := by decide +kernel

end Verif.Props
