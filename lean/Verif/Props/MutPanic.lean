import Verif.Unwind.MutSpec
import Verif.Props.Unwind
/-!
# Mutable iteration when `Clone` panics (C75)

The caller writes `g k v` to each value that it is given, and goes on calling the iterator after a
panic of `Clone`.  `gotten true` lists what `next` has yielded, `gotten false` what `next_back` has,
in the order of the calls; `quiet`: `Clone` has not panicked.
-/
set_option linter.unusedSectionVars false
namespace Verif.Props
open Std Verif.Unwind Verif.Wild Verif.DemoU Verif.Avl
universe w
variable {σ : Type w} {K V : Type} [Ord K] [TransOrd K]

/-- C75 for `iter_mut` and `values_mut` of `AvlMap`.  A panic when it is called leaves the map.
Afterwards, under any schedule of calls, whatever panics: the crate itself does not panic; the map
has its entries, those at `marks` with the value written to them and the others untouched; the
entries at `marks` are those that were yielded, in order from both ends, each once; and nothing
else reaches them.  Each panic may lose some; without one they are those at the two ends. -/
theorem C75_avl_iter_mut {m : SMap K V} (hm : Avl.Reachable m.erase) (c : Cl σ K V) (g : K → V → V)
    (ds : List Bool) (s : σ) :
    match m.iterMutC c s with
    | (.unwound m', _) => m'.erase = m.erase ∧ Bad c
    | (.done it, s) =>
      let E := evs STree.MIt.len (STree.MIt.step c g) ds it s
      let Y := gotten true ds E ++ (gotten false ds E).reverse
      ∃ it' s' marks, finish (STree.MIt.step c g) ds it s = some (it', s') ∧
        Avl.Reachable (⟨m.len, it'.root.erase⟩ : AvlMap K V) ∧
        marks.length = m.ents.length ∧
        it'.root.ents = List.zipWith (fun e b => if b = true then (e.1, g e.1 e.2) else e)
          m.ents marks ∧
        Y = ((m.ents.zip marks).filter (·.2)).map (·.1) ∧
        (Y.map (·.1)).Sublist it'.root.own ∧
        it'.len = m.len - Y.length ∧
        (quiet E = true → Y.length = min ds.length m.len ∧
          ∃ rest, gotten true ds E ++ rest ++ (gotten false ds E).reverse = m.ents) ∧
        (quiet E = false → Bad c) := by
  have h := SMap.iterMutC_spec c m s
  have hlen : m.len = m.ents.length := hm.wf.len_eq
  rcases hx : m.iterMutC c s with ⟨m' | it, s1⟩
  · rw [hx] at h
    obtain ⟨h1, h2, h3⟩ := h
    refine ⟨?_, h3⟩
    simp only [SMap.erase, h1, h2.erase]
  · rw [hx] at h
    obtain ⟨h1, h2, h3, h4⟩ := h
    have he : (STree.pos it.root.skel).filterMap (fun p => STree.ent p it.root) = m.ents := by
      rw [← STree.ents_pos]; exact h2.ents
    have hpl : (STree.pos it.root.skel).length = m.ents.length := by
      rw [← he]
      exact (STree.filterMap_zipWith _ id (fun _ => true) _ (fun x hx => STree.ent_some hx)).2.1.symm
    obtain ⟨it', s', marks, i1, i2, i3, i4, i5, i6, i7, i8, i9, i10⟩ :=
      STree.run_ents c g ds it s1 h3 (by rw [h4]) (by rw [h4, hpl, h1, hlen])
    rw [h4, he, ← hlen] at i9
    rw [h2.ents] at i3 i4 i5
    refine ⟨it', s', marks, i1, ?_, i3, i4, i5, i7, ?_, i9, i10⟩
    · refine reachable_of_skel hm rfl ?_
      show it'.root.erase.skel = m.root.erase.skel
      rw [STree.skel_erase, STree.skel_erase, i2, h2.skel]
    · rw [← h1]; omega

/-- The map after a run (entries, keys of those it owns), the iterator's `len()`, and what was
yielded from the front and from the back. -/
def mutSeen (c : Cl Nat Nat Nat) (ds : List Bool)
    (r : Ends (SMap Nat Nat) (STree.MIt Nat Nat) × Nat) :
    Option (List (Nat × Nat) × List Nat × Nat × List (Nat × Nat) × List (Nat × Nat)) :=
  match r with
  | (.unwound _, _) => none
  | (.done it, s) =>
    (finish (STree.MIt.step c (fun _ v => v + 100)) ds it s).map fun x =>
      (x.1.root.ents, x.1.root.own, x.1.len,
        gotten true ds (evs STree.MIt.len (STree.MIt.step c (fun _ v => v + 100)) ds it s),
        gotten false ds (evs STree.MIt.len (STree.MIt.step c (fun _ v => v + 100)) ds it s))

set_option synthInstance.maxSize 1000 in
/-- A shared map; `Clone` panics at 4, so that the entries below 7 are never yielded, and `len()`
stays too large: after the three entries yielded it is 9, with 6 to come.  28 came from the back. -/
theorem C75_avl_skips : mutSeen (fussy 4) [true, false, true, true]
    ((ua (uents 12)).iterMutC (fussy 4) 0) =
    some ([(0, 0), (1, 9), (4, 5), (7, 101), (8, 110), (11, 6), (14, 2), (15, 11), (18, 7), (21, 3),
        (25, 8), (28, 104)], [0, 1, 7, 8, 11, 14, 18, 21, 25, 28], 9, [(7, 1), (8, 10)], [(28, 4)]) := by
  decide +kernel

/-- C75 for `range_mut` of `AvlMap`; what is yielded lies within the bounds. -/
theorem C75_avl_range_mut {m : SMap K V} (hm : Avl.Reachable m.erase) (c : Cl σ K V) (g : K → V → V)
    {lb ub : Bnd K} (hlb : lb.Lawful) (hub : ub.Lawful) (ds : List Bool) (s : σ) :
    match m.rangeMutC c lb ub s with
    | (.unwound m', _) => m'.erase = m.erase ∧ Bad c
    | (.done it, s) =>
      let E := evs STree.MIt.len (STree.MIt.step c g) ds it s
      let Y := gotten true ds E ++ (gotten false ds E).reverse
      ∃ it' s' marks, finish (STree.MIt.step c g) ds it s = some (it', s') ∧
        Avl.Reachable (⟨m.len, it'.root.erase⟩ : AvlMap K V) ∧
        marks.length = m.ents.length ∧
        it'.root.ents = List.zipWith (fun e b => if b = true then (e.1, g e.1 e.2) else e)
          m.ents marks ∧
        Y = ((m.ents.zip marks).filter (·.2)).map (·.1) ∧
        Y.Sublist (Spec.range lb ub m.ents) ∧
        (Y.map (·.1)).Sublist it'.root.own ∧
        (quiet E = true → Y.length = min ds.length (Spec.range lb ub m.ents).length ∧
          ∃ rest, gotten true ds E ++ rest ++ (gotten false ds E).reverse =
            Spec.range lb ub m.ents) ∧
        (quiet E = false → Bad c) := by
  have h := SMap.rangeMutC_spec c hlb hub m hm.wf.sorted s
  have hlen : m.len = m.ents.length := hm.wf.len_eq
  rcases hx : m.rangeMutC c lb ub s with ⟨m' | it, s1⟩
  · rw [hx] at h
    obtain ⟨h1, h2, h3⟩ := h
    refine ⟨?_, h3⟩
    simp only [SMap.erase, h1, h2.erase]
  · rw [hx] at h
    obtain ⟨h1, h2, h3, h4, h5⟩ := h
    have he : (STree.pos it.root.skel).filterMap (fun p => STree.ent p it.root) = m.ents := by
      rw [← STree.ents_pos]; exact h2.ents
    have hpl : (STree.pos it.root.skel).length = m.ents.length := by
      rw [← he]
      exact (STree.filterMap_zipWith _ id (fun _ => true) _ (fun x hx => STree.ent_some hx)).2.1.symm
    obtain ⟨it', s', marks, i1, i2, i3, i4, i5, i6, i7, i8, i9, i10⟩ :=
      STree.run_ents c g ds it s1 h3 h4 (by rw [h1, hlen, ← hpl]; exact h4.length_le)
    rw [h5] at i6 i9
    rw [h2.ents] at i3 i4 i5
    refine ⟨it', s', marks, i1, ?_, i3, i4, i5, i6, i7, i9, i10⟩
    refine reachable_of_skel hm rfl ?_
    show it'.root.erase.skel = m.root.erase.skel
    rw [STree.skel_erase, STree.skel_erase, i2, h2.skel]

set_option synthInstance.maxSize 1000 in
/-- The clone of 8 panics: 8 is skipped. -/
example : mutSeen (fussy 8) [true, false, true, true, true]
    ((ua (uents 12)).rangeMutC (fussy 8) (.included (compare 5)) (.excluded (compare 25)) 0) =
    some ([(0, 0), (1, 9), (4, 5), (7, 101), (8, 10), (11, 6), (14, 102), (15, 111), (18, 7), (21, 103),
        (25, 8), (28, 4)], [1, 4, 7, 11, 14, 15, 18, 21, 25, 28], 8, [(7, 1), (14, 2), (15, 11)],
      [(21, 3)]) := by
  decide +kernel

/-- `range_mut` itself unwinds when the clone of a node on its way panics; some were cloned by then. -/
example : (match (ua (uents 12)).rangeMutC (fussy 25) (.included (compare 5)) (.excluded (compare 25)) 0
    with
    | (.unwound m', _) => some (m'.ents == (ua (uents 12)).ents, m'.own)
    | (.done _, _) => none) = some (true, [1, 4, 7, 11, 14, 18, 21, 28]) := by
  decide +kernel

/-- C75 for `for_each_mut`: a panic, of `Clone` or of the closure, leaves the map with the entries
up to that point changed and the others untouched.  The closure is called on the entries in order,
each time on one that nothing else reaches. -/
theorem C75_avl_for_each_mut {τ : Type} {m : SMap K V} (hm : Avl.Reachable m.erase) (c : Cl σ K V)
    (f : τ → K → V → τ × V × Bool) (a : τ) (s : σ) :
    ∃ x m' a' s', m.forEachMutC c f a s = (x, m', a', s') ∧ Avl.Reachable m'.erase ∧
      ∃ pre post pre' y, m.ents = pre ++ post ∧ m'.ents = pre' ++ post ∧
        feed f a pre = (a', pre', y) ∧ pre.map (·.1) <+: m'.own ∧
        (x = false → post = [] ∧ y = false) ∧ (x = true → y = true ∨ Bad c) := by
  unfold SMap.forEachMutC
  rcases h : STree.forEachC c f false m.root a s with ⟨x, t', a', s'⟩
  obtain ⟨h1, h2⟩ := STree.forEachC_spec c f _ _ _ _ _ _ _ _ h
  refine ⟨x, ⟨m.len, t'⟩, a', s', rfl, ?_, h2⟩
  refine reachable_of_skel hm rfl ?_
  show t'.erase.skel = m.root.erase.skel
  rw [STree.skel_erase, STree.skel_erase, h1]

/-- The clone of 8 panics after four entries; 11 and 14 are owned, but not changed. -/
example : (fun r : Bool × SMap Nat Nat × Nat × Nat => (r.1, r.2.1.ents, r.2.1.own, r.2.2))
    ((ua (uents 12)).forEachMutC (fussy 8) (fun t _ v => (t + 1, v + 100, false)) 0 0) =
    (true, [(0, 100), (1, 109), (4, 105), (7, 101), (8, 10), (11, 6), (14, 2), (15, 11), (18, 7),
      (21, 3), (25, 8), (28, 4)], [0, 1, 4, 7, 11, 14], 4, 7) := by
  decide +kernel

/-- The closure panics at 8, having changed it. -/
example : (fun r : Bool × SMap Nat Nat × Nat × Nat => (r.1, r.2.1.ents, r.2.1.own, r.2.2))
    ((ua (uents 12)).forEachMutC calm (fun t k v => (t + 1, v + 100, k == 8)) 0 0) =
    (true, [(0, 100), (1, 109), (4, 105), (7, 101), (8, 110), (11, 6), (14, 2), (15, 11), (18, 7),
      (21, 3), (25, 8), (28, 4)], [0, 1, 4, 7, 8, 11, 14], 5, 7) := by
  decide +kernel

/-- The accounts of C74 for mutable iteration: nothing is written to that was not owned before or
cloned, and nothing is cloned that is not owned afterwards. -/
theorem C75_avl_own (c : Cl σ K V) (q : K → Bool) {m : SMap K V} (hm : Avl.Reachable m.erase) (s : σ) :
    (∀ (τ : Type) (f : τ → K → V → τ × V × Bool) (a : τ),
      match m.forEachMutC (tally q c) f a (0, s) with
      | (_, m', _, n, _) => m'.own.countP q = m.own.countP q + n) ∧
    (∀ (g : K → V → V) (ds : List Bool),
      match m.iterMutC (tally q c) (0, s) with
      | (.unwound m', n, _) => m'.own.countP q = m.own.countP q + n
      | (.done it, n0, s) =>
        match finish (STree.MIt.step (tally q c) g) ds it (n0, s) with
        | none => True
        | some (it', n, _) => it'.root.own.countP q = m.own.countP q + n) ∧
    ∀ (g : K → V → V) (lb ub : Bnd K) (ds : List Bool), lb.Lawful → ub.Lawful →
      match m.rangeMutC (tally q c) lb ub (0, s) with
      | (.unwound m', n, _) => m'.own.countP q = m.own.countP q + n
      | (.done it, n0, s) =>
        match finish (STree.MIt.step (tally q c) g) ds it (n0, s) with
        | none => True
        | some (it', n, _) => it'.root.own.countP q = m.own.countP q + n := by
  have hlen : m.len = m.ents.length := hm.wf.len_eq
  refine ⟨fun τ f a => ?_, fun g ds => ?_, fun g lb ub ds hlb hub => ?_⟩
  · unfold SMap.forEachMutC
    rcases h : STree.forEachC (tally q c) f false m.root a (0, s) with ⟨x, t', a', s'⟩
    have := STree.forEachC_acc c f _ _ _ _ _ _ _ _ h
    have h2 : STree.cnt q t' = STree.cnt q m.root + s'.1 := by simpa [STree.cnt_shareIf] using this
    exact h2
  · have h := SMap.iterMutC_spec (tally q c) m (0, s)
    have ha := SMap.iterMutC_acc (q := q) c m (0, s)
    rcases hx : m.iterMutC (tally q c) (0, s) with ⟨m' | it, n0, s1⟩
    · rw [hx] at ha
      have h2 : STree.cnt q m'.root = STree.cnt q m.root + n0 := by simpa using ha
      exact h2
    · rw [hx] at h ha
      obtain ⟨h1, h2, h3, h4⟩ := h
      simp only
      split
      · trivial
      · next it' n s' e =>
        have he : (STree.pos it.root.skel).filterMap (fun p => STree.ent p it.root) = m.ents := by
          rw [← STree.ents_pos]; exact h2.ents
        have hpl : (STree.pos it.root.skel).length = m.ents.length := by
          rw [← he]
          exact (STree.filterMap_zipWith _ id (fun _ => true) _
            (fun x hx => STree.ent_some hx)).2.1.symm
        have hb := STree.finish_acc c g ds it _ _ it' h3 (by rw [h4, hpl, h1, hlen]) e
        simp only [STree.cnt] at ha hb
        show it'.root.own.countP q = m.root.own.countP q + n
        omega
  · have h := SMap.rangeMutC_spec (tally q c) hlb hub m hm.wf.sorted (0, s)
    have ha := SMap.rangeMutC_acc (q := q) c lb ub m (0, s)
    rcases hx : m.rangeMutC (tally q c) lb ub (0, s) with ⟨m' | it, n0, s1⟩
    · rw [hx] at ha
      have h2 : STree.cnt q m'.root = STree.cnt q m.root + n0 := by simpa using ha
      exact h2
    · rw [hx] at h ha
      obtain ⟨h1, h2, h3, h4, h5⟩ := h
      simp only
      split
      · trivial
      · next it' n s' e =>
        have he : (STree.pos it.root.skel).filterMap (fun p => STree.ent p it.root) = m.ents := by
          rw [← STree.ents_pos]; exact h2.ents
        have hpl : (STree.pos it.root.skel).length = m.ents.length := by
          rw [← he]
          exact (STree.filterMap_zipWith _ id (fun _ => true) _
            (fun x hx => STree.ent_some hx)).2.1.symm
        have hb := STree.finish_acc c g ds it _ _ it' h3
          (by rw [h1, hlen, ← hpl]; exact h4.length_le) e
        simp only [STree.cnt] at ha hb
        show it'.root.own.countP q = m.root.own.countP q + n
        omega

/-- Six of seven attempts gave a clone, and six entries are owned. -/
example : (fun r : Bool × SMap Nat Nat × Nat × (Nat × Nat) => (r.2.1.own, r.2.2.2.1))
    ((ua (uents 12)).forEachMutC (tally (fun _ => true) (fussy 8)) (fun t _ v => (t + 1, v + 100, false))
      0 (0, 0)) = ([0, 1, 4, 7, 11, 14], 6) := by
  decide +kernel

end Verif.Props
