import Verif.Unwind.IntoSpec
import Verif.Props.Unwind
/-!
# `into_iter` when `Clone` panics (C71)
-/
set_option linter.unusedSectionVars false
namespace Verif.Props
open Std Verif.Unwind Verif.Wild Verif.DemoU
universe w
variable {σ : Type w} {K V : Type} [Ord K] [TransOrd K]

/-- C71 is **false**.  An `AvlMap` of twelve entries shares its root; the first call panics, and all
entries are lost: the second returns `None`, `len()` being 12 still.  A `BTreeMap` of four entries
shares its root; the first call panics at the only entry of a leaf, and then `next` trips the
assertion, three entries not having been yielded. -/
theorem C71_false :
    (Avl.Reachable (ua (uents 12)).erase ∧ (ua (uents 12)).erase.abs.length = 12 ∧
      AvlInto.run (fussy 14) (ua (uents 12)) [true, true, false] 0 =
        [.unwound 12, .got none 12, .got none 12]) ∧
    (BTree.Reachable 1 (ub 1 (uents 4)) ∧ (ub 1 (uents 4)).abs.length = 4 ∧
      BTreeInto.run (fussy 0) (ub 1 (uents 4)) .shared [true, true] 0 = [.unwound 4, .crashed]) :=
  ⟨⟨ua_reach _, by decide +kernel⟩, ub_reach (Nat.le_refl 1) _, by decide +kernel⟩

/-- C71, what is left of it for `AvlMap`.  Whatever is shared and whatever `Clone` does, no call of
`next` or `next_back` panics by itself; the calls consume the sorted entries from the two ends,
except that a panic of `Clone` loses a run of entries at that end, one of which is the entry cloned,
and that `len()` counts the entries lost. -/
theorem C71_avl_partial {m : Avl.SMap K V} (h : Avl.Reachable m.erase) (c : Cl σ K V)
    (ds : List Bool) (s : σ) :
    Follows (fun a => ∃ e ∈ a, MayPanic c e) False m.erase.abs 0 ds (AvlInto.run c m ds s) :=
  AvlInto.run_follows c m h.wf.len_eq ds s

example := C71_avl_partial (ua_reach (uents 12)) (fussy 4) [true, false, true, true, false] 0
example : AvlInto.run (fussy 1) (ua (uents 12)) [true, true, true, true, false] 0 =
    [.unwound 12, .got (some (7, 1)) 11, .got (some (8, 10)) 10, .got (some (11, 6)) 9,
      .got (some (28, 4)) 8] := by decide +kernel

/-- C71, what is left of it for `BTreeMap`.  Whatever is shared and whatever `Clone` does, the calls
consume the sorted entries from the two ends, except that a panic of `Clone` loses the entry cloned
and no other, that `len()` counts the entries lost, and that after such a panic a call may panic by
itself (what happens after that is not said). -/
theorem C71_btree_partial {N : Nat} (hN : 1 ≤ N) {m : BTree.BTreeMap K V} (h : BTree.Reachable N m)
    (o : BTree.Sharing K V) (c : Cl σ K V) (ds : List Bool) (s : σ) :
    Follows (fun a => ∃ x, a = [x] ∧ MayPanic c x) True m.abs 0 ds (BTreeInto.run c m o ds s) := by
  have w := h.wf hN
  have hl : (m.intoIter o).len = m.abs.length := by
    unfold BTree.BTreeMap.intoIter BTree.intoIterOf
    cases hr : m.root with
    | none => simp [BTree.BTreeMap.abs, hr]
    | some n => simpa using w.len_eq
  have := BTreeInto.evs_follows c ds (F := []) (B := []) (k := 0) s (.inl rfl) (.inl rfl)
    (by simp) ⟨hl, fun ds => BTree.BTreeMap.intoIter_run_spec hN w o ds⟩
  simp only [List.nil_append, List.append_nil, Nat.add_zero] at this
  exact this

example := C71_btree_partial (Nat.le_refl 1) (ub_reach (Nat.le_refl 1) (uents 7)) .shared (fussy 4)
  [true, true, false, false, true] 0
example : (ub 1 (uents 7)).abs.map (·.1) = [0, 4, 7, 11, 14, 21, 28] ∧
    BTreeInto.run (fussy 7) (ub 1 (uents 7)) .shared [true, true, true, true, false] 0 =
      [.got (some (0, 0)) 6, .got (some (4, 5)) 5, .unwound 5, .got (some (11, 6)) 4,
        .got (some (28, 4)) 3] := by decide +kernel

/-- C71 for `fixed::BTreeMap`: whatever is shared and whatever `Clone` does, no call panics by
itself; the calls that return yield every entry at most once and miss none, as if those that
panicked had not been made, `len()` being exact.  Dropping the iterator then destroys exactly what
was not moved out, and loses nothing.  (The order is that of C48.) -/
theorem C71_fixed {lin : Bool} {m : Fixed.FMap K V} (h : Fixed.Reachable lin m)
    (o : BTree.Sharing K V) (c : Cl σ K V) (ds : List Bool) (s : σ) :
    let es := FixedInto.run c m o ds s
    .crashed ∉ es ∧ es.length = ds.length ∧
      Fixed.Spec.Bag m.toList ((FixedInto.returned es).map (fun y => (y.1.map (·.2), y.2))) ∧
      ∃ d, FixedInto.dropped c m o ds s = some (d, []) ∧
        ((((FixedInto.returned es).filterMap (·.1)).filter (·.1)).map (·.2) ++ d).Perm
          (match m.root with | none => [] | some n => Fixed.dropNode (o.annot n)) := by
  obtain ⟨it, e, hg, -, hr, hm⟩ := Fixed.FMap.intoIter_good o h.wf.inv
  obtain ⟨h1, h2, h3, it', h4, h5, h6⟩ := FixedInto.run_ok c ds s hg
  obtain ⟨d, e2, hd⟩ := Fixed.dropAll_good h5.all
  simp only [FixedInto.run, FixedInto.dropped, e, h4]
  refine ⟨h1, h2, ?_, d, e2, ?_⟩
  · have := h3.map (·.2)
    rw [show FixedInto.left true it = it.work.flatMap Fixed.II.rem from rfl, hr] at this
    exact this
  · refine List.Perm.trans ?_ hm
    refine (List.Perm.append_left _ hd).trans ?_
    have := (h6.filter (·.1)).map (·.2)
    simp only [List.filter_append, List.map_append] at this
    exact this

example := C71_fixed (uf_reach true (uents 20)) .shared (fussy 1) [true, true, false, false, true] 0

/-- C71 for `fixed::BTreeMap`, calls of `next` only: the entries come in order, none being lost. -/
theorem C71_fixed_front {lin : Bool} {m : Fixed.FMap K V} (h : Fixed.Reachable lin m)
    (o : BTree.Sharing K V) (c : Cl σ K V) (n : Nat) (s : σ) :
    ∃ l, l.map (·.2) = m.toList ∧ Follows (· = []) False l 0 (List.replicate n true)
      (FixedInto.run c m o (List.replicate n true) s) := by
  obtain ⟨it, e, hg, -, hr, hm⟩ := Fixed.FMap.intoIter_good o h.wf.inv
  refine ⟨_, hr, ?_⟩
  simp only [FixedInto.run, e]
  exact FixedInto.run_front c n s hg

example := C71_fixed_front (uf_reach true (uents 20)) .shared (fussy 1) 6 0
example : FixedInto.run tired (uf true (uents 20)) .shared [true, true, true, true, true, true, true] 0 =
    [.got (some (false, 0, 0)) 19, .got (some (false, 1, 9)) 18, .got (some (false, 2, 18)) 17,
      .got (some (false, 4, 5)) 16, .unwound 16, .got (some (false, 5, 14)) 15,
      .got (some (false, 7, 1)) 14] := by decide +kernel

end Verif.Props
