import Verif.Unwind.BulkAlone
import Verif.Props.Unwind
/-!
# `append`, `retain` and `split_off` when `Clone` panics (C72)
-/
set_option linter.unusedVariables false
set_option linter.unusedSectionVars false
namespace Verif.Props
open Std Verif.Unwind Verif.Wild Verif.DemoU
universe w
variable {σ : Type w} {K V : Type} [Ord K] [TransOrd K]

deriving instance DecidableEq for Ends

/-- C72 is **false** for `AvlMap`.  A map of twelve entries shares its root with a clone; `Clone`
panics at the root.  After `append` both maps have lost all their entries, `len()` being 12 and 3
still; `retain` and `split_off` leave the map in the same state. -/
theorem C72_avl_false :
    Avl.Reachable (ua (uents 12)).erase ∧ Avl.Reachable (ua (uents 3)).erase ∧
    (ua (uents 12)).ents.length = 12 ∧ (ua (uents 3)).ents.length = 3 ∧
    Avl.SMap.appendC (fussy 14) (ua (uents 12)) (ua (uents 3)) 0 =
      some (.unwound (⟨12, .nil⟩, ⟨3, .nil⟩), 1) ∧
    (ua (uents 12)).retainC (fussy 14) (fun (n : Nat) _ v => (n + 1, v, true)) 0 0 =
      some (.unwound ⟨12, .nil⟩, 23) ∧
    (ua (uents 12)).splitOffC (fussy 14) (compare 9) 0 = some (.unwound ⟨12, .nil⟩, 1) :=
  ⟨ua_reach _, ua_reach _, by decide +kernel, by decide +kernel, by decide +kernel, by decide +kernel,
    by decide +kernel⟩

/-- C72, what is left of it for `AvlMap`.  Whatever is shared and whatever `Clone` does, the three
operations do not panic by themselves.  If `Clone` does not panic they have their ordinary effect.
If it does, the maps are left without entries and with `len` as it was; `split_off` may instead
leave the entries below the key, as it should, and lose the others. -/
theorem C72_avl_partial {a : Avl.SMap K V} (ha : Avl.Reachable a.erase) (c : Cl σ K V) (s : σ) :
    (∀ {b : Avl.SMap K V}, Avl.Reachable b.erase →
      ∃ q s', Avl.SMap.appendC c a b s = some (q, s') ∧ match q with
        | .unwound (a', b') => a'.ents = [] ∧ a'.len = a.len ∧ b'.ents = [] ∧ b'.len = b.len ∧ Bad c
        | .done (a', b') => Avl.Reachable a'.erase ∧ b'.erase = Avl.AvlMap.new ∧
            a'.ents = Spec.union a.ents b.ents) ∧
    (∀ {τ : Type} (f : τ → K → V → τ × V × Bool) (t : τ),
      ∃ q s', a.retainC c f t s = some (q, s') ∧ match q with
        | .unwound a' => a'.ents = [] ∧ a'.len = a.len ∧ Bad c
        | .done (t', a') => Avl.Reachable a'.erase ∧
            (a'.ents.map (·.1)).Sublist (a.ents.map (·.1)) ∧
            ∃ order : List (K × V), order.Perm a.ents ∧ t' = (Spec.calls f t order).1 ∧
              a'.ents.Perm (Spec.calls f t order).2) ∧
    ∀ p, IsProbe p → ∃ q s', a.splitOffC c p s = some (q, s') ∧ match q with
      | .unwound a' => (a'.ents = [] ∧ a'.len = a.len ∨
          Avl.Reachable a'.erase ∧ a'.ents = Spec.below p a.ents) ∧ Bad c
      | .done (a', b') => Avl.Reachable a'.erase ∧ Avl.Reachable b'.erase ∧
          a'.ents = Spec.below p a.ents ∧ b'.ents = Spec.atLeast p a.ents := by
  refine ⟨fun {b} hb => ?_, fun f t => ?_, fun p hp => ?_⟩
  · obtain ⟨m', e, w, ab⟩ := Avl.AvlMap.append_spec ha.wf hb.wf
    obtain ⟨q, s', e2, hq⟩ := Avl.SMap.appendC_spec c e s
    refine ⟨q, s', e2, ?_⟩
    rcases q with ⟨a', b'⟩ | ⟨a', b'⟩
    · obtain ⟨h1, h2⟩ := hq
      cases h1
      exact ⟨rfl, rfl, rfl, rfl, h2⟩
    · obtain ⟨h1, h2⟩ := Prod.mk.inj hq
      dsimp only at h1 h2 ⊢
      subst h1
      exact ⟨.appendL ha hb e, h2, ab⟩
  · obtain ⟨t', m', e, w, h1, h2⟩ := Avl.AvlMap.retain_spec ha.wf f t
    obtain ⟨q, s', e2, hq⟩ := Avl.SMap.retainC_spec c e s
    refine ⟨q, s', e2, ?_⟩
    rcases q with a' | ⟨t2, a'⟩
    · obtain ⟨rfl, h⟩ := hq
      exact ⟨rfl, rfl, h⟩
    · cases hq
      exact ⟨.retain ha e, h1, h2⟩
  · obtain ⟨x, y, e, w1, w2, h1, h2⟩ := Avl.AvlMap.splitOff_spec ha.wf hp
    obtain ⟨q, s', e2, hq⟩ := Avl.SMap.splitOffC_spec c e s
    refine ⟨q, s', e2, ?_⟩
    rcases q with a' | ⟨a', b'⟩
    · obtain ⟨h, hb⟩ := hq
      refine ⟨?_, hb⟩
      rcases h with rfl | h
      · exact .inl ⟨rfl, rfl⟩
      · refine .inr ⟨?_, ?_⟩
        · rw [h]; exact .splitL ha hp e
        · show a'.erase.abs = _
          rw [h]; exact h1
    · cases hq
      exact ⟨.splitL ha hp e, .splitR ha hp e, h1, h2⟩

example := C72_avl_partial (ua_reach (uents 12)) (fussy 4) 0
/-- A split that panics in the insertion of the key itself: the map keeps what is below. -/
example : ((ua (uents 12)).splitOffC (fussy 15) (compare 14) 0).map (fun r =>
      how (fun m => (m.ents.map (·.1), m.len)) (fun r => (r.1.ents.map (·.1), r.1.len)) r.1) =
      some (false, [0, 1, 4, 7, 8, 11], 6) ∧
    ((ua (uents 12)).splitOffC (fussy 4) (compare 14) 0).map (fun r =>
      how (fun m => (m.ents.map (·.1), m.len)) (fun r => (r.2.ents.map (·.1), r.2.len)) r.1) =
      some (true, [14, 15, 18, 21, 25, 28], 6) := by decide +kernel

/-- C72 for `AvlMap`s that share nothing: `append` and `split_off` call no `Clone` at all.  (`retain`
always does.) -/
theorem C72_avl_alone {a : Avl.AvlMap K V} (ha : Avl.Reachable a) (c : Cl σ K V) (s : σ) :
    (∀ {b : Avl.AvlMap K V}, Avl.Reachable b → ∃ a',
      Avl.SMap.appendC c (.ofMap a) (.ofMap b) s = some (.done (.ofMap a', .ofMap .new), s) ∧
        Avl.Reachable a' ∧ a'.abs = Spec.union a.abs b.abs) ∧
    ∀ p, IsProbe p → ∃ a' b',
      (Avl.SMap.ofMap a).splitOffC c p s = some (.done (.ofMap a', .ofMap b'), s) ∧
        Avl.Reachable a' ∧ Avl.Reachable b' ∧
        a'.abs = Spec.below p a.abs ∧ b'.abs = Spec.atLeast p a.abs := by
  refine ⟨fun {b} hb => ?_, fun p hp => ?_⟩
  · obtain ⟨m', e, w, ab⟩ := Avl.AvlMap.append_spec ha.wf hb.wf
    have h := Avl.SMap.appendC_alone c a b s
    rw [Alone, e] at h
    exact ⟨m', h, .appendL ha hb e, ab⟩
  · obtain ⟨x, y, e, w1, w2, h1, h2⟩ := Avl.AvlMap.splitOff_spec ha.wf hp
    have h := Avl.SMap.splitOffC_alone c a p s
    rw [Alone, e] at h
    exact ⟨x, y, h, .splitL ha hp e, .splitR ha hp e, h1, h2⟩

/-- C72 for `BTreeMap`.  Whatever is shared and whatever `Clone` does, the three operations do not
panic by themselves and leave valid maps.  If `Clone` panics, `append` has inserted the entries of
`other` up to some point and left `other` empty; `retain` and `split_off` leave the map empty. -/
theorem C72_btree {N : Nat} (hN : 1 ≤ N) {m : BTree.BTreeMap K V} (hm : BTree.Reachable N m)
    (o : BTree.Sharing K V) (c : Cl σ K V) (s : σ) :
    (∀ {b : BTree.BTreeMap K V}, BTree.Reachable N b →
      ∃ q s', m.appendC N c o b s = some (q, s') ∧ match q with
        | .unwound (m', b') => BTree.Reachable N m' ∧ b' = BTree.BTreeMap.new ∧ Bad c ∧
            ∃ l1 e l2, b.abs = l1 ++ e :: l2 ∧ m'.abs = Spec.insertAll m.abs l1
        | .done (m', b') => BTree.Reachable N m' ∧ b' = BTree.BTreeMap.new ∧
            m'.abs = Spec.insertAll m.abs b.abs) ∧
    (∀ {τ : Type} (f : τ → K → V → τ × V × Bool) (t : τ),
      ∃ q s', m.retainC N c o f t s = some (q, s') ∧ match q with
        | .unwound m' => m' = BTree.BTreeMap.new ∧ Bad c
        | .done (t', m') => BTree.Reachable N m' ∧ t' = (Spec.calls f t m.abs).1 ∧
            m'.abs = (Spec.calls f t m.abs).2) ∧
    ∀ p, ∃ q s', m.splitOffC N c o p s = some (q, s') ∧ match q with
      | .unwound m' => m' = BTree.BTreeMap.new ∧ Bad c
      | .done (a, b) => BTree.Reachable N a ∧ BTree.Reachable N b ∧
          a.abs = Spec.below p m.abs ∧ b.abs = Spec.atLeast p m.abs := by
  have hput : ∀ {x : BTree.BTreeMap K V} (e : K × V) (s : σ), BTree.Reachable N x →
      ∃ q s', x.putC N c e s = some (q, s') ∧ match q with
        | .unwound x' => x' = x ∧ Bad c
        | .done x' => BTree.Reachable N x' ∧ x'.abs = Spec.insert e.1 e.2 x.abs := by
    intro x e s hx
    obtain ⟨q, s', e1, hq⟩ := (C58_btree hN hx c s).1 e.1 e.2
    simp only [BTree.BTreeMap.putC, e1]
    rcases q with x' | ⟨x', v⟩
    · exact ⟨_, _, rfl, hq⟩
    · exact ⟨_, _, rfl, hq.1, hq.2.2⟩
  have hins : ∀ (l pre : List (K × V)) (e : K × V), Spec.insertAll l (pre ++ [e]) =
      Spec.insert e.1 e.2 (Spec.insertAll l pre) := by
    intro l pre e; simp [Spec.insertAll]
  have hlen : ∀ {x : BTree.BTreeMap K V}, BTree.Reachable N x → x.abs.length < x.len + 1 := by
    intro x hx
    have : x.len = x.abs.length := (hx.wf hN).inv.len
    omega
  refine ⟨fun {b} hb => ?_, fun {τ} f t => ?_, fun p => ?_⟩
  · obtain ⟨q, s', e, hq⟩ := BTree.BTreeMap.feedC_spec c (f := BTree.BTreeMap.putC N c)
      (G := fun pre x => BTree.Reachable N x ∧ x.abs = Spec.insertAll m.abs pre)
      (U := fun pre x => BTree.Reachable N x ∧ x.abs = Spec.insertAll m.abs pre) (fun _ _ h => h)
      (fun pre x e s h => by
        obtain ⟨q, s', e1, hq⟩ := hput e s h.1
        refine ⟨q, s', e1, ?_⟩
        rcases q with x' | x'
        · obtain ⟨rfl, hb⟩ := hq
          exact ⟨h, hb⟩
        · exact ⟨hq.1, by rw [hq.2, h.2, hins]⟩)
      b.abs [] (b.len + 1) (b.intoIter o) m s (hlen hb)
      (BTree.BTreeMap.intoIter_yields hN (hb.wf hN) o) ⟨hm, rfl⟩
    simp only [BTree.BTreeMap.appendC, e]
    rcases q with x | x
    · obtain ⟨⟨l1, x0, l2, h1, h2⟩, hb⟩ := hq
      exact ⟨_, _, rfl, h2.1, rfl, hb, l1, x0, l2, h1, h2.2⟩
    · exact ⟨_, _, rfl, hq.1, rfl, hq.2⟩
  · have h0 := BTree.BTreeMap.feedC_spec c
      (f := BTree.BTreeMap.keepC N c f)
      (G := fun pre x => BTree.Reachable N x.2 ∧ x.1 = (Spec.calls f t pre).1 ∧
        x.2.abs = Spec.insertAll [] (Spec.calls f t pre).2)
      (U := fun _ _ => True) (fun _ _ _ => trivial)
      (fun pre x e s h => by
        obtain ⟨h1, h2, h3⟩ := h
        rw [BTree.BTreeMap.keepC]
        have hc : Spec.calls f t (pre ++ [e]) = ((f x.1 e.1 e.2).1,
            (Spec.calls f t pre).2 ++ (if (f x.1 e.1 e.2).2.2 then [(e.1, (f x.1 e.1 e.2).2.1)] else [])) := by
          rw [Spec.calls_append, ← h2]
          simp [Spec.calls]
        by_cases hk : (f x.1 e.1 e.2).2.2 = true
        · simp only [hk, if_true] at hc ⊢
          obtain ⟨q, s', e1, hq⟩ := hput (e.1, (f x.1 e.1 e.2).2.1) s h1
          rw [e1]
          rcases q with x' | x'
          · exact ⟨_, _, rfl, trivial, hq.2⟩
          · exact ⟨_, _, rfl, hq.1, by rw [hc], by rw [hc, hq.2, h3, hins]⟩
        · simp only [hk, if_false, List.append_nil, Bool.false_eq_true] at hc ⊢
          exact ⟨_, _, rfl, h1, by rw [hc], by rw [hc, h3]⟩)
      m.abs [] (m.len + 1) (m.intoIter o) (t, .new) s (hlen hm)
      (BTree.BTreeMap.intoIter_yields hN (hm.wf hN) o) ⟨.new, rfl, rfl⟩
    obtain ⟨q, s', e, hq⟩ := h0
    simp only [BTree.BTreeMap.retainC, e]
    rcases q with x | x
    · exact ⟨_, _, rfl, rfl, hq.2⟩
    · refine ⟨_, _, rfl, hq.1, hq.2.1, ?_⟩
      rw [hq.2.2]
      exact Spec.insertAll_sorted (Sorted.of_keys_sublist (hm.wf hN).sorted
        (BTree.BTreeMap.calls_keys f t m.abs))
  · have h0 := BTree.BTreeMap.feedC_spec c
      (f := BTree.BTreeMap.sortC N c p)
      (G := fun pre x => BTree.Reachable N x.1 ∧ BTree.Reachable N x.2 ∧
        x.1.abs = Spec.insertAll [] (Spec.below p pre) ∧
        x.2.abs = Spec.insertAll [] (Spec.atLeast p pre))
      (U := fun _ _ => True) (fun _ _ _ => trivial)
      (fun pre x e s h => by
        obtain ⟨h1, h2, h3, h4⟩ := h
        rw [BTree.BTreeMap.sortC]
        by_cases hk : p e.1 = .gt
        · have e1 : Spec.below p (pre ++ [e]) = Spec.below p pre ++ [e] := by simp [Spec.below, hk]
          have e2 : Spec.atLeast p (pre ++ [e]) = Spec.atLeast p pre := by simp [Spec.atLeast, hk]
          simp only [hk, if_true]
          obtain ⟨q, s', e3, hq⟩ := hput e s h1
          rw [e3]
          rcases q with x' | x'
          · exact ⟨_, _, rfl, trivial, hq.2⟩
          · exact ⟨_, _, rfl, hq.1, h2, by rw [e1, hq.2, h3, hins], by rw [e2, h4]⟩
        · have e1 : Spec.below p (pre ++ [e]) = Spec.below p pre := by simp [Spec.below, hk]
          have e2 : Spec.atLeast p (pre ++ [e]) = Spec.atLeast p pre ++ [e] := by
            simp [Spec.atLeast, hk]
          simp only [hk, if_false]
          obtain ⟨q, s', e3, hq⟩ := hput e s h2
          rw [e3]
          rcases q with x' | x'
          · exact ⟨_, _, rfl, trivial, hq.2⟩
          · exact ⟨_, _, rfl, h1, hq.1, by rw [e1, h3], by rw [e2, hq.2, h4, hins]⟩)
      m.abs [] (m.len + 1) (m.intoIter o) (.new, .new) s (hlen hm)
      (BTree.BTreeMap.intoIter_yields hN (hm.wf hN) o) ⟨.new, .new, rfl, rfl⟩
    obtain ⟨q, s', e, hq⟩ := h0
    simp only [BTree.BTreeMap.splitOffC, e]
    rcases q with x | x
    · exact ⟨_, _, rfl, rfl, hq.2⟩
    · obtain ⟨h1, h2, h3, h4⟩ := hq
      exact ⟨_, _, rfl, h1, h2, by
        rw [h3]; exact Spec.insertAll_sorted ((hm.wf hN).sorted.filter _), by
        rw [h4]; exact Spec.insertAll_sorted ((hm.wf hN).sorted.filter _)⟩

example := C72_btree (Nat.le_refl 1) (ub_reach (Nat.le_refl 1) (uents 7)) .shared (fussy 4) 0
/-- `Clone` refuses the key 11 of the map that is appended. -/
example : ((ub 1 [(1, 0), (5, 0)]).appendC 1 (fussy 11) .shared (ub 1 (uents 7)) 0).map (fun r =>
      how (fun m => (m.1.abs.map (·.1), m.2.len)) (fun m => (m.1.abs.map (·.1), m.2.len)) r.1) =
      some (false, [0, 1, 4, 5, 7], 0) ∧
    ((ub 1 (uents 7)).retainC 1 (fussy 100) .shared (fun (n : Nat) k v => (n + k, v, k % 2 == 0)) 0 0).map
      (fun r => how (fun m => (m.abs.map (·.1), 0)) (fun m => (m.2.abs.map (·.1), m.1)) r.1) =
      some (true, [0, 4, 14, 28], 85) := by decide +kernel

end Verif.Props
