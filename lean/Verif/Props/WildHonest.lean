import Verif.Wild.HonestRun
import Verif.Props.Wild
/-!
# Comparisons that are honest but may panic

`Honest c p`: if the comparison answers, the answer is that of the total preorder's `p`.  It may
panic whenever it likes, depending on anything.
-/
set_option linter.unusedVariables false
namespace Verif.Demo
open Verif.Wild

/-- An honest comparison that panics at every seventh call. -/
def weary : Nat → Cmp Nat Nat := fun a b s => (if s % 7 = 6 then none else some (compare a b), s + 1)

theorem weary_honest (k : Nat) : Honest (weary k) (compare k) := by
  intro b s o h
  simp only [weary] at h
  split at h
  · cases h
  · exact (Option.some.inj h).symm

theorem shy_honest (k : Nat) : Honest (shy k) (compare k) := by
  intro b s o h
  simp only [shy] at h
  split at h
  · cases h
  · exact (Option.some.inj h).symm

/-- A program over `BTreeMap`. -/
def hbprog : List (BTree.BTreeMap.WCmd Nat Nat Nat) :=
  [.extend 0 weary (wents 9), .extend 0 weary (wents 9), .extend 1 honest (wents 9), .clone 1 2,
   .append 1 0 .shared weary, .remove 1 (weary 14), .insert 1 (weary 3) 3 3,
   .getMut 1 (weary 0) (· + 1), .splitOff 2 3 .shared weary (fun k s => (some (k < 15), s)),
   .extend 4 honest (wents 5)]

/-- A program over `fixed::BTreeMap`. -/
def hfprog : List (Fixed.FMap.WCmd Nat Nat Nat) :=
  [.extend 0 weary (wents 9), .extend 0 weary (wents 9), .extend 1 honest (wents 9), .clone 1 2,
   .remove 1 (weary 14), .insert 1 (weary 3) 3 3, .getMut 1 (weary 0) (· + 1)]

/-- A program over `AvlMap`. -/
def haprog : List (Avl.AvlMap.WCmd Nat Nat Nat) :=
  [.extend 0 weary (wents 9), .extend 0 weary (wents 9), .extend 1 honest (wents 9), .clone 1 2,
   .merge 0 1 3 true true (fun _ r => some r) weary,
   .merge 0 1 3 true true (fun _ _ => none) honest,
   .remove 1 (weary 14), .insert 1 (weary 3) 3 3, .getMut 1 (weary 0) (· + 1)]

end Verif.Demo

namespace Verif.Props
open Verif.Wild Verif.Demo Std
universe w
variable {σ : Type w} {K V : Type} [Ord K] [TransOrd K]

/-! ## `BTreeMap` -/

/-- C56.  A program whose comparisons are honest but panic when they like, every panic being
caught, holds only maps that a program without panics could hold: what is proved of reachable
maps, sortedness and everything else, holds of them. -/
theorem C56_btree_honest_programs {N : Nat} (hN : 1 ≤ N) (cs : List (BTree.BTreeMap.WCmd σ K V))
    (hc : ∀ cmd ∈ cs, cmd.Honest) (s : σ) :
    ∃ st s', BTree.BTreeMap.wrun N (fun _ => BTree.BTreeMap.new) s cs = some (st, s') ∧
      ∀ i, BTree.Reachable N (st i) ∧ Sorted (st i).abs ∧ (st i).len = (st i).abs.length := by
  obtain ⟨st, s', e, h⟩ := BTree.BTreeMap.wrun_reach hN cs s hc (fun _ => .new)
  exact ⟨st, s', e, fun i => ⟨h i, ((h i).wf hN).sorted, ((h i).wf hN).inv.len⟩⟩

/-- The program of the example is such a program; several of its operations panic. -/
example : (∀ cmd ∈ hbprog, cmd.Honest) ∧
    (BTree.BTreeMap.wrun 1 (fun _ => BTree.BTreeMap.new) 0 hbprog).map (fun r =>
      (List.range 5).map (fun i => (r.1 i).abs.map (·.1))) = some [[], [0, 4, 7, 11, 18, 21, 25, 28], [], [], [0, 7, 14, 21, 28]] := by
  refine ⟨?_, by decide +kernel⟩
  have p0 : IsProbe (compare (0 : Nat)) := isProbe_compare 0
  have p14 : IsProbe (compare (14 : Nat)) := isProbe_compare 14
  simp only [hbprog, List.mem_cons, List.not_mem_nil, or_false, forall_eq_or_imp, forall_eq,
    BTree.BTreeMap.WCmd.Honest]
  exact ⟨weary_honest, weary_honest, fun k => tame_honest _, trivial, weary_honest,
    ⟨_, p14, weary_honest 14⟩, weary_honest 3, ⟨_, p0, weary_honest 0⟩, weary_honest,
    fun k => tame_honest _⟩

/-- C56.  With an honest comparison that may panic, a one-entry operation leaves the map as it
was, or has done exactly what it should. -/
theorem C56_btree_honest {N : Nat} (hN : 1 ≤ N) {m : BTree.BTreeMap K V} (hm : BTree.Reachable N m)
    {c : Cmp σ K} {p : K → Ordering} (hp : IsProbe p) (hc : Honest c p) (g : V → V) (s : σ) :
    (∃ r s', m.getW c s = some (r, s') ∧ ∀ e, r = .done e → e = Spec.find p m.abs) ∧
    (∃ r s', m.getMutW c g s = some (r, s') ∧
      match r with
      | .unwound m' => m' = m
      | .done (m', b) => b = (Spec.find p m.abs).isSome ∧
          m'.abs = m.abs.map (fun e => if p e.1 = .eq then (e.1, g e.2) else e)) ∧
    (∃ r s', m.removeW N c s = some (r, s') ∧
      match r with
      | .unwound m' => m' = m
      | .done (m', e) => e = Spec.find p m.abs ∧ m'.abs = Spec.erase p m.abs) ∧
    ∀ (k : K) (v : V), Honest c (compare k) → ∃ r s', m.insertW N c k v s = some (r, s') ∧
      match r with
      | .unwound m' => m' = m
      | .done (m', o) => o = (Spec.find (compare k) m.abs).map (·.2) ∧
          m'.abs = Spec.insert k v m.abs := by
  have hw := hm.wf hN
  refine ⟨?_, ?_, ?_, ?_⟩
  · obtain ⟨r, s', e, -⟩ := BTree.BTreeMap.getW_spec N c hw.inv s
    refine ⟨r, s', e, ?_⟩
    rintro x rfl
    have := BTree.BTreeMap.getW_honest hc m s _ _ e
    rw [BTree.BTreeMap.getKeyValue_spec hw hp] at this
    exact (Option.some.inj this).symm
  · obtain ⟨r, s', e, hr⟩ := BTree.BTreeMap.getMutW_spec N c hw.inv g s
    refine ⟨r, s', e, ?_⟩
    rcases r with m' | ⟨m', b⟩
    · exact hr.1
    · have := Option.some.inj (BTree.BTreeMap.getMutW_honest hc m g s _ _ e)
      obtain ⟨-, h1, -, h2⟩ := BTree.BTreeMap.getMut_spec hw hp g
      rw [this] at h1 h2
      exact ⟨h2, h1⟩
  · obtain ⟨r, s', e, hr⟩ := BTree.BTreeMap.removeW_spec N c hN hw.inv s
    refine ⟨r, s', e, ?_⟩
    rcases r with m' | ⟨m', x⟩
    · exact hr.1
    · have h1 := BTree.BTreeMap.removeW_honest N hc m s _ _ e
      obtain ⟨m2, h2, -, h3⟩ := BTree.BTreeMap.remove_spec hN hw hp
      rw [h1] at h2
      simp only [Option.some.injEq, Prod.mk.injEq] at h2
      obtain ⟨rfl, h2⟩ := h2
      refine ⟨?_, h3⟩
      obtain ⟨-, hcut, -⟩ := hr
      cases x with
      | none =>
        cases hf : Spec.find p m.abs with
        | none => rfl
        | some y => rw [hf] at h2; cases h2
      | some x =>
        obtain ⟨l1, l2, e1, -, s0, hs0⟩ := hcut
        have hx : p x.1 = .eq := (hc x.1 s0 _ hs0).symm
        symm
        rw [find_eq_some hp hw.sorted]
        exact ⟨by rw [e1]; simp, hx⟩
  · intro k v hk
    obtain ⟨r, s', e, hr⟩ := BTree.BTreeMap.insertW_reach hN hm hk v s
    refine ⟨r, s', e, ?_⟩
    rcases r with m' | ⟨m', o⟩
    · exact hr
    · obtain ⟨m2, h2, -, h3⟩ := BTree.BTreeMap.insert_spec hw k v
      rw [hr.1] at h2
      simp only [Option.some.injEq, Prod.mk.injEq] at h2
      obtain ⟨rfl, h2⟩ := h2
      exact ⟨h2, h3⟩

/-- A search that does not meet the key 5, and one that does. -/
example : let m := (BTree.BTreeMap.fromIter 1 (wents 16)).getD .new
    m.abs.map (·.1) = [0, 1, 4, 5, 7, 8, 11, 12, 14, 15, 18, 21, 22, 25, 28, 29] ∧
    (m.removeW 1 (shy 14) 0).map (fun r => tale (fun m => (m.abs.map (·.1), m.len))
      (fun r => (r.1.abs.map (·.1), r.1.len)) r.1) = some (true, [0, 1, 4, 5, 7, 8, 11, 12, 15, 18, 21, 22, 25, 28, 29], 15) ∧
    (m.removeW 1 (shy 6) 0).map (fun r => tale (fun m => (m.abs.map (·.1), m.len))
      (fun r => (r.1.abs.map (·.1), r.1.len)) r.1) = some (false, [0, 1, 4, 5, 7, 8, 11, 12, 14, 15, 18, 21, 22, 25, 28, 29], 16) := by decide +kernel

/-! ## `fixed::BTreeMap` -/

@[inherit_doc C56_btree_honest_programs]
theorem C56_fixed_honest_programs (lin : Bool) (cs : List (Fixed.FMap.WCmd σ K V))
    (hc : ∀ cmd ∈ cs, cmd.Honest) (s : σ) :
    ∃ st s', Fixed.FMap.wrun lin (fun _ => Fixed.FMap.new) s cs = some (st, s') ∧
      ∀ i, Fixed.Reachable lin (st i) ∧ Sorted (st i).toList ∧
        (st i).len = (st i).toList.length := by
  obtain ⟨st, s', e, h⟩ := Fixed.FMap.wrun_reach (lin := lin) cs s hc (fun _ => .new)
  exact ⟨st, s', e, fun i => ⟨h i, (h i).wf.sorted, (h i).wf.len⟩⟩

/-- The program of the example is such a program; several of its operations panic. -/
example : (∀ cmd ∈ hfprog, cmd.Honest) ∧
    (Fixed.FMap.wrun true (fun _ => Fixed.FMap.new) 0 hfprog).map (fun r =>
      (List.range 3).map (fun i => (r.1 i).toList.map (·.1))) = some [[0, 7, 14, 21], [0, 4, 7, 11, 18, 21, 25, 28], [0, 4, 7, 11, 14, 18, 21, 25, 28]] := by
  refine ⟨?_, by decide +kernel⟩
  have p0 : IsProbe (compare (0 : Nat)) := isProbe_compare 0
  have p14 : IsProbe (compare (14 : Nat)) := isProbe_compare 14
  simp only [hfprog, List.mem_cons, List.not_mem_nil, or_false, forall_eq_or_imp, forall_eq,
    Fixed.FMap.WCmd.Honest]
  exact ⟨weary_honest, weary_honest, fun k => tame_honest _, trivial,
    ⟨_, p14, weary_honest 14⟩, weary_honest 3, ⟨_, p0, weary_honest 0⟩⟩

@[inherit_doc C56_btree_honest]
theorem C56_fixed_honest {lin : Bool} {m : Fixed.FMap K V} (hm : Fixed.Reachable lin m)
    {c : Cmp σ K} {p : K → Ordering} (hp : IsProbe p) (hc : Honest c p) (g : V → V) (s : σ) :
    (∃ r s', m.getW lin c s = some (r, s') ∧ ∀ e, r = .done e → e = Spec.find p m.toList) ∧
    (∃ r s', m.getMutW lin c g s = some (r, s') ∧
      match r with
      | .unwound m' => m' = m
      | .done (m', b) => b = (Spec.find p m.toList).isSome ∧
          m'.toList = m.toList.map (fun e => if p e.1 = .eq then (e.1, g e.2) else e)) ∧
    (∃ r s', m.removeW lin c s = some (r, s') ∧
      match r with
      | .unwound m' => m' = m
      | .done (m', e) => e = Spec.find p m.toList ∧ m'.toList = Spec.erase p m.toList) ∧
    ∀ (k : K) (v : V), Honest c (compare k) → ∃ r s', m.insertW lin c k v s = some (r, s') ∧
      match r with
      | .unwound m' => m' = m
      | .done (m', o) => o = (Spec.find (compare k) m.toList).map (·.2) ∧
          m'.toList = Spec.insert k v m.toList := by
  have hw := hm.wf
  have hfind : ∀ (x : Option (K × V)), (∀ y, x = some y → y ∈ m.toList ∧ p y.1 = .eq) →
      x.map (·.2) = (Spec.find p m.toList).map (·.2) → x = Spec.find p m.toList := by
    intro x h1 h2
    cases x with
    | none =>
      cases hf : Spec.find p m.toList with
      | none => rfl
      | some y => rw [hf] at h2; cases h2
    | some x =>
      symm
      rw [find_eq_some hp hw.sorted]
      exact h1 x rfl
  refine ⟨?_, ?_, ?_, ?_⟩
  · obtain ⟨r, s', e, hr⟩ := Fixed.FMap.getW_spec lin c hw.inv s
    refine ⟨r, s', e, ?_⟩
    rintro x rfl
    have := Fixed.FMap.getW_honest lin hc m s _ _ e
    rw [Fixed.FMap.get_spec hw hp] at this
    refine hfind x (fun y hy => ?_) (Option.some.inj this).symm
    obtain ⟨h1, s0, hs0⟩ := hr y hy
    exact ⟨h1, (hc y.1 s0 _ hs0).symm⟩
  · obtain ⟨r, s', e, hr⟩ := Fixed.FMap.getMutW_spec lin c hw.inv g s
    refine ⟨r, s', e, ?_⟩
    rcases r with m' | ⟨m', b⟩
    · exact hr.1
    · have h1 := Fixed.FMap.getMutW_honest lin hc m g s _ _ e
      obtain ⟨m2, h2, -, h3, -⟩ := Fixed.FMap.getMut_spec (lin := lin) hw hp g
      rw [h1] at h2
      simp only [Option.some.injEq, Prod.mk.injEq] at h2
      obtain ⟨rfl, h2⟩ := h2
      exact ⟨h2, h3⟩
  · obtain ⟨r, s', e, hr⟩ := Fixed.FMap.removeW_spec lin c hw.inv s
    refine ⟨r, s', e, ?_⟩
    rcases r with m' | ⟨m', x⟩
    · exact hr.1
    · have h1 := Fixed.FMap.removeW_honest lin hc m s _ _ e
      obtain ⟨m2, h2, -, h3⟩ := Fixed.FMap.remove_spec (lin := lin) hw hp
      rw [h1] at h2
      simp only [Option.some.injEq, Prod.mk.injEq] at h2
      obtain ⟨rfl, h2⟩ := h2
      refine ⟨hfind x (fun y hy => ?_) h2, h3⟩
      subst hy
      obtain ⟨l1, l2, e1, -, s0, hs0⟩ := hr.2.1
      exact ⟨by rw [e1]; simp, (hc y.1 s0 _ hs0).symm⟩
  · intro k v hk
    obtain ⟨r, s', e, hr⟩ := Fixed.FMap.insertW_reach hm hk v s
    refine ⟨r, s', e, ?_⟩
    rcases r with m' | ⟨m', o⟩
    · exact hr
    · obtain ⟨m2, h2, -, h3⟩ := Fixed.FMap.insert_spec (lin := lin) hw k v
      rw [hr.1] at h2
      simp only [Option.some.injEq, Prod.mk.injEq] at h2
      obtain ⟨rfl, h2⟩ := h2
      exact ⟨h2, h3⟩

/-- A search that does not meet the key 5, and one that does. -/
example : let m := (Fixed.FMap.extend true .new (wents 16)).getD .new
    (m.removeW true (shy 1) 0).map (fun r => tale (fun m => (m.toList.map (·.1), m.len))
      (fun r => (r.1.toList.map (·.1), r.1.len)) r.1) =
        some (true, [0, 4, 5, 7, 8, 11, 12, 14, 15, 18, 21, 22, 25, 28, 29], 15) ∧
    (m.removeW true (shy 6) 0).map (fun r => tale (fun m => (m.toList.map (·.1), m.len))
      (fun r => (r.1.toList.map (·.1), r.1.len)) r.1) =
        some (false, [0, 1, 4, 5, 7, 8, 11, 12, 14, 15, 18, 21, 22, 25, 28, 29], 16) := by decide +kernel

/-! ## `AvlMap` -/

/-- C56.  As `C56_btree_honest_programs`, without `append`, `split_off` and `retain`, for which
see C57. -/
theorem C56_avl_honest_programs (cs : List (Avl.AvlMap.WCmd σ K V))
    (hc : ∀ cmd ∈ cs, cmd.takes = false ∧ cmd.Honest) (s : σ) :
    ∃ st s', Avl.AvlMap.wrun (fun _ => Avl.AvlMap.new) s cs = some (st, s') ∧
      ∀ i, Avl.Reachable (st i) ∧ Sorted (st i).abs ∧ (st i).len = (st i).abs.length := by
  obtain ⟨st, s', e, h⟩ := Avl.AvlMap.wrun_reach cs s hc (fun _ => .new)
  exact ⟨st, s', e, fun i => ⟨h i, (h i).wf.sorted, (h i).wf.len_eq⟩⟩

/-- The program of the example is such a program; several of its operations panic. -/
example : (∀ cmd ∈ haprog, cmd.takes = false ∧ cmd.Honest) ∧
    (Avl.AvlMap.wrun (fun _ => Avl.AvlMap.new) 0 haprog).map (fun r =>
      (List.range 4).map (fun i => (r.1 i).abs.map (·.1))) = some [[0, 7, 14, 21], [0, 3, 4, 7, 11, 14, 18, 21, 25, 28], [0, 4, 7, 11, 14, 18, 21, 25, 28], [4, 11, 18, 25, 28]] := by
  refine ⟨?_, by decide +kernel⟩
  have p0 : IsProbe (compare (0 : Nat)) := isProbe_compare 0
  have p14 : IsProbe (compare (14 : Nat)) := isProbe_compare 14
  simp only [haprog, List.mem_cons, List.not_mem_nil, or_false, forall_eq_or_imp, forall_eq,
    Avl.AvlMap.WCmd.Honest, Avl.AvlMap.WCmd.takes, true_and]
  exact ⟨weary_honest, weary_honest, fun k => tame_honest _,
    ⟨.union, weary_honest⟩, ⟨.symDiff, fun k => tame_honest _⟩,
    ⟨_, p14, weary_honest 14⟩, weary_honest 3, ⟨_, p0, weary_honest 0⟩⟩

@[inherit_doc C56_btree_honest]
theorem C56_avl_honest {m : Avl.AvlMap K V} (hm : Avl.Reachable m)
    {c : Cmp σ K} {p : K → Ordering} (hp : IsProbe p) (hc : Honest c p) (g : V → V) (s : σ) :
    (∀ e s', m.getW c s = (.done e, s') → e = Spec.find p m.abs) ∧
    (match (m.getMutW c g s).1 with
      | .unwound m' => m' = m
      | .done (m', b) => b = (Spec.find p m.abs).isSome ∧
          m'.abs = m.abs.map (fun e => if p e.1 = .eq then (e.1, g e.2) else e)) ∧
    (∃ r s', m.removeW c s = some (r, s') ∧
      match r with
      | .unwound m' => m' = m
      | .done (m', e) => e = Spec.find p m.abs ∧ m'.abs = Spec.erase p m.abs) ∧
    ∀ (k : K) (v : V), Honest c (compare k) → ∃ r s', m.insertW c k v s = some (r, s') ∧
      match r with
      | .unwound m' => m' = m
      | .done (m', o) => o = (Spec.find (compare k) m.abs).map (·.2) ∧
          m'.abs = Spec.insert k v m.abs := by
  have hw := hm.wf
  refine ⟨?_, ?_, ?_, ?_⟩
  · intro x s' e
    rw [← Avl.AvlMap.getKeyValue_spec hw hp]
    exact (Avl.AvlMap.getW_honest hc m s _ _ e).symm
  · have hr := Avl.AvlMap.getMutW_spec c hw.inv g s
    have e := Avl.AvlMap.getMutW_honest hc m g s
    generalize m.getMutW c g s = x at hr e ⊢
    rcases x with ⟨m' | ⟨m', b⟩, s'⟩
    · exact hr.1
    · obtain ⟨-, h1, h2⟩ := Avl.AvlMap.getMut_spec hw hp g
      rw [e _ _ rfl] at h1 h2
      exact ⟨h2, h1⟩
  · obtain ⟨r, s', e, hr⟩ := Avl.AvlMap.removeW_spec c hw.inv s
    refine ⟨r, s', e, ?_⟩
    rcases r with m' | ⟨m', x⟩
    · exact hr.1
    · have h1 := Avl.AvlMap.removeW_honest hc m s _ _ e
      obtain ⟨m2, h2, -, h3⟩ := Avl.AvlMap.removeEntry_spec hw hp
      rw [h1] at h2
      simp only [Option.some.injEq, Prod.mk.injEq] at h2
      obtain ⟨rfl, h2⟩ := h2
      exact ⟨h2, h3⟩
  · intro k v hk
    obtain ⟨r, s', e, hr⟩ := Avl.AvlMap.insertW_reach hm hk v s
    refine ⟨r, s', e, ?_⟩
    rcases r with m' | ⟨m', o⟩
    · exact hr
    · obtain ⟨m2, h2, -, h3⟩ := Avl.AvlMap.insert_spec hw k v
      rw [hr.1] at h2
      simp only [Option.some.injEq, Prod.mk.injEq] at h2
      obtain ⟨rfl, h2⟩ := h2
      exact ⟨h2, h3⟩

/-- A search that does not meet the key 5, and one that does. -/
example : let m := (Avl.AvlMap.extend .new (wents 16)).getD .new
    (m.removeW (shy 14) 0).map (fun r => tale (fun m => (m.abs.map (·.1), m.len))
      (fun r => (r.1.abs.map (·.1), r.1.len)) r.1) =
        some (true, [0, 1, 4, 5, 7, 8, 11, 12, 15, 18, 21, 22, 25, 28, 29], 15) ∧
    (m.removeW (shy 6) 0).map (fun r => tale (fun m => (m.abs.map (·.1), m.len))
      (fun r => (r.1.abs.map (·.1), r.1.len)) r.1) =
        some (false, [0, 1, 4, 5, 7, 8, 11, 12, 14, 15, 18, 21, 22, 25, 28, 29], 16) := by decide +kernel

/-! ## C57 -/

/-- C57.  With an honest comparison that may panic, an interrupted `extend` has inserted exactly
the entries before one of them, as if no others had been given. -/
theorem C57_btree_extend_honest {N : Nat} (hN : 1 ≤ N) {m : BTree.BTreeMap K V}
    (hm : BTree.Reachable N m) {c : K → Cmp σ K} (hc : ∀ k, Honest (c k) (compare k))
    (es : List (K × V)) (s : σ) :
    ∃ r s', m.extendW N c es s = some (r, s') ∧
      match r with
      | .unwound m' => BTree.Reachable N m' ∧ ∃ es1 e es2, es = es1 ++ e :: es2 ∧
          m'.abs = Spec.insertAll m.abs es1
      | .done m' => BTree.Reachable N m' ∧ m'.abs = Spec.insertAll m.abs es := by
  obtain ⟨r, s', e, hr⟩ := BTree.BTreeMap.extendW_reach hN hm hc es s
  refine ⟨r, s', e, ?_⟩
  rcases r with m' | m'
  · obtain ⟨es1, x, es2, rfl, h1, h2⟩ := hr
    obtain ⟨m2, e2, -, h3⟩ := BTree.BTreeMap.extend_spec (hm.wf hN) es1
    rw [h1] at e2
    cases e2
    exact ⟨h2, es1, x, es2, rfl, h3⟩
  · obtain ⟨m2, e2, -, h3⟩ := BTree.BTreeMap.extend_spec (hm.wf hN) es
    rw [hr.1] at e2
    cases e2
    exact ⟨hr.2, h3⟩

@[inherit_doc C57_btree_extend_honest]
theorem C57_fixed_extend_honest {lin : Bool} {m : Fixed.FMap K V}
    (hm : Fixed.Reachable lin m) {c : K → Cmp σ K} (hc : ∀ k, Honest (c k) (compare k))
    (es : List (K × V)) (s : σ) :
    ∃ r s', m.extendW lin c es s = some (r, s') ∧
      match r with
      | .unwound m' => Fixed.Reachable lin m' ∧ ∃ es1 e es2, es = es1 ++ e :: es2 ∧
          m'.toList = Spec.insertAll m.toList es1
      | .done m' => Fixed.Reachable lin m' ∧ m'.toList = Spec.insertAll m.toList es := by
  obtain ⟨r, s', e, hr⟩ := Fixed.FMap.extendW_reach hm hc es s
  refine ⟨r, s', e, ?_⟩
  rcases r with m' | m'
  · obtain ⟨es1, x, es2, rfl, h1, h2⟩ := hr
    obtain ⟨m2, e2, -, h3⟩ := Fixed.FMap.extend_spec (lin := lin) hm.wf es1
    rw [h1] at e2
    cases e2
    exact ⟨h2, es1, x, es2, rfl, h3⟩
  · obtain ⟨m2, e2, -, h3⟩ := Fixed.FMap.extend_spec (lin := lin) hm.wf es
    rw [hr.1] at e2
    cases e2
    exact ⟨hr.2, h3⟩

@[inherit_doc C57_btree_extend_honest]
theorem C57_avl_extend_honest {m : Avl.AvlMap K V}
    (hm : Avl.Reachable m) {c : K → Cmp σ K} (hc : ∀ k, Honest (c k) (compare k))
    (es : List (K × V)) (s : σ) :
    ∃ r s', m.extendW c es s = some (r, s') ∧
      match r with
      | .unwound m' => Avl.Reachable m' ∧ ∃ es1 e es2, es = es1 ++ e :: es2 ∧
          m'.abs = Spec.insertAll m.abs es1
      | .done m' => Avl.Reachable m' ∧ m'.abs = Spec.insertAll m.abs es := by
  obtain ⟨r, s', e, hr⟩ := Avl.AvlMap.extendW_reach hm hc es s
  refine ⟨r, s', e, ?_⟩
  rcases r with m' | m'
  · obtain ⟨es1, x, es2, rfl, h1, h2⟩ := hr
    obtain ⟨m2, e2, -, h3⟩ := Avl.AvlMap.extend_spec hm.wf es1
    rw [h1] at e2
    cases e2
    exact ⟨h2, es1, x, es2, rfl, h3⟩
  · obtain ⟨m2, e2, -, h3⟩ := Avl.AvlMap.extend_spec hm.wf es
    rw [hr.1] at e2
    cases e2
    exact ⟨hr.2, h3⟩

/-- Of six entries, four are inserted. -/
example : ((Avl.AvlMap.new : Avl.AvlMap Nat Nat).extendW weary (wents 6) 0).map (fun r => tale
    (fun m => (m.abs.map (·.1), m.len)) (fun m => (m.abs.map (·.1), m.len)) r.1) = some (false, [0, 7, 14, 21], 4) ∧
    (BTree.BTreeMap.new.extendW 1 weary (wents 6) 0).map (fun r => tale
    (fun m => (m.abs.map (·.1), m.len)) (fun m => (m.abs.map (·.1), m.len)) r.1) = some (false, [0, 7, 14, 21], 4) ∧
    (Fixed.FMap.new.extendW false weary (wents 6) 0).map (fun r => tale
    (fun m => (m.toList.map (·.1), m.len)) (fun m => (m.toList.map (·.1), m.len)) r.1) = some (false, [0, 7, 14, 21], 4) := by
  decide +kernel

/-- C57.  With an honest comparison that may panic, an interrupted `append` of `BTreeMap` has moved
exactly the entries of `other` below one of them, and the others are lost. -/
theorem C57_btree_append_honest {N : Nat} (hN : 1 ≤ N) (o : BTree.Sharing K V)
    {m other : BTree.BTreeMap K V} (hm : BTree.Reachable N m) (ho : BTree.Reachable N other)
    {c : K → Cmp σ K} (hc : ∀ k, Honest (c k) (compare k)) (s : σ) :
    ∃ r s', m.appendW N o other c s = some (r, s') ∧
      match r with
      | .unwound (m', other') => BTree.Reachable N m' ∧ other' = .new ∧
          ∃ es1 e es2, other.abs = es1 ++ e :: es2 ∧ m'.abs = Spec.insertAll m.abs es1
      | .done (m', other') => BTree.Reachable N m' ∧ other' = .new ∧
          m'.abs = Spec.insertAll m.abs other.abs := by
  obtain ⟨r, s', e, hr⟩ := C57_btree_extend_honest hN hm hc other.abs s
  simp only [BTree.BTreeMap.appendW, BTree.BTreeMap.intoList_inv hN (ho.wf hN).inv, e]
  rcases r with m' | m'
  · exact ⟨_, _, rfl, hr.1, rfl, hr.2⟩
  · exact ⟨_, _, rfl, hr.1, rfl, hr.2⟩

/-- An interrupted `append`. -/
example : let m := (BTree.BTreeMap.fromIter 1 (wents 5)).getD .new
    let n := (BTree.BTreeMap.fromIter 1 (wents 9)).getD .new
    (m.appendW 1 .shared n weary 0).map (fun r => tale
    (fun m => (m.1.abs.map (·.1), m.1.len)) (fun m => (m.1.abs.map (·.1), m.1.len)) r.1) = some (false, [0, 4, 7, 14, 21, 28], 6) := by
  decide +kernel

/-- C57.  With an honest comparison that may panic, `append` of `AvlMap` does what it should if it
returns. -/
theorem C57_avl_append_honest_partial {m other : Avl.AvlMap K V} (hm : Avl.Reachable m)
    (ho : Avl.Reachable other) {c : K → Cmp σ K} (hc : ∀ k, Honest (c k) (compare k)) (s : σ) :
    ∃ r s', m.appendW other c s = some (r, s') ∧ ∀ m' other', r = .done (m', other') →
      Avl.Reachable m' ∧ other' = .new ∧ m'.abs = Spec.union m.abs other.abs := by
  obtain ⟨r, s', e, -⟩ := Avl.AvlMap.appendW_spec hm.wf.inv ho.wf.inv c s
  refine ⟨r, s', e, ?_⟩
  rintro m' other' rfl
  have h1 := Avl.AvlMap.appendW_honest hc m other s _ _ e
  obtain ⟨m2, h2, -, h3⟩ := Avl.AvlMap.append_spec hm.wf ho.wf
  have h4 := h1
  rw [h2] at h1
  cases h1
  exact ⟨hm.appendL ho h4, rfl, h3⟩

/-- C57.  With an honest comparison that may panic, `split_off` of `AvlMap` does what it should if
it returns. -/
theorem C57_avl_splitOff_honest_partial {m : Avl.AvlMap K V} (hm : Avl.Reachable m)
    {c : Cmp σ K} {p : K → Ordering} (hp : IsProbe p) (hc : Honest c p)
    {ck : K → Cmp σ K} (hk : ∀ k, Honest (ck k) (compare k)) (s : σ) :
    ∃ r s', m.splitOffW c ck s = some (r, s') ∧ ∀ a b, r = .done (a, b) →
      Avl.Reachable a ∧ Avl.Reachable b ∧ a.abs = Spec.below p m.abs ∧
        b.abs = Spec.atLeast p m.abs := by
  obtain ⟨r, s', e, -⟩ := Avl.AvlMap.splitOffW_spec c hm.wf.inv ck s
  refine ⟨r, s', e, ?_⟩
  rintro a b rfl
  have h1 := Avl.AvlMap.splitOffW_honest hc hk m s _ _ e
  obtain ⟨a2, b2, h2, -, -, h3, h4⟩ := Avl.AvlMap.splitOff_spec hm.wf hp
  have h5 := h1
  rw [h2] at h1
  cases h1
  exact ⟨hm.splitL hp h5, hm.splitR hp h5, h3, h4⟩

/-- They return if the bad key is not met. -/
example : let m := (Avl.AvlMap.extend .new (wents 9)).getD .new
    let n := (Avl.AvlMap.extend .new [(100, 1), (0, 1), (50, 1)]).getD .new
    (m.appendW n shy 0).map (fun r => tale (fun m => (m.1.abs.map (·.1), m.1.len))
      (fun m => (m.1.abs.map (·.1), m.1.len)) r.1) = some (true, [0, 4, 7, 11, 14, 18, 21, 25, 28, 50, 100], 11) ∧
    (m.splitOffW (shy 20) shy 0).map (fun r => tale (fun m => (m.abs.map (·.1), m.len))
      (fun m => (m.1.abs.map (·.1), m.1.len)) r.1) = some (true, [0, 4, 7, 11, 14, 18], 6) := by
  decide +kernel

end Verif.Props
