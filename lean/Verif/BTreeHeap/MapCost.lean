import Mathlib.Data.Nat.Log
import Verif.Heap.MachineCost
import Verif.BTreeHeap.Cost
import Verif.BTreeHeap.MapSpec
/-!
# How many nodes the operations of `BTreeMap` allocate
-/
set_option linter.unusedSectionVars false
namespace Verif.BTreeH
open Heap Heap.Machine Std
open BTree (Node InnerIter BTreeMap QBnd NIter findRangeEdges Edges)
open BTree.BTreeMap (WF)
open BTree.Node (locate descIdx)

variable {K V S Q : Type}

/-! ## Iterators -/

/-- A property of programs that holds of a program if it holds of its parts. -/
structure Closed {P : Type} (Φ : ∀ {α : Type}, Prog P α → Prop) : Prop where
  pure : ∀ {α : Type} (x : α), Φ (.pure x : Prog P α)
  panic : ∀ {α : Type}, Φ (.panic : Prog P α)
  bind : ∀ {α β : Type} {p : Prog P α} {f : α → Prog P β}, Φ p → (∀ x, Φ (f x)) → Φ (p.bind f)

theorem Closed.ite {P : Type} {Φ : ∀ {α : Type}, Prog P α → Prop} {α : Type} {b : Prop}
    [Decidable b] {p q : Prog P α} (hp : Φ p) (hq : Φ q) : Φ (if b then p else q) := by
  split
  · exact hp
  · exact hq

theorem closed_reads {P : Type} : Closed (P := P) (fun p => p.ReadOnly) where
  pure _ := trivial
  panic := trivial
  bind hp hf := Prog.ReadOnly.bind hf hp

theorem closed_noAlloc {P : Type} : Closed (P := P) (fun p => p.NoAlloc) where
  pure _ := trivial
  panic := trivial
  bind hp hf := Prog.NoAlloc.bind hf hp

theorem closed_cost {P : Type} {I : Mem P → Prop} :
    Closed (P := P) (fun p => Cost I p (fun _ => 0)) where
  pure _ := .pure
  panic := .panic
  bind hp hf := Cost.zbind hp hf

section
variable {P St It E C X : Type} {Φ : ∀ {α : Type}, Prog P α → Prop}

/-- The parts of an iterator have the property. -/
structure Each (Φ : ∀ {α : Type}, Prog P α → Prop) (o : HOps P St It E C) : Prop where
  nextElem : ∀ e, Φ (o.nextElem e)
  nextBackElem : ∀ e, Φ (o.nextBackElem e)
  nextKid : ∀ e, Φ (o.nextKid e)
  nextBackKid : ∀ e, Φ (o.nextBackKid e)
  make : ∀ s k, Φ (o.make s k)
  done : ∀ e, Φ (o.done e)

variable {o : HOps P St It E C} (hΦ : Closed Φ) (ho : Each Φ o)
include hΦ ho

omit hΦ in
theorem Each.mirror : Each Φ o.mirror :=
  ⟨ho.nextBackElem, ho.nextElem, ho.nextBackKid, ho.nextKid, ho.make, ho.done⟩

theorem Each.keep (e : It) (rest : List It) : Φ (o.keep e rest) :=
  Closed.ite (hΦ.bind (ho.done e) fun _ => hΦ.pure _) (hΦ.pure _)

theorem Each.kidStep (s : St) (e : It) (rest : List It) : Φ (o.kidStep s e rest) := by
  refine hΦ.bind (ho.nextKid e) fun x => ?_
  split
  · exact hΦ.pure _
  · exact hΦ.bind (ho.keep hΦ _ _) fun _ => hΦ.bind (ho.make _ _) fun _ => hΦ.pure _

theorem Each.descend : ∀ n s e rest, Φ (o.descend n s e rest) := by
  intro n
  induction n with
  | zero => intro s e rest; exact hΦ.panic
  | succ n ih =>
    intro s e rest
    exact hΦ.bind (ho.kidStep hΦ _ _ _) fun x => Closed.ite (ih _ _ _) (hΦ.pure _)

theorem Each.yieldElem (len : Nat) (e : It) (rest : List It) : Φ (o.yieldElem len e rest) := by
  refine hΦ.bind (ho.nextElem e) fun x => ?_
  split
  · exact hΦ.panic
  · exact Closed.ite hΦ.panic (hΦ.bind (ho.keep hΦ _ _) fun _ => hΦ.pure _)

theorem Each.next (n : Nat) (s : St) (it : InnerIter It) : Φ (o.next n s it) := by
  unfold HOps.next
  split
  · exact hΦ.pure _
  · exact Closed.ite (hΦ.bind (ho.descend hΦ _ _ _ _) fun _ =>
      hΦ.bind (ho.yieldElem hΦ _ _ _) fun _ => hΦ.pure _)
      (hΦ.bind (ho.yieldElem hΦ _ _ _) fun _ => hΦ.pure _)

theorem Each.step (n : Nat) (d : Bool) (s : St) (it : InnerIter It) : Φ (o.step n d s it) :=
  Closed.ite (ho.next hΦ _ _ _) (hΦ.bind (ho.mirror.next hΦ _ _ _) fun _ => hΦ.pure _)

theorem Each.run {yld : St → E → Option (St × X)} (n : Nat) : ∀ ds s it,
    Φ (o.run yld n ds s it) := by
  intro ds
  induction ds with
  | nil => intro s it; exact hΦ.pure _
  | cons d ds ih =>
    intro s it
    refine hΦ.bind (ho.step hΦ _ _ _ _) fun x => ?_
    split
    · exact hΦ.bind (ih _ _) fun _ => hΦ.pure _
    · split
      · exact hΦ.panic
      · exact hΦ.bind (ih _ _) fun _ => hΦ.pure _

end

section
variable {P St It : Type} {Φ : ∀ {α : Type}, Prog P α → Prop} (hΦ : Closed Φ)
  {rec : Bnd K → Bnd K → List Nat → St → Prog P (St × Option (List It))}
  (hr : ∀ lb ub path s, Φ (rec lb ub path s))
include hΦ hr

theorem workStep_closed (item : Nat → Nat → Nat → Nat → Bool → Bool → It) (lb ub : Bnd K)
    (path : List Nat) (ed : Edges) (nE nK : Nat) (s : St) :
    Φ (workStep rec item lb ub path ed nE nK s) := by
  refine Closed.ite ?_ (hΦ.pure _)
  refine hΦ.bind ?_ fun x => ?_
  · refine Closed.ite (Closed.ite (Closed.ite (hr _ _ _ _) (hΦ.pure _)) (hr _ _ _ _)) (hΦ.pure _)
  · split
    · exact hΦ.pure _
    · refine hΦ.bind (Closed.ite (hr _ _ _ _) (hΦ.pure _)) fun y => ?_
      split <;> exact hΦ.pure _

end

/-! ## Operations that only read -/

theorem getAt_reads (a : Nat) (p : K → Ordering) : ∀ n path,
    (getAt a p n path : Prog (ND K V) _).ReadOnly := by
  intro n
  induction n with
  | zero => intro path; exact trivial
  | succ n ih =>
    intro path
    exact Prog.ReadOnly.bind (fun x => Prog.ReadOnly.ite (by exact trivial) (Prog.ReadOnly.ite (ih _) (by exact trivial)))
      (Prog.ReadOnly.lift trivial)

theorem containsAt_reads (a : Nat) (p : K → Ordering) : ∀ n path,
    (containsAt a p n path : Prog (ND K V) _).ReadOnly := by
  intro n
  induction n with
  | zero => intro path; exact trivial
  | succ n ih =>
    intro path
    exact Prog.ReadOnly.bind (fun x => Prog.ReadOnly.ite (by exact trivial) (Prog.ReadOnly.ite (ih _) (by exact trivial)))
      (Prog.ReadOnly.lift trivial)

theorem firstAt_reads (a : Nat) : ∀ n path, (firstAt a n path : Prog (ND K V) _).ReadOnly := by
  intro n
  induction n with
  | zero => intro path; exact trivial
  | succ n ih =>
    intro path
    refine Prog.ReadOnly.bind (fun x => Prog.ReadOnly.ite (ih _) ?_) (Prog.ReadOnly.lift trivial)
    split <;> exact trivial

theorem lastAt_reads (a : Nat) : ∀ n path, (lastAt a n path : Prog (ND K V) _).ReadOnly := by
  intro n
  induction n with
  | zero => intro path; exact trivial
  | succ n ih =>
    intro path
    exact Prog.ReadOnly.bind (fun x => Prog.ReadOnly.ite (ih _) (by exact trivial))
      (Prog.ReadOnly.lift trivial)

theorem getKeyValue_reads (m : HMap) (p : K → Ordering) :
    (m.getKeyValue p : Prog (ND K V) _).ReadOnly := by
  unfold HMap.getKeyValue
  split
  · exact trivial
  · exact getAt_reads _ _ _ _

theorem containsKey_reads (m : HMap) (p : K → Ordering) :
    (m.containsKey p : Prog (ND K V) _).ReadOnly := by
  unfold HMap.containsKey
  split
  · exact trivial
  · exact containsAt_reads _ _ _ _

theorem first_reads (m : HMap) : (m.first : Prog (ND K V) _).ReadOnly := by
  unfold HMap.first
  split
  · exact trivial
  · exact Prog.ReadOnly.map (firstAt_reads _ _ _)

theorem last_reads (m : HMap) : (m.last : Prog (ND K V) _).ReadOnly := by
  unfold HMap.last
  split
  · exact trivial
  · exact lastAt_reads _ _ _

theorem shared_reads (a : Nat) : Each (fun p => p.ReadOnly) (sharedOps (K := K) (V := V) a) where
  nextElem e := Prog.ReadOnly.ite trivial trivial
  nextBackElem e := Prog.ReadOnly.ite trivial trivial
  nextKid e := Prog.ReadOnly.ite trivial trivial
  nextBackKid e := Prog.ReadOnly.ite trivial trivial
  make s k := Prog.ReadOnly.bind (fun _ => by exact trivial) (Prog.ReadOnly.lift trivial)
  done e := trivial

theorem iterRun_reads (n : Nat) (ds : List Bool) (r : Option Nat) (len : Nat) :
    (iterRun n ds r len : Prog (ND K V) _).ReadOnly := by
  unfold iterRun
  split
  · exact Prog.ReadOnly.map ((shared_reads _).run closed_reads _ _ _ _)
  · exact Prog.ReadOnly.bind (fun _ => Prog.ReadOnly.map ((shared_reads _).run closed_reads _ _ _ _))
      ((shared_reads _).make _ _)

theorem mkWorkH_reads (a : Nat) : ∀ n lb ub path s,
    (mkWorkH a n lb ub path s : Prog (ND K V) _).ReadOnly := by
  intro n
  induction n with
  | zero => intros; exact trivial
  | succ n ih =>
    intro lb ub path s
    exact Prog.ReadOnly.bind (fun x => workStep_closed closed_reads ih _ _ _ _ _ _ _ _)
      (Prog.ReadOnly.lift trivial)

theorem rangeRun_reads (n : Nat) (lb ub : Bnd K) (ds : List Bool) (r : Option Nat) (len : Nat) :
    (rangeRun n lb ub ds r len : Prog (ND K V) _).ReadOnly := by
  unfold rangeRun
  split
  · exact Prog.ReadOnly.map ((shared_reads _).run closed_reads _ _ _ _)
  · refine Prog.ReadOnly.bind (fun w => ?_) (mkWorkH_reads _ _ _ _ _ _)
    split
    · exact trivial
    · exact Prog.ReadOnly.map ((shared_reads _).run closed_reads _ _ _ _)

theorem range_reads [Ord Q] (b : K → Q) (m : HMap) (lb ub : QBnd Q) (ds : List Bool) :
    (m.range b lb ub ds : Prog (ND K V) _).ReadOnly :=
  Prog.ReadOnly.ite trivial (rangeRun_reads _ _ _ _ _ _)

theorem iterList_reads (m : HMap) : (m.iterList : Prog (ND K V) _).ReadOnly :=
  Prog.ReadOnly.map (iterRun_reads _ _ _ _)

/-! ## Operations that allocate nothing -/

theorem tryKid_noAlloc (r : Option Nat) : (tryKid r : Prog (ND K V) _).NoAlloc := by
  cases r with
  | none => exact trivial
  | some a =>
    refine Prog.NoAlloc.bind ?_ (Prog.NoAlloc.lift nofun)
    rintro (_ | n) <;> exact trivial

theorem forAll_noAlloc (D : Nat) : ∀ ks : List (Option Nat),
    (forAll (drop D) ks : Prog (ND K V) Unit).NoAlloc
  | [] => trivial
  | k :: ks => Prog.NoAlloc.bind (fun _ => forAll_noAlloc D ks) (drop_noAlloc D k)

theorem own_noAlloc (D : Nat) : Each (fun p => p.NoAlloc) (ownOps (K := K) (V := V) D) where
  nextElem e := by
    cases e with
    | arcked a lbE ubE lbK ubK lf rt =>
      refine Closed.ite (Φ := fun p => p.NoAlloc) trivial (Closed.ite (Φ := fun p => p.NoAlloc) ?_ trivial)
      refine Prog.NoAlloc.bind (fun x => ?_) (Prog.NoAlloc.lift nofun)
      split <;> exact trivial
    | owned => exact Closed.ite (Φ := fun p => p.NoAlloc) trivial trivial
  nextBackElem e := by
    cases e with
    | arcked a lbE ubE lbK ubK lf rt =>
      refine Closed.ite (Φ := fun p => p.NoAlloc) trivial (Closed.ite (Φ := fun p => p.NoAlloc) ?_ trivial)
      refine Prog.NoAlloc.bind (fun x => ?_) (Prog.NoAlloc.lift nofun)
      split <;> exact trivial
    | owned => exact Closed.ite (Φ := fun p => p.NoAlloc) trivial trivial
  nextKid e := by
    cases e with
    | arcked a lbE ubE lbK ubK lf rt =>
      refine Closed.ite (Φ := fun p => p.NoAlloc) (Closed.ite (Φ := fun p => p.NoAlloc) ?_ trivial) trivial
      refine Prog.NoAlloc.bind (fun x => ?_) (Prog.NoAlloc.lift nofun)
      split <;> exact trivial
    | owned es ks lf rt =>
      refine Closed.ite (Φ := fun p => p.NoAlloc) ?_ trivial
      split
      · exact trivial
      · exact Prog.NoAlloc.map (tryKid_noAlloc _)
  nextBackKid e := by
    cases e with
    | arcked a lbE ubE lbK ubK lf rt =>
      refine Closed.ite (Φ := fun p => p.NoAlloc) (Closed.ite (Φ := fun p => p.NoAlloc) ?_ trivial) trivial
      refine Prog.NoAlloc.bind (fun x => ?_) (Prog.NoAlloc.lift nofun)
      split <;> exact trivial
    | owned es ks lf rt =>
      refine Closed.ite (Φ := fun p => p.NoAlloc) ?_ trivial
      split
      · exact trivial
      · exact Prog.NoAlloc.map (tryKid_noAlloc _)
  make s k := by
    cases k with
    | ok n => exact trivial
    | err a => exact Prog.NoAlloc.bind (fun _ => by exact trivial) (Prog.NoAlloc.lift nofun)
  done e := by
    cases e with
    | arcked => exact drop_noAlloc _ _
    | owned => exact forAll_noAlloc _ _

theorem dropWork_noAlloc (D : Nat) : ∀ w : List (OIter K V), (dropWork D w).NoAlloc
  | [] => trivial
  | e :: w => Prog.NoAlloc.bind (fun _ => dropWork_noAlloc D w) ((own_noAlloc D).done e)

theorem intoNew_noAlloc (D : Nat) (r : Option Nat) (len : Nat) :
    (intoNew D r len : Prog (ND K V) _).NoAlloc := by
  unfold intoNew
  split
  · exact trivial
  · exact Prog.NoAlloc.bind (fun _ => Prog.NoAlloc.map ((own_noAlloc D).make _ _)) (tryKid_noAlloc _)

theorem intoRun_noAlloc (D n : Nat) (ds : List Bool) (r : Option Nat) (len : Nat) :
    (intoRun D n ds r len : Prog (ND K V) _).NoAlloc :=
  Prog.NoAlloc.bind (fun _ => Prog.NoAlloc.bind (fun _ => Prog.NoAlloc.map (dropWork_noAlloc _ _))
    ((own_noAlloc D).run closed_noAlloc _ _ _ _)) (intoNew_noAlloc _ _ _)

theorem forInto_noAlloc {D n : Nat} {f : S → K × V → Prog (ND K V) (S × Bool)}
    (hf : ∀ s e, (f s e).NoAlloc) : ∀ k it s, (forInto D n f k it s).NoAlloc := by
  intro k
  induction k with
  | zero => intros; exact trivial
  | succ k ih =>
    intro it s
    refine Prog.NoAlloc.bind (fun x => ?_) ((own_noAlloc D).next closed_noAlloc _ _ _)
    split
    · exact Prog.NoAlloc.map (dropWork_noAlloc _ _)
    · exact Prog.NoAlloc.bind (fun y => Closed.ite (Φ := fun p => p.NoAlloc) (ih _ _)
        (Prog.NoAlloc.map (dropWork_noAlloc _ _))) (hf _ _)

theorem intoVec_noAlloc (m : HMap) : (m.intoVec : Prog (ND K V) _).NoAlloc :=
  Prog.NoAlloc.bind (fun _ => forInto_noAlloc (fun _ _ => by exact trivial) _ _ _) (intoNew_noAlloc _ _ _)

/-! ## The height -/

/-- At least the number of levels of a B-tree with `n` entries. -/
def lvl (N n : Nat) : Nat := Nat.log (N + 1) ((n + 1) / 2) + 1

theorem lvl_mono {N m n : Nat} (h : m ≤ n) : lvl N m ≤ lvl N n :=
  Nat.succ_le_succ (Nat.log_mono_right (Nat.div_le_div_right (Nat.succ_le_succ h)))

/-- The number of levels of the tree. -/
theorem dep_lvl [Ord K] {N : Nat} {m : BTreeMap K V} (hN : 1 ≤ N) (h : WF N m) {nd : Node K V}
    (hr : m.root = some nd) : ∃ d, (vt nd).Dep (d + 1) ∧ d + 1 ≤ lvl N m.len ∧ d + 1 ≤ m.len := by
  obtain ⟨⟨ht, h1⟩, h2⟩ := h.root hr
  have h3 := BTree.ok_size_root h1
  rw [← h2, ← h.len_eq] at h3
  have h4 : 2 ^ ht ≤ (N + 1) ^ ht := Nat.pow_le_pow_left (by omega) _
  have h5 : ht < 2 ^ ht := Nat.lt_two_pow_self
  refine ⟨ht, dep_of_ok h1, Nat.succ_le_succ ?_, by omega⟩
  exact Nat.le_log_of_pow_le (by omega) (by omega)

theorem Spends_root {α : Type} {I : Mem (ND K V) → Prop} {p : Prog (ND K V) α} {r : Option Nat}
    {root : Option (Node K V)} {Q : α → Multiset (Handle (ND K V)) → Prop} {n : α → Nat}
    (h0 : r = none → root = none → Spends I p (own r (vtO root)) Q n)
    (h1 : ∀ a nd, r = some a → root = some nd → Spends I p (own (some a) (vt nd)) Q n) :
    Spends I p (own r (vtO root)) Q n := by
  intro h F ho
  have hr : Rep h r (vtO root) := rep_own (L := F) (fun e he => ho.rep e he)
  cases root with
  | none =>
    cases r with
    | none => exact h0 rfl rfl h F ho
    | some a => cases hr
  | some nd =>
    cases r with
    | none => rw [vtO, vt_eta] at hr; cases hr
    | some a => exact h1 a nd rfl rfl h F ho

/-! ## Operations -/

section
variable {I : Mem (ND K V) → Prop} {c : Nat} (f : Frugal I c) {N : Nat} {m : BTreeMap K V}
  {r : Option Nat}
include f

theorem spends_getMut [Ord K] (hN : 1 ≤ N) (h : WF N m) {p : K → Ordering} {g : V → V} :
    Spends I (HMap.getMut ⟨m.len, r⟩ p g) (own r (vtO m.root))
      (fun x L => R x.1 (m.getMut p g).1 L ∧ x.2 = (m.getMut p g).2)
      (fun _ => c * lvl N m.len) := by
  have hq := hgetMut_spec (r := r) (fun nd hr => dep_len hN h hr) (p := p) (g := g)
  refine Spends_root (fun hr hm => ?_) (fun a nd hr hm => ?_)
  · subst hr
    exact Spends.of_cost .pure hq
  · subst hr
    rw [hm] at hq
    obtain ⟨d, h1, h2, h3⟩ := dep_lvl hN h hm
    have hd := dep_len hN h hm
    have hbody : ∀ x, Fits x nd → wp (BTreeH.getMut m.len p g (d + 1) x)
        (owns x.kids (vts nd.kids) + 0) (Turns (nd.getMut p g).1
          (fun b L => b = (nd.getMut p g).2 ∧ L = 0)) := by
      intro x hx
      rw [add_zero]
      exact getMut_spec h1 hd hx
    have hw := mutArc_spec (a := a) hd hbody
    rw [add_zero] at hw
    refine Spends.of_le_bind (m := fun _ _ => 0) (mutArc_le fun x => getMut_le h3)
      (cost_mutArc f (b := fun _ => c * d) fun x => cost_getMut f _ _ _ _ _) hw (fun _ => .pure) hq ?_
    intro x y
    have := Nat.mul_le_mul_left c h2
    rw [Nat.mul_add] at this
    omega

theorem cost_afterRoot (len a : Nat) (y : HIns K V) :
    Cost I (HMap.afterRoot len a y) (fun _ => match y with | .split _ _ => 1 | _ => 0) := by
  cases y with
  | replaced o => exact .pure
  | absorbed => exact .pure
  | split b kv => exact Cost.map (f.alloc _) (fun _ => Nat.le_refl _)

theorem spends_insert [Ord K] (hN : 1 ≤ N) (h : WF N m) {k : K} {v : V} {m' old}
    (e : m.insert N k v = some (m', old)) :
    Spends I (HMap.insert N ⟨m.len, r⟩ k v) (own r (vtO m.root))
      (fun x L => R x.1 m' L ∧ x.2 = old)
      (fun x => c * lvl N m.len + (if x.2.isNone then lvl N m.len + 1 else 0)) := by
  have hq := hinsert_spec (r := r) (fun nd hr => dep_len hN h hr) e
  refine Spends_root (fun hr hm => ?_) (fun a nd hr hm => ?_)
  · subst hr
    refine Spends.of_cost (Cost.map (f.alloc _) fun _ => ?_) hq
    simp only [Option.isNone_none, if_true]
    omega
  · subst hr
    rw [hm] at hq
    obtain ⟨d, h1, h2, h3⟩ := dep_lvl hN h hm
    have hd := dep_len hN h hm
    simp only [BTreeMap.insert, hm] at e
    cases er : nd.ins N k v with
    | none => rw [er] at e; cases e
    | some res =>
      have hbody : ∀ x, Fits x nd → wp (ins N m.len k v (d + 1) x)
          (owns x.kids (vts nd.kids) + 0) (Turns (resNode res) (InsR res)) := by
        intro x hx
        rw [add_zero]
        exact ins_spec h1 hd hx er
      have hw := mutArc_spec (a := a) hd hbody
      rw [add_zero] at hw
      refine Spends.of_le_bind' (mutArc_le fun x => ins_le h3)
        (cost_mutArc f (b := fun y => c * d + HIns.splits d y) fun x => cost_ins f _ _ _ _ _ _) hw
        (fun x => cost_afterRoot f _ _ _) hq ?_
      intro x y h0 h' e
      have h4 := Nat.mul_le_mul_left c h2
      rw [Nat.mul_add] at h4
      obtain ⟨x1, x2⟩ := x
      cases x2 with
      | replaced o => simp only [HIns.splits]; omega
      | absorbed => cases e; simp only [HIns.splits, Option.isNone_none, if_true]; omega
      | split b kv =>
        cases e; simp only [HIns.splits, Option.isNone_none, if_true]; omega

theorem cost_rmAndRebal {k : HMap} {a : Nat} {g : HN K V → Prog (ND K V) (HN K V × Option (HRem K V))}
    (hg : ∀ x, Cost I (g x) (fun _ => a)) : Cost I (k.rmAndRebal g) (fun _ => c + a) := by
  unfold HMap.rmAndRebal
  split
  · exact .pure
  · refine Cost.sbind (a := c + a) (b := 0) (cost_mutArc f (b := fun _ => a) fun x => ?_) (fun x => ?_)
      (Nat.le_refl _)
    · refine Cost.sbind (b := 0) (hg x) (fun y => ?_) (Nat.le_refl _)
      split
      · exact .pure
      · refine Cost.ite .panic (Cost.zbind ?_ fun _ => .pure)
        exact Cost.ite (Cost.ite .panic .pure) .pure
    · split
      · exact .pure
      · exact .pure
      · exact Cost.zbind (cost_drop f.dec _ _) fun _ => .pure

omit f in
theorem rmAndRebal_le {k : HMap} {g g' : HN K V → Prog (ND K V) (HN K V × Option (HRem K V))}
    (hg : ∀ x, (g x).Le (g' x)) : (k.rmAndRebal g).Le (k.rmAndRebal g') := by
  unfold HMap.rmAndRebal
  split
  · exact Prog.Le.refl _
  · exact Prog.Le.bind (fun _ => Prog.Le.refl _) (mutArc_le fun x =>
      Prog.Le.bind (fun _ => Prog.Le.refl _) (hg x))

theorem spends_rmAndRebal [Ord K] (hN : 1 ≤ N) (h : WF N m)
    {remover : Node K V → Option (Option (BTree.Node.RemRes K V))}
    {rem : Nat → HN K V → Prog (ND K V) (HN K V × Option (HRem K V))}
    (hle : ∀ n n' x, n ≤ n' → (rem n x).Le (rem n' x))
    (hc : ∀ n x, Cost I (rem (n + 1) x) (fun _ => 3 * c * n))
    (hrem : ∀ n nd r x, m.root = some nd → (vt nd).Dep n → Fits x nd → remover nd = some r →
      wp (rem n x) (owns x.kids (vts nd.kids))
        (Turns (remNode nd r) (fun y L => y = r.map (fun r => (r.1, r.2.1)) ∧ L = 0)))
    {m' old} (e : m.rmAndRebal remover = some (m', old)) :
    Spends I (HMap.rmAndRebal ⟨m.len, r⟩ (rem m.len)) (own r (vtO m.root))
      (fun x L => R x.1 m' L ∧ x.2 = old) (fun _ => c * (3 * lvl N m.len)) := by
  have hq := hrmAndRebal_spec (r := r) (fun nd hr => dep_len hN h hr)
    (rem := rem m.len) (fun nd r x hm hx he => hrem _ nd r x hm (dep_len hN h hm) hx he) e
  refine Spends_root (fun hr hm => ?_) (fun a nd hr hm => ?_)
  · subst hr
    exact Spends.of_cost .pure hq
  · subst hr
    obtain ⟨d, h1, h2, h3⟩ := dep_lvl hN h hm
    have hw := hrmAndRebal_spec (r := some a) (fun nd hr => dep_len hN h hr)
      (rem := rem (d + 1)) (fun nd' r x hm' hx he => hrem _ nd' r x hm' (by
        rw [hm] at hm'; cases hm'; exact h1) hx he) e
    rw [hm] at hq hw
    refine Spends.of_le (rmAndRebal_le fun x => hle _ _ x h3) ?_ hw hq
    refine (cost_rmAndRebal f (hc d)).le (fun _ => ?_)
    have h4 := Nat.mul_le_mul_left c (Nat.mul_le_mul_left 3 h2)
    have h5 : 3 * c * d = c * (3 * d) := by rw [Nat.mul_comm 3 c, Nat.mul_assoc]
    rw [Nat.mul_add, Nat.mul_add] at h4
    omega

theorem spends_popFirst [Ord K] (hN : 1 ≤ N) (h : WF N m) {m' kv}
    (e : m.popFirst N = some (m', kv)) :
    Spends I (HMap.popFirst N ⟨m.len, r⟩) (own r (vtO m.root))
      (fun x L => R x.1 m' L ∧ x.2 = kv) (fun _ => c * (3 * lvl N m.len)) := by
  refine spends_rmAndRebal f hN h (rem := fun n x => (BTreeH.popFirst N m.len n x).bind fun y =>
    .pure (y.1, some y.2)) ?_ ?_ ?_ e
  · exact fun n n' x hn => Prog.Le.bind (fun _ => Prog.Le.refl _) (popFirst_le hn)
  · exact fun n x => Cost.map (cost_popFirst f _ _ _ _) (fun _ => Nat.le_refl _)
  · intro n nd r x hm hdn hx he
    obtain ⟨z, e1, rfl⟩ := Option.map_eq_some_iff.1 he
    refine wp_bind (wp_conseq (popFirst_spec hdn ((dep_len hN h hm).mono (by simp)) hx e1) ?_)
    rintro y L ⟨L2, h1, rfl, h3, rfl⟩
    exact wp_pure ⟨0, h1, rfl, by rw [h3]; rfl, rfl⟩

theorem spends_popLast [Ord K] (hN : 1 ≤ N) (h : WF N m) {m' kv}
    (e : m.popLast N = some (m', kv)) :
    Spends I (HMap.popLast N ⟨m.len, r⟩) (own r (vtO m.root))
      (fun x L => R x.1 m' L ∧ x.2 = kv) (fun _ => c * (3 * lvl N m.len)) := by
  refine spends_rmAndRebal f hN h (rem := fun n x => (BTreeH.popLast N m.len n x).bind fun y =>
    .pure (y.1, some y.2)) ?_ ?_ ?_ e
  · exact fun n n' x hn => Prog.Le.bind (fun _ => Prog.Le.refl _) (popLast_le hn)
  · exact fun n x => Cost.map (cost_popLast f _ _ _ _) (fun _ => Nat.le_refl _)
  · intro n nd r x hm hdn hx he
    obtain ⟨z, e1, rfl⟩ := Option.map_eq_some_iff.1 he
    refine wp_bind (wp_conseq (popLast_spec hdn ((dep_len hN h hm).mono (by simp)) hx e1) ?_)
    rintro y L ⟨L2, h1, rfl, h3, rfl⟩
    exact wp_pure ⟨0, h1, rfl, by rw [h3]; rfl, rfl⟩

theorem spends_rm [Ord K] (hN : 1 ≤ N) (h : WF N m) {p : K → Ordering} {m' old}
    (e : m.rmAndRebal (fun n => n.remove N p) = some (m', old)) :
    Spends I (HMap.rmAndRebal ⟨m.len, r⟩ (BTreeH.remove N m.len p m.len)) (own r (vtO m.root))
      (fun x L => R x.1 m' L ∧ x.2 = old) (fun _ => c * (3 * lvl N m.len)) := by
  refine spends_rmAndRebal f hN h (rem := BTreeH.remove N m.len p) ?_ ?_ ?_ e
  · exact fun n n' x hn => remove_le hn
  · exact fun n x => cost_remove f _ _ _ _ _
  · intro n nd r x hm hdn hx he
    exact remove_spec hdn ((dep_len hN h hm).mono (by simp)) hx he

theorem spends_remove [Ord K] (hN : 1 ≤ N) (h : WF N m) {p : K → Ordering} {m' old}
    (e : m.remove N p = some (m', old)) :
    Spends I (HMap.remove N ⟨m.len, r⟩ p) (own r (vtO m.root))
      (fun x L => R x.1 m' L ∧ x.2 = old) (fun _ => c * (3 * lvl N m.len)) := by
  unfold BTreeMap.remove at e
  refine Spends.bind (n := fun _ => 0) (m := fun _ _ => c * (3 * lvl N m.len))
    (Spends.of_cost (containsKey_reads _ _).cost (hcontains_spec fun nd hr => dep_len hN h hr)) ?_
    (fun _ _ => by omega)
  rintro b L ⟨rfl, rfl⟩
  split
  · next hc =>
    rw [if_pos hc] at e
    obtain ⟨z, e1, e2⟩ := Option.map_eq_some_iff.1 e
    refine Spends.map (spends_rm f hN h (m' := z.1) (old := z.2) e1) ?_
      (fun _ _ _ => Nat.le_refl _)
    rintro x L ⟨h1, h2⟩
    cases e2
    exact ⟨h1, by rw [h2]⟩
  · next hc =>
    rw [if_neg hc] at e
    cases e
    exact Spends.pure ⟨⟨r, rfl, rfl⟩, rfl⟩

omit f in
theorem insert_len [Ord K] {k : K} {v : V} {z} (e : m.insert N k v = some z) :
    z.1.len ≤ m.len + 1 := by
  unfold BTreeMap.insert at e
  repeat' split at e
  all_goals cases e <;> dsimp only <;> omega

theorem spends_orInsert [Ord K] [TransOrd K] (hN : 1 ≤ N) (h : WF N m) {k : K}
    {d : K → V} {g : V → V} :
    ∃ Q, Spends I (HMap.orInsert N ⟨m.len, r⟩ k d g) (own r (vtO m.root)) Q
      (fun _ => c * lvl N m.len + (lvl N m.len + 1) + c * lvl N (m.len + 1)) := by
  refine ⟨fun _ _ => True, ?_⟩
  refine Spends.bind (n := fun _ => 0)
    (m := fun _ _ => c * lvl N m.len + (lvl N m.len + 1) + c * lvl N (m.len + 1))
    (Spends.of_cost (containsKey_reads _ _).cost (hcontains_spec fun nd hr => dep_len hN h hr)) ?_
    (fun _ _ => by omega)
  rintro b L ⟨rfl, rfl⟩
  split
  · exact Spends.map (spends_getMut f hN h) (fun _ _ _ => trivial) (fun _ _ _ => by omega)
  · obtain ⟨m', e, h', -⟩ := BTree.BTreeMap.insert_spec h k (d k)
    have hl := Nat.mul_le_mul_left c (lvl_mono (N := N) (insert_len e))
    refine Spends.bind (m := fun _ _ => c * lvl N (m.len + 1)) (spends_insert f hN h e) ?_
      (fun x _ => by split <;> omega)
    rintro y L ⟨⟨r', h1, rfl⟩, h2⟩
    rw [h1]
    exact Spends.map (spends_getMut f hN h') (fun _ _ _ => trivial) (fun _ _ _ => hl)

/-! ### Mutable iterators -/

theorem cost_openAt (hc : c = 0) (D : Nat) (t : MT K V) (path : List Nat) :
    Cost I (openAt D t path) (fun _ => 0) := by
  subst hc
  unfold openAt
  split
  · exact Cost.zbind (f.makeMut _ _) fun a => Cost.zbind (f.open_ _) fun x => .pure
  · exact .panic

mutual
theorem cost_close : ∀ t : MT K V, Cost I t.close (fun _ => 0)
  | .link r => by rw [MT.close]; exact .pure
  | .opened a es ks => by
    rw [MT.close]
    exact Cost.zbind (cost_closes ks) fun _ => Cost.zbind (f.close _ _) fun _ => .pure
theorem cost_closes : ∀ ts : List (MT K V), Cost I (MT.closes ts) (fun _ => 0)
  | [] => by rw [MT.closes]; exact .pure
  | t :: ts => by
    rw [MT.closes]
    exact Cost.zbind (cost_close t) fun _ => Cost.zbind (cost_closes ts) fun _ => .pure
end

theorem mut_costs (hc : c = 0) (D : Nat) :
    Each (fun p => Cost I p (fun _ => 0)) (mutOps (K := K) (V := V) D) where
  nextElem e := Cost.ite .panic (Cost.ite .pure .pure)
  nextBackElem e := Cost.ite .panic (Cost.ite .pure .pure)
  nextKid e := Cost.ite (Cost.ite .pure .pure) .panic
  nextBackKid e := Cost.ite (Cost.ite .pure .pure) .panic
  make s k := Cost.zbind (cost_openAt f hc _ _ _) fun _ => .pure
  done e := .pure

theorem cost_iterMutRun (hc : c = 0) (D n : Nat) (g : Nat → K → V → V) (ds : List Bool)
    (r : Option Nat) (len : Nat) : Cost I (iterMutRun D n g ds r len) (fun _ => 0) := by
  have ho := mut_costs (K := K) (V := V) f hc D
  unfold iterMutRun
  split
  · exact Cost.zbind (ho.run closed_cost _ _ _ _) fun _ => .pure
  · exact Cost.zbind (ho.make _ _) fun _ => Cost.zbind (ho.run closed_cost _ _ _ _) fun _ =>
      Cost.zbind (cost_close f _) fun _ => .pure

theorem cost_mkWorkM (hc : c = 0) (D : Nat) : ∀ n (lb ub : Bnd K) path (t : MT K V),
    Cost I (mkWorkM D n lb ub path t) (fun _ => 0) := by
  intro n
  induction n with
  | zero => intros; exact .panic
  | succ n ih =>
    intro lb ub path t
    unfold mkWorkM
    split
    · exact Cost.zbind (f.read _ _) fun y => Cost.zbind (cost_openAt f hc _ _ _) fun x =>
        workStep_closed (Φ := fun p => Cost I p (fun _ => 0)) closed_cost ih _ _ _ _ _ _ _ _
    · exact .panic

theorem cost_rangeMutRun (hc : c = 0) (D n : Nat) (lb ub : Bnd K) (g : Nat → K → V → V)
    (ds : List Bool) (r : Option Nat) (len : Nat) :
    Cost I (rangeMutRun D n lb ub g ds r len) (fun _ => 0) := by
  have ho := mut_costs (K := K) (V := V) f hc D
  unfold rangeMutRun
  split
  · exact Cost.zbind (ho.run closed_cost _ _ _ _) fun _ => .pure
  · refine Cost.zbind (cost_mkWorkM f hc _ _ _ _ _ _) fun w => ?_
    split
    · exact Cost.zbind (cost_close f _) fun _ => .pure
    · exact Cost.zbind (ho.run closed_cost _ _ _ _) fun _ =>
        Cost.zbind (cost_close f _) fun _ => .pure

end

/-! ## Commands -/

/-- How many nodes a command may allocate on a map of `n` entries, if each node on the way costs
`c`; `none`: nothing is claimed. -/
def allocs (N c : Nat) : One K V Q S → Nat → Option Nat
  | .insert _ _, n => some (c * lvl N n + (lvl N n + 1))
  | .remove _, n | .popFirst, n | .popLast, n => some (c * (3 * lvl N n))
  | .getMut _ _, n | .andModify _ _, n => some (c * lvl N n)
  | .orInsert _ _ _, n => some (c * lvl N n + (lvl N n + 1) + c * lvl N (n + 1))
  | .iterMut _ _, _ | .rangeMut _ _ _ _, _ => if c = 0 then some 0 else none
  | .clone, _ | .intoIter _, _ | .intoVec, _ => if c = 0 then none else some 0
  | .retain _ _, _ | .extend _, _ | .splitOff _, _ => none
  | _, _ => some 0

/-- Fewer nodes if an insertion replaces a value. -/
def less (N n : Nat) (cmd : One K V Q S) (b : Nat) : Res K V S → Nat
  | .val (some _) =>
    match cmd with
    | .insert _ _ => b - (lvl N n + 1)
    | _ => b
  | _ => b

theorem less_le (N n : Nat) (cmd : One K V Q S) (b : Nat) (o : Res K V S) :
    less N n cmd b o ≤ b := by
  unfold less
  split
  · split <;> omega
  · exact Nat.le_refl _

theorem less_eq {N n : Nat} {cmd : One K V Q S} (h : ∀ k v, cmd ≠ .insert k v) (b : Nat)
    (o : Res K V S) : less N n cmd b o = b := by
  unfold less
  split
  · split
    · exact absurd rfl (h _ _)
    · rfl
  · rfl

section
variable [Ord K] [TransOrd K] [Ord Q] [TransOrd Q] {N : Nat}
  {b : K → Q}

theorem one_spends {I : Mem (ND K V) → Prop} {c : Nat} (f : Frugal I c)
    (hc : c ≠ 0 → ∀ h, I h) (hN : 1 ≤ N) (hb : ∀ a c, compare (b a) (b c) = compare a c)
    {s : HMap} {m : BTreeMap K V} {L} (hI : WF N m) (hR : R s m L)
    (cmd : One K V Q S) {k : Nat} (hk : allocs N c cmd m.len = some k) :
    ∃ P, Spends I ((btreeM K V S N b).one s cmd) L P (fun x => less N m.len cmd k x.2.2) := by
  obtain ⟨y, ey, -⟩ := (btreeV_total (S := S) hN hb).one cmd hI
  have hw := (btreeM_sound hN hb).one hI hR ey
  have hp : ∀ q : Q, Verif.IsProbe (probe b q) := Verif.isProbe_borrow b hb
  obtain ⟨r, rfl, rfl⟩ := hR
  have hT : c ≠ 0 → I = fun _ => True := fun h => funext fun x => eq_true (hc h x)
  cases cmd with
  | clone =>
    refine ⟨_, Spends.of_cost ?_ hw⟩
    have h0 : c ≠ 0 := by rintro rfl; cases hk
    rw [hT h0]
    refine Prog.NoAlloc.cost (Prog.NoAlloc.map (Prog.NoAlloc.map ?_))
    cases r with
    | none => exact trivial
    | some a => exact Prog.NoAlloc.map (Prog.NoAlloc.lift nofun)
  | intoIter ds =>
    refine ⟨_, Spends.of_cost ?_ hw⟩
    have h0 : c ≠ 0 := by rintro rfl; cases hk
    rw [hT h0]
    exact Prog.NoAlloc.cost (Prog.NoAlloc.map (intoRun_noAlloc _ _ _ _ _))
  | intoVec =>
    refine ⟨_, Spends.of_cost ?_ hw⟩
    have h0 : c ≠ 0 := by rintro rfl; cases hk
    rw [hT h0]
    exact Prog.NoAlloc.cost (Prog.NoAlloc.map (intoVec_noAlloc _))
  | drop =>
    cases hk
    exact ⟨_, Spends.of_cost (Cost.zbind (cost_drop f.dec _ _) fun _ => .pure) hw⟩
  | clear =>
    cases hk
    exact ⟨_, Spends.of_cost (Cost.zbind (Cost.zbind (cost_drop f.dec _ _) fun _ => .pure)
      fun _ => .pure) hw⟩
  | insert k v =>
    cases hk
    obtain ⟨m', e, -⟩ := BTree.BTreeMap.insert_spec hI k v
    refine ⟨fun _ _ => True, Spends.map (spends_insert f hN hI e) (fun _ _ _ => trivial) ?_⟩
    intro x L _
    cases hx : x.2 <;> simp [less]
  | remove q =>
    cases hk
    obtain ⟨m', e, -⟩ := BTree.BTreeMap.remove_spec hN hI (hp q)
    exact ⟨fun _ _ => True, Spends.map (spends_remove f hN hI e) (fun _ _ _ => trivial)
      (fun x L _ => by rw [less_eq nofun])⟩
  | popFirst =>
    cases hk
    obtain ⟨m', e, -⟩ := BTree.BTreeMap.popFirst_spec hN hI
    exact ⟨fun _ _ => True, Spends.map (spends_popFirst f hN hI e) (fun _ _ _ => trivial)
      (fun _ _ _ => Nat.le_refl _)⟩
  | popLast =>
    cases hk
    obtain ⟨m', e, -⟩ := BTree.BTreeMap.popLast_spec hN hI
    exact ⟨fun _ _ => True, Spends.map (spends_popLast f hN hI e) (fun _ _ _ => trivial)
      (fun _ _ _ => Nat.le_refl _)⟩
  | getMut q g =>
    cases hk
    exact ⟨fun _ _ => True, Spends.map (spends_getMut f hN hI) (fun _ _ _ => trivial)
      (fun _ _ _ => Nat.le_refl _)⟩
  | andModify k g =>
    cases hk
    exact ⟨fun _ _ => True, Spends.map (Q := fun _ _ => True) (Spends.map (spends_getMut f hN hI)
      (fun _ _ _ => trivial) (fun _ _ _ => Nat.le_refl _)) (fun _ _ _ => trivial)
      (fun _ _ _ => Nat.le_refl _)⟩
  | orInsert k d g =>
    cases hk
    obtain ⟨Q, hq⟩ := spends_orInsert f (r := r) hN hI (k := k) (d := d) (g := g)
    exact ⟨fun _ _ => True, Spends.map hq (fun _ _ _ => trivial) (fun _ _ _ => by
      rw [less_eq nofun])⟩
  | iterMut g ds =>
    have h0 : c = 0 := by by_contra h; rw [allocs, if_neg h] at hk; cases hk
    exact ⟨_, Spends.of_cost (Cost.zbind (Cost.zbind ((cost_iterMutRun f h0 _ _ _ _ _ _).le
      (fun _ => Nat.zero_le _)) fun _ => .pure) fun _ => .pure) hw⟩
  | rangeMut lb ub g ds =>
    have h0 : c = 0 := by by_contra h; rw [allocs, if_neg h] at hk; cases hk
    refine ⟨_, Spends.of_cost (Cost.zbind (Cost.ite .pure (Cost.zbind
      ((cost_rangeMutRun f h0 _ _ _ _ _ _ _ _).le
      (fun _ => Nat.zero_le _)) fun _ => .pure)) fun _ => .pure) hw⟩
  | getKeyValue p | get p =>
    exact ⟨_, Spends.of_cost (Prog.ReadOnly.map (getKeyValue_reads _ _)).cost hw⟩
  | containsKey p =>
    exact ⟨_, Spends.of_cost (Prog.ReadOnly.map (containsKey_reads _ _)).cost hw⟩
  | first => exact ⟨_, Spends.of_cost (Prog.ReadOnly.map (first_reads _)).cost hw⟩
  | last => exact ⟨_, Spends.of_cost (Prog.ReadOnly.map (last_reads _)).cost hw⟩
  | len | isEmpty => exact ⟨_, Spends.of_cost .pure hw⟩
  | iter ds => exact ⟨_, Spends.of_cost (Prog.ReadOnly.map (iterRun_reads _ _ _ _)).cost hw⟩
  | range lb ub ds => exact ⟨_, Spends.of_cost (Prog.ReadOnly.map (range_reads _ _ _ _ _)).cost hw⟩
  | serialize => exact ⟨_, Spends.of_cost (Prog.ReadOnly.map (iterList_reads _)).cost hw⟩
  | retain | extend | splitOff => cases hk

omit [Ord K] [TransOrd K] [Ord Q] [TransOrd Q] in
theorem rmAndRebal_len {m : BTreeMap K V} {g} {z} (e : m.rmAndRebal g = some z) :
    z.1.len ≤ m.len := by
  unfold BTreeMap.rmAndRebal at e
  repeat' split at e
  all_goals cases e <;> dsimp only <;> omega

theorem getMut_len {m : BTreeMap K V} {p : K → Ordering} {g : V → V} :
    (m.getMut p g).1.len = m.len := by
  unfold BTreeMap.getMut
  split <;> rfl

/-- A command grows a map by one entry at most, if anything is claimed about it. -/
theorem one_size {m : BTreeMap K V} (c : Nat) (cmd : One K V Q S)
    (hk : (allocs N c cmd 0).isSome) {y}
    (e : (btreeV K V S N b).one m cmd = some y) :
    (∀ m' ∈ y.1, m'.len ≤ m.len + 1) ∧ ∀ m' ∈ y.2.1, m'.len ≤ m.len + 1 := by
  cases cmd with
  | clone => cases e; simp
  | drop => cases e; simp
  | intoIter | intoVec => obtain ⟨z, -, rfl⟩ := Option.map_eq_some_iff.1 e; simp
  | clear => cases e; simp [BTreeMap.clear, BTreeMap.new]
  | insert k v =>
    obtain ⟨z, e1, rfl⟩ := Option.map_eq_some_iff.1 e
    simp [insert_len e1]
  | remove p =>
    obtain ⟨z, e1, rfl⟩ := Option.map_eq_some_iff.1 e
    unfold BTreeMap.remove at e1
    split at e1
    · obtain ⟨z, e2, rfl⟩ := Option.map_eq_some_iff.1 e1
      have := rmAndRebal_len e2
      simp
      omega
    · cases e1; simp
  | popFirst | popLast =>
    obtain ⟨z, e1, rfl⟩ := Option.map_eq_some_iff.1 e
    have := rmAndRebal_len e1
    simp
    omega
  | getMut p g | andModify k g => cases e; simp [getMut_len]
  | orInsert k d g =>
    simp only [btreeV] at e
    split at e
    · cases e; simp [getMut_len]
    · obtain ⟨z, e1, rfl⟩ := Option.map_eq_some_iff.1 e
      simp [getMut_len, insert_len e1]
  | iterMut g ds =>
    obtain ⟨z, -, rfl⟩ := Option.map_eq_some_iff.1 e
    simp [written]
  | rangeMut lb ub g ds =>
    simp only [btreeV] at e
    split at e
    · cases e; simp
    · obtain ⟨z, -, rfl⟩ := Option.map_eq_some_iff.1 e
      simp [written]
  | range lb ub ds =>
    simp only [btreeV] at e
    split at e
    · cases e; simp
    · obtain ⟨z, -, rfl⟩ := Option.map_eq_some_iff.1 e
      simp
  | getKeyValue p | get p | containsKey p | last | len | isEmpty => cases e; simp
  | iter ds | serialize | first =>
    obtain ⟨z, -, rfl⟩ := Option.map_eq_some_iff.1 e
    simp
  | retain | extend | splitOff => cases hk

/-! ## Programs -/

omit [Ord K] [TransOrd K] [Ord Q] [TransOrd Q] in
theorem allocs_isSome (N c : Nat) (cmd : One K V Q S) (n : Nat) :
    (allocs N c cmd n).isSome = (allocs N c cmd 0).isSome := by
  cases cmd <;> simp only [allocs, Option.isSome_some] <;> split <;> rfl

theorem btree_budget {I : Mem (ND K V) → Prop} {c : Nat} (f : Frugal I c)
    (hc : c ≠ 0 → ∀ h, I h) (hN : 1 ≤ N) (hb : ∀ a c, compare (b a) (b c) = compare a c) :
    Budget (btreeM K V S N b) (btreeV K V S N b) (WF N) R I (·.len) (fun c => c = .new)
      (fun cmd => (allocs N c cmd 0).isSome) (fun cmd n => (allocs N c cmd n).getD 0) where
  mono cmd m n h := by
    have h0 := lvl_mono (N := N) h
    have h1 := Nat.mul_le_mul_left c h0
    have h2 := Nat.mul_le_mul_left c (lvl_mono (N := N) (Nat.succ_le_succ h))
    have h3 := Nat.mul_le_mul_left c (Nat.mul_le_mul_left 3 h0)
    cases cmd <;> simp only [allocs, Option.getD_some, Nat.le_refl] <;>
      first
      | exact Nat.le_refl _
      | (split <;> exact Nat.le_refl _)
      | (simp only [Nat.succ_eq_add_one] at h2; omega)
  make c' h := by
    subst h
    refine ⟨.pure, ?_⟩
    rintro y ⟨⟩ m hm
    simp only [List.mem_singleton] at hm
    subst hm
    exact Nat.zero_le _
  one {s m L} cmd h hI hR := by
    rw [← allocs_isSome N c cmd m.len] at h
    obtain ⟨k, hk⟩ := Option.isSome_iff_exists.1 h
    obtain ⟨Q, hq⟩ := one_spends f hc hN hb hI hR cmd hk
    exact ⟨Q, hq.conseq (fun _ _ h => h) (fun x L _ => by
      rw [hk, Option.getD_some]; exact less_le _ _ _ _ _)⟩
  size {m} cmd h hI y e := one_size c cmd h e
  look s s' c := by
    cases c with
    | eq eqE =>
      refine Prog.ReadOnly.map ?_
      unfold HMap.eqMap
      refine Prog.ReadOnly.ite ?_ trivial
      exact Prog.ReadOnly.bind (fun x => Prog.ReadOnly.map (iterList_reads s')) (iterList_reads s)
    | partialCmp f =>
      exact Prog.ReadOnly.bind (fun x => Prog.ReadOnly.map (iterList_reads s')) (iterList_reads s)
    | cmp f =>
      exact Prog.ReadOnly.bind (fun x => Prog.ReadOnly.map (iterList_reads s')) (iterList_reads s)

theorem btree_run {I : Mem (ND K V) → Prop} {c : Nat} (f : Frugal I c) (hc : c ≠ 0 → ∀ h, I h)
    (h0 : I .empty) (hN : 1 ≤ N) (hb : ∀ a c, compare (b a) (b c) = compare a c)
    (cs : List (Cmd (Make K V) (One K V Q S) Two (Look K V)))
    (hs : ∀ x ∈ cs, x.All (· = .new) (fun cmd => (allocs N c cmd 0).isSome) (fun _ => False)) :
    ∃ h rs obs, (Machine.run (btreeM K V S N b) cs []).exec .empty = some (h, some (rs, obs)) ∧
      h.next ≤ cost1 (fun cmd n => (allocs N c cmd n).getD 0) cs.length cs := by
  obtain ⟨-, obs, -, h, rs, e⟩ := shown_of (btreeV_total hN hb) (btreeM_sound hN hb) cs
  obtain ⟨-, hn⟩ := budget_run (btreeV_total hN hb) (btreeM_sound hN hb) (btree_budget f hc hN hb)
    cs hs (N := 0) Sim.init h0 (by simp) e
  refine ⟨h, rs, obs, e, ?_⟩
  rw [Nat.zero_add] at hn
  exact Nat.le_trans hn (Nat.le_of_eq (Nat.zero_add _))

end

/-- Commands on maps by shared reference, but not `clone`. -/
def isShared : Cmd (Make K V) (One K V Q S) Two (Look K V) → Prop
  | .one _ (.getKeyValue _) | .one _ (.get _) | .one _ (.containsKey _)
  | .one _ .first | .one _ .last | .one _ .len | .one _ .isEmpty | .one _ (.iter _)
  | .one _ (.range _ _ _) | .one _ .serialize | .look _ _ _ => True
  | _ => False

theorem btree_quiet [Ord K] [Ord Q] {N : Nat} {b : K → Q}
    {c : Cmd (Make K V) (One K V Q S) Two (Look K V)} (hc : isShared c) :
    Quiet (btreeM K V S N b) c := by
  cases c with
  | make | two => exact hc.elim
  | look i j c =>
    intro s s'
    cases c with
    | eq eqE =>
      refine Prog.ReadOnly.map ?_
      unfold HMap.eqMap
      refine Prog.ReadOnly.ite ?_ trivial
      exact Prog.ReadOnly.bind (fun x => Prog.ReadOnly.map (iterList_reads s')) (iterList_reads s)
    | partialCmp f =>
      exact Prog.ReadOnly.bind (fun x => Prog.ReadOnly.map (iterList_reads s')) (iterList_reads s)
    | cmp f =>
      exact Prog.ReadOnly.bind (fun x => Prog.ReadOnly.map (iterList_reads s')) (iterList_reads s)
  | one i c =>
    intro s
    cases c with
    | getKeyValue p | get p => exact quiet_one (getKeyValue_reads _ _)
    | containsKey p => exact quiet_one (containsKey_reads _ _)
    | first => exact quiet_one (first_reads _)
    | last => exact quiet_one (last_reads _)
    | len | isEmpty => exact ⟨trivial, by rintro h h' x ⟨⟩; exact ⟨rfl, rfl⟩⟩
    | iter ds => exact quiet_one (iterRun_reads _ _ _ _)
    | range lb ub ds => exact quiet_one (range_reads _ _ _ _ _)
    | serialize => exact quiet_one (iterList_reads _)
    | _ => exact hc.elim

end Verif.BTreeH
