import Mathlib.Data.Nat.Log
import Verif.Heap.MachineCost
import Verif.AvlHeap.Cost
import Verif.AvlHeap.MapSpec
import Verif.Heap.History
/-!
# How many nodes the operations of `AvlMap` allocate
-/
set_option linter.unusedSectionVars false
namespace Verif.AvlH
open Heap Heap.Machine
open Avl (Tree AvlMap)

variable {K V S : Type}

/-! ## Operations that only read -/

theorem readN_reads (a : Nat) (path : List Nat) : (readN a path : Prog (ND K V) _).ReadOnly := by
  refine Prog.ReadOnly.bind (fun n => ?_) (Prog.ReadOnly.lift trivial)
  split <;> exact trivial

theorem getKeyValue_reads (n : Nat) (p : K → Ordering) (r : Option Nat) :
    (getKeyValue n p r : Prog (ND K V) _).ReadOnly := by
  cases r with
  | none => exact trivial
  | some a =>
    have : ∀ n path, (getAt a p n path : Prog (ND K V) _).ReadOnly := by
      intro n
      induction n with
      | zero => intro path; exact trivial
      | succ n ih =>
        intro path
        refine Prog.ReadOnly.bind (fun x => ?_) (readN_reads a path)
        split
        · exact Prog.ReadOnly.ite (ih _) trivial
        · exact trivial
        · exact Prog.ReadOnly.ite (ih _) trivial
    exact this _ _

theorem first_reads (n : Nat) (r : Option Nat) : (first n r : Prog (ND K V) _).ReadOnly := by
  cases r with
  | none => exact trivial
  | some a =>
    have : ∀ n path, (firstAt a n path : Prog (ND K V) _).ReadOnly := by
      intro n
      induction n with
      | zero => intro path; exact trivial
      | succ n ih =>
        intro path
        refine Prog.ReadOnly.bind (fun x => ?_) (readN_reads a path)
        exact Prog.ReadOnly.ite (ih _) trivial
    exact this _ _

theorem last_reads (n : Nat) (r : Option Nat) : (last n r : Prog (ND K V) _).ReadOnly := by
  cases r with
  | none => exact trivial
  | some a =>
    have : ∀ n path, (lastAt a n path : Prog (ND K V) _).ReadOnly := by
      intro n
      induction n with
      | zero => intro path; exact trivial
      | succ n ih =>
        intro path
        refine Prog.ReadOnly.bind (fun x => ?_) (readN_reads a path)
        exact Prog.ReadOnly.ite (ih _) trivial
    exact this _ _

theorem forEach_reads (n : Nat) (f : S → K → V → S) (s : S) (r : Option Nat) :
    (forEach n f s r : Prog (ND K V) _).ReadOnly := by
  cases r with
  | none => exact trivial
  | some a =>
    have : ∀ n path s, (forEachAt a f n path s : Prog (ND K V) _).ReadOnly := by
      intro n
      induction n with
      | zero => intro path s; exact trivial
      | succ n ih =>
        intro path s
        refine Prog.ReadOnly.bind (fun x => ?_) (readN_reads a path)
        refine Prog.ReadOnly.bind (fun s => ?_) (Prog.ReadOnly.ite (ih _ _) trivial)
        exact Prog.ReadOnly.ite (ih _ _) trivial
    exact this _ _ _

section
variable {P St N It : Type} {des : Des P St N It}

theorem nextG_reads (hd : ∀ s m, (des s m).ReadOnly) : ∀ n s w, (nextG des n s w).ReadOnly := by
  intro n
  induction n with
  | zero =>
    intro s w
    match w with
    | [] => exact trivial
    | .ret i :: w => exact trivial
    | .desc m :: w => exact trivial
  | succ n ih =>
    intro s w
    match w with
    | [] => exact trivial
    | .ret i :: w => exact trivial
    | .desc m :: w => exact Prog.ReadOnly.bind (fun x => ih _ _) (hd s m)

theorem nextBackG_reads (hd : ∀ s m, (des s m).ReadOnly) :
    ∀ n s w, (nextBackG des n s w).ReadOnly := by
  intro n
  induction n with
  | zero =>
    intro s w
    match w with
    | [] => exact trivial
    | .ret i :: w => exact trivial
    | .desc m :: w => exact trivial
  | succ n ih =>
    intro s w
    match w with
    | [] => exact trivial
    | .ret i :: w => exact trivial
    | .desc m :: w => exact Prog.ReadOnly.bind (fun x => ih _ _) (hd s m)

theorem pruneG_reads (hd : ∀ s m, (des s m).ReadOnly) : ∀ n s w, (pruneG des n s w).ReadOnly := by
  intro n
  induction n with
  | zero =>
    intro s w
    match w with
    | [] => exact trivial
    | .ret i :: w => exact trivial
    | .desc m :: w => exact trivial
  | succ n ih =>
    intro s w
    match w with
    | [] => exact trivial
    | .ret i :: w => exact trivial
    | .desc m :: w => exact Prog.ReadOnly.bind (fun x => ih _ _) (hd s m)

theorem pruneBackG_reads (hd : ∀ s m, (des s m).ReadOnly) :
    ∀ n s w, (pruneBackG des n s w).ReadOnly := by
  intro n
  induction n with
  | zero =>
    intro s w
    match w with
    | [] => exact trivial
    | .ret i :: w => exact trivial
    | .desc m :: w => exact trivial
  | succ n ih =>
    intro s w
    match w with
    | [] => exact trivial
    | .ret i :: w => exact trivial
    | .desc m :: w => exact Prog.ReadOnly.bind (fun x => ih _ _) (hd s m)

theorem stepG_reads (hd : ∀ s m, (des s m).ReadOnly) (n : Nat) (d : Bool) (s : St)
    (it : HIter N It) : (stepG des n d s it).ReadOnly := by
  cases d with
  | true =>
    refine Prog.ReadOnly.bind (fun x => ?_) (nextG_reads hd _ _ _)
    split
    · exact trivial
    · exact Prog.ReadOnly.ite trivial trivial
  | false =>
    refine Prog.ReadOnly.bind (fun x => ?_) (nextBackG_reads hd _ _ _)
    split
    · exact trivial
    · exact Prog.ReadOnly.ite trivial trivial

theorem runG_reads {yld : St → It → Option (St × (K × V))} (hd : ∀ s m, (des s m).ReadOnly)
    (n : Nat) : ∀ ds s it, (runG des yld n ds s it).ReadOnly := by
  intro ds
  induction ds with
  | nil => intro s it; exact trivial
  | cons d ds ih =>
    intro s it
    refine Prog.ReadOnly.bind (fun x => ?_) (stepG_reads hd n d s it)
    split
    · refine Prog.ReadOnly.bind (fun _ => ?_) (ih _ _); exact trivial
    · split
      · exact trivial
      · refine Prog.ReadOnly.bind (fun _ => ?_) (ih _ _); exact trivial

end

theorem desN_reads (a : Nat) (lb ub : Bnd K) (s : Unit) (path : List Nat) :
    (desN a lb ub s path : Prog (ND K V) _).ReadOnly := by
  refine Prog.ReadOnly.bind (fun _ => ?_) (readN_reads a path); exact trivial

theorem iterRun_reads (n : Nat) (ds : List Bool) (r : Option Nat) (len : Nat) :
    (iterRun n ds r len : Prog (ND K V) _).ReadOnly := by
  cases r with
  | none =>
    refine Prog.ReadOnly.bind (fun _ => ?_) (runG_reads (desN_reads _ _ _) _ _ _ _)
    exact trivial
  | some a =>
    refine Prog.ReadOnly.bind (fun _ => ?_) (runG_reads (desN_reads _ _ _) _ _ _ _)
    exact trivial

theorem rangeRun_reads (n : Nat) (lb ub : Bnd K) (ds : List Bool) (r : Option Nat) (len : Nat) :
    (rangeRun n lb ub ds r len : Prog (ND K V) _).ReadOnly := by
  cases r with
  | none =>
    refine Prog.ReadOnly.bind (fun _ => ?_) (runG_reads (desN_reads _ _ _) _ _ _ _)
    exact trivial
  | some a =>
    refine Prog.ReadOnly.bind (fun w => ?_) (pruneG_reads (desN_reads _ _ _) _ _ _)
    refine Prog.ReadOnly.bind (fun w => ?_) (pruneBackG_reads (desN_reads _ _ _) _ _ _)
    refine Prog.ReadOnly.bind (fun _ => ?_) (runG_reads (desN_reads _ _ _) _ _ _ _); exact trivial

theorem iterList_reads (m : HMap) : (m.iterList : Prog (ND K V) _).ReadOnly := by
  refine Prog.ReadOnly.bind (fun _ => ?_) (iterRun_reads _ _ _ _); exact trivial

/-! ## Operations that allocate nothing -/

section
variable {P St N It : Type} {des : Des P St N It}

theorem nextG_noAlloc (hd : ∀ s m, (des s m).NoAlloc) : ∀ n s w, (nextG des n s w).NoAlloc := by
  intro n
  induction n with
  | zero =>
    intro s w
    match w with
    | [] => exact trivial
    | .ret i :: w => exact trivial
    | .desc m :: w => exact trivial
  | succ n ih =>
    intro s w
    match w with
    | [] => exact trivial
    | .ret i :: w => exact trivial
    | .desc m :: w => exact Prog.NoAlloc.bind (fun x => ih _ _) (hd s m)

theorem nextBackG_noAlloc (hd : ∀ s m, (des s m).NoAlloc) :
    ∀ n s w, (nextBackG des n s w).NoAlloc := by
  intro n
  induction n with
  | zero =>
    intro s w
    match w with
    | [] => exact trivial
    | .ret i :: w => exact trivial
    | .desc m :: w => exact trivial
  | succ n ih =>
    intro s w
    match w with
    | [] => exact trivial
    | .ret i :: w => exact trivial
    | .desc m :: w => exact Prog.NoAlloc.bind (fun x => ih _ _) (hd s m)

theorem stepG_noAlloc (hd : ∀ s m, (des s m).NoAlloc) (n : Nat) (d : Bool) (s : St)
    (it : HIter N It) : (stepG des n d s it).NoAlloc := by
  cases d with
  | true =>
    refine Prog.NoAlloc.bind (fun x => ?_) (nextG_noAlloc hd _ _ _)
    split
    · exact trivial
    · split <;> exact trivial
  | false =>
    refine Prog.NoAlloc.bind (fun x => ?_) (nextBackG_noAlloc hd _ _ _)
    split
    · exact trivial
    · split <;> exact trivial

theorem runG_noAlloc {yld : St → It → Option (St × (K × V))} (hd : ∀ s m, (des s m).NoAlloc)
    (n : Nat) : ∀ ds s it, (runG des yld n ds s it).NoAlloc := by
  intro ds
  induction ds with
  | nil => intro s it; exact trivial
  | cons d ds ih =>
    intro s it
    refine Prog.NoAlloc.bind (fun x => ?_) (stepG_noAlloc hd n d s it)
    split
    · refine Prog.NoAlloc.bind (fun _ => ?_) (ih _ _); exact trivial
    · split
      · exact trivial
      · refine Prog.NoAlloc.bind (fun _ => ?_) (ih _ _); exact trivial

end

theorem optToIterNode_noAlloc (r : Option Nat) :
    (optToIterNode r : Prog (ND K V) _).NoAlloc := by
  cases r with
  | none => exact trivial
  | some a =>
    refine Prog.NoAlloc.bind ?_ (Prog.NoAlloc.lift nofun)
    rintro (_ | n)
    · exact trivial
    · dsimp only
      split <;> exact trivial

theorem desI_noAlloc (D : Nat) (s : Unit) (m : OwnN K V) : (desI D s m).NoAlloc := by
  cases m with
  | arcked a =>
    refine Prog.NoAlloc.bind (fun x => ?_) (readN_reads a []).noAlloc
    refine Prog.NoAlloc.bind (fun l => ?_) (Prog.NoAlloc.lift nofun)
    refine Prog.NoAlloc.bind (fun r => ?_) (Prog.NoAlloc.lift nofun)
    refine Prog.NoAlloc.bind (fun _ => ?_) (drop_noAlloc _ _)
    exact trivial
  | owned d l r =>
    refine Prog.NoAlloc.bind (fun l => ?_) (optToIterNode_noAlloc _)
    refine Prog.NoAlloc.bind (fun r => ?_) (optToIterNode_noAlloc _)
    exact trivial

theorem dropWork_noAlloc (D : Nat) : ∀ w : List (HAct (OwnN K V) (K × V)),
    (dropWork D w).NoAlloc
  | [] => trivial
  | .ret _ :: w => dropWork_noAlloc D w
  | .desc (.arcked a) :: w =>
    Prog.NoAlloc.bind (fun _ => dropWork_noAlloc D w) (drop_noAlloc _ _)
  | .desc (.owned _ l r) :: w =>
    Prog.NoAlloc.bind (fun _ => Prog.NoAlloc.bind (fun _ => dropWork_noAlloc D w)
      (drop_noAlloc _ _)) (drop_noAlloc _ _)

theorem intoRun_noAlloc (D n : Nat) (ds : List Bool) (r : Option Nat) (len : Nat) :
    (intoRun D n ds r len : Prog (ND K V) _).NoAlloc := by
  refine Prog.NoAlloc.bind (fun m => ?_) (optToIterNode_noAlloc _)
  refine Prog.NoAlloc.bind (fun x => ?_) (runG_noAlloc (desI_noAlloc D) _ _ _ _)
  refine Prog.NoAlloc.bind (fun _ => ?_) (dropWork_noAlloc _ _)
  exact trivial

/-! ## The height of a balanced tree -/

/-- `1.45 · (⌊log₂(n+1)⌋ + 1)`, rounded down. -/
def lvl (n : Nat) : Nat := 29 * (Nat.log 2 (n + 1) + 1) / 20

theorem lvl_mono {m n : Nat} (h : m ≤ n) : lvl m ≤ lvl n := by
  have := Nat.log_mono_right (b := 2) (Nat.succ_le_succ h)
  exact Nat.div_le_div_right (Nat.mul_le_mul_left 29 (Nat.succ_le_succ this))

theorem depth_le_lvl {t : Tree K V} (h : t.Bal) {n : Nat} (hn : t.size ≤ n) : t.depth ≤ lvl n := by
  have h1 := Avl.fib_le (Avl.bal_isAvl h).1
  have h2 := Avl.two_pow_le _ _ h1
  have h3 : t.size + 1 < 2 ^ (Nat.log 2 (t.size + 1) + 1) := Nat.lt_pow_succ_log_self (by omega) _
  have h4 : 2 ^ (20 * t.depth) < 2 ^ (29 * (Nat.log 2 (t.size + 1) + 1)) := by
    calc 2 ^ (20 * t.depth) ≤ (t.size + 1) ^ 29 := h2
      _ < (2 ^ (Nat.log 2 (t.size + 1) + 1)) ^ 29 := Nat.pow_lt_pow_left h3 (by omega)
      _ = 2 ^ (29 * (Nat.log 2 (t.size + 1) + 1)) := by rw [← Nat.pow_mul, Nat.mul_comm]
  have h5 := (Nat.pow_lt_pow_iff_right (by omega : 1 < 2)).1 h4
  refine Nat.le_trans ?_ (lvl_mono hn)
  unfold lvl
  omega

/-! ## Operations -/

section
variable {I : Mem (ND K V) → Prop} {c : Nat} (f : Frugal I c) {m : AvlMap K V} {r : Option Nat}
include f

theorem spends_insert [Ord K] (h : Ok m) {k : K} {v : V} {m' old}
    (e : m.insert k v = some (m', old)) :
    Spends I (HMap.insert ⟨m.len, r⟩ k v) (own r (vt m.root)) (fun x L => R x.1 m' L ∧ x.2 = old)
      (fun x => c * lvl m.len + (if x.2.isNone then 1 else 0) + 2 * c) := by
  have hq := hinsert_spec (r := r) h e
  unfold AvlMap.insert at e
  split at e
  · cases e
  · rename_i t o b e1
    have hs := h.size
    have hd := depth_le_lvl h.bal hs
    refine Spends.of_le (p := (ins (m.len + 1) k v m.root.depth r).bind fun x =>
      .pure (⟨m.len + (if x.2.1.isNone then 1 else 0), x.1⟩, x.2.1)) (Q' := fun _ _ => True)
      ?_ ?_ ?_ hq
    · exact Prog.Le.bind (fun _ => Prog.Le.refl _)
        (ins_le (Nat.le_trans (depth_le_size _) hs))
    · refine Cost.map (cost_ins f _ _ _ _ _) (fun x => ?_)
      have := Nat.mul_le_mul_left c hd
      dsimp only
      split <;> split <;> omega
    · refine wp_bind (wp_conseq (ins_spec_depth e1 (by omega) (Nat.le_refl _)) ?_)
      intro _ _ _
      exact wp_pure trivial

theorem cost_popWith (len : Nat) (x : Option Nat × Option (K × V) × Bool) :
    Cost I (HMap.popWith len x) (fun _ => 0) := by
  unfold HMap.popWith
  split
  · exact .pure
  · exact Cost.ite .panic .pure

theorem spends_removeEntry (h : Ok m) {p : K → Ordering} {m' kv}
    (e : m.removeEntry p = some (m', kv)) :
    Spends I (HMap.removeEntry ⟨m.len, r⟩ p) (own r (vt m.root))
      (fun x L => R x.1 m' L ∧ x.2 = kv) (fun _ => c * (3 * lvl m.len)) := by
  have hq := hremoveEntry_spec (r := r) h e
  obtain ⟨t', kv', b, e1, -⟩ := Tree.rm_shape p m.root h.bal
  rw [AvlMap.removeEntry, e1] at e
  have hd := depth_le_lvl h.bal h.size
  refine Spends.of_le (p := (rm m.len p m.root.depth r).bind (HMap.popWith m.len))
    (Q' := fun x L => R x.1 m' L ∧ x.2 = kv) ?_ ?_ ?_ hq
  · exact Prog.Le.bind (fun _ => Prog.Le.refl _) (rm_le (Nat.le_trans (depth_le_size _) h.size))
  · exact Cost.sbind (cost_rm f _ _ _ _) (cost_popWith f _)
      (Nat.mul_le_mul_left c (Nat.mul_le_mul_left 3 hd))
  · refine wp_bind (wp_conseq (rm_spec_depth e1 h.size (Nat.le_refl _)) ?_)
    rintro x L ⟨r', rfl, rfl⟩
    exact hpop_spec e

theorem spends_popFirst (h : Ok m) {m' kv} (e : m.popFirst = some (m', kv)) :
    Spends I (HMap.popFirst ⟨m.len, r⟩) (own r (vt m.root))
      (fun x L => R x.1 m' L ∧ x.2 = kv) (fun _ => c * (3 * lvl m.len)) := by
  have hq := hpopFirst_spec (r := r) h e
  obtain ⟨t', kv', b, e1, -⟩ := Tree.rmLeftmost_shape m.root h.bal
  rw [AvlMap.popFirst, e1] at e
  have hd := depth_le_lvl h.bal h.size
  refine Spends.of_le (p := (rmLeftmost m.len m.root.depth r).bind (HMap.popWith m.len))
    (Q' := fun x L => R x.1 m' L ∧ x.2 = kv) ?_ ?_ ?_ hq
  · exact Prog.Le.bind (fun _ => Prog.Le.refl _)
      (rmLeftmost_le (Nat.le_trans (depth_le_size _) h.size))
  · exact Cost.sbind (cost_rmLeftmost f _ _ _) (cost_popWith f _)
      (Nat.mul_le_mul_left c (Nat.mul_le_mul_left 3 hd))
  · refine wp_bind (wp_conseq (rmLeftmost_spec_depth e1 h.size (Nat.le_refl _)) ?_)
    rintro x L ⟨r', rfl, rfl⟩
    exact hpop_spec e

theorem spends_popLast (h : Ok m) {m' kv} (e : m.popLast = some (m', kv)) :
    Spends I (HMap.popLast ⟨m.len, r⟩) (own r (vt m.root))
      (fun x L => R x.1 m' L ∧ x.2 = kv) (fun _ => c * (3 * lvl m.len)) := by
  have hq := hpopLast_spec (r := r) h e
  obtain ⟨t', kv', b, e1, -⟩ := Tree.rmRightmost_shape m.root h.bal
  rw [AvlMap.popLast, e1] at e
  have hd := depth_le_lvl h.bal h.size
  refine Spends.of_le (p := (rmRightmost m.len m.root.depth r).bind (HMap.popWith m.len))
    (Q' := fun x L => R x.1 m' L ∧ x.2 = kv) ?_ ?_ ?_ hq
  · exact Prog.Le.bind (fun _ => Prog.Le.refl _)
      (rmRightmost_le (Nat.le_trans (depth_le_size _) h.size))
  · exact Cost.sbind (cost_rmRightmost f _ _ _) (cost_popWith f _)
      (Nat.mul_le_mul_left c (Nat.mul_le_mul_left 3 hd))
  · refine wp_bind (wp_conseq (rmRightmost_spec_depth e1 h.size (Nat.le_refl _)) ?_)
    rintro x L ⟨r', rfl, rfl⟩
    exact hpop_spec e

theorem spends_getMut (h : Ok m) {p : K → Ordering} {g : V → V} :
    Spends I (HMap.getMut ⟨m.len, r⟩ p g) (own r (vt m.root))
      (fun x L => R x.1 (m.getMut p g).1 L ∧ x.2 = (m.getMut p g).2)
      (fun _ => c * lvl m.len) := by
  have hd := depth_le_lvl h.bal h.size
  refine Spends.of_le (p := (getMutWith m.len p g m.root.depth r).bind fun x =>
    .pure (⟨m.len, x.1⟩, x.2)) (Q' := fun _ _ => True) ?_ ?_ ?_ (hgetMut_spec h)
  · exact Prog.Le.bind (fun _ => Prog.Le.refl _)
      (getMutWith_le (Nat.le_trans (depth_le_size _) h.size))
  · exact Cost.map (cost_getMutWith f _ _ _ _ _) (fun _ => Nat.mul_le_mul_left c hd)
  · refine wp_bind (wp_conseq (getMutWith_spec_depth h.size (Nat.le_refl _)) ?_)
    intro _ _ _
    exact wp_pure trivial

theorem spends_orInsert [Ord K] (h : Ok m) {k : K} {d : K → V} {g : V → V} :
    ∃ Q, Spends I (HMap.orInsert ⟨m.len, r⟩ k d g) (own r (vt m.root)) Q
      (fun _ => c * lvl m.len + 1 + 2 * c + c * lvl (m.len + 1)) := by
  refine ⟨fun _ _ => True, ?_⟩
  refine Spends.bind (n := fun _ => 0)
    (m := fun _ _ => c * lvl m.len + 1 + 2 * c + c * lvl (m.len + 1))
    (Spends.of_cost (getKeyValue_reads _ _ _).cost (hget_spec h)) ?_ (fun _ _ => by omega)
  rintro x L ⟨-, rfl⟩
  split
  · exact Spends.map (spends_getMut f h) (fun _ _ _ => trivial) (fun _ _ _ => by omega)
  · obtain ⟨m', old, e, h'⟩ := insert_total h k (d k)
    have hlen : m'.len ≤ m.len + 1 := by
      unfold AvlMap.insert at e
      split at e
      · cases e
      · cases e; dsimp only; split <;> omega
    have hl := Nat.mul_le_mul_left c (lvl_mono hlen)
    refine Spends.bind (m := fun _ _ => c * lvl (m.len + 1)) (spends_insert f h e) ?_
      (fun x _ => by split <;> omega)
    rintro y L ⟨⟨r', h1, rfl⟩, h2⟩
    rw [h1]
    exact Spends.map (spends_getMut f h') (fun _ _ _ => trivial) (fun _ _ _ => hl)

theorem cost_forEachMut (hc : c = 0) {S : Type} (D : Nat) (g : S → K → V → S × V) :
    ∀ (n : Nat) (s : S) (r : Option Nat), Cost I (forEachMut D g n s r) (fun _ => 0) := by
  subst hc
  intro n
  induction n with
  | zero => intro s r; cases r with | none => exact .pure | some => exact .panic
  | succ n ih =>
    intro s r
    cases r with
    | none => exact .pure
    | some a =>
      refine Cost.zbind (f.makeMut _ _) fun a => Cost.zbind (cost_openN f a) fun x => ?_
      exact Cost.zbind (ih _ _) fun y => Cost.zbind (ih _ _) fun w =>
        Cost.zbind (cost_closeN f _ _ _ _) fun _ => .pure

section
variable {St N It : Type} {des : Des (ND K V) St N It}

theorem cost_nextG (hd : ∀ s m, Cost I (des s m) (fun _ => 0)) :
    ∀ n s w, Cost I (nextG des n s w) (fun _ => 0) := by
  intro n
  induction n with
  | zero =>
    intro s w
    match w with
    | [] => exact .pure
    | .ret i :: w => exact .pure
    | .desc m :: w => exact .panic
  | succ n ih =>
    intro s w
    match w with
    | [] => exact .pure
    | .ret i :: w => exact .pure
    | .desc m :: w => exact Cost.zbind (hd s m) (fun x => ih _ _)

theorem cost_nextBackG (hd : ∀ s m, Cost I (des s m) (fun _ => 0)) :
    ∀ n s w, Cost I (nextBackG des n s w) (fun _ => 0) := by
  intro n
  induction n with
  | zero =>
    intro s w
    match w with
    | [] => exact .pure
    | .ret i :: w => exact .pure
    | .desc m :: w => exact .panic
  | succ n ih =>
    intro s w
    match w with
    | [] => exact .pure
    | .ret i :: w => exact .pure
    | .desc m :: w => exact Cost.zbind (hd s m) (fun x => ih _ _)

theorem cost_pruneG (hd : ∀ s m, Cost I (des s m) (fun _ => 0)) :
    ∀ n s w, Cost I (pruneG des n s w) (fun _ => 0) := by
  intro n
  induction n with
  | zero =>
    intro s w
    match w with
    | [] => exact .pure
    | .ret i :: w => exact .pure
    | .desc m :: w => exact .panic
  | succ n ih =>
    intro s w
    match w with
    | [] => exact .pure
    | .ret i :: w => exact .pure
    | .desc m :: w => exact Cost.zbind (hd s m) (fun x => ih _ _)

theorem cost_pruneBackG (hd : ∀ s m, Cost I (des s m) (fun _ => 0)) :
    ∀ n s w, Cost I (pruneBackG des n s w) (fun _ => 0) := by
  intro n
  induction n with
  | zero =>
    intro s w
    match w with
    | [] => exact .pure
    | .ret i :: w => exact .pure
    | .desc m :: w => exact .panic
  | succ n ih =>
    intro s w
    match w with
    | [] => exact .pure
    | .ret i :: w => exact .pure
    | .desc m :: w => exact Cost.zbind (hd s m) (fun x => ih _ _)

theorem cost_stepG (hd : ∀ s m, Cost I (des s m) (fun _ => 0)) (n : Nat) (d : Bool) (s : St)
    (it : HIter N It) : Cost I (stepG des n d s it) (fun _ => 0) := by
  cases d with
  | true =>
    refine Cost.zbind (cost_nextG f hd _ _ _) (fun x => ?_)
    split
    · exact .pure
    · exact Cost.ite .panic .pure
  | false =>
    refine Cost.zbind (cost_nextBackG f hd _ _ _) (fun x => ?_)
    split
    · exact .pure
    · exact Cost.ite .panic .pure

theorem cost_runG {yld : St → It → Option (St × (K × V))}
    (hd : ∀ s m, Cost I (des s m) (fun _ => 0)) (n : Nat) :
    ∀ ds s it, Cost I (runG des yld n ds s it) (fun _ => 0) := by
  intro ds
  induction ds with
  | nil => intro s it; exact .pure
  | cons d ds ih =>
    intro s it
    refine Cost.zbind (cost_stepG f hd n d s it) (fun x => ?_)
    split
    · exact Cost.zbind (ih _ _) (fun _ => .pure)
    · split
      · exact .panic
      · exact Cost.zbind (ih _ _) (fun _ => .pure)

end

theorem cost_desM (hc : c = 0) (D : Nat) (lb ub : Bnd K) (s : MS K V) (a : Nat) :
    Cost I (desM D lb ub s a) (fun _ => 0) := by
  subst hc
  have : ∀ b r, Cost I (mutKid D b r : Prog (ND K V) _) (fun _ => 0) := by
    intro b r
    match b, r with
    | _, none => exact .pure
    | false, some a => exact .pure
    | true, some a => exact Cost.zbind (f.makeMut _ _) (fun _ => .pure)
  exact Cost.zbind (cost_openN f a) fun x => Cost.zbind (this _ _) fun l =>
    Cost.zbind (this _ _) fun r => .pure

theorem cost_closeAll : ∀ es : List (Nat × ND K V × Option Nat × Option Nat),
    Cost I (closeAll es) (fun _ => 0)
  | [] => .pure
  | e :: es => Cost.zbind (cost_closeN f _ _ _ _) fun _ => cost_closeAll es

theorem cost_iterMutRun (hc : c = 0) (D n : Nat) (g : Nat → K → V → V) (ds : List Bool)
    (r : Option Nat) (len : Nat) : Cost I (iterMutRun D n g ds r len) (fun _ => 0) := by
  cases r with
  | none => exact Cost.zbind (cost_runG f (cost_desM f hc D _ _) _ _ _ _) fun _ => .pure
  | some a =>
    refine Cost.zbind (hc ▸ f.makeMut _ _) fun a => ?_
    exact Cost.zbind (cost_runG f (cost_desM f hc D _ _) _ _ _ _) fun _ =>
      Cost.zbind (cost_closeAll f _) fun _ => .pure

theorem cost_rangeMutRun (hc : c = 0) (D n : Nat) (lb ub : Bnd K) (g : Nat → K → V → V)
    (ds : List Bool) (r : Option Nat) (len : Nat) :
    Cost I (rangeMutRun D n lb ub g ds r len) (fun _ => 0) := by
  cases r with
  | none => exact Cost.zbind (cost_runG f (cost_desM f hc D _ _) _ _ _ _) fun _ => .pure
  | some a =>
    refine Cost.zbind (hc ▸ f.makeMut _ _) fun a => ?_
    refine Cost.zbind (cost_pruneG f (cost_desM f hc D _ _) _ _ _) fun w => ?_
    refine Cost.zbind (cost_pruneBackG f (cost_desM f hc D _ _) _ _ _) fun w => ?_
    exact Cost.zbind (cost_runG f (cost_desM f hc D _ _) _ _ _ _) fun _ =>
      Cost.zbind (cost_closeAll f _) fun _ => .pure

end

/-! ## Commands -/

/-- How many nodes a command may allocate on a map of `n` entries, if each node on the way costs
`c`; `none`: nothing is claimed. -/
def allocs (c : Nat) : One K V S → Nat → Option Nat
  | .insert _ _, n => some (c * lvl n + 1 + 2 * c)
  | .remove _, n | .removeEntry _, n | .popFirst, n | .popLast, n => some (c * (3 * lvl n))
  | .getMut _ _, n | .andModify _ _, n => some (c * lvl n)
  | .orInsert _ _ _, n => some (c * lvl n + 1 + 2 * c + c * lvl (n + 1))
  | .forEachMut _ _, _ | .iterMut _ _, _ | .rangeMut _ _ _ _, _ => if c = 0 then some 0 else none
  | .clone, _ | .intoIter _, _ => if c = 0 then none else some 0
  | .retain _ _, _ | .extend _, _ | .splitOff _, _ => none
  | _, _ => some 0

/-- One node less if an insertion replaces a value. -/
def less (cmd : One K V S) (b : Nat) : Res K V S → Nat
  | .val (some _) =>
    match cmd with
    | .insert _ _ => b - 1
    | _ => b
  | _ => b

theorem less_le (cmd : One K V S) (b : Nat) (o : Res K V S) : less cmd b o ≤ b := by
  unfold less
  split
  · split <;> omega
  · exact Nat.le_refl _

theorem less_eq {cmd : One K V S} (h : ∀ k v, cmd ≠ .insert k v) (b : Nat) (o : Res K V S) :
    less cmd b o = b := by
  unfold less
  split
  · split
    · exact absurd rfl (h _ _)
    · rfl
  · rfl

theorem one_spends [Ord K] {I : Mem (ND K V) → Prop} {c : Nat} (f : Frugal I c)
    (hc : c ≠ 0 → ∀ h, I h) {s : HMap} {m : AvlMap K V} {L} (hI : Ok m) (hR : R s m L)
    (cmd : One K V S) {b : Nat} (hb : allocs c cmd m.len = some b) :
    ∃ Q, Spends I ((avlM K V S).one s cmd) L Q
      (fun x => less cmd b x.2.2) := by
  obtain ⟨y, ey, -⟩ := avlV_total (S := S).one cmd hI
  have hw := avlM_sound.one hI hR ey
  obtain ⟨r, rfl, rfl⟩ := hR
  have hT : c ≠ 0 → I = fun _ => True := fun h => funext fun x => eq_true (hc h x)
  cases cmd with
  | clone =>
    refine ⟨_, Spends.of_cost ?_ hw⟩
    have h0 : c ≠ 0 := by rintro rfl; cases hb
    rw [hT h0]
    refine Prog.NoAlloc.cost (Prog.NoAlloc.map (Prog.NoAlloc.map ?_))
    cases r with
    | none => exact trivial
    | some a => exact Prog.NoAlloc.map (Prog.NoAlloc.lift nofun)
  | intoIter ds =>
    refine ⟨_, Spends.of_cost ?_ hw⟩
    have h0 : c ≠ 0 := by rintro rfl; cases hb
    rw [hT h0]
    exact Prog.NoAlloc.cost (Prog.NoAlloc.map (intoRun_noAlloc _ _ _ _ _))
  | drop =>
    cases hb
    exact ⟨_, Spends.of_cost (Cost.zbind (cost_drop f.dec _ _) fun _ => .pure) hw⟩
  | clear =>
    cases hb
    exact ⟨_, Spends.of_cost (Cost.zbind (Cost.zbind (cost_drop f.dec _ _) fun _ => .pure)
      fun _ => .pure) hw⟩
  | insert k v =>
    cases hb
    obtain ⟨m', old, e, -⟩ := insert_total hI k v
    refine ⟨fun _ _ => True, Spends.map (spends_insert f hI e) (fun _ _ _ => trivial) ?_⟩
    intro x L _
    cases hx : x.2 <;> simp [less] <;> omega
  | remove p =>
    cases hb
    obtain ⟨m', old, e, -⟩ := removeEntry_total hI p
    exact ⟨fun _ _ => True, Spends.map (spends_removeEntry f hI e) (fun _ _ _ => trivial)
      (fun x L _ => by rw [less_eq nofun])⟩
  | removeEntry p =>
    cases hb
    obtain ⟨m', old, e, -⟩ := removeEntry_total hI p
    exact ⟨fun _ _ => True, Spends.map (spends_removeEntry f hI e) (fun _ _ _ => trivial)
      (fun _ _ _ => Nat.le_refl _)⟩
  | popFirst =>
    cases hb
    obtain ⟨m', old, e, -⟩ := popFirst_total hI
    exact ⟨fun _ _ => True, Spends.map (spends_popFirst f hI e) (fun _ _ _ => trivial)
      (fun _ _ _ => Nat.le_refl _)⟩
  | popLast =>
    cases hb
    obtain ⟨m', old, e, -⟩ := popLast_total hI
    exact ⟨fun _ _ => True, Spends.map (spends_popLast f hI e) (fun _ _ _ => trivial)
      (fun _ _ _ => Nat.le_refl _)⟩
  | getMut p g =>
    cases hb
    exact ⟨fun _ _ => True, Spends.map (spends_getMut f hI) (fun _ _ _ => trivial)
      (fun _ _ _ => Nat.le_refl _)⟩
  | andModify k g =>
    cases hb
    exact ⟨fun _ _ => True, Spends.map (Q := fun _ _ => True) (Spends.map (spends_getMut f hI) (fun _ _ _ => trivial)
      (fun _ _ _ => Nat.le_refl _)) (fun _ _ _ => trivial) (fun _ _ _ => Nat.le_refl _)⟩
  | orInsert k d g =>
    cases hb
    obtain ⟨Q, hq⟩ := spends_orInsert f (r := r) hI (k := k) (d := d) (g := g)
    exact ⟨fun _ _ => True, Spends.map hq (fun _ _ _ => trivial) (fun _ _ _ => by
      rw [less_eq nofun])⟩
  | forEachMut g s =>
    have h0 : c = 0 := by by_contra h; rw [allocs, if_neg h] at hb; cases hb
    exact ⟨_, Spends.of_cost (Cost.zbind (Cost.zbind ((cost_forEachMut f h0 _ _ _ _ _).le
      (fun _ => Nat.zero_le _)) fun _ => .pure) fun _ => .pure) hw⟩
  | iterMut g ds =>
    have h0 : c = 0 := by by_contra h; rw [allocs, if_neg h] at hb; cases hb
    exact ⟨_, Spends.of_cost (Cost.zbind (Cost.zbind ((cost_iterMutRun f h0 _ _ _ _ _ _).le
      (fun _ => Nat.zero_le _)) fun _ => .pure) fun _ => .pure) hw⟩
  | rangeMut lb ub g ds =>
    have h0 : c = 0 := by by_contra h; rw [allocs, if_neg h] at hb; cases hb
    exact ⟨_, Spends.of_cost (Cost.zbind (Cost.zbind ((cost_rangeMutRun f h0 _ _ _ _ _ _ _ _).le
      (fun _ => Nat.zero_le _)) fun _ => .pure) fun _ => .pure) hw⟩
  | getKeyValue p | get p | containsKey p | index p =>
    exact ⟨_, Spends.of_cost (Prog.ReadOnly.map
      (getKeyValue_reads _ _ _)).cost hw⟩
  | first => exact ⟨_, Spends.of_cost (Prog.ReadOnly.map
      (first_reads _ _)).cost hw⟩
  | last => exact ⟨_, Spends.of_cost (Prog.ReadOnly.map
      (last_reads _ _)).cost hw⟩
  | len | isEmpty => exact ⟨_, Spends.of_cost .pure hw⟩
  | iter ds => exact ⟨_, Spends.of_cost (Prog.ReadOnly.map
      (iterRun_reads _ _ _ _)).cost hw⟩
  | range lb ub ds => exact ⟨_, Spends.of_cost (Prog.ReadOnly.map
      (rangeRun_reads _ _ _ _ _ _)).cost hw⟩
  | forEach g s | hash _ _ _ s => exact ⟨_, Spends.of_cost (Prog.ReadOnly.map
      (forEach_reads _ _ _ _)).cost hw⟩
  | serialize => exact ⟨_, Spends.of_cost (Prog.ReadOnly.map
      (iterList_reads _)).cost hw⟩
  | retain | extend | splitOff => cases hb

theorem insert_len [Ord K] {m : AvlMap K V} {k : K} {v : V} {z} (e : m.insert k v = some z) :
    z.1.len ≤ m.len + 1 := by
  unfold AvlMap.insert at e
  split at e
  · cases e
  · cases e; dsimp only; split <;> omega

theorem popWith_len {n : Nat} {o : Option (Tree K V × Option (K × V) × Bool)} {z}
    (e : AvlMap.popWith n o = some z) : z.1.len ≤ n + 1 := by
  unfold AvlMap.popWith at e
  repeat' split at e
  all_goals cases e <;> dsimp only <;> omega

/-- A command grows a map by one entry at most, if anything is claimed about it. -/
theorem one_size [Ord K] {m : AvlMap K V} (c : Nat) (cmd : One K V S)
    (hb : (allocs c cmd 0).isSome) (hI : Ok m) {y}
    (e : (avlV K V S).one m cmd = some y) :
    (∀ m' ∈ y.1, m'.len ≤ m.len + 1) ∧ ∀ m' ∈ y.2.1, m'.len ≤ m.len + 1 := by
  cases cmd with
  | clone => cases e; simp
  | drop | intoIter => first | (cases e; simp) | (obtain ⟨z, -, rfl⟩ := Option.map_eq_some_iff.1 e; simp)
  | clear => cases e; simp [AvlMap.clear]
  | insert k v =>
    obtain ⟨z, e1, rfl⟩ := Option.map_eq_some_iff.1 e
    simp [insert_len e1]
  | remove p =>
    obtain ⟨z, e1, rfl⟩ := Option.map_eq_some_iff.1 e
    obtain ⟨z, e2, rfl⟩ := Option.map_eq_some_iff.1 e1
    simp [popWith_len e2]
  | removeEntry p | popFirst | popLast =>
    obtain ⟨z, e1, rfl⟩ := Option.map_eq_some_iff.1 e
    simp [popWith_len e1]
  | getMut p g | andModify k g => cases e; simp [AvlMap.getMut]
  | orInsert k d g =>
    simp only [avlV] at e
    split at e
    · cases e; simp [AvlMap.getMut]
    · obtain ⟨z, e1, rfl⟩ := Option.map_eq_some_iff.1 e
      simp [AvlMap.getMut, insert_len e1]
  | forEachMut g s => cases e; simp [AvlMap.forEachMut]
  | iterMut g ds | rangeMut lb ub g ds =>
    obtain ⟨z, -, rfl⟩ := Option.map_eq_some_iff.1 e
    simp
  | getKeyValue p | get p | containsKey p | index p | first | last | len | isEmpty | forEach g s
  | hash _ _ _ s => cases e; simp
  | iter ds | range lb ub ds | serialize =>
    obtain ⟨z, -, rfl⟩ := Option.map_eq_some_iff.1 e
    simp
  | retain | extend | splitOff => cases hb

/-! ## Programs -/

section
variable [Ord K]

theorem allocs_isSome (c : Nat) (cmd : One K V S) (n : Nat) :
    (allocs c cmd n).isSome = (allocs c cmd 0).isSome := by
  cases cmd <;> simp only [allocs, Option.isSome_some] <;> split <;> rfl

theorem avl_budget {I : Mem (ND K V) → Prop} {c : Nat} (f : Frugal I c)
    (hc : c ≠ 0 → ∀ h, I h) :
    Budget (avlM K V S) (avlV K V S) Ok R I (·.len) (fun c => c = .new)
      (fun cmd => (allocs c cmd 0).isSome) (fun cmd n => (allocs c cmd n).getD 0) where
  mono cmd m n h := by
    have h1 := Nat.mul_le_mul_left c (lvl_mono h)
    have h2 := Nat.mul_le_mul_left c (lvl_mono (Nat.succ_le_succ h))
    have h3 := Nat.mul_le_mul_left c (Nat.mul_le_mul_left 3 (lvl_mono h))
    cases cmd <;> simp only [allocs, Option.getD_some, Nat.le_refl] <;>
      first
      | exact Nat.le_refl _
      | (split <;> exact Nat.le_refl _)
      | (simp only [Nat.succ_eq_add_one] at h2; omega)
  make c' h := by
    subst h
    refine ⟨.pure, ?_⟩
    rintro y ⟨⟩ m hm
    simp only [List.mem_singleton] at hm
    subst hm
    exact Nat.zero_le _
  one {s m L} cmd h hI hR := by
    rw [← allocs_isSome c cmd m.len] at h
    obtain ⟨b, hb⟩ := Option.isSome_iff_exists.1 h
    obtain ⟨Q, hq⟩ := one_spends f hc hI hR cmd hb
    exact ⟨Q, hq.conseq (fun _ _ h => h) (fun x L _ => by
      rw [hb, Option.getD_some]; exact less_le _ _ _)⟩
  size {m} cmd h hI y e := one_size c cmd h hI e
  look s s' c := by
    cases c with
    | eq eqE =>
      refine Prog.ReadOnly.map ?_
      unfold HMap.eqMap
      refine Prog.ReadOnly.ite ?_ trivial
      exact Prog.ReadOnly.bind (fun x => Prog.ReadOnly.map (iterList_reads s')) (iterList_reads s)
    | partialCmp f =>
      exact Prog.ReadOnly.bind (fun x => Prog.ReadOnly.map (iterList_reads s')) (iterList_reads s)
    | cmp f =>
      exact Prog.ReadOnly.bind (fun x => Prog.ReadOnly.map (iterList_reads s')) (iterList_reads s)

theorem avl_run {I : Mem (ND K V) → Prop} {c : Nat} (f : Frugal I c) (hc : c ≠ 0 → ∀ h, I h)
    (h0 : I .empty) (cs : List (Cmd (Make K V) (One K V S) (Two K V) (Look K V)))
    (hs : ∀ x ∈ cs, x.All (· = .new) (fun cmd => (allocs c cmd 0).isSome) (fun _ => False)) :
    ∃ h rs obs, (Machine.run (avlM K V S) cs []).exec .empty = some (h, some (rs, obs)) ∧
      h.next ≤ cost1 (fun cmd n => (allocs c cmd n).getD 0) cs.length cs := by
  obtain ⟨-, obs, -, h, rs, e⟩ := shown_of avlV_total avlM_sound cs
  obtain ⟨-, hn⟩ := budget_run avlV_total avlM_sound (avl_budget f hc) cs hs (N := 0) Sim.init h0
    (by simp) e
  refine ⟨h, rs, obs, e, ?_⟩
  rw [Nat.zero_add] at hn
  exact Nat.le_trans hn (Nat.le_of_eq (Nat.zero_add _))

/-- Commands on maps by shared reference, but not `clone`. -/
def isShared : Cmd (Make K V) (One K V S) (Two K V) (Look K V) → Prop
  | .one _ (.getKeyValue _) | .one _ (.get _) | .one _ (.containsKey _) | .one _ (.index _)
  | .one _ .first | .one _ .last | .one _ .len | .one _ .isEmpty | .one _ (.iter _)
  | .one _ (.range _ _ _) | .one _ (.forEach _ _) | .one _ (.hash _ _ _ _) | .one _ .serialize
  | .look _ _ _ => True
  | _ => False

theorem avl_quiet {c : Cmd (Make K V) (One K V S) (Two K V) (Look K V)} (hc : isShared c) : Quiet (avlM K V S) c := by
  cases c with
  | make | two => exact hc.elim
  | look i j c => exact fun s s' => (avl_budget (S := S) (I := fun _ => True) (c := 1)
      Frugal.always (fun _ _ => trivial)).look s s' c
  | one i c =>
    intro s
    cases c with
    | getKeyValue p | get p | containsKey p | index p => exact quiet_one (getKeyValue_reads _ _ _)
    | first => exact quiet_one (first_reads _ _)
    | last => exact quiet_one (last_reads _ _)
    | len | isEmpty => exact ⟨trivial, by rintro h h' x ⟨⟩; exact ⟨rfl, rfl⟩⟩
    | iter ds => exact quiet_one (iterRun_reads _ _ _ _)
    | range lb ub ds => exact quiet_one (rangeRun_reads _ _ _ _ _ _)
    | forEach g s | hash _ _ _ s => exact quiet_one (forEach_reads _ _ _ _)
    | serialize => exact quiet_one (iterList_reads _)
    | _ => exact hc.elim

end

end Verif.AvlH
