import Verif.AvlHeap.MapCost
import Verif.AvlHeap.SetSpec
import Verif.Heap.SetOpsCost
/-!
# How many nodes the operations of `AvlSet` allocate
-/
namespace Verif.AvlH
open Heap Heap.Machine Std
open Avl (Tree AvlMap AvlSet)

variable {T S Q : Type}

/-! ## Operations that only read -/

theorem setNext_reads (n : Nat) (i : Option Nat × HIter (List Nat) (T × Unit)) :
    (HMap.setNext n i).ReadOnly :=
  Prog.ReadOnly.map (stepG_reads (desN_reads _ _ _) _ _ _ _)

theorem noLeftAt_reads (b : Nat) (path : List Nat) : (HMap.noLeftAt (T := T) b path).ReadOnly :=
  Prog.ReadOnly.map (readN_reads _ _)

theorem pushRtAt_reads (b : Nat) (path : List Nat) (has : Bool) (w : List (List Nat × Bool)) :
    (HMap.pushRtAt (T := T) b path has w).ReadOnly :=
  Prog.ReadOnly.ite (Prog.ReadOnly.map (noLeftAt_reads _ _)) trivial

theorem seekAt_reads [Ord T] (a : Nat) (lp : List Nat) (key : T) (b : Nat) :
    ∀ n w, (HMap.seekAt a lp key b n w).ReadOnly := by
  intro n
  induction n with
  | zero => intro w; exact trivial
  | succ n ih =>
    intro w
    match w with
    | [] => exact trivial
    | (rp, done) :: w =>
      refine Prog.ReadOnly.bind (fun (r : Bool) => ?_) (Prog.ReadOnly.lift trivial)
      refine Prog.ReadOnly.ite trivial ?_
      refine Prog.ReadOnly.bind (fun x => ?_) (readN_reads _ _)
      split
      · refine Prog.ReadOnly.ite trivial (Prog.ReadOnly.ite ?_ trivial)
        exact Prog.ReadOnly.bind (fun _ => ih _) (noLeftAt_reads _ _)
      · exact Prog.ReadOnly.map (pushRtAt_reads _ _ _ _)
      · exact Prog.ReadOnly.bind (fun _ => ih _) (pushRtAt_reads _ _ _ _)

theorem hasAllAt_reads [Ord T] (a b fuel : Nat) :
    ∀ n lp w, (HMap.hasAllAt (T := T) a b fuel n lp w).ReadOnly := by
  intro n
  induction n with
  | zero => intro lp w; exact trivial
  | succ n ih =>
    intro lp w
    refine Prog.ReadOnly.bind (fun x => ?_) (readN_reads _ _)
    refine Prog.ReadOnly.bind (fun y => ?_) (Prog.ReadOnly.ite (ih _ _) trivial)
    refine Prog.ReadOnly.ite ?_ trivial
    refine Prog.ReadOnly.bind (fun z => ?_) (seekAt_reads _ _ _ _ _ _)
    match z with
    | .fail => exact trivial
    | .same w2 => exact trivial
    | .found w2 => exact Prog.ReadOnly.ite (ih _ _) trivial

theorem isSubset_reads [Ord T] (a b : HMap) : (HMap.isSubset (T := T) a b).ReadOnly := by
  unfold HMap.isSubset
  refine Prog.ReadOnly.ite trivial (Prog.ReadOnly.ite trivial ?_)
  split
  · exact Prog.ReadOnly.bind (fun _ => Prog.ReadOnly.map (hasAllAt_reads _ _ _ _ _ _))
      (noLeftAt_reads _ _)
  · exact trivial

theorem set_look_reads [Ord T] [Ord Q] (bo : T → Q) (s s' : HMap) (c : SLook T) :
    ((avlSetM T S Q bo).look s s' c).ReadOnly := by
  cases c with
  | eq eqE =>
    refine Prog.ReadOnly.map ?_
    unfold HMap.eqMap
    refine Prog.ReadOnly.ite ?_ trivial
    exact Prog.ReadOnly.bind (fun x => Prog.ReadOnly.map (iterList_reads s')) (iterList_reads s)
  | partialCmp f | cmp f =>
    exact Prog.ReadOnly.bind (fun x => Prog.ReadOnly.map (iterList_reads s')) (iterList_reads s)
  | setOp F n => exact Prog.ReadOnly.map (SetOps.setOpRun_reads (setNext_reads _) _ _ _ _)
  | isDisjoint =>
    exact Prog.ReadOnly.map (Prog.ReadOnly.map (SetOps.setOpNext_reads (setNext_reads _) _ _ _))
  | isSubset => exact Prog.ReadOnly.map (isSubset_reads s s')
  | isSuperset => exact Prog.ReadOnly.map (isSubset_reads s' s)

/-! ## Operations -/

theorem take_len {s : AvlSet T} {p : T → Ordering} {s' o} (e : s.take p = some (s', o)) :
    s'.map.len ≤ s.map.len := by
  unfold AvlSet.take at e
  repeat' split at e
  all_goals cases e <;> dsimp only <;> omega

section
variable {I : Mem (ND T Unit) → Prop} {c : Nat} (f : Frugal I c) {s : AvlSet T} {r : Option Nat}
include f

theorem spends_take (h : Ok s.map) {p : T → Ordering} {s' o} (e : s.take p = some (s', o)) :
    Spends I (HMap.take ⟨s.map.len, r⟩ p) (own r (vt s.map.root))
      (fun x L => SR x.1 s' L ∧ x.2 = o) (fun _ => c * (3 * lvl s.map.len)) := by
  obtain ⟨t', kv', b, e1, -⟩ := Tree.rm_shape p s.map.root h.bal
  have hd := depth_le_lvl h.bal h.size
  refine Spends.of_le (p := (rm s.map.len p s.map.root.depth r).bind fun x =>
    match x.2.1 with
    | none => .pure (⟨s.map.len, x.1⟩, none)
    | some kv => if s.map.len = 0 then .panic else .pure (⟨s.map.len - 1, x.1⟩, some kv.1))
    (Q' := fun _ _ => True) ?_ ?_ ?_ (htake_spec h e)
  · exact Prog.Le.bind (fun _ => Prog.Le.refl _) (rm_le (Nat.le_trans (depth_le_size _) h.size))
  · refine Cost.sbind (b := 0) (cost_rm f _ _ _ _) (fun x => ?_)
      (Nat.mul_le_mul_left c (Nat.mul_le_mul_left 3 hd))
    split
    · exact .pure
    · exact Cost.ite .panic .pure
  · refine wp_bind (wp_conseq (rm_spec_depth e1 h.size (Nat.le_refl _)) ?_)
    rintro x L ⟨r', rfl, rfl⟩
    dsimp only
    split
    · exact wp_pure trivial
    · have : s.map.len ≠ 0 := by
        intro h0
        simp [AvlSet.take, e1, h0] at e
      rw [if_neg this]
      exact wp_pure trivial

theorem spends_replace [Ord T] [TransOrd T] (h : SOk s) (x : T) :
    ∃ Q, Spends I (HMap.replace (T := T) ⟨s.map.len, r⟩ x) (own r (vt s.map.root)) Q
      (fun _ => c * (3 * lvl s.map.len) + (c * lvl s.map.len + 1 + 2 * c)) := by
  obtain ⟨s1, o1, e1, h1⟩ := stake_total h (isProbe_compare x)
  obtain ⟨m', old, e2, -⟩ := insert_total h1.ok x ()
  refine ⟨fun _ _ => True, Spends.bind (m := fun _ _ => c * lvl s.map.len + 1 + 2 * c)
    (spends_take f h.ok e1) ?_ (fun _ _ => by omega)⟩
  rintro y L ⟨⟨r', h3, rfl⟩, h4⟩
  rw [h3]
  have hl := Nat.mul_le_mul_left c (lvl_mono (take_len e1))
  exact Spends.map (spends_insert f h1.ok e2) (fun _ _ _ => trivial) (fun _ _ _ => by
    split <;> omega)

end

/-! ## Commands -/

/-- How many nodes a command may allocate on a set of `n` elements, if each node on the way costs
`c`; `none`: nothing is claimed. -/
def sallocs (c : Nat) : SOne T S Q → Nat → Option Nat
  | .insert _, n => some (c * lvl n + 1 + 2 * c)
  | .remove _, n | .take _, n | .popFirst, n | .popLast, n => some (c * (3 * lvl n))
  | .replace _, n => some (c * (3 * lvl n) + (c * lvl n + 1 + 2 * c))
  | .clone, _ | .intoIter _, _ => if c = 0 then none else some 0
  | .retain _ _, _ | .extend _, _ | .splitOff _, _ => none
  | _, _ => some 0

/-- One node less if an insertion finds the element there. -/
def sless (cmd : SOne T S Q) (b : Nat) : SRes T S → Nat
  | .bool false =>
    match cmd with
    | .insert _ => b - 1
    | _ => b
  | _ => b

theorem sless_le (cmd : SOne T S Q) (b : Nat) (o : SRes T S) : sless cmd b o ≤ b := by
  unfold sless
  split
  · split <;> omega
  · exact Nat.le_refl _

theorem sless_eq {cmd : SOne T S Q} (h : ∀ x, cmd ≠ .insert x) (b : Nat) (o : SRes T S) :
    sless cmd b o = b := by
  unfold sless
  split
  · split
    · exact absurd rfl (h _)
    · rfl
  · rfl

section
variable [Ord T] [TransOrd T] [Ord Q] [TransOrd Q] {bo : T → Q}

theorem set_one_spends (hbo : ∀ x y, compare (bo x) (bo y) = compare x y)
    {I : Mem (ND T Unit) → Prop} {c : Nat} (f : Frugal I c)
    (hc : c ≠ 0 → ∀ h, I h) {s : HMap} {m : AvlSet T} {L} (hI : SOk m) (hR : SR s m L)
    (cmd : SOne T S Q) {b : Nat} (hb : sallocs c cmd m.map.len = some b) :
    ∃ P, Spends I ((avlSetM T S Q bo).one s cmd) L P (fun x => sless cmd b x.2.2) := by
  obtain ⟨y, ey, -⟩ := (avlSetV_total (S := S) hbo).one cmd hI
  have hw := avlSetM_sound.one hI hR ey
  obtain ⟨r, rfl, rfl⟩ := hR
  have hT : c ≠ 0 → I = fun _ => True := fun h => funext fun x => eq_true (hc h x)
  cases cmd with
  | clone =>
    refine ⟨_, Spends.of_cost ?_ hw⟩
    have h0 : c ≠ 0 := by rintro rfl; cases hb
    rw [hT h0]
    refine Prog.NoAlloc.cost (Prog.NoAlloc.map (Prog.NoAlloc.map ?_))
    cases r with
    | none => exact trivial
    | some a => exact Prog.NoAlloc.map (Prog.NoAlloc.lift nofun)
  | intoIter ds =>
    refine ⟨_, Spends.of_cost ?_ hw⟩
    have h0 : c ≠ 0 := by rintro rfl; cases hb
    rw [hT h0]
    exact Prog.NoAlloc.cost (Prog.NoAlloc.map (intoRun_noAlloc _ _ _ _ _))
  | drop =>
    cases hb
    exact ⟨_, Spends.of_cost (Cost.zbind (cost_drop f.dec _ _) fun _ => .pure) hw⟩
  | clear =>
    cases hb
    exact ⟨_, Spends.of_cost (Cost.zbind (Cost.zbind (cost_drop f.dec _ _) fun _ => .pure)
      fun _ => .pure) hw⟩
  | insert x =>
    cases hb
    obtain ⟨m', old, e, -⟩ := insert_total hI.ok x ()
    refine ⟨fun _ _ => True, Spends.map (spends_insert f hI.ok e) (fun _ _ _ => trivial) ?_⟩
    intro x L _
    cases hx : x.2 <;> simp [sless] <;> omega
  | remove q =>
    cases hb
    obtain ⟨m', old, e, -⟩ := removeEntry_total hI.ok (borrowed bo q)
    exact ⟨fun _ _ => True, Spends.map (spends_removeEntry f hI.ok e) (fun _ _ _ => trivial)
      (fun x L _ => by rw [sless_eq nofun])⟩
  | take q =>
    cases hb
    obtain ⟨z, e, -⟩ := Option.map_eq_some_iff.1 ey
    exact ⟨fun _ _ => True, Spends.map (spends_take f hI.ok e) (fun _ _ _ => trivial)
      (fun x L _ => by rw [sless_eq nofun])⟩
  | replace x =>
    cases hb
    obtain ⟨P, hp⟩ := spends_replace f (r := r) hI x
    exact ⟨fun _ _ => True, Spends.map hp (fun _ _ _ => trivial)
      (fun x L _ => by rw [sless_eq nofun])⟩
  | popFirst =>
    cases hb
    obtain ⟨m', old, e, -⟩ := popFirst_total hI.ok
    exact ⟨fun _ _ => True, Spends.map (spends_popFirst f hI.ok e) (fun _ _ _ => trivial)
      (fun _ _ _ => Nat.le_refl _)⟩
  | popLast =>
    cases hb
    obtain ⟨m', old, e, -⟩ := popLast_total hI.ok
    exact ⟨fun _ _ => True, Spends.map (spends_popLast f hI.ok e) (fun _ _ _ => trivial)
      (fun _ _ _ => Nat.le_refl _)⟩
  | get q | contains q =>
    exact ⟨_, Spends.of_cost (Prog.ReadOnly.map (getKeyValue_reads _ _ _)).cost hw⟩
  | first => exact ⟨_, Spends.of_cost (Prog.ReadOnly.map (first_reads _ _)).cost hw⟩
  | last => exact ⟨_, Spends.of_cost (Prog.ReadOnly.map (last_reads _ _)).cost hw⟩
  | len | isEmpty => exact ⟨_, Spends.of_cost .pure hw⟩
  | iter n => exact ⟨_, Spends.of_cost (Prog.ReadOnly.map (iterRun_reads _ _ _ _)).cost hw⟩
  | range lb ub ds =>
    exact ⟨_, Spends.of_cost (Prog.ReadOnly.map (rangeRun_reads _ _ _ _ _ _)).cost hw⟩
  | hash _ _ _ | serialize =>
    exact ⟨_, Spends.of_cost (Prog.ReadOnly.map (iterList_reads _)).cost hw⟩
  | retain | extend | splitOff => cases hb

/-- A command grows a set by one element at most, if anything is claimed about it. -/
theorem set_one_size {m : AvlSet T} (c : Nat) (cmd : SOne T S Q)
    (hb : (sallocs c cmd 0).isSome) {y} (e : (avlSetV T S Q bo).one m cmd = some y) :
    (∀ m' ∈ y.1, m'.map.len ≤ m.map.len + 1) ∧ ∀ m' ∈ y.2.1, m'.map.len ≤ m.map.len + 1 := by
  cases cmd with
  | clone => cases e; simp
  | drop | intoIter =>
    first | (cases e; simp) | (obtain ⟨z, -, rfl⟩ := Option.map_eq_some_iff.1 e; simp)
  | clear => cases e; simp [AvlSet.clear, AvlMap.clear]
  | insert x =>
    obtain ⟨z, e1, rfl⟩ := Option.map_eq_some_iff.1 e
    obtain ⟨z, e2, rfl⟩ := Option.map_eq_some_iff.1 e1
    simp [insert_len e2]
  | remove q =>
    obtain ⟨z, e1, rfl⟩ := Option.map_eq_some_iff.1 e
    obtain ⟨z, e2, rfl⟩ := Option.map_eq_some_iff.1 e1
    obtain ⟨z, e3, rfl⟩ := Option.map_eq_some_iff.1 e2
    simp [popWith_len e3]
  | take q =>
    obtain ⟨z, e1, rfl⟩ := Option.map_eq_some_iff.1 e
    have := take_len e1
    simp
    omega
  | replace x =>
    obtain ⟨z, e1, rfl⟩ := Option.map_eq_some_iff.1 e
    unfold AvlSet.replace at e1
    split at e1
    · cases e1
    · rename_i s' ret e2
      obtain ⟨z, e3, rfl⟩ := Option.map_eq_some_iff.1 e1
      obtain ⟨z, e4, rfl⟩ := Option.map_eq_some_iff.1 e3
      have h1 := take_len e2
      have h2 := insert_len e4
      simp
      omega
  | popFirst | popLast =>
    obtain ⟨z, e1, rfl⟩ := Option.map_eq_some_iff.1 e
    obtain ⟨z, e2, rfl⟩ := Option.map_eq_some_iff.1 e1
    simp [popWith_len e2]
  | get q | contains q | first | last | len | isEmpty => cases e; simp
  | iter n | range lb ub ds | hash _ _ _ | serialize =>
    obtain ⟨z, -, rfl⟩ := Option.map_eq_some_iff.1 e
    simp
  | retain | extend | splitOff => cases hb

/-! ## Programs -/

omit [Ord T] [TransOrd T] [Ord Q] [TransOrd Q] in
theorem sallocs_isSome (c : Nat) (cmd : SOne T S Q) (n : Nat) :
    (sallocs c cmd n).isSome = (sallocs c cmd 0).isSome := by
  cases cmd <;> simp only [sallocs, Option.isSome_some] <;> split <;> rfl

theorem avlSet_budget (hbo : ∀ x y, compare (bo x) (bo y) = compare x y)
    {I : Mem (ND T Unit) → Prop} {c : Nat} (f : Frugal I c) (hc : c ≠ 0 → ∀ h, I h) :
    Budget (avlSetM T S Q bo) (avlSetV T S Q bo) SOk SR I (·.map.len) (fun c => c = .new)
      (fun cmd => (sallocs c cmd 0).isSome) (fun cmd n => (sallocs c cmd n).getD 0) where
  mono cmd m n h := by
    have h1 := Nat.mul_le_mul_left c (lvl_mono h)
    have h3 := Nat.mul_le_mul_left c (Nat.mul_le_mul_left 3 (lvl_mono h))
    cases cmd <;> simp only [sallocs, Option.getD_some, Nat.le_refl] <;>
      first
      | exact Nat.le_refl _
      | (split <;> exact Nat.le_refl _)
      | omega
  make c' h := by
    subst h
    refine ⟨.pure, ?_⟩
    rintro y ⟨⟩ m hm
    simp only [List.mem_singleton] at hm
    subst hm
    exact Nat.zero_le _
  one {s m L} cmd h hI hR := by
    rw [← sallocs_isSome c cmd m.map.len] at h
    obtain ⟨b, hb⟩ := Option.isSome_iff_exists.1 h
    obtain ⟨P, hq⟩ := set_one_spends hbo f hc hI hR cmd hb
    exact ⟨P, hq.conseq (fun _ _ h => h) (fun x L _ => by
      rw [hb, Option.getD_some]; exact sless_le _ _ _)⟩
  size {m} cmd h hI y e := set_one_size c cmd h e
  look s s' c := set_look_reads bo s s' c

theorem avlSet_run (hbo : ∀ x y, compare (bo x) (bo y) = compare x y)
    {I : Mem (ND T Unit) → Prop} {c : Nat} (f : Frugal I c) (hc : c ≠ 0 → ∀ h, I h)
    (h0 : I .empty) (cs : List (Cmd (SMake T) (SOne T S Q) STwo (SLook T)))
    (hs : ∀ x ∈ cs, x.All (· = .new) (fun cmd => (sallocs c cmd 0).isSome) (fun _ => False)) :
    ∃ h rs obs, (Machine.run (avlSetM T S Q bo) cs []).exec .empty = some (h, some (rs, obs)) ∧
      h.next ≤ cost1 (fun cmd n => (sallocs c cmd n).getD 0) cs.length cs := by
  obtain ⟨-, obs, -, h, rs, e⟩ := shown_of (avlSetV_total hbo) avlSetM_sound cs
  obtain ⟨-, hn⟩ := budget_run (avlSetV_total hbo) avlSetM_sound (avlSet_budget hbo f hc) cs hs
    (N := 0) Sim.init h0 (by simp) e
  refine ⟨h, rs, obs, e, ?_⟩
  rw [Nat.zero_add] at hn
  exact Nat.le_trans hn (Nat.le_of_eq (Nat.zero_add _))

/-- Commands on sets by shared reference, but not `clone`. -/
def isSharedSet : Cmd (SMake T) (SOne T S Q) STwo (SLook T) → Bool
  | .one _ (.get _) | .one _ (.contains _) | .one _ .first | .one _ .last | .one _ .len
  | .one _ .isEmpty | .one _ (.iter _) | .one _ (.range _ _ _) | .one _ (.hash _ _ _)
  | .one _ .serialize | .look _ _ _ => true
  | _ => false

omit [TransOrd T] [TransOrd Q] in
theorem avlSet_quiet {c : Cmd (SMake T) (SOne T S Q) STwo (SLook T)} (hc : isSharedSet c) :
    Quiet (avlSetM T S Q bo) c := by
  cases c with
  | make | two => cases hc
  | look i j c => exact fun s s' => set_look_reads bo s s' c
  | one i c =>
    intro s
    cases c with
    | get q | contains q => exact quiet_one (getKeyValue_reads _ _ _)
    | first => exact quiet_one (first_reads _ _)
    | last => exact quiet_one (last_reads _ _)
    | len | isEmpty => exact ⟨trivial, by rintro h h' x ⟨⟩; exact ⟨rfl, rfl⟩⟩
    | iter n => exact quiet_one (iterRun_reads _ _ _ _)
    | range lb ub ds => exact quiet_one (rangeRun_reads _ _ _ _ _ _)
    | hash _ _ _ | serialize => exact quiet_one (iterList_reads _)
    | _ => cases hc

end

end Verif.AvlH
