import Verif.BTreeHeap.MapCost
import Verif.BTreeHeap.SetSpec
import Verif.Heap.SetOpsCost
/-!
# How many nodes the operations of `BTreeSet` allocate
-/
namespace Verif.BTreeH
open Heap Heap.Machine Std
open BTree (BTreeMap BTreeSet)
open Verif.AvlH (SMake STwo SLook SRes)

variable {T S Q : Type}

/-! ## Operations that only read -/

theorem setNext_reads (n : Nat) (i : HMap.SetIter T) : (HMap.setNext n i).ReadOnly :=
  Prog.ReadOnly.map ((shared_reads _).next closed_reads _ _ _)

theorem setIter_reads (m : HMap) : (m.setIter : Prog (ND T Unit) _).ReadOnly := by
  unfold HMap.setIter
  split
  · exact trivial
  · exact Prog.ReadOnly.map ((shared_reads _).make _ _)

theorem setOpNone_reads [Ord T] (F : Nat) (a b : HMap) :
    (HMap.setOpNone (T := T) F a b).ReadOnly :=
  Prog.ReadOnly.bind (fun _ => Prog.ReadOnly.bind (fun _ =>
    Prog.ReadOnly.map (SetOps.setOpNext_reads (setNext_reads _) _ _ _)) (setIter_reads _))
    (setIter_reads _)

theorem isSubset_reads [Ord T] (a b : HMap) : (HMap.isSubset T a b).ReadOnly :=
  Prog.ReadOnly.ite trivial (Prog.ReadOnly.ite (setOpNone_reads _ _ _) trivial)

theorem set_look_reads [Ord T] [Ord Q] {N : Nat} (b : T → Q) (s s' : HMap) (c : SLook T) :
    ((btreeSetM T S Q N b).look s s' c).ReadOnly := by
  cases c with
  | eq eqE =>
    refine Prog.ReadOnly.map ?_
    unfold HMap.eqMap
    refine Prog.ReadOnly.ite ?_ trivial
    exact Prog.ReadOnly.bind (fun x => Prog.ReadOnly.map (iterList_reads s')) (iterList_reads s)
  | partialCmp f | cmp f =>
    exact Prog.ReadOnly.bind (fun x => Prog.ReadOnly.map (iterList_reads s')) (iterList_reads s)
  | setOp F n =>
    exact Prog.ReadOnly.map (Prog.ReadOnly.bind (fun _ => Prog.ReadOnly.bind (fun _ =>
      SetOps.setOpRun_reads (setNext_reads _) _ _ _ _) (setIter_reads _)) (setIter_reads _))
  | isDisjoint => exact Prog.ReadOnly.map (setOpNone_reads _ _ _)
  | isSubset => exact Prog.ReadOnly.map (isSubset_reads s s')
  | isSuperset => exact Prog.ReadOnly.map (isSubset_reads s' s)

/-! ## Operations -/

theorem removeElem_len {N : Nat} {s : BTreeSet T} {p : T → Ordering} {z}
    (e : s.removeElem N p = some z) : z.1.map.len ≤ s.map.len := by
  obtain ⟨z, e1, rfl⟩ := Option.map_eq_some_iff.1 e
  exact rmAndRebal_len e1

theorem take_len {N : Nat} {s : BTreeSet T} {p : T → Ordering} {z}
    (e : s.take N p = some z) : z.1.map.len ≤ s.map.len := by
  unfold BTreeSet.take at e
  split at e
  · cases e; exact Nat.le_refl _
  · exact removeElem_len e

section
variable [Ord T] [TransOrd T] {N : Nat} {I : Mem (ND T Unit) → Prop} {c : Nat} (f : Frugal I c)
  {s : BTreeSet T} {r : Option Nat}
include f

omit [TransOrd T] in
theorem spends_removeElem (hN : 1 ≤ N) (h : s.WF N) {p : T → Ordering} {s' o}
    (e : s.removeElem N p = some (s', o)) :
    Spends I (HMap.rmAndRebal ⟨s.map.len, r⟩ (BTreeH.remove N s.map.len p s.map.len))
      (own r (vtO s.map.root)) (fun x L => SetR x.1 s' L ∧ x.2.map (·.1) = o)
      (fun _ => c * (3 * lvl N s.map.len)) := by
  obtain ⟨z, e1, e2⟩ := Option.map_eq_some_iff.1 e
  cases e2
  refine (spends_rm f hN h (m' := z.1) (old := z.2) e1).conseq ?_ (fun _ _ _ => Nat.le_refl _)
  rintro x L ⟨h1, h2⟩
  exact ⟨h1, by rw [h2]⟩

omit [TransOrd T] in
theorem spends_take (hN : 1 ≤ N) (h : s.WF N) {p : T → Ordering} {s' o}
    (e : s.take N p = some (s', o)) :
    Spends I (HMap.takeElem N ⟨s.map.len, r⟩ p) (own r (vtO s.map.root)) (fun _ _ => True)
      (fun _ => c * (3 * lvl N s.map.len)) := by
  unfold BTreeSet.take BTreeSet.contains at e
  refine Spends.bind (n := fun _ => 0) (m := fun _ _ => c * (3 * lvl N s.map.len))
    (Spends.of_cost (containsKey_reads _ _).cost (hcontains_spec fun nd hr => dep_len hN h hr)) ?_
    (fun _ _ => by omega)
  rintro b L ⟨rfl, rfl⟩
  split at e
  · next hc =>
    rw [if_pos hc]
    exact Spends.pure trivial
  · next hc =>
    rw [if_neg hc]
    exact Spends.map (spends_removeElem f hN h e) (fun _ _ _ => trivial) (fun _ _ _ => Nat.le_refl _)

theorem spends_replace (hN : 1 ≤ N) (h : s.WF N) (x : T) :
    Spends I (HMap.replaceElem N ⟨s.map.len, r⟩ x) (own r (vtO s.map.root)) (fun _ _ => True)
      (fun _ => c * (3 * lvl N s.map.len) + (c * lvl N s.map.len + (lvl N s.map.len + 1))) := by
  obtain ⟨s1, e1, h1, -⟩ := BTreeSet.removeElem_spec hN h (isProbe_compare x)
  obtain ⟨m2, e2, h2, -⟩ := BTree.BTreeMap.insert_spec h1 x ()
  refine Spends.bind (m := fun _ _ => c * lvl N s.map.len + (lvl N s.map.len + 1))
    (spends_removeElem f hN h e1) ?_ (fun _ _ => by omega)
  rintro y L ⟨⟨r', h3, rfl⟩, h4⟩
  rw [h3]
  have h0 := lvl_mono (N := N) (removeElem_len e1)
  have hl := Nat.mul_le_mul_left c h0
  exact Spends.map (spends_insert f hN h1 e2) (fun _ _ _ => trivial) (fun _ _ _ => by
    dsimp only at h0 hl
    split <;> omega)

end

/-! ## Commands -/

/-- How many nodes a command may allocate on a set of `n` elements, if each node on the way costs
`c`; `none`: nothing is claimed. -/
def sallocs (N c : Nat) : SOne T S Q → Nat → Option Nat
  | .insert _, n => some (c * lvl N n + (lvl N n + 1))
  | .remove _, n | .take _, n | .popFirst, n | .popLast, n => some (c * (3 * lvl N n))
  | .replace _, n => some (c * (3 * lvl N n) + (c * lvl N n + (lvl N n + 1)))
  | .clone, _ | .intoIter _, _ => if c = 0 then none else some 0
  | .retain _ _, _ | .extend _, _ | .splitOff _, _ => none
  | _, _ => some 0

/-- Fewer nodes if an insertion finds the element there. -/
def sless (N n : Nat) (cmd : SOne T S Q) (b : Nat) : SRes T S → Nat
  | .bool false =>
    match cmd with
    | .insert _ => b - (lvl N n + 1)
    | _ => b
  | _ => b

theorem sless_le (N n : Nat) (cmd : SOne T S Q) (b : Nat) (o : SRes T S) :
    sless N n cmd b o ≤ b := by
  unfold sless
  split
  · split <;> omega
  · exact Nat.le_refl _

theorem sless_eq {N n : Nat} {cmd : SOne T S Q} (h : ∀ x, cmd ≠ .insert x) (b : Nat)
    (o : SRes T S) : sless N n cmd b o = b := by
  unfold sless
  split
  · split
    · exact absurd rfl (h _)
    · rfl
  · rfl

section
variable [Ord T] [TransOrd T] [Ord Q] [TransOrd Q] {N : Nat} {b : T → Q}

theorem set_one_spends {I : Mem (ND T Unit) → Prop} {c : Nat} (f : Frugal I c)
    (hc : c ≠ 0 → ∀ h, I h) (hN : 1 ≤ N) (hb : ∀ x y, compare (b x) (b y) = compare x y)
    {s : HMap} {m : BTreeSet T} {L} (hI : m.WF N) (hR : SetR s m L)
    (cmd : SOne T S Q) {k : Nat} (hk : sallocs N c cmd m.map.len = some k) :
    ∃ P, Spends I ((btreeSetM T S Q N b).one s cmd) L P
      (fun x => sless N m.map.len cmd k x.2.2) := by
  obtain ⟨y, ey, -⟩ := (btreeSetV_total (S := S) hN hb).one cmd hI
  have hw := (btreeSetM_sound hN hb).one hI hR ey
  have hp : ∀ q : Q, Verif.IsProbe (probe b q) := Verif.isProbe_borrow b hb
  obtain ⟨r, rfl, rfl⟩ := hR
  have hT : c ≠ 0 → I = fun _ => True := fun h => funext fun x => eq_true (hc h x)
  cases cmd with
  | clone =>
    refine ⟨_, Spends.of_cost ?_ hw⟩
    have h0 : c ≠ 0 := by rintro rfl; cases hk
    rw [hT h0]
    refine Prog.NoAlloc.cost (Prog.NoAlloc.map (Prog.NoAlloc.map ?_))
    cases r with
    | none => exact trivial
    | some a => exact Prog.NoAlloc.map (Prog.NoAlloc.lift nofun)
  | intoIter ds =>
    refine ⟨_, Spends.of_cost ?_ hw⟩
    have h0 : c ≠ 0 := by rintro rfl; cases hk
    rw [hT h0]
    exact Prog.NoAlloc.cost (Prog.NoAlloc.map (intoRun_noAlloc _ _ _ _ _))
  | drop =>
    cases hk
    exact ⟨_, Spends.of_cost (Cost.zbind (cost_drop f.dec _ _) fun _ => .pure) hw⟩
  | clear =>
    cases hk
    exact ⟨_, Spends.of_cost (Cost.zbind (Cost.zbind (cost_drop f.dec _ _) fun _ => .pure)
      fun _ => .pure) hw⟩
  | insert x =>
    cases hk
    obtain ⟨m', e, -⟩ := BTree.BTreeMap.insert_spec hI x ()
    refine ⟨fun _ _ => True, Spends.map (spends_insert f hN hI e) (fun _ _ _ => trivial) ?_⟩
    intro x L _
    cases hx : x.2 <;> simp [sless]
  | remove q =>
    cases hk
    obtain ⟨m', e, -⟩ := BTree.BTreeMap.remove_spec hN hI (hp q)
    exact ⟨fun _ _ => True, Spends.map (spends_remove f hN hI e) (fun _ _ _ => trivial)
      (fun x L _ => by rw [sless_eq nofun])⟩
  | take q =>
    cases hk
    obtain ⟨z, e, -⟩ := Option.map_eq_some_iff.1 ey
    exact ⟨fun _ _ => True, Spends.map (spends_take f hN hI e) (fun _ _ _ => trivial)
      (fun x L _ => by rw [sless_eq nofun])⟩
  | replace x =>
    cases hk
    exact ⟨fun _ _ => True, Spends.map (spends_replace f hN hI x) (fun _ _ _ => trivial)
      (fun x L _ => by rw [sless_eq nofun])⟩
  | popFirst =>
    cases hk
    obtain ⟨m', e, -⟩ := BTree.BTreeMap.popFirst_spec hN hI
    exact ⟨fun _ _ => True, Spends.map (spends_popFirst f hN hI e) (fun _ _ _ => trivial)
      (fun _ _ _ => Nat.le_refl _)⟩
  | popLast =>
    cases hk
    obtain ⟨m', e, -⟩ := BTree.BTreeMap.popLast_spec hN hI
    exact ⟨fun _ _ => True, Spends.map (spends_popLast f hN hI e) (fun _ _ _ => trivial)
      (fun _ _ _ => Nat.le_refl _)⟩
  | get q => exact ⟨_, Spends.of_cost (Prog.ReadOnly.map (getKeyValue_reads _ _)).cost hw⟩
  | contains q => exact ⟨_, Spends.of_cost (Prog.ReadOnly.map (containsKey_reads _ _)).cost hw⟩
  | first => exact ⟨_, Spends.of_cost (Prog.ReadOnly.map (first_reads _)).cost hw⟩
  | last => exact ⟨_, Spends.of_cost (Prog.ReadOnly.map (last_reads _)).cost hw⟩
  | len | isEmpty => exact ⟨_, Spends.of_cost .pure hw⟩
  | iter ds => exact ⟨_, Spends.of_cost (Prog.ReadOnly.map (iterRun_reads _ _ _ _)).cost hw⟩
  | range lb ub ds => exact ⟨_, Spends.of_cost (Prog.ReadOnly.map (range_reads _ _ _ _ _)).cost hw⟩
  | hash _ _ _ | serialize =>
    exact ⟨_, Spends.of_cost (Prog.ReadOnly.map (iterList_reads _)).cost hw⟩
  | retain | extend | splitOff => cases hk

omit [TransOrd T] [TransOrd Q] in
/-- A command grows a set by one element at most, if anything is claimed about it. -/
theorem set_one_size {m : BTreeSet T} (c : Nat) (cmd : SOne T S Q)
    (hk : (sallocs N c cmd 0).isSome) {y} (e : (btreeSetV T S Q N b).one m cmd = some y) :
    (∀ m' ∈ y.1, m'.map.len ≤ m.map.len + 1) ∧ ∀ m' ∈ y.2.1, m'.map.len ≤ m.map.len + 1 := by
  cases cmd with
  | clone => cases e; simp
  | drop => cases e; simp
  | intoIter => obtain ⟨z, -, rfl⟩ := Option.map_eq_some_iff.1 e; simp
  | clear => cases e; simp [BTreeSet.clear, BTreeMap.clear, BTreeMap.new]
  | insert x =>
    obtain ⟨z, e1, rfl⟩ := Option.map_eq_some_iff.1 e
    obtain ⟨z, e2, rfl⟩ := Option.map_eq_some_iff.1 e1
    simp [insert_len e2]
  | remove p =>
    obtain ⟨z, e0, rfl⟩ := Option.map_eq_some_iff.1 e
    obtain ⟨z, e1, rfl⟩ := Option.map_eq_some_iff.1 e0
    unfold BTreeMap.remove at e1
    split at e1
    · obtain ⟨z, e2, rfl⟩ := Option.map_eq_some_iff.1 e1
      have := rmAndRebal_len e2
      simp
      omega
    · cases e1; simp
  | take q =>
    obtain ⟨z, e1, rfl⟩ := Option.map_eq_some_iff.1 e
    have := take_len e1
    simp
    omega
  | replace x =>
    obtain ⟨z, e1, rfl⟩ := Option.map_eq_some_iff.1 e
    unfold BTreeSet.replace at e1
    split at e1
    · cases e1
    · rename_i s' ret e2
      obtain ⟨z, e3, rfl⟩ := Option.map_eq_some_iff.1 e1
      obtain ⟨z, e4, rfl⟩ := Option.map_eq_some_iff.1 e3
      have h1 : s'.map.len ≤ m.map.len := removeElem_len e2
      have h2 := insert_len e4
      simp
      omega
  | popFirst | popLast =>
    obtain ⟨z, e1, rfl⟩ := Option.map_eq_some_iff.1 e
    obtain ⟨z, e2, rfl⟩ := Option.map_eq_some_iff.1 e1
    have := rmAndRebal_len e2
    simp
    omega
  | range lb ub ds =>
    simp only [btreeSetV] at e
    split at e
    · cases e; simp
    · obtain ⟨z, -, rfl⟩ := Option.map_eq_some_iff.1 e
      simp
  | get q | contains q | last | len | isEmpty => cases e; simp
  | iter ds | first | hash _ _ _ | serialize =>
    obtain ⟨z, -, rfl⟩ := Option.map_eq_some_iff.1 e
    simp
  | retain | extend | splitOff => cases hk

/-! ## Programs -/

omit [Ord T] [TransOrd T] [Ord Q] [TransOrd Q] in
theorem sallocs_isSome (N c : Nat) (cmd : SOne T S Q) (n : Nat) :
    (sallocs N c cmd n).isSome = (sallocs N c cmd 0).isSome := by
  cases cmd <;> simp only [sallocs, Option.isSome_some] <;> split <;> rfl

theorem btreeSet_budget {I : Mem (ND T Unit) → Prop} {c : Nat} (f : Frugal I c)
    (hc : c ≠ 0 → ∀ h, I h) (hN : 1 ≤ N) (hb : ∀ x y, compare (b x) (b y) = compare x y) :
    Budget (btreeSetM T S Q N b) (btreeSetV T S Q N b) (BTreeSet.WF N) SetR I (·.map.len)
      (fun c => c = .new) (fun cmd => (sallocs N c cmd 0).isSome)
      (fun cmd n => (sallocs N c cmd n).getD 0) where
  mono cmd m n h := by
    have h0 := lvl_mono (N := N) h
    have h1 := Nat.mul_le_mul_left c h0
    have h3 := Nat.mul_le_mul_left c (Nat.mul_le_mul_left 3 h0)
    cases cmd <;> simp only [sallocs, Option.getD_some, Nat.le_refl] <;>
      first
      | exact Nat.le_refl _
      | (split <;> exact Nat.le_refl _)
      | omega
  make c' h := by
    subst h
    refine ⟨.pure, ?_⟩
    rintro y ⟨⟩ m hm
    simp only [List.mem_singleton] at hm
    subst hm
    exact Nat.zero_le _
  one {s m L} cmd h hI hR := by
    rw [← sallocs_isSome N c cmd m.map.len] at h
    obtain ⟨k, hk⟩ := Option.isSome_iff_exists.1 h
    obtain ⟨P, hq⟩ := set_one_spends f hc hN hb hI hR cmd hk
    exact ⟨P, hq.conseq (fun _ _ h => h) (fun x L _ => by
      rw [hk, Option.getD_some]; exact sless_le _ _ _ _ _)⟩
  size {m} cmd h hI y e := set_one_size c cmd h e
  look s s' c := set_look_reads b s s' c

theorem btreeSet_run {I : Mem (ND T Unit) → Prop} {c : Nat} (f : Frugal I c)
    (hc : c ≠ 0 → ∀ h, I h) (h0 : I .empty) (hN : 1 ≤ N)
    (hb : ∀ x y, compare (b x) (b y) = compare x y)
    (cs : List (Cmd (SMake T) (SOne T S Q) STwo (SLook T)))
    (hs : ∀ x ∈ cs, x.All (· = .new) (fun cmd => (sallocs N c cmd 0).isSome) (fun _ => False)) :
    ∃ h rs obs, (Machine.run (btreeSetM T S Q N b) cs []).exec .empty = some (h, some (rs, obs)) ∧
      h.next ≤ cost1 (fun cmd n => (sallocs N c cmd n).getD 0) cs.length cs := by
  obtain ⟨-, obs, -, h, rs, e⟩ := shown_of (btreeSetV_total hN hb) (btreeSetM_sound hN hb) cs
  obtain ⟨-, hn⟩ := budget_run (btreeSetV_total hN hb) (btreeSetM_sound hN hb)
    (btreeSet_budget f hc hN hb) cs hs (N := 0) Sim.init h0 (by simp) e
  refine ⟨h, rs, obs, e, ?_⟩
  rw [Nat.zero_add] at hn
  exact Nat.le_trans hn (Nat.le_of_eq (Nat.zero_add _))

/-- Commands on sets by shared reference, but not `clone`. -/
def isSharedSet : Cmd (SMake T) (SOne T S Q) STwo (SLook T) → Bool
  | .one _ (.get _) | .one _ (.contains _) | .one _ .first | .one _ .last | .one _ .len
  | .one _ .isEmpty | .one _ (.iter _) | .one _ (.range _ _ _) | .one _ (.hash _ _ _)
  | .one _ .serialize | .look _ _ _ => true
  | _ => false

omit [TransOrd T] [TransOrd Q] in
theorem btreeSet_quiet {c : Cmd (SMake T) (SOne T S Q) STwo (SLook T)} (hc : isSharedSet c) :
    Quiet (btreeSetM T S Q N b) c := by
  cases c with
  | make | two => cases hc
  | look i j c => exact fun s s' => set_look_reads b s s' c
  | one i c =>
    intro s
    cases c with
    | get q => exact quiet_one (getKeyValue_reads _ _)
    | contains q => exact quiet_one (containsKey_reads _ _)
    | first => exact quiet_one (first_reads _)
    | last => exact quiet_one (last_reads _)
    | len | isEmpty => exact ⟨trivial, by rintro h h' x ⟨⟩; exact ⟨rfl, rfl⟩⟩
    | iter n => exact quiet_one (iterRun_reads _ _ _ _)
    | range lb ub ds => exact quiet_one (range_reads _ _ _ _ _)
    | hash _ _ _ | serialize => exact quiet_one (iterList_reads _)
    | _ => cases hc

end

end Verif.BTreeH
