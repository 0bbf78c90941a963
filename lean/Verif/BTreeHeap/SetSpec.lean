import Verif.BTreeHeap.Set
import Verif.BTreeHeap.MapSpec
import Verif.AvlHeap.SubsetSpec
/-!
# `BTreeSet` on reference-counted memory does what it does on values
-/
set_option linter.unusedSectionVars false
namespace Verif.BTreeH
open Heap Heap.Machine Std
open BTree (Node InnerIter BTreeMap BTreeSet QBnd Sharing nodeOps NIter)
open BTree.BTreeMap (WF)
open Verif.AvlH (SMake STwo SLook SRes elemsOf)

variable {T S Q : Type}

/-- The set in memory is the value. -/
def SetR (h : HMap) (s : BTreeSet T) (L : Multiset (Handle (ND T Unit))) : Prop := R h s.map L

theorem wp_pos {α : Type} {c : Prop} [Decidable c] {x y : Prog (ND T Unit) α} {L Q} (hc : c)
    (h : wp x L Q) : wp (if c then x else y) L Q := by rwa [if_pos hc]

theorem wp_neg {α : Type} {c : Prop} [Decidable c] {x y : Prog (ND T Unit) α} {L Q} (hc : ¬ c)
    (h : wp y L Q) : wp (if c then x else y) L Q := by rwa [if_neg hc]

/-! ## Loops -/

/-- A loop on values. -/
def loopV (step : BTreeSet T → T → Option (BTreeSet T)) (s : BTreeSet T) :
    List T → Option (BTreeSet T)
  | [] => some s
  | x :: xs =>
    match step s x with
    | none => none
    | some s => loopV step s xs

section
variable [Ord T] {N : Nat}

theorem removeLoop_eq (xs : List T) : ∀ s : BTreeSet T, s.removeLoop N xs =
    loopV (fun s x => (s.remove N (compare x)).map (·.1)) s xs := by
  induction xs with
  | nil => intro s; rfl
  | cons x xs ih =>
    intro s
    simp only [BTreeSet.removeLoop, loopV]
    cases s.remove N (compare x) <;> simp [ih]

theorem entryLoop_eq (xs : List T) : ∀ s : BTreeSet T, s.entryLoop N xs =
    loopV (fun s x => ((BTree.btreeTrait T Unit N).orInsert s.map x () id).map (⟨·⟩)) s xs := by
  induction xs with
  | nil => intro s; rfl
  | cons x xs ih =>
    intro s
    simp only [BTreeSet.entryLoop, loopV]
    cases (BTree.btreeTrait T Unit N).orInsert s.map x () id <;> simp [ih]

theorem extend_eq (xs : List T) : ∀ s : BTreeSet T, s.extend N xs =
    loopV (fun s x => (s.insert N x).map (·.1)) s xs := by
  induction xs with
  | nil => intro s; rfl
  | cons x xs ih =>
    intro s
    simp only [BTreeSet.extend, loopV]
    cases s.insert N x <;> simp [ih]

theorem fromFilter_eq (p : T → Bool) (xs : List T) : ∀ s : BTreeSet T,
    s.extend N (xs.filter p) =
      loopV (fun s x => if p x then (s.insert N x).map (·.1) else some s) s xs := by
  induction xs with
  | nil => intro s; rfl
  | cons x xs ih =>
    intro s
    simp only [loopV, List.filter_cons]
    split
    · simp only [BTreeSet.extend]
      cases s.insert N x <;> simp [ih]
    · simp [ih]

theorem toggleLoop_eq (xs : List T) : ∀ s : BTreeSet T, s.toggleLoop N xs =
    loopV (fun s x => (s.remove N (compare x)).bind fun y =>
      if y.2 then some y.1 else (y.1.insert N x).map (·.1)) s xs := by
  induction xs with
  | nil => intro s; rfl
  | cons x xs ih =>
    intro s
    simp only [BTreeSet.toggleLoop, loopV]
    cases s.remove N (compare x) with
    | none => rfl
    | some y =>
      obtain ⟨s', b⟩ := y
      cases b with
      | true => simp [ih]
      | false =>
        simp only [Option.bind_some, Bool.false_eq_true, if_false]
        cases s'.insert N x <;> simp [ih]

variable [TransOrd T] {m : BTreeMap T Unit} {r : Option Nat}

/-- A loop over the elements of a set that is consumed, working on another. -/
theorem loop_spec (hN : 1 ≤ N) (h : WF N m) {G : Multiset (Handle (ND T Unit))}
    {f : HMap → T × Unit → Prog (ND T Unit) (HMap × Bool)}
    {step : BTreeSet T → T → Option (BTreeSet T)}
    (hstep : ∀ (w : BTreeSet T) (x : T), w.WF N → ∃ w', step w x = some w' ∧ w'.WF N ∧ ∀ r,
      wp (f ⟨w.map.len, r⟩ (x, ())) (own r (vtO w.map.root) + G)
        (fun y L => y.2 = true ∧ ∃ L', L = L' + G ∧ SetR y.1 w' L'))
    {acc res : BTreeSet T} {ra : Option Nat} (ha : acc.WF N)
    (e : loopV step acc (m.abs.map (·.1)) = some res) :
    wp (HMap.forEachInto ⟨m.len, r⟩ f ⟨acc.map.len, ra⟩)
      (own r (vtO m.root) + (own ra (vtO acc.map.root) + G))
      (fun x L => ∃ L', L = L' + G ∧ res.WF N ∧ SetR x res L') := by
  refine forEachInto_spec hN h (J := fun es x L => ∃ w L', L = L' + G ∧ BTreeSet.WF N w ∧
    SetR x w L' ∧ loopV step w (es.map (·.1)) = some res) ?_ ?_
    ⟨acc, _, rfl, ha, ⟨ra, rfl, rfl⟩, e⟩
  · rintro ⟨x, u⟩ rest s L ⟨w, L', rfl, hw, ⟨r', rfl, rfl⟩, he⟩
    obtain ⟨w', e1, hw', h1⟩ := hstep w x hw
    simp only [List.map_cons, loopV, e1] at he
    refine wp_conseq (h1 r') ?_
    rintro y L ⟨h2, L', rfl, h3⟩
    rw [if_pos h2]
    exact ⟨w', L', rfl, hw', h3, he⟩
  · rintro s L ⟨w, L', rfl, hw, h1, he⟩
    cases he
    exact ⟨L', rfl, hw, h1⟩

/-- As above, without anything else. -/
theorem loop_spec0 (hN : 1 ≤ N) (h : WF N m)
    {f : HMap → T × Unit → Prog (ND T Unit) (HMap × Bool)}
    {step : BTreeSet T → T → Option (BTreeSet T)}
    (hstep : ∀ (w : BTreeSet T) (x : T), w.WF N → ∃ w', step w x = some w' ∧ w'.WF N ∧ ∀ r,
      wp (f ⟨w.map.len, r⟩ (x, ())) (own r (vtO w.map.root))
        (fun y L => y.2 = true ∧ SetR y.1 w' L))
    {acc res : BTreeSet T} {ra : Option Nat} (ha : acc.WF N)
    (e : loopV step acc (m.abs.map (·.1)) = some res) :
    wp (HMap.forEachInto ⟨m.len, r⟩ f ⟨acc.map.len, ra⟩)
      (own r (vtO m.root) + own ra (vtO acc.map.root))
      (fun x L => SetR x res L) := by
  have := loop_spec (r := r) (G := 0) hN h (f := f) (step := step) ?_ (ra := ra) ha e
  · rw [add_zero] at this
    refine wp_conseq this ?_
    rintro x L ⟨L', rfl, -, h1⟩
    rwa [add_zero]
  · intro w x hw
    obtain ⟨w', e1, hw', h1⟩ := hstep w x hw
    refine ⟨w', e1, hw', fun r => ?_⟩
    rw [add_zero]
    refine wp_conseq (h1 r) ?_
    rintro y L ⟨h2, h3⟩
    exact ⟨h2, L, (add_zero L).symm, h3⟩

/-! ## Operations on one set -/

variable {s : BTreeSet T}

theorem hinsertElem_spec (hN : 1 ≤ N) (h : s.WF N) (x : T) : ∃ s',
    (s.insert N x).map (·.1) = some s' ∧ s'.WF N ∧ ∀ r,
    wp (HMap.insertElem N ⟨s.map.len, r⟩ x) (own r (vtO s.map.root))
      (fun y L => y.2 = true ∧ SetR y.1 s' L) := by
  obtain ⟨m', e, h', -⟩ := BTree.BTreeMap.insert_spec h x ()
  refine ⟨⟨m'⟩, by simp [BTreeSet.insert, e], h', fun r => ?_⟩
  refine wp_bind (wp_conseq (hinsert_spec (fun nd hr => dep_len hN h hr) e) ?_)
  rintro y L ⟨h1, -⟩
  exact wp_pure ⟨rfl, h1⟩

theorem hremoveElem_spec (hN : 1 ≤ N) (h : s.WF N) {p : T → Ordering} {s' o}
    (e : s.removeElem N p = some (s', o)) :
    wp (HMap.rmAndRebal ⟨s.map.len, r⟩ (BTreeH.remove N s.map.len p s.map.len))
      (own r (vtO s.map.root)) (fun x L => SetR x.1 s' L ∧ x.2.map (·.1) = o) := by
  obtain ⟨z, e1, e2⟩ := Option.map_eq_some_iff.1 e
  cases e2
  have hd : ∀ nd, s.map.root = some nd → (vt nd).Dep s.map.len := fun nd hr => dep_len hN h hr
  refine wp_conseq (hrmAndRebal_spec hd ?_ (m' := z.1) (old := z.2) e1) ?_
  · intro nd r x hm hx he
    exact remove_spec (hd nd hm) ((hd nd hm).mono (by simp)) hx he
  · rintro x L ⟨h1, h2⟩
    exact ⟨h1, by rw [h2]⟩

theorem htakeElem_spec (hN : 1 ≤ N) (h : s.WF N) {p : T → Ordering} {s' o}
    (e : s.take N p = some (s', o)) :
    wp (HMap.takeElem N ⟨s.map.len, r⟩ p) (own r (vtO s.map.root))
      (fun x L => SetR x.1 s' L ∧ x.2 = o) := by
  unfold BTreeSet.take BTreeSet.contains at e
  refine wp_bind (wp_conseq (hcontains_spec (fun nd hr => dep_len hN h hr)) ?_)
  rintro c L ⟨rfl, rfl⟩
  split at e
  · next hc =>
    rw [if_pos hc]
    cases e
    exact wp_pure ⟨⟨r, rfl, rfl⟩, rfl⟩
  · next hc =>
    rw [if_neg hc]
    refine wp_bind (wp_conseq (hremoveElem_spec hN h e) ?_)
    rintro x L ⟨h1, h2⟩
    exact wp_pure ⟨h1, h2⟩

theorem hreplaceElem_spec (hN : 1 ≤ N) (h : s.WF N) {x : T} {s' o}
    (e : s.replace N x = some (s', o)) :
    wp (HMap.replaceElem N ⟨s.map.len, r⟩ x) (own r (vtO s.map.root))
      (fun y L => SetR y.1 s' L ∧ y.2 = o) := by
  obtain ⟨s1, e1, h1, -⟩ := BTreeSet.removeElem_spec hN h (isProbe_compare x)
  obtain ⟨m2, e2, h2, -⟩ := BTree.BTreeMap.insert_spec h1 x ()
  simp only [BTreeSet.replace, e1, BTreeSet.insert, e2, Option.map_some, Option.some.injEq,
    Prod.mk.injEq] at e
  obtain ⟨rfl, rfl⟩ := e
  refine wp_bind (wp_conseq (hremoveElem_spec hN h e1) ?_)
  rintro y L ⟨⟨r', h3, rfl⟩, h4⟩
  rw [h3]
  refine wp_bind (wp_conseq (hinsert_spec (fun nd hr => dep_len hN h1 hr) e2) ?_)
  rintro z L ⟨h5, -⟩
  exact wp_pure ⟨h5, h4⟩

theorem hextendElems_spec (hN : 1 ≤ N) (xs : List T) : ∀ {s : BTreeSet T} {r s'}, s.WF N →
    s.extend N xs = some s' →
    wp (HMap.extendElems N ⟨s.map.len, r⟩ xs) (own r (vtO s.map.root))
      (fun x L => SetR x s' L) := by
  induction xs with
  | nil => intro s r s' h e; cases e; exact wp_pure ⟨r, rfl, rfl⟩
  | cons x xs ih =>
    intro s r s' h he
    obtain ⟨m1, e1, h1, -⟩ := BTree.BTreeMap.insert_spec h x ()
    simp only [BTreeSet.extend, BTreeSet.insert, e1, Option.map_some] at he
    refine wp_bind (wp_conseq (hinsert_spec (fun nd hr => dep_len hN h hr) e1) ?_)
    rintro y L ⟨⟨r', h2, rfl⟩, -⟩
    rw [h2]
    exact ih (s := ⟨m1⟩) h1 he

/-- How `retain` ends. -/
def RetainS (X : BTreeMap.RetainEnd S (BTreeSet T)) (x : HMap × Option S)
    (L : Multiset (Handle (ND T Unit))) : Prop :=
  match X with
  | .done s m => SetR x.1 m L ∧ x.2 = some s
  | .panicked m => SetR x.1 m L ∧ x.2 = none

theorem hretainElems_spec (hN : 1 ≤ N) (h : s.WF N) {f : S → T → Option (S × Bool)} {st : S} :
    wp (HMap.retainElems N ⟨s.map.len, r⟩ f st) (own r (vtO s.map.root))
      (RetainS (s.retain N .unique f st)) := by
  rw [BTreeSet.retain, BTreeSet.intoElems_spec hN h]
  dsimp only
  generalize hX : BTreeSet.retainLoop N f s.elems st .new = X
  have e0 : own r (vtO s.map.root) =
    own r (vtO s.map.root) + (0 : Multiset (Handle (ND T Unit))) := (add_zero _).symm
  rw [e0]
  refine forEachInto_spec hN h (J := fun es x L => ∃ w st, x.2 = some st ∧ BTreeSet.WF N w ∧
    SetR x.1 w L ∧ BTreeSet.retainLoop N f (es.map (·.1)) st w = X) ?_ ?_
    ⟨.new, st, rfl, BTree.BTreeMap.wf_new, ⟨none, rfl, rfl⟩, hX⟩
  · rintro ⟨x, u⟩ rest ⟨y, z⟩ L ⟨w, st, hz, hw, ⟨r', hy, rfl⟩, he⟩
    dsimp only at hz hy
    subst hz hy
    simp only [HMap.retainElem]
    simp only [List.map_cons, BTreeSet.retainLoop] at he
    cases hf : f st x with
    | none =>
      rw [hf] at he
      subst he
      refine wp_pure ?_
      rw [if_neg (by simp)]
      exact ⟨⟨_, rfl, rfl⟩, rfl⟩
    | some q =>
      obtain ⟨st', b⟩ := q
      rw [hf] at he
      cases b with
      | true =>
        obtain ⟨m1, e1, h1, -⟩ := BTree.BTreeMap.insert_spec hw x ()
        simp only [BTreeSet.insert, e1, Option.map_some] at he
        refine wp_bind (wp_conseq (hinsert_spec (fun nd hr => dep_len hN hw hr) e1) ?_)
        rintro y L ⟨h2, -⟩
        refine wp_pure ?_
        rw [if_pos rfl]
        exact ⟨⟨m1⟩, st', rfl, h1, h2, he⟩
      | false =>
        refine wp_pure ?_
        rw [if_pos rfl]
        exact ⟨w, st', rfl, hw, ⟨_, rfl, rfl⟩, he⟩
  · rintro ⟨y, z⟩ L ⟨w, st, hz, hw, h1, he⟩
    cases he
    exact ⟨h1, hz⟩

/-! ## Operations on two sets -/

variable {a b : BTreeSet T} {ra rb : Option Nat}

theorem hfilterBy_spec (hN : 1 ≤ N) (ha : a.WF N) (hb : b.WF N) (want : Bool) {res}
    (e : BTreeSet.fromIter N (a.elems.filter fun k => b.contains (compare k) == want) = some res) :
    wp (HMap.filterBy N want ⟨a.map.len, ra⟩ ⟨b.map.len, rb⟩ (T := T))
      (own ra (vtO a.map.root) + own rb (vtO b.map.root)) (fun x L => SetR x res L) := by
  rw [BTreeSet.fromIter, fromFilter_eq] at e
  have := loop_spec (r := ra) (G := own rb (vtO b.map.root)) hN ha
    (f := fun s (e : T × Unit) =>
      (HMap.containsKey (V := Unit) ⟨b.map.len, rb⟩ (compare e.1)).bind fun c =>
      if c == want then s.insertElem N e.1 else .pure (s, true))
    (step := fun s x => if b.contains (compare x) == want then (s.insert N x).map (·.1) else some s)
    (ra := none) (acc := .new) (res := res) ?_ BTree.BTreeMap.wf_new e
  · have e0 : own none (vtO (BTreeSet.new : BTreeSet T).map.root) = 0 := rfl
    rw [e0, zero_add] at this
    refine wp_bind (wp_conseq this ?_)
    rintro x _ ⟨L', rfl, hw, h1⟩
    wcall (hdrop_spec (m := b.map) (dep_lenO hN hb))
    rintro _ _ rfl
    rw [zero_add]
    exact wp_pure h1
  · intro w x hw
    have look : ∀ {r : Option Nat} {Q}
        (f : Bool → Prog (ND T Unit) (HMap × Bool)),
        wp (f (b.contains (compare x))) (own r (vtO w.map.root) + own rb (vtO b.map.root)) Q →
        wp ((HMap.containsKey (V := Unit) ⟨b.map.len, rb⟩ (compare x)).bind f)
          (own r (vtO w.map.root) + own rb (vtO b.map.root)) Q := by
      intro r Q f hf
      refine wp_call (own r (vtO w.map.root)) (hcontains_spec (m := b.map)
        (fun nd hr => dep_len hN hb hr)) (add_comm _ _) ?_
      rintro c L ⟨rfl, rfl⟩
      rwa [add_comm]
    dsimp only
    split
    · next hc =>
      obtain ⟨w', e1, hw', h1⟩ := hinsertElem_spec hN hw x
      refine ⟨w', e1, hw', fun r => look _ ?_⟩
      rw [if_pos hc]
      refine wp_tail (own rb (vtO b.map.root)) (h1 r) rfl ?_
      rintro y L ⟨h2, h3⟩
      exact ⟨h2, L, rfl, h3⟩
    · next hc =>
      refine ⟨w, rfl, hw, fun r => look _ ?_⟩
      rw [if_neg hc]
      exact wp_pure ⟨rfl, _, rfl, r, rfl, rfl⟩

theorem hnewDiff_spec (hN : 1 ≤ N) (ha : a.WF N) (hb : b.WF N) {res}
    (e : a.newDiff N .unique .unique b = some res) :
    wp (HMap.newDiff N ⟨a.map.len, ra⟩ ⟨b.map.len, rb⟩ (T := T))
      (own ra (vtO a.map.root) + own rb (vtO b.map.root)) (fun x L => SetR x res L) := by
  unfold BTreeSet.newDiff at e
  rw [BTreeSet.intoElems_spec hN ha, BTreeSet.intoElems_spec hN hb] at e
  unfold HMap.newDiff
  split at e
  · next hc =>
    refine wp_pos hc ?_
    exact hfilterBy_spec hN ha hb false (by simpa using e)
  · next hc =>
    refine wp_neg hc ?_
    rw [add_comm]
    dsimp only at e
    rw [removeLoop_eq] at e
    refine loop_spec0 hN hb ?_ ha e
    intro w x hw
    obtain ⟨m', e1, h', -⟩ := BTree.BTreeMap.remove_spec hN hw (isProbe_compare x)
    refine ⟨⟨m'⟩, by simp [BTreeSet.remove, e1], h', fun r => ?_⟩
    refine wp_bind (wp_conseq (hremove_spec (fun nd hr => dep_len hN hw hr) e1) ?_)
    rintro y L ⟨h1, -⟩
    exact wp_pure ⟨rfl, h1⟩

theorem hnewIntersection_spec (hN : 1 ≤ N) (ha : a.WF N) (hb : b.WF N) {res}
    (e : a.newIntersection N .unique .unique b = some res) :
    wp (HMap.newIntersection N ⟨a.map.len, ra⟩ ⟨b.map.len, rb⟩ (T := T))
      (own ra (vtO a.map.root) + own rb (vtO b.map.root)) (fun x L => SetR x res L) := by
  unfold BTreeSet.newIntersection at e
  rw [BTreeSet.intoElems_spec hN ha, BTreeSet.intoElems_spec hN hb] at e
  unfold HMap.newIntersection
  split at e
  · next hc =>
    refine wp_pos hc ?_
    exact hfilterBy_spec hN ha hb true (by simpa using e)
  · next hc =>
    refine wp_neg hc ?_
    rw [add_comm]
    exact hfilterBy_spec hN hb ha true (by simpa using e)

theorem hentry_spec (hN : 1 ≤ N) (h : s.WF N) {x : T} {m'}
    (e : (BTree.btreeTrait T Unit N).orInsert s.map x () id = some m') :
    wp (HMap.orInsert N ⟨s.map.len, r⟩ x (fun _ => ()) id) (own r (vtO s.map.root))
      (fun y L => y.2.2 = true ∧ R y.1 m' L) := by
  unfold HMap.orInsert
  refine wp_bind (wp_conseq (hcontains_spec (fun nd hr => dep_len hN h hr)) ?_)
  rintro c L ⟨rfl, rfl⟩
  simp only [Lib.MapTrait.orInsert, Lib.MapTrait.orInsertWithKey, BTree.btreeTrait] at e
  by_cases hc : s.map.containsKey (compare x) = true
  · simp only [hc, if_true] at e ⊢
    replace ⟨z, e, e2⟩ := Option.map_eq_some_iff.1 e
    subst e2
    by_cases hg : (s.map.getMut (compare x) id).2 = true
    · simp only [hg, if_true] at e
      cases e
      refine wp_bind (wp_conseq (hgetMut_spec (fun nd hr => dep_len hN h hr)) ?_)
      rintro y L ⟨h1, h2⟩
      exact wp_pure ⟨by dsimp only; rw [h2]; exact hg, h1⟩
    · simp [hg] at e
  · obtain ⟨m1, e1, h1, -⟩ := BTree.BTreeMap.insert_spec h x ()
    simp only [hc, Bool.false_eq_true, if_false, e1, Option.map_some] at e ⊢
    replace ⟨z, e, e2⟩ := Option.map_eq_some_iff.1 e
    subst e2
    by_cases hg : (m1.getMut (compare x) id).2 = true
    · simp only [hg, if_true] at e
      cases e
      refine wp_bind (wp_conseq (hinsert_spec (fun nd hr => dep_len hN h hr) e1) ?_)
      rintro y L ⟨⟨r', h2, rfl⟩, -⟩
      rw [h2]
      refine wp_bind (wp_conseq (hgetMut_spec (fun nd hr => dep_len hN h1 hr)) ?_)
      rintro y L ⟨h1, h2⟩
      exact wp_pure ⟨by dsimp only; rw [h2]; exact hg, h1⟩
    · simp [hg] at e

theorem hnewUnion_spec (hN : 1 ≤ N) (ha : a.WF N) (hb : b.WF N) {res}
    (e : a.newUnion N .unique .unique b = some res) :
    wp (HMap.newUnion N ⟨a.map.len, ra⟩ ⟨b.map.len, rb⟩ (T := T))
      (own ra (vtO a.map.root) + own rb (vtO b.map.root)) (fun x L => SetR x res L) := by
  unfold BTreeSet.newUnion at e
  rw [BTreeSet.intoElems_spec hN ha, BTreeSet.intoElems_spec hN hb] at e
  unfold HMap.newUnion
  split at e
  · next hc =>
    refine wp_pos hc ?_
    dsimp only at e
    rw [entryLoop_eq] at e
    refine loop_spec0 hN ha ?_ hb e
    intro w x hw
    obtain ⟨m', e1, h', -⟩ := BTreeSet.orInsert_spec hw x
    refine ⟨⟨m'⟩, by simp [e1], h', fun r => ?_⟩
    refine wp_bind (wp_conseq (hentry_spec hN hw e1) ?_)
    rintro y L ⟨h1, h2⟩
    rw [if_pos h1]
    exact wp_pure ⟨rfl, h2⟩
  · next hc =>
    refine wp_neg hc ?_
    rw [add_comm]
    dsimp only at e
    rw [extend_eq] at e
    exact loop_spec0 hN hb (fun w x hw => hinsertElem_spec hN hw x) ha e

theorem htoggleAll_spec (hN : 1 ≤ N) (ha : a.WF N) (hb : b.WF N) {res}
    (e : a.toggleLoop N b.elems = some res) :
    wp (HMap.toggleAll N ⟨a.map.len, ra⟩ ⟨b.map.len, rb⟩ (T := T))
      (own ra (vtO a.map.root) + own rb (vtO b.map.root)) (fun x L => SetR x res L) := by
  rw [toggleLoop_eq] at e
  rw [add_comm]
  refine loop_spec0 hN hb ?_ ha e
  intro w x hw
  obtain ⟨m', e1, h', -⟩ := BTree.BTreeMap.remove_spec hN hw (isProbe_compare x)
  obtain ⟨w', e2, hw', h2⟩ := hinsertElem_spec hN (s := ⟨m'⟩) h' x
  dsimp only
  simp only [BTreeSet.remove, e1, Option.map_some, Option.bind_some]
  split
  · next hc =>
    refine ⟨⟨m'⟩, rfl, h', fun r => ?_⟩
    refine wp_bind (wp_conseq (hremove_spec (fun nd hr => dep_len hN hw hr) e1) ?_)
    rintro y L ⟨h1, h3⟩
    rw [h3, if_pos hc]
    exact wp_pure ⟨rfl, h1⟩
  · next hc =>
    refine ⟨w', e2, hw', fun r => ?_⟩
    refine wp_bind (wp_conseq (hremove_spec (fun nd hr => dep_len hN hw hr) e1) ?_)
    rintro y L ⟨⟨r', h1, rfl⟩, h3⟩
    rw [h3, if_neg hc, h1]
    exact h2 r'

theorem hnewSymDiff_spec (hN : 1 ≤ N) (ha : a.WF N) (hb : b.WF N) {res}
    (e : a.newSymDiff N .unique .unique b = some res) :
    wp (HMap.newSymDiff N ⟨a.map.len, ra⟩ ⟨b.map.len, rb⟩ (T := T))
      (own ra (vtO a.map.root) + own rb (vtO b.map.root)) (fun x L => SetR x res L) := by
  unfold BTreeSet.newSymDiff at e
  rw [BTreeSet.intoElems_spec hN ha, BTreeSet.intoElems_spec hN hb] at e
  unfold HMap.newSymDiff
  split at e
  · next hc =>
    refine wp_pos hc ?_
    exact htoggleAll_spec hN ha hb e
  · next hc =>
    refine wp_neg hc ?_
    rw [add_comm]
    exact htoggleAll_spec hN hb ha e

end

/-! ## Lazy set operations -/

/-- The iterator of a set in memory is the iterator on values. -/
def IterR (M : Multiset (Handle (ND T Unit))) (n : Nat) (i : HMap.SetIter T)
    (it : InnerIter (NIter (T × Unit) (Node T Unit))) : Prop :=
  i.2.len = it.len ∧ ((i.2.work = [] ∧ it.work = []) ∨
    ∃ a t u G, i.1 = some a ∧ M = {⟨some a, t, u⟩} + G ∧
      List.Forall₂ (SRel n t) i.2.work it.work)

theorem setNext_agree (M : Multiset (Handle (ND T Unit))) (n : Nat) :
    Heap.SetOps.Agree M (IterR M n) (HMap.setNext (n + 1)) BTreeSet.iterNext := by
  rintro ⟨o, ⟨w, len⟩⟩ ⟨wt, vlen⟩ y ⟨hl, h⟩ e
  dsimp only at hl h
  subst hl
  obtain ⟨⟨it', z⟩, e1, rfl⟩ := Option.map_eq_some_iff.1 e
  rcases h with ⟨rfl, rfl⟩ | ⟨a, t, u, G, rfl, hM, h⟩
  · simp only [BTree.NodeIterOps.next, Option.some.injEq, Prod.mk.injEq] at e1
    obtain ⟨rfl, rfl⟩ := e1
    exact wp_pure ⟨rfl, ⟨rfl, .inl ⟨rfl, rfl⟩⟩, rfl⟩
  · unfold HMap.setNext
    refine wp_call G (next_ok (h := []) (s := ()) (sharedFront (n := n) (a := a) (t := t) (u := u))
      (it := ⟨w, len⟩) (jt := ⟨wt, len⟩) rfl ⟨h, rfl⟩ e1) hM ?_
    rintro ⟨_, j, x⟩ L ⟨h1, ⟨h2, rfl⟩, h3⟩
    refine wp_pure ⟨?_, ⟨h1, .inr ⟨a, t, u, G, rfl, hM, h2⟩⟩, hM.symm⟩
    cases z with
    | none =>
      have h3 : x = none := h3
      rw [h3]
    | some z =>
      obtain ⟨_, h3, rfl⟩ := h3
      dsimp only at h3
      rw [h3]

section
variable {M G G' : Multiset (Handle (ND T Unit))} {α : Type} [Ord T] [TransOrd T] {N : Nat}
  {x y : BTreeSet T} {r r' : Option Nat}

theorem setIter_spec {s : BTreeSet T} {n : Nat} (hN : 1 ≤ N) (h : s.WF N)
    (hn : s.map.len ≤ n + 1) (hM : M = own r (vtO s.map.root) + G)
    {P : α → Multiset (Handle (ND T Unit)) → Prop} {k : HMap.SetIter T → Prog (ND T Unit) α}
    (hk : ∀ i, IterR M n i s.map.iter → wp (k i) M P) :
    wp ((HMap.setIter ⟨s.map.len, r⟩).bind k) M P := by
  have hd : ∀ nd, s.map.root = some nd → (vt nd).Dep s.map.len := fun nd hr => dep_len hN h hr
  refine wp_root G hM ?_ ?_
  · rintro rfl h0
    rw [h0] at hM
    simp only [HMap.setIter, Prog.bind]
    rw [show G = M by rw [hM]; simp [vtO]]
    refine hk _ ⟨?_, .inl ⟨rfl, ?_⟩⟩ <;> simp [BTreeMap.iter, BTree.iterOf, h0]
  · rintro a nd rfl h0
    rw [h0] at hM
    simp only [HMap.setIter]
    refine wp_bind (wp_call G (L := {⟨some a, vt nd, false⟩})
      (sharedMake_spec (n := n) (t := vt nd) (p := []) rfl ((hd nd h0).mono hn)) rfl ?_)
    rintro ⟨_, e⟩ L ⟨h1, rfl⟩
    refine wp_pure ?_
    have hM' : M = {⟨some a, vt nd, false⟩} + G := hM
    rw [← hM']
    refine hk _ ⟨?_, .inr ⟨a, vt nd, false, G, rfl, hM', ?_⟩⟩
    · simp [BTreeMap.iter, BTree.iterOf, h0]
    · simp only [BTreeMap.iter, BTree.iterOf, h0]
      exact .cons h1 .nil

theorem withSetOp_spec (hN : 1 ≤ N) (hx : x.WF N) (hy : y.WF N)
    (hM : M = own r (vtO x.map.root) + G) (hM' : M = own r' (vtO y.map.root) + G')
    {P : α → Multiset (Handle (ND T Unit)) → Prop}
    {k : Lib.MergeIter (HMap.SetIter T) T → Prog (ND T Unit) α}
    (hk : ∀ i, Heap.SetOps.MergeR (IterR M (x.map.len + y.map.len)) i (BTreeSet.setOp x y) →
      wp (k i) M P) :
    wp (HMap.withSetOp ⟨x.map.len, r⟩ ⟨y.map.len, r'⟩ k) M P := by
  refine setIter_spec hN hx (n := x.map.len + y.map.len) (by omega) hM fun i h1 => ?_
  refine setIter_spec hN hy (n := x.map.len + y.map.len) (by omega) hM' fun j h2 => ?_
  exact hk _ ⟨⟨rfl, h1⟩, rfl, h2⟩

theorem hsetOpRun_spec (hN : 1 ≤ N) (hx : x.WF N) (hy : y.WF N)
    (hM : M = own r (vtO x.map.root) + G) (hM' : M = own r' (vtO y.map.root) + G')
    {F n : Nat} {ys : List (Option T)} (e : BTreeSet.setOpRun F x y n = some ys) :
    wp (HMap.setOpRun (T := T) F ⟨x.map.len, r⟩ ⟨y.map.len, r'⟩ n) M
      (fun z L => z = ys ∧ L = M) :=
  withSetOp_spec hN hx hy hM hM' fun _ h =>
    Heap.SetOps.setOpRun_agree (setNext_agree M _) F _ n h e

theorem hsetOpNone_spec (hN : 1 ≤ N) (hx : x.WF N) (hy : y.WF N)
    (hM : M = own r (vtO x.map.root) + G) (hM' : M = own r' (vtO y.map.root) + G')
    {F : Nat} {b : Bool} (e : BTreeSet.setOpNone F x y = some b) :
    wp (HMap.setOpNone (T := T) F ⟨x.map.len, r⟩ ⟨y.map.len, r'⟩) M
      (fun z L => z = b ∧ L = M) := by
  refine withSetOp_spec hN hx hy hM hM' fun i h => ?_
  obtain ⟨z, e1, rfl⟩ := Option.map_eq_some_iff.1 e
  refine wp_bind (wp_conseq (Heap.SetOps.setOpNext_agree (setNext_agree M _) F _ h e1) ?_)
  rintro w L ⟨h1, -, rfl⟩
  exact wp_pure ⟨by rw [h1], rfl⟩

theorem hisSubset_spec (hN : 1 ≤ N) (hx : x.WF N) (hy : y.WF N)
    (hM : M = own r (vtO x.map.root) + G) (hM' : M = own r' (vtO y.map.root) + G')
    {b : Bool} (e : BTreeSet.isSubset x y = some b) :
    wp (HMap.isSubset T ⟨x.map.len, r⟩ ⟨y.map.len, r'⟩) M (fun z L => z = b ∧ L = M) := by
  unfold BTreeSet.isSubset at e
  unfold HMap.isSubset
  split at e
  · next hc =>
    cases e
    exact wp_pos hc (wp_pure ⟨rfl, rfl⟩)
  · next hc =>
    refine wp_neg hc ?_
    split at e
    · next hc => exact wp_pos hc (hsetOpNone_spec hN hx hy hM hM' e)
    · next hc => cases e; exact wp_neg hc (wp_pure ⟨rfl, rfl⟩)

end

/-! ## The machine -/

/-- The end of an operation that returns one set. -/
theorem spost1 {h : HMap} {m : BTreeSet T} {L} {o : SRes T S} (hR : SetR h m L) :
    o = o ∧ ∃ L1 L2, L = L1 + L2 ∧ HoldsO SetR (some h) (some m) L1 ∧
      HoldsL (SetR (T := T)) [] [] L2 :=
  ⟨rfl, L, 0, (add_zero _).symm, .some hR, .nil⟩

section
variable [Ord T] [TransOrd T] [Ord Q] [TransOrd Q] {N : Nat} {b : T → Q}

/-- No operation panics unexpectedly, and all keep `WF`. -/
theorem btreeSetV_total (hN : 1 ≤ N) (hb : ∀ a c, compare (b a) (b c) = compare a c) :
    Total (btreeSetV T S Q N b) (BTreeSet.WF N) where
  make c := by
    cases c with
    | new => exact ⟨_, rfl, by simp [show BTreeSet.WF N (.new : BTreeSet T) from BTree.BTreeMap.wf_new]⟩
    | fromIter es =>
      obtain ⟨m, e, h, -⟩ := BTreeSet.extend_spec (N := N) (s := .new) BTree.BTreeMap.wf_new es
      exact ⟨([m], .unit), by simp [btreeSetV, BTreeSet.fromIter, e], by simp [h]⟩
  one {m} c h := by
    have hp : ∀ q : Q, Verif.IsProbe (probe b q) := Verif.isProbe_borrow b hb
    cases c with
    | clone => exact ⟨_, rfl, by simp [h], by simp [h]⟩
    | drop => exact ⟨_, rfl, by simp, by simp⟩
    | clear => exact ⟨_, rfl, by simp [BTreeSet.clear, BTreeMap.clear]; exact BTree.BTreeMap.wf_new, by simp⟩
    | insert x =>
      obtain ⟨m', e, h', -⟩ := BTreeSet.insert_spec h x
      exact ⟨_, by simp only [btreeSetV, e]; rfl, by simp [h'], by simp⟩
    | remove q =>
      obtain ⟨m', e, h', -⟩ := BTreeSet.remove_spec hN h (hp q)
      exact ⟨_, by simp only [btreeSetV, e]; rfl, by simp [h'], by simp⟩
    | take q =>
      obtain ⟨m', e, h', -⟩ := BTreeSet.take_spec hN h (hp q)
      exact ⟨_, by simp only [btreeSetV, e]; rfl, by simp [h'], by simp⟩
    | replace x =>
      obtain ⟨m', e, h', -⟩ := BTreeSet.replace_spec hN h x
      exact ⟨_, by simp only [btreeSetV, e]; rfl, by simp [h'], by simp⟩
    | popFirst =>
      obtain ⟨m', e, h', -⟩ := BTree.BTreeMap.popFirst_spec hN h
      exact ⟨_, by simp only [btreeSetV, BTreeSet.popFirst, e]; rfl, by simp [h'], by simp⟩
    | popLast =>
      obtain ⟨m', e, h', -⟩ := BTree.BTreeMap.popLast_spec hN h
      exact ⟨_, by simp only [btreeSetV, BTreeSet.popLast, e]; rfl, by simp [h'], by simp⟩
    | get q => exact ⟨_, rfl, by simp [h], by simp⟩
    | contains q => exact ⟨_, rfl, by simp [h], by simp⟩
    | first =>
      exact ⟨_, by simp only [btreeSetV, BTreeSet.first, BTree.BTreeMap.firstKeyValue_spec hN h]; rfl,
        by simp [h], by simp⟩
    | last => exact ⟨_, rfl, by simp [h], by simp⟩
    | len => exact ⟨_, rfl, by simp [h], by simp⟩
    | isEmpty => exact ⟨_, rfl, by simp [h], by simp⟩
    | iter ds =>
      exact ⟨_, by simp only [btreeSetV, BTree.BTreeMap.iter_run_spec hN h]; rfl, by simp [h], by simp⟩
    | intoIter ds =>
      exact ⟨_, by simp only [btreeSetV, BTree.BTreeMap.intoIter_run_spec hN h]; rfl, by simp, by simp⟩
    | range lb ub ds =>
      simp only [btreeSetV]
      cases e : m.map.range b lb ub with
      | none => exact ⟨_, rfl, by simp [h], by simp⟩
      | some it =>
        obtain ⟨ys, e1⟩ := range_total hb hN h lb ub ds e
        exact ⟨_, by simp only [e1]; rfl, by simp [h], by simp⟩
    | retain f s =>
      obtain ⟨s', h', -, e⟩ := BTreeSet.retain_spec hN h .unique f s
      refine ⟨_, rfl, ?_, ?_⟩
      · cases hv : (BTreeSet.visit f s m.elems).1 <;> rw [hv] at e <;> simp [e, h']
      · cases hv : (BTreeSet.visit f s m.elems).1 <;> rw [hv] at e <;> simp [e]
    | extend es =>
      obtain ⟨m', e, h', -⟩ := BTreeSet.extend_spec h es
      exact ⟨_, by simp only [btreeSetV, e]; rfl, by simp [h'], by simp⟩
    | splitOff q =>
      obtain ⟨m1, m2, e, h1, h2, -⟩ := BTree.BTreeMap.splitOff_spec hN h .unique (probe b q)
      exact ⟨_, by simp only [btreeSetV, BTreeSet.splitOff, e]; rfl, by simp [h1], by simp [h2]⟩
    | hash hLen hT s =>
      exact ⟨_, by simp only [btreeSetV, BTreeSet.hashSet, BTree.BTreeMap.iterList_spec hN h]; rfl,
        by simp [h], by simp⟩
    | serialize =>
      exact ⟨_, by simp only [btreeSetV, BTreeMap.serialize, BTree.BTreeMap.iterList_spec hN h]; rfl,
        by simp [h], by simp⟩
  two {l r} c hl hr := by
    cases c with
    | append =>
      obtain ⟨m', e, h', -⟩ := BTree.BTreeMap.extend_spec hl r.map.abs
      exact ⟨_, by
        simp only [btreeSetV, BTreeSet.append, BTreeMap.append,
          BTree.BTreeMap.intoList_spec hN hr, e]; rfl,
        by simp [h'], by simp [show BTreeSet.WF N (⟨.new⟩ : BTreeSet T) from BTree.BTreeMap.wf_new],
        by simp⟩
    | union =>
      obtain ⟨m', e, h', -⟩ := BTreeSet.newUnion_spec hN hl hr .unique .unique
      exact ⟨_, by simp only [btreeSetV, e]; rfl, by simp, by simp, by simp [h']⟩
    | intersection =>
      obtain ⟨m', e, h', -⟩ := BTreeSet.newIntersection_spec hN hl hr .unique .unique
      exact ⟨_, by simp only [btreeSetV, e]; rfl, by simp, by simp, by simp [h']⟩
    | difference =>
      obtain ⟨m', e, h', -⟩ := BTreeSet.newDiff_spec hN hl hr .unique .unique
      exact ⟨_, by simp only [btreeSetV, e]; rfl, by simp, by simp, by simp [h']⟩
    | symDiff =>
      obtain ⟨m', e, h', -⟩ := BTreeSet.newSymDiff_spec hN hl hr .unique .unique
      exact ⟨_, by simp only [btreeSetV, e]; rfl, by simp, by simp, by simp [h']⟩
  look {l r} c hl hr := by
    have sub : ∀ {x y : BTreeSet T}, x.WF N → y.WF N → ∃ z, BTreeSet.isSubset x y = some z := by
      intro x y hx hy
      unfold BTreeSet.isSubset
      split
      · exact ⟨_, rfl⟩
      · split
        · exact ⟨_, BTreeSet.setOpNone_spec hN hx hy 4⟩
        · exact ⟨_, rfl⟩
    cases c with
    | eq eqE =>
      simp only [btreeSetV, BTreeSet.eqSet, BTreeMap.eqMap, BTree.BTreeMap.iterList_spec hN hl,
        BTree.BTreeMap.iterList_spec hN hr]
      split <;> exact ⟨_, rfl⟩
    | partialCmp cmpE =>
      simp only [btreeSetV, BTreeSet.partialCmpSet, BTreeMap.partialCmpMap,
        BTree.BTreeMap.iterList_spec hN hl, BTree.BTreeMap.iterList_spec hN hr]
      exact ⟨_, rfl⟩
    | cmp cmpE =>
      simp only [btreeSetV, BTreeSet.cmpSet, BTreeMap.cmpMap, BTree.BTreeMap.iterList_spec hN hl,
        BTree.BTreeMap.iterList_spec hN hr]
      exact ⟨_, rfl⟩
    | setOp F n =>
      exact ⟨_, by simp only [btreeSetV, BTreeSet.setOpRun_spec hN hl hr]; rfl⟩
    | isDisjoint =>
      exact ⟨_, by simp only [btreeSetV, BTreeSet.isDisjoint, BTreeSet.setOpNone_spec hN hl hr]; rfl⟩
    | isSubset =>
      obtain ⟨z, e⟩ := sub hl hr
      exact ⟨_, by simp only [btreeSetV, e]; rfl⟩
    | isSuperset =>
      obtain ⟨z, e⟩ := sub hr hl
      exact ⟨_, by simp only [btreeSetV, BTreeSet.isSuperset, e]; rfl⟩

/-- The operations on memory do what the operations on values do. -/
theorem btreeSetM_sound (hN : 1 ≤ N) (hb : ∀ a c, compare (b a) (b c) = compare a c) :
    Sound (btreeSetM T S Q N b) (btreeSetV T S Q N b) (BTreeSet.WF N) SetR where
  make {c y} e := by
    cases c with
    | new => cases e; exact wp_pure ⟨rfl, HoldsR.single ⟨none, rfl, rfl⟩⟩
    | fromIter es =>
      obtain ⟨m, e', rfl⟩ := Option.map_eq_some_iff.1 e
      have := hextendElems_spec hN es (r := none) (s := .new) BTree.BTreeMap.wf_new e'
      refine wp_bind (wp_conseq this ?_)
      rintro x L h
      exact wp_pure ⟨rfl, HoldsR.single h⟩
  one {h m L c y} hI hR e := by
    obtain ⟨r, rfl, rfl⟩ := hR
    have hd : ∀ nd, m.map.root = some nd → (vt nd).Dep m.map.len := fun nd hr => dep_len hN hI hr
    have hp : ∀ q : Q, Verif.IsProbe (probe b q) := Verif.isProbe_borrow b hb
    have same : SetR ⟨m.map.len, r⟩ m (own r (vtO m.map.root)) := ⟨r, rfl, rfl⟩
    cases c with
    | clone =>
      cases e
      refine wp_bind (wp_conseq hclone_spec ?_)
      rintro x L ⟨L', rfl, h⟩
      exact wp_pure ⟨rfl, _, _, rfl, .some ⟨r, rfl, rfl⟩, HoldsR.single h⟩
    | drop =>
      cases e
      refine wp_bind (wp_conseq (hdrop_spec (dep_lenO hN hI)) ?_)
      rintro x L rfl
      exact wp_pure ⟨rfl, 0, 0, rfl, .none, .nil⟩
    | clear =>
      cases e
      refine wp_bind (wp_bind (wp_conseq (hdrop_spec (dep_lenO hN hI)) ?_))
      rintro x L rfl
      exact wp_pure (wp_pure (spost1 ⟨none, rfl, rfl⟩))
    | insert x =>
      simp only [btreeSetV, BTreeSet.insert, Option.map_map] at e
      obtain ⟨z, e1, rfl⟩ := Option.map_eq_some_iff.1 e
      refine wp_bind (wp_conseq (hinsert_spec hd e1) ?_)
      rintro x L ⟨h, h2⟩
      exact wp_pure (by rw [h2]; exact spost1 h)
    | remove q =>
      simp only [btreeSetV, BTreeSet.remove, Option.map_map] at e
      obtain ⟨z, e1, rfl⟩ := Option.map_eq_some_iff.1 e
      refine wp_bind (wp_conseq (hremove_spec hd e1) ?_)
      rintro x L ⟨h, h2⟩
      exact wp_pure (by rw [h2]; exact spost1 h)
    | take q =>
      obtain ⟨z, e1, rfl⟩ := Option.map_eq_some_iff.1 e
      refine wp_bind (wp_conseq (htakeElem_spec hN hI (s' := z.1) (o := z.2) e1) ?_)
      rintro x L ⟨h, h2⟩
      exact wp_pure (by rw [h2]; exact spost1 h)
    | replace x =>
      obtain ⟨z, e1, rfl⟩ := Option.map_eq_some_iff.1 e
      refine wp_bind (wp_conseq (hreplaceElem_spec hN hI (s' := z.1) (o := z.2) e1) ?_)
      rintro x L ⟨h, h2⟩
      exact wp_pure (by rw [h2]; exact spost1 h)
    | popFirst =>
      simp only [btreeSetV, BTreeSet.popFirst, Option.map_map] at e
      obtain ⟨z, e1, rfl⟩ := Option.map_eq_some_iff.1 e
      refine wp_bind (wp_conseq (hpopFirst_spec hd e1) ?_)
      rintro x L ⟨h, h2⟩
      exact wp_pure (by rw [h2]; exact spost1 h)
    | popLast =>
      simp only [btreeSetV, BTreeSet.popLast, Option.map_map] at e
      obtain ⟨z, e1, rfl⟩ := Option.map_eq_some_iff.1 e
      refine wp_bind (wp_conseq (hpopLast_spec hd e1) ?_)
      rintro x L ⟨h, h2⟩
      exact wp_pure (by rw [h2]; exact spost1 h)
    | get q =>
      cases e
      refine wp_bind (wp_conseq (hget_spec hd) ?_)
      rintro x L ⟨rfl, rfl⟩
      exact wp_pure (spost1 same)
    | contains q =>
      cases e
      refine wp_bind (wp_conseq (hcontains_spec hd) ?_)
      rintro x L ⟨rfl, rfl⟩
      exact wp_pure (spost1 same)
    | first =>
      simp only [btreeSetV, BTreeSet.first, Option.map_map] at e
      obtain ⟨z, e1, rfl⟩ := Option.map_eq_some_iff.1 e
      refine wp_bind (wp_conseq (hfirst_spec hd e1) ?_)
      rintro x L ⟨rfl, rfl⟩
      exact wp_pure (spost1 same)
    | last =>
      cases e
      refine wp_bind (wp_conseq (hlast_spec hd) ?_)
      rintro x L ⟨rfl, rfl⟩
      exact wp_pure (spost1 same)
    | len => cases e; exact wp_pure (spost1 same)
    | isEmpty => cases e; exact wp_pure (spost1 same)
    | iter ds =>
      obtain ⟨z, e1, rfl⟩ := Option.map_eq_some_iff.1 e
      refine wp_bind (wp_conseq (hiter_spec hN hI e1) ?_)
      rintro x L ⟨rfl, rfl⟩
      exact wp_pure (spost1 same)
    | intoIter ds =>
      simp only [btreeSetV, BTree.BTreeMap.intoIter_run_spec hN hI, Option.map_some] at e
      cases e
      refine wp_bind (wp_conseq (intoRun_spec hd (BTree.BTreeMap.iter_run_spec hN hI ds)) ?_)
      rintro x L ⟨rfl, rfl⟩
      exact wp_pure ⟨rfl, 0, 0, rfl, .none, .nil⟩
    | range lb ub ds =>
      simp only [btreeSetV] at e
      simp only [btreeSetM, HMap.range]
      by_cases hc : lb.bad ub = true
      · rw [if_pos hc]
        rw [BTreeMap.range, if_pos hc] at e
        cases e
        exact wp_pure (spost1 same)
      · rw [if_neg hc]
        rw [range_eq b m.map hc] at e
        cases hw : m.map.root.elim (some []) (BTree.mkWork (lb.bnd b) (ub.bnd b)) with
        | none =>
          rw [hw] at e
          cases e
          refine wp_bind (wp_conseq (rangeRun_spec (ys := none) hd ?_ ?_) ?_)
          · intro w h; rw [hw] at h; cases h
          · intro _; rfl
          · rintro x L ⟨rfl, rfl⟩
            exact wp_pure (spost1 same)
        | some w =>
          rw [hw] at e
          obtain ⟨z, e1, rfl⟩ := Option.map_eq_some_iff.1 e
          refine wp_bind (wp_conseq (rangeRun_spec (ys := some z) hd ?_ ?_) ?_)
          · intro w' h; rw [hw] at h; cases h; exact ⟨z, e1, rfl⟩
          · intro h; rw [hw] at h; cases h
          · rintro x L ⟨rfl, rfl⟩
            exact wp_pure (spost1 same)
    | retain f s =>
      cases e
      refine wp_bind (wp_conseq (hretainElems_spec hN hI) ?_)
      intro x L h
      cases e : m.retain N .unique f s with
      | done s' m' =>
        rw [e] at h
        exact wp_pure (by simp only [h.2]; exact spost1 h.1)
      | panicked m' =>
        rw [e] at h
        exact wp_pure (by simp only [h.2]; exact spost1 h.1)
    | extend es =>
      obtain ⟨z, e1, rfl⟩ := Option.map_eq_some_iff.1 e
      refine wp_bind (wp_conseq (hextendElems_spec hN es hI e1) ?_)
      rintro x L h
      exact wp_pure (spost1 h)
    | splitOff q =>
      simp only [btreeSetV, BTreeSet.splitOff, Option.map_map] at e
      obtain ⟨z, e1, rfl⟩ := Option.map_eq_some_iff.1 e
      rw [BTreeMap.splitOff, BTree.BTreeMap.intoList_spec hN hI] at e1
      refine wp_bind (wp_conseq (hsplitOff_spec hN hI (a := z.1) (b := z.2) e1) ?_)
      rintro x L ⟨L1, L2, rfl, h1, h2⟩
      exact wp_pure ⟨rfl, L1, L2, rfl, .some h1, HoldsR.single h2⟩
    | hash hLen hT s =>
      simp only [btreeSetV, BTreeSet.hashSet, BTree.BTreeMap.iterList_spec hN hI] at e
      cases e
      refine wp_bind (wp_conseq (hiterList_spec hN hI) ?_)
      rintro x L ⟨rfl, rfl⟩
      exact wp_pure (spost1 same)
    | serialize =>
      simp only [btreeSetV, BTreeMap.serialize, BTree.BTreeMap.iterList_spec hN hI] at e
      cases e
      refine wp_bind (wp_conseq (hiterList_spec hN hI) ?_)
      rintro x L ⟨rfl, rfl⟩
      exact wp_pure (spost1 same)
  two {h m L k n L' c y} hI hJ hR hR' e := by
    obtain ⟨r, rfl, rfl⟩ := hR
    obtain ⟨r', rfl, rfl⟩ := hR'
    cases c with
    | append =>
      simp only [btreeSetV, BTreeSet.append, BTreeMap.append, BTree.BTreeMap.intoList_spec hN hJ,
        Option.map_map] at e
      obtain ⟨z, e1, rfl⟩ := Option.map_eq_some_iff.1 e
      refine wp_bind (wp_conseq (happend_spec hN hI hJ e1) ?_)
      intro x L h
      exact wp_pure ⟨rfl, L, 0, 0, by simp, .some h, .some ⟨none, rfl, rfl⟩, .nil⟩
    | union =>
      obtain ⟨z, e1, rfl⟩ := Option.map_eq_some_iff.1 e
      refine wp_bind (wp_conseq (hnewUnion_spec hN hI hJ e1) ?_)
      intro x L h
      exact wp_pure ⟨rfl, 0, 0, L, by simp, .none, .none, HoldsR.single h⟩
    | intersection =>
      obtain ⟨z, e1, rfl⟩ := Option.map_eq_some_iff.1 e
      refine wp_bind (wp_conseq (hnewIntersection_spec hN hI hJ e1) ?_)
      intro x L h
      exact wp_pure ⟨rfl, 0, 0, L, by simp, .none, .none, HoldsR.single h⟩
    | difference =>
      obtain ⟨z, e1, rfl⟩ := Option.map_eq_some_iff.1 e
      refine wp_bind (wp_conseq (hnewDiff_spec hN hI hJ e1) ?_)
      intro x L h
      exact wp_pure ⟨rfl, 0, 0, L, by simp, .none, .none, HoldsR.single h⟩
    | symDiff =>
      obtain ⟨z, e1, rfl⟩ := Option.map_eq_some_iff.1 e
      refine wp_bind (wp_conseq (hnewSymDiff_spec hN hI hJ e1) ?_)
      intro x L h
      exact wp_pure ⟨rfl, 0, 0, L, by simp, .none, .none, HoldsR.single h⟩
  look {h m L k n L' c y M G G'} hI hJ hR hR' e1 e2 e := by
    obtain ⟨r, rfl, rfl⟩ := hR
    obtain ⟨r', rfl, rfl⟩ := hR'
    have look1 : ∀ {α : Type} {Q : α → Multiset (Handle (ND T Unit)) → Prop}
        (f : List (T × Unit) → Prog (ND T Unit) α),
        wp (f m.map.abs) M Q → wp ((HMap.iterList ⟨m.map.len, r⟩).bind f) M Q := by
      intro α Q f h
      refine wp_call G (hiterList_spec hN hI) e1 ?_
      rintro x L ⟨rfl, rfl⟩
      rwa [← e1]
    have look2 : ∀ {α : Type} {Q : α → Multiset (Handle (ND T Unit)) → Prop}
        (f : List (T × Unit) → Prog (ND T Unit) α),
        wp (f n.map.abs) M Q → wp ((HMap.iterList ⟨n.map.len, r'⟩).bind f) M Q := by
      intro α Q f h
      refine wp_call G' (hiterList_spec hN hJ) e2 ?_
      rintro x L ⟨rfl, rfl⟩
      rwa [← e2]
    cases c with
    | eq eqE =>
      simp only [btreeSetV, BTreeSet.eqSet, BTreeMap.eqMap, BTree.BTreeMap.iterList_spec hN hI,
        BTree.BTreeMap.iterList_spec hN hJ] at e
      simp only [btreeSetM, HMap.eqMap]
      split at e
      · next hl =>
        cases e
        rw [if_pos hl]
        refine wp_bind (look1 _ (look2 _ ?_))
        exact wp_pure (wp_pure ⟨rfl, rfl⟩)
      · next hl =>
        cases e
        rw [if_neg hl]
        exact wp_pure ⟨rfl, rfl⟩
    | partialCmp cmpE =>
      simp only [btreeSetV, BTreeSet.partialCmpSet, BTreeMap.partialCmpMap,
        BTree.BTreeMap.iterList_spec hN hI, BTree.BTreeMap.iterList_spec hN hJ] at e
      cases e
      exact look1 _ (look2 _ (wp_pure ⟨rfl, rfl⟩))
    | cmp cmpE =>
      simp only [btreeSetV, BTreeSet.cmpSet, BTreeMap.cmpMap, BTree.BTreeMap.iterList_spec hN hI,
        BTree.BTreeMap.iterList_spec hN hJ] at e
      cases e
      exact look1 _ (look2 _ (wp_pure ⟨rfl, rfl⟩))
    | setOp F j =>
      obtain ⟨z, e3, rfl⟩ := Option.map_eq_some_iff.1 e
      refine wp_bind (wp_conseq (hsetOpRun_spec hN hI hJ e1 e2 e3) ?_)
      rintro x L ⟨rfl, rfl⟩
      exact wp_pure ⟨rfl, rfl⟩
    | isDisjoint =>
      obtain ⟨z, e3, rfl⟩ := Option.map_eq_some_iff.1 e
      refine wp_bind (wp_conseq (hsetOpNone_spec hN hI hJ e1 e2 e3) ?_)
      rintro x L ⟨rfl, rfl⟩
      exact wp_pure ⟨rfl, rfl⟩
    | isSubset =>
      obtain ⟨z, e3, rfl⟩ := Option.map_eq_some_iff.1 e
      refine wp_bind (wp_conseq (hisSubset_spec hN hI hJ e1 e2 e3) ?_)
      rintro x L ⟨rfl, rfl⟩
      exact wp_pure ⟨rfl, rfl⟩
    | isSuperset =>
      obtain ⟨z, e3, rfl⟩ := Option.map_eq_some_iff.1 e
      refine wp_bind (wp_conseq (hisSubset_spec hN hJ hI e2 e1 e3) ?_)
      rintro x L ⟨rfl, rfl⟩
      exact wp_pure ⟨rfl, rfl⟩

/-! ## The same with deep copies -/

/-- The operations on memory with `clone` replaced by a copy of all nodes.  Not code of the crate:
it is what clones are compared with. -/
def btreeSetD (T S Q : Type) [Ord T] [Ord Q] (N : Nat) (b : T → Q) :
    Machine.Impl (Prog (ND T Unit)) HMap (SRes T S) (SMake T) (SOne T S Q) STwo (SLook T) where
  make := (btreeSetM T S Q N b).make
  one m
    | .clone => (deepClone m.len m.root).bind fun r => .pure (some m, [⟨m.len, r⟩], .unit)
    | c => (btreeSetM T S Q N b).one m c
  two := (btreeSetM T S Q N b).two
  look := (btreeSetM T S Q N b).look

theorem btreeSetD_sound (hN : 1 ≤ N) (hb : ∀ a c, compare (b a) (b c) = compare a c) :
    Sound (btreeSetD T S Q N b) (btreeSetV T S Q N b) (BTreeSet.WF N) SetR where
  make := (btreeSetM_sound hN hb).make
  one {h m L c y} hI hR e := by
    cases c
    case clone =>
      obtain ⟨r, rfl, rfl⟩ := hR
      cases e
      refine wp_bind (wp_conseq (wp_deepClone (dep_lenO hN hI)) ?_)
      rintro x L rfl
      exact wp_pure ⟨rfl, _, _, rfl, .some ⟨r, rfl, rfl⟩, HoldsR.single ⟨x, rfl, rfl⟩⟩
    all_goals exact (btreeSetM_sound hN hb).one hI hR e
  two := (btreeSetM_sound hN hb).two
  look := (btreeSetM_sound hN hb).look

end
end Verif.BTreeH
