import Verif.BTreeHeap.Live
import Verif.BTreeHeap.MapSpec
/-!
# `BTreeMap`s in use on memory do what they do on values
-/
set_option linter.unusedSectionVars false
namespace Verif.BTreeH
open Heap Heap.Machine Std
open BTree (Node NIter InnerIter BTreeMap QBnd nodeOps witems IterOk KidOk)
open BTree.BTreeMap (WF)
open Verif.AvlH (updF)

variable {K V S Q W P I E C X : Type}

/-! ## One call, against the entries yet to come -/

/-- The deque on values, and the entries yet to come. -/
def VIt (wt : List (NIter (K × W) (Node K W))) (l : Left (K × W)) : Prop :=
  (∀ x ∈ wt, x.Ok true (fun c => ∃ h, IterOk true h c)) ∧ witems Node.toList wt = l.entries

theorem VIt.step {wt : List (NIter (K × W) (Node K W))} {l : Left (K × W)} (h : VIt wt l)
    (d : Bool) : ∃ jt, nodeOps.step d ⟨wt, l.len⟩ = some (jt, (l.pop d).1) ∧
      VIt jt.work (l.pop d).2 ∧ jt.len = (l.pop d).2.len := by
  obtain ⟨h1, h2⟩ := h
  obtain ⟨jt, e, g1, g2, g3⟩ := (BTree.nodeSpec (K := K) (V := W) true).step d
    (it := ⟨wt, l.len⟩) h1 (by dsimp only; rw [h2, Left.len]; omega)
  dsimp only at e g2 g3
  rw [h2] at e g2 g3
  refine ⟨jt, e, ⟨g1, g2⟩, ?_⟩
  rw [g2] at g3
  simp only [Left.pop, Left.len] at g3 ⊢
  omega

/-- An iterator on memory, and the entries yet to come. -/
def ItRel (Z : List I → List (NIter (K × W) (Node K W)) → Prop) (it : InnerIter I)
    (l : Left (K × W)) : Prop :=
  it.len = l.len ∧ ∃ wt, Z it.work wt ∧ VIt wt l

theorem step_left {n : Nat} {o : HOps P S I E C}
    {R : Rel P S I (NIter (K × W) (Node K W)) (K × W)} {Item : S → E → K × W → Prop}
    (ok : BothOk n o nodeOps R Item) {d : Bool} {h : List (K × W)} {s : S} {it : InnerIter I}
    {l : Left (K × W)} {L : Multiset (Handle P)}
    (hR : ItRel (fun w wt => R h s w wt L) it l) :
    wp (o.step n d s it) L (fun y L' =>
      ItRel (fun w wt => R h y.1 w wt L') y.2.1 (l.pop d).2 ∧
      Agree (Item y.1) (l.pop d).1 y.2.2) := by
  obtain ⟨h1, wt, h2, h3⟩ := hR
  obtain ⟨jt, e, h4, h5⟩ := h3.step d
  refine wp_conseq (step_ok ok (jt := ⟨wt, l.len⟩) h1 h2 e) ?_
  rintro y L' ⟨g1, g2, g3⟩
  exact ⟨⟨g1.trans h5, _, g2, h4⟩, g3⟩

theorem step_nil {o : HOps P S I E C} (n : Nat) (d : Bool) (s : S) (len : Nat) :
    o.step n d s ⟨[], len⟩ = .pure (s, ⟨[], len⟩, none) := by
  cases d <;> rfl

/-! ## The relation -/

/-- A shared iterator of the map `m`. -/
def ShRel (m : BTreeMap K V) (it : InnerIter (SIter K V)) (l : Left (K × V)) : Prop :=
  match m.root with
  | none => it.work = [] ∧ it.len = l.len ∧ l.entries = []
  | some nd => ItRel (List.Forall₂ (SRel (m.len - 1) (vt nd))) it l

/-- A map in use, and its value. -/
def RJ : HLive K V → VLive K V → Multiset (Handle (ND K V)) → Prop
  | .shared h its, .shared m ls, L => R h m L ∧ List.Forall₂ (ShRel m) its ls
  | .owning D it, .owning l, L => ItRel (fun w wt => OW D w wt L) it l
  | .excl len g s it, .excl m g' l done, L => g' = g ∧ len = m.len ∧
    match m.root with
    | none => s.tree = .link none ∧ it.work = [] ∧ it.len = l.len ∧ l.entries = [] ∧ done = [] ∧
        L = 0
    | some nd => ∃ hs : List (K × (Nat × V)), done = slots hs ∧
        ItRel (fun w wt => MR g nd.label hs s w wt L) it l
  | _, _, _ => False

/-- What values satisfy. -/
def InvJ [Ord K] (N : Nat) : VLive K V → Prop
  | .shared m _ => WF N m
  | .owning _ => True
  | .excl m _ l done => WF N m ∧ (done ++ slots l.entries).Nodup

section
variable [Ord K] [Ord Q] {N : Nat} {b : K → Q}

/-- A `&self` operation returns the map as it was. -/
theorem byRef_gives {c : One K V Q S} (hc : c.byRef = true) (m : HMap) :
    ((btreeM K V S N b).one m c).Gives (fun x => x.1 = some m) := by
  cases c <;> simp only [One.byRef, Bool.false_eq_true] at hc <;> simp only [btreeM] <;>
    first
    | rfl
    | (refine Prog.Gives.bind (fun _ => ?_) _; exact rfl)
    | (refine Prog.Gives.bind (fun x => ?_) _; cases x <;> exact rfl)

theorem byRef_val {c : One K V Q S} (hc : c.byRef = true) {m : BTreeMap K V} {y}
    (e : (btreeV K V S N b).one m c = some y) : y.1 = some m := by
  cases c <;> simp only [One.byRef, Bool.false_eq_true] at hc <;>
    simp only [btreeV, Option.some.injEq, Option.map_eq_some_iff] at e <;>
    first
    | (subst e; rfl)
    | (obtain ⟨_, _, rfl⟩ := e; rfl)
    | (split at e
       · cases e; rfl
       · obtain ⟨_, _, rfl⟩ := Option.map_eq_some_iff.1 e; rfl)

theorem pop_slots (d : Bool) (l : Left (K × (Nat × V))) :
    (((l.pop d).1.map (·.2.1)).toList ++ slots (l.pop d).2.entries).Perm (slots l.entries) := by
  obtain ⟨es, sl⟩ := l
  cases d with
  | true => cases es <;> simp [Left.pop, Spec.dequeStep]
  | false =>
    rcases List.eq_nil_or_concat es with rfl | ⟨es, e, rfl⟩
    · simp [Left.pop, Spec.dequeStep]
    · simp only [Left.pop, Spec.dequeStep, List.concat_eq_append, Bool.false_eq_true, if_false,
        List.getLast?_append, List.getLast?_singleton, List.dropLast_concat, slots, List.map_append,
        Option.some_or, Option.map_some, Option.toList_some, List.map_cons, List.map_nil]
      exact List.perm_append_comm

variable [TransOrd K] [TransOrd Q]

theorem leftAll_len {m : BTreeMap K W} (h : WF N m) : (leftAll m).len = m.len := by
  have := h.len_eq
  simp only [leftAll, Left.len]
  omega

theorem leftAll_slots {m : BTreeMap K V} : (slots (leftAll m.label).entries).Nodup := by
  have : slots (leftAll m.label).entries = m.abs.zipIdx.map (·.2) := by
    simp [leftAll, BTree.BTreeMap.label_abs, slots, Function.comp_def]
  rw [this]
  exact BTree.BTreeMap.nodup_slots _

/-- The iterator of a range on values. -/
theorem leftRange_spec (hN : 1 ≤ N) (hb : ∀ a c, compare (b a) (b c) = compare a c)
    {m : BTreeMap K W} (h : WF N m) {lb ub : QBnd Q} {l} (e : leftRange b m lb ub = some l) :
    ∃ it, m.range b lb ub = some it ∧ it.len = m.len ∧ l.len = m.len ∧ VIt it.work l ∧
      l.entries = Spec.range (lb.bnd b) (ub.bnd b) m.abs := by
  obtain ⟨it, e1, rfl⟩ := Option.map_eq_some_iff.1 e
  obtain ⟨r1, r2⟩ := BTree.BTreeMap.range_spec hN h hb lb ub
  by_cases hc : lb.bad ub = true ∨ BTree.BTreeMap.BothExclude b lb ub m.abs
  · rw [r1 hc] at e1; cases e1
  · rw [not_or, Bool.not_eq_true] at hc
    obtain ⟨it', e2, h1, h2, h3⟩ := r2 hc.1 hc.2
    rw [e1] at e2
    cases e2
    refine ⟨it, e1, h1, ?_, ⟨?_, rfl⟩, h3⟩
    · have hl : (witems Node.toList it.work).length ≤ m.len := by
        rw [h3, Spec.range, h.len_eq]
        exact List.length_filter_le _ _
      simp only [Left.len]
      omega
    · intro x hx
      obtain ⟨g1, g2⟩ := h2 x hx
      refine ⟨?_, g2⟩
      intro c hc
      obtain ⟨ht, hk⟩ := g1 c hc
      exact ⟨ht + 1, hk.iterOk hN true hN⟩

theorem leftRange_slots (hN : 1 ≤ N) (hb : ∀ a c, compare (b a) (b c) = compare a c)
    {m : BTreeMap K V} (h : WF N m) {lb ub : QBnd Q} {l} (e : leftRange b m.label lb ub = some l) :
    (slots l.entries).Nodup := by
  obtain ⟨_, -, -, -, -, h1⟩ := leftRange_spec hN hb h.label e
  rw [h1, Spec.range]
  refine List.Nodup.sublist (List.Sublist.map _ List.filter_sublist) ?_
  exact leftAll_slots (m := m)

/-- The deque of `iter` on values. -/
theorem make_VIt (hN : 1 ≤ N) {m : BTreeMap K W} (h : WF N m) {nd : Node K W}
    (hr : m.root = some nd) : VIt [nodeOps.make nd] (leftAll m) := by
  obtain ⟨⟨ht, h1⟩, h2⟩ := h.root hr
  obtain ⟨m1, m2, -⟩ := (BTree.nodeSpec true).make_ok (c := nd)
    ⟨ht + 1, h1.iterOk hN true (Nat.le_refl 1)⟩
  refine ⟨by simpa [nodeOps] using m1, ?_⟩
  simp only [leftAll, h2, nodeOps, BTree.witems_cons, m2, BTree.witems_nil, List.append_nil]

theorem liveV_total (hN : 1 ≤ N) (hb : ∀ a c, compare (b a) (b c) = compare a c) :
    LiveTotal (liveV K V S N b) (WF N) (InvJ N) where
  start {m} a h := by
    cases a with
    | iter | range => exact ⟨_, rfl, h⟩
    | intoIter => exact ⟨_, rfl, trivial⟩
    | iterMut g => exact ⟨_, rfl, h, by simpa using leftAll_slots⟩
    | rangeMut lb ub g =>
      refine ⟨_, rfl, ?_⟩
      cases e : leftRange b m.label lb ub with
      | none => exact h
      | some l => exact ⟨h, by simpa using leftRange_slots hN hb h e⟩
  use {n} c h := by
    cases n with
    | shared m its =>
      cases c with
      | iter => exact ⟨_, rfl, h, by simp⟩
      | range lb ub =>
        refine ⟨_, rfl, ?_⟩
        cases leftRange b m lb ub <;> exact ⟨h, by simp⟩
      | next i front =>
        simp only [liveV]
        cases its[i]? <;> exact ⟨_, rfl, h, by simp⟩
      | byRef c =>
        simp only [liveV]
        split
        · obtain ⟨y, e, h1, h2⟩ := (btreeV_total (S := S) hN hb).one c (show WF N m from h)
          exact ⟨(.shared m its, y.2.1, some y.2.2), by rw [e]; rfl, h, h2⟩
        · exact ⟨_, rfl, h, by simp⟩
    | owning l => cases c <;> exact ⟨_, rfl, trivial, by simp⟩
    | excl m g l done =>
      cases c with
      | next i front =>
        refine ⟨_, rfl, ⟨h.1, ?_⟩, by simp⟩
        have := (pop_slots front l).append_left done
        rw [List.append_assoc]
        exact this.nodup_iff.2 h.2
      | iter | range | byRef => exact ⟨_, rfl, h, by simp⟩
  stop {n} h := by
    cases n with
    | shared m its => exact ⟨_, rfl, by rintro _ ⟨⟩; exact h⟩
    | owning l => exact ⟨_, rfl, by simp⟩
    | excl m g l done =>
      exact ⟨_, rfl, by rintro _ ⟨⟩; exact BTree.BTreeMap.WF.mapIdx h.1 _ (fun _ _ => rfl)⟩
  view {n m} h e := by
    cases n with
    | shared m its => cases e; exact h
    | owning | excl => cases e

/-! ## Making iterators -/

theorem iterNew_spec (hN : 1 ≤ N) {m : BTreeMap K V} (h : WF N m) {r : Option Nat} :
    wp (HMap.iterNew ⟨m.len, r⟩) (own r (vtO m.root)) (fun x L =>
      L = own r (vtO m.root) ∧ ShRel m x (leftAll m)) := by
  have hl := leftAll_len h
  refine wp_root (r := r) (root := m.root) 0 (add_zero _).symm ?_ ?_
  · intro hr hm
    subst hr
    have h0 : m.abs = [] := by simp [BTree.BTreeMap.abs, hm]
    refine wp_pure ⟨by simp [hm, vtO], ?_⟩
    simp only [ShRel, hm]
    exact ⟨trivial, by rw [hl, h.len_eq, h0]; rfl, h0⟩
  · intro a nd hr hm
    subst hr
    rw [add_zero]
    have hd := dep_len hN h hm
    obtain ⟨n, hn⟩ := dep_pos hd
    refine wp_bind (wp_conseq (sharedMake_spec (n := m.len - 1) (nd := nd) (u := false) rfl
      (by rw [hn]; simpa [hn] using hd)) ?_)
    rintro ⟨_, e⟩ L ⟨g1, rfl⟩
    refine wp_pure ⟨by rw [hm]; rfl, ?_⟩
    simp only [ShRel, hm]
    exact ⟨hl.symm, _, .cons g1 .nil, make_VIt hN h hm⟩

theorem rangeNew_spec (hN : 1 ≤ N) (hb : ∀ a c, compare (b a) (b c) = compare a c)
    {m : BTreeMap K V} (h : WF N m) {r : Option Nat} {lb ub : QBnd Q} :
    wp (HMap.rangeNew b ⟨m.len, r⟩ lb ub) (own r (vtO m.root)) (fun x L =>
      L = own r (vtO m.root) ∧ (x = none ∧ leftRange b m lb ub = none ∨
        ∃ it l, x = some it ∧ leftRange b m lb ub = some l ∧ ShRel m it l)) := by
  unfold HMap.rangeNew
  split
  · next hc =>
    exact wp_pure ⟨rfl, Or.inl ⟨rfl, by simp [leftRange, BTreeMap.range, hc]⟩⟩
  · next hc =>
    have he := range_eq b m hc
    refine wp_root (r := r) (root := m.root) 0 (add_zero _).symm ?_ ?_
    · intro hr hm
      subst hr
      rw [hm] at he
      simp only [Option.elim, Option.map_some] at he
      refine wp_pure ⟨by simp [hm, vtO], Or.inr ⟨_, _, rfl, by rw [leftRange, he]; rfl, ?_⟩⟩
      simp only [ShRel, hm]
      simp [Left.len, witems]
    · intro a nd hr hm
      subst hr
      rw [add_zero]
      have hd := dep_len hN h hm
      obtain ⟨n, hn⟩ := dep_pos hd
      rw [hm] at he
      simp only [Option.elim] at he
      refine wp_bind (wp_conseq (mkWorkH_spec (m := m.len - 1) (nd := nd) (u := false)
        (by dsimp only; omega) rfl hd) ?_)
      rintro ⟨_, w⟩ L ⟨g1, rfl⟩
      refine wp_pure ⟨by rw [hm]; rfl, ?_⟩
      cases ew : BTree.mkWork (lb.bnd b) (ub.bnd b) nd with
      | none =>
        rw [ew] at g1 he
        cases w with
        | some w => exact g1.elim
        | none => exact Or.inl ⟨rfl, by rw [leftRange, he]; rfl⟩
      | some wt =>
        rw [ew] at g1 he
        cases w with
        | none => exact g1.elim
        | some w =>
          obtain ⟨l, hl⟩ : ∃ l, leftRange b m lb ub = some l := by
            rw [leftRange, he]; exact ⟨_, rfl⟩
          obtain ⟨it, f1, f2, f3, f4, -⟩ := leftRange_spec hN hb h hl
          rw [he] at f1
          cases f1
          refine Or.inr ⟨_, l, rfl, hl, ?_⟩
          simp only [ShRel, hm]
          exact ⟨f3.symm, wt, g1, f4⟩

theorem start_link {g : Nat → K → V → V} {a : Nat} {nd : Node K V} :
    Is (updF g 0 []) (.link (some a)) nd.label (own (some a) (vt nd)) := by
  have := Is.link (f := updF g 0 []) (some a) nd.label
  rwa [unl_label_nil] at this

theorem label_root {m : BTreeMap K V} {nd : Node K V} (hm : m.root = some nd) :
    m.label.root = some nd.label := by
  simp [BTree.BTreeMap.label, hm]

theorem iterMutNew_spec (hN : 1 ≤ N) {m : BTreeMap K V} (h : WF N m) {r : Option Nat}
    {g : Nat → K → V → V} :
    wp (HMap.iterMutNew ⟨m.len, r⟩ g) (own r (vtO m.root)) (fun x L =>
      RJ x (.excl m g (leftAll m.label) []) L) := by
  have hl : (leftAll m.label).len = m.len := leftAll_len h.label
  refine wp_root (r := r) (root := m.root) 0 (add_zero _).symm ?_ ?_
  · intro hr hm
    subst hr
    have h0 : m.abs = [] := by simp [BTree.BTreeMap.abs, hm]
    refine wp_pure ?_
    simp only [RJ, hm]
    refine ⟨trivial, trivial, trivial, trivial, by rw [hl, h.len_eq, h0]; rfl, ?_, trivial, by simp [vtO]⟩
    simp [leftAll, BTree.BTreeMap.label_abs, h0]
  · intro a nd hr hm
    subst hr
    rw [add_zero]
    have hD := label_dep (dep_len hN h hm)
    refine wp_bind (wp_conseq (mutMake_spec (g := g) (s := ⟨.link (some a), 0⟩) (start_link (g := g))
      (labs_label_nodup nd) hD (q := []) rfl ⟨_, rfl⟩ (MW.nil _ _) (by simp [pend])) ?_)
    rintro ⟨⟨t, cnt⟩, e⟩ L' ⟨h1, h2, h3⟩
    dsimp only at h1 h2 h3 ⊢
    subst h1
    refine wp_pure ?_
    simp only [RJ, hm]
    exact ⟨trivial, trivial, [], rfl, hl.symm, _, ⟨rfl, h2, h3⟩,
      make_VIt hN h.label (label_root hm)⟩

theorem rangeMutNew_spec (hN : 1 ≤ N) (hb : ∀ a c, compare (b a) (b c) = compare a c)
    {m : BTreeMap K V} (h : WF N m) {r : Option Nat} {lb ub : QBnd Q} {g : Nat → K → V → V} :
    wp (HMap.rangeMutNew b ⟨m.len, r⟩ lb ub g) (own r (vtO m.root)) (fun x L =>
      RJ x (match leftRange b m.label lb ub with
        | none => .shared m []
        | some l => .excl m g l []) L) := by
  unfold HMap.rangeMutNew
  split
  · next hc =>
    have e : leftRange b m.label lb ub = none := by simp [leftRange, BTreeMap.range, hc]
    rw [e]
    exact wp_pure ⟨⟨r, rfl, rfl⟩, .nil⟩
  · next hc =>
    have he := range_eq b m.label hc
    refine wp_root (r := r) (root := m.root) 0 (add_zero _).symm ?_ ?_
    · intro hr hm
      subst hr
      have hm' : m.label.root = none := by simp [BTree.BTreeMap.label, hm]
      rw [hm'] at he
      simp only [Option.elim, Option.map_some] at he
      rw [leftRange, he]
      refine wp_pure ?_
      simp only [RJ, hm, Option.map_some]
      simp [Left.len, witems, vtO, BTree.BTreeMap.label]
    · intro a nd hr hm
      subst hr
      rw [add_zero]
      have hD := label_dep (dep_len hN h hm)
      rw [label_root hm] at he
      simp only [Option.elim] at he
      refine wp_bind (wp_conseq (mkWorkM_spec (labs_label_nodup nd) hD (start_link (g := g))
        (path := []) (nd := nd.label) rfl ⟨_, rfl⟩ hD) ?_)
      rintro ⟨t, w⟩ L ⟨g1, -, g2⟩
      dsimp only at g1 g2 ⊢
      cases ew : BTree.mkWork (lb.bnd b) (ub.bnd b) nd.label with
      | none =>
        rw [ew] at g2 he
        cases w with
        | some w => exact g2.elim
        | none =>
          rw [leftRange, he]
          refine wp_bind (wp_conseq (close_spec' g1) ?_)
          rintro r' _ rfl
          refine wp_pure ⟨⟨r', rfl, ?_⟩, .nil⟩
          rw [unl_label_nil, hm]
          rfl
      | some wt =>
        rw [ew] at g2 he
        cases w with
        | none => exact g2.elim
        | some w =>
          obtain ⟨l, hl⟩ : ∃ l, leftRange b m.label lb ub = some l := by
            rw [leftRange, he]; exact ⟨_, rfl⟩
          obtain ⟨it, f1, f2, f3, f4, -⟩ := leftRange_spec hN hb h.label hl
          rw [he] at f1
          cases f1
          rw [hl]
          refine wp_pure ?_
          simp only [RJ, hm]
          exact ⟨trivial, trivial, [], rfl, f3.symm, wt, ⟨rfl, g1, g2.1⟩, f4⟩

/-- One call of a shared iterator. -/
theorem step_shared (hN : 1 ≤ N) {m : BTreeMap K V} (h : WF N m) {r : Option Nat}
    {it : InnerIter (SIter K V)} {l : Left (K × V)} (hrel : ShRel m it l) {d : Bool} :
    wp ((sharedOps (r.getD 0)).step m.len d () it) (own r (vtO m.root))
      (fun x L => L = own r (vtO m.root) ∧ x.2.2 = (l.pop d).1 ∧ x.2.1.len = (l.pop d).2.len ∧
        ShRel m x.2.1 (l.pop d).2) := by
  refine wp_root (r := r) (root := m.root) 0 (add_zero _).symm ?_ ?_
  · intro hr hm
    obtain ⟨w, len⟩ := it
    simp only [ShRel, hm] at hrel ⊢
    obtain ⟨rfl, h1, h2⟩ := hrel
    rw [step_nil]
    have hp : l.pop d = (none, l) := by
      obtain ⟨es, sl⟩ := l
      dsimp only at h2
      subst h2
      cases d <;> rfl
    rw [hp]
    exact wp_pure ⟨by rw [hr]; rfl, rfl, h1, rfl, h1, h2⟩
  · intro a nd hr hm
    subst hr
    have hd := dep_len hN h hm
    obtain ⟨n, hn⟩ := dep_pos hd
    simp only [ShRel, hm] at hrel ⊢
    rw [add_zero]
    obtain ⟨h1, wt, h2, h3⟩ := hrel
    have ok : BothOk m.len (sharedOps a) nodeOps (SR (m.len - 1) a (vt nd) false) (fun _ => Eq) := by
      have := sharedOk (n := m.len - 1) (a := a) (t := vt nd) (u := false)
      rwa [show m.len - 1 + 1 = m.len by omega] at this
    refine wp_conseq (step_left ok (h := []) (l := l) (d := d) ⟨h1, wt, ⟨h2, rfl⟩, h3⟩) ?_
    rintro ⟨_, it', e⟩ L ⟨⟨g1, wt', ⟨g2, rfl⟩, g3⟩, g4⟩
    refine ⟨rfl, ?_, g1, g1, wt', g2, g3⟩
    dsimp only at g4 ⊢
    cases hp : (l.pop d).1 with
    | none => rw [hp] at g4; exact g4
    | some x => rw [hp] at g4; obtain ⟨_, rfl, rfl⟩ := g4; rfl

/-! ## All operations -/

theorem liveM_sound (hN : 1 ≤ N) (hb : ∀ a c, compare (b a) (b c) = compare a c) :
    LiveSound (liveM K V S N b) (liveV K V S N b) (WF N) (InvJ N) R RJ where
  start {h m L a y} hI hR e := by
    obtain ⟨r, rfl, rfl⟩ := hR
    cases a with
    | iter =>
      cases e
      refine wp_bind (wp_conseq (iterNew_spec hN hI) ?_)
      rintro x L ⟨rfl, h1⟩
      exact wp_pure ⟨⟨r, rfl, rfl⟩, .cons h1 .nil⟩
    | range lb ub =>
      cases e
      refine wp_bind (wp_conseq (rangeNew_spec hN hb hI) ?_)
      rintro x L ⟨rfl, (⟨rfl, e⟩ | ⟨it, l, rfl, e, h1⟩)⟩
      · rw [e]
        exact wp_pure ⟨⟨r, rfl, rfl⟩, .nil⟩
      · rw [e]
        exact wp_pure ⟨⟨r, rfl, rfl⟩, .cons h1 .nil⟩
    | intoIter =>
      cases e
      refine wp_bind (wp_conseq (intoNew_spec (len := m.len) (fun nd hr => dep_len hN hI hr)) ?_)
      rintro x L ⟨h1, h2⟩
      refine wp_pure ?_
      have hl := leftAll_len hI
      cases hm : m.root with
      | none =>
        rw [hm] at h1 h2
        have h0 : m.abs = [] := by simp [BTree.BTreeMap.abs, hm]
        exact ⟨by rw [h1, hl, hI.len_eq, h0]; rfl, _, h2, by simp [BTree.iterOf],
          by simp [BTree.iterOf, leftAll, h0]⟩
      | some nd =>
        rw [hm] at h1 h2
        exact ⟨h1.trans hl.symm, _, h2, make_VIt hN hI hm⟩
    | iterMut g => cases e; exact iterMutNew_spec hN hI
    | rangeMut lb ub g => cases e; exact rangeMutNew_spec hN hb hI
  use {j n L c y} hI hR e := by
    have skip : ∀ {j n L y}, RJ j n L →
        (some (n, [], none) : Option (VLive K V × List (BTreeMap K V) × Option (Res K V S))) =
          some y →
        wp (Prog.pure (j, [], none) : Prog (ND K V) (HLive K V × List HMap × Option (Res K V S))) L
          (fun x L' => x.2.2 = y.2.2 ∧ ∃ L1 L2, L' = L1 + L2 ∧
            RJ x.1 y.1 L1 ∧ HoldsL R x.2.1 y.2.1 L2) := by
      rintro j n L y h ⟨⟩
      exact wp_pure ⟨rfl, L, 0, (add_zero _).symm, h, .nil⟩
    cases j with
    | shared h its =>
      cases n with
      | owning | excl => exact hR.elim
      | shared m ls =>
        obtain ⟨⟨r, rfl, rfl⟩, hF⟩ := hR
        cases c with
        | iter =>
          cases e
          refine wp_bind (wp_conseq (iterNew_spec hN hI) ?_)
          rintro x L ⟨rfl, h1⟩
          exact wp_pure ⟨rfl, _, 0, (add_zero _).symm, ⟨⟨r, rfl, rfl⟩,
            List.rel_append hF (.cons h1 .nil)⟩, .nil⟩
        | range lb ub =>
          cases e
          refine wp_bind (wp_conseq (rangeNew_spec hN hb hI) ?_)
          rintro x L ⟨rfl, (⟨rfl, e⟩ | ⟨it, l, rfl, e, h1⟩)⟩
          · rw [e]
            exact wp_pure ⟨rfl, _, 0, (add_zero _).symm, ⟨⟨r, rfl, rfl⟩, hF⟩, .nil⟩
          · rw [e]
            exact wp_pure ⟨rfl, _, 0, (add_zero _).symm, ⟨⟨r, rfl, rfl⟩,
              List.rel_append hF (.cons h1 .nil)⟩, .nil⟩
        | next i front =>
          simp only [liveV, liveM] at e ⊢
          have hlen := hF.length_eq
          cases hi : its[i]? with
          | none =>
            have : ls[i]? = none := by
              rw [List.getElem?_eq_none_iff] at hi ⊢
              omega
            rw [this] at e
            cases e
            exact wp_pure ⟨rfl, _, 0, (add_zero _).symm, ⟨⟨r, rfl, rfl⟩, hF⟩, .nil⟩
          | some it =>
            obtain ⟨hi1, hi2⟩ := List.getElem?_eq_some_iff.1 hi
            have hl : ls[i]? = some ls[i] := List.getElem?_eq_getElem (by omega)
            rw [hl] at e
            have hrel : ShRel m it ls[i] := by
              have := List.forall₂_iff_get.1 hF |>.2 i hi1 (by omega)
              simpa [hi2] using this
            generalize ls[i] = l at e hrel
            cases e
            have hset : ∀ {it' l'}, ShRel m it' l' →
                List.Forall₂ (ShRel m) (its.set i it') (ls.set i l') := by
              intro it' l' h'
              refine List.forall₂_iff_get.2 ⟨by simp [hlen], ?_⟩
              intro q q1 q2
              simp only [List.get_eq_getElem, List.getElem_set]
              split
              · exact h'
              · exact List.forall₂_iff_get.1 hF |>.2 q (by simpa using q1) (by simpa using q2)
            refine wp_bind (wp_conseq (step_shared hN hI hrel) ?_)
            rintro x L ⟨rfl, g1, g2, g3⟩
            exact wp_pure ⟨by rw [g1, g2], _, 0, (add_zero _).symm, ⟨⟨r, rfl, rfl⟩, hset g3⟩, .nil⟩
        | byRef c =>
          simp only [liveV, liveM] at e ⊢
          split
          · next hc =>
            rw [if_pos hc] at e
            obtain ⟨z, e1, rfl⟩ := Option.map_eq_some_iff.1 e
            have hz := byRef_val hc e1
            have h1 := wp_gives ((btreeM_sound hN hb).one hI ⟨r, rfl, rfl⟩ e1)
              (byRef_gives hc ⟨m.len, r⟩)
            refine wp_bind (wp_conseq h1 ?_)
            rintro x L ⟨g1, g2, L1, L2, rfl, g3, g4⟩
            rw [g1, hz] at g3
            cases g3 with
            | some g3 => exact wp_pure ⟨by rw [g2], L1, L2, rfl, ⟨g3, hF⟩, g4⟩
          · next hc =>
            rw [if_neg hc] at e
            exact skip (j := .shared _ its) (n := .shared m ls) ⟨⟨r, rfl, rfl⟩, hF⟩ e
    | owning D it =>
      cases n with
      | shared | excl => exact hR.elim
      | owning l =>
        cases c with
        | next i front =>
          cases e
          simp only [liveM]
          refine wp_bind (wp_conseq (step_left (R := OR D) (h := []) ownOk (d := front) hR) ?_)
          rintro ⟨_, it', e⟩ L' ⟨g1, g2⟩
          have he : e = (l.pop front).1 := by
            dsimp only at g2
            cases hp : (l.pop front).1 with
            | none => rw [hp] at g2; exact g2
            | some x => rw [hp] at g2; obtain ⟨_, rfl, rfl⟩ := g2; rfl
          exact wp_pure ⟨by rw [he, g1.1], L', 0, (add_zero _).symm, g1, .nil⟩
        | iter | range | byRef => exact skip (j := .owning D it) hR e
    | excl len g s it =>
      cases n with
      | shared | owning => exact hR.elim
      | excl m g' l done =>
        cases c with
        | next i front =>
          cases e
          obtain ⟨rfl, rfl, h3⟩ := hR
          simp only [liveM]
          cases hm : m.root with
          | none =>
            rw [hm] at h3
            obtain ⟨w, len⟩ := it
            obtain ⟨h4, h5, h6, h7, rfl, rfl⟩ := h3
            dsimp only at h5 h6
            subst h5
            rw [step_nil]
            have hp : l.pop front = (none, l) := by
              obtain ⟨es, sl⟩ := l
              dsimp only at h7
              subst h7
              cases front <;> rfl
            rw [hp]
            refine wp_pure ⟨by rw [h6]; rfl, 0, 0, rfl, ?_, .nil⟩
            simp only [RJ, hm]
            exact ⟨trivial, trivial, h4, trivial, h6, h7, rfl, trivial⟩
          | some nd =>
            rw [hm] at h3
            obtain ⟨hs, rfl, h4⟩ := h3
            have hd := label_dep (dep_len hN hI.1 hm)
            obtain ⟨n, hn⟩ := dep_pos hd
            have ok : BothOk m.len (mutOps m.len) nodeOps (MR g' nd.label) (MItem nd.label) := by
              have := mutOk (g := g') (D := m.len) (n := m.len - 1) (labs_label_nodup nd)
                (by rwa [show m.len - 1 + 1 = m.len by omega]) hd
              rwa [show m.len - 1 + 1 = m.len by omega] at this
            refine wp_bind (wp_conseq (step_left ok (d := front) h4) ?_)
            rintro ⟨s', it', e⟩ L' ⟨g1, g2⟩
            dsimp only at g1 g2 ⊢
            have hlen := g1.1
            cases hp : (l.pop front).1 with
            | none =>
              rw [hp] at g2
              cases g2
              refine wp_pure ⟨by rw [hlen]; rfl, L', 0, (add_zero _).symm, ?_, .nil⟩
              simp only [RJ, hm]
              exact ⟨trivial, trivial, hs, by simp, g1⟩
            | some x =>
              rw [hp] at g2
              obtain ⟨i, rfl, g3⟩ := g2
              obtain ⟨hl, wt, g4, g5⟩ := g1
              have hnd : (slots (hs ++ [x])).Nodup := by
                have h1 := hI.2
                have h2 := (pop_slots front l).append_left (slots hs)
                rw [hp] at h2
                have h3 := h2.nodup_iff.2 h1
                rw [← List.append_assoc, List.nodup_append] at h3
                simpa [slots] using h3.1
              obtain ⟨s2, y1, y2⟩ := yldM_ok (labs_label_nodup nd) g4 g3 hnd
              simp only [y1]
              refine wp_pure ⟨by rw [hl]; rfl, L', 0, (add_zero _).symm, ?_, .nil⟩
              simp only [RJ, hm]
              exact ⟨trivial, trivial, hs ++ [x], by simp [slots], hl, wt, y2, g5⟩
        | iter | range | byRef => exact skip (j := .excl len g s it) hR e
  stop {j n L y} hI hR e := by
    cases j with
    | shared h its =>
      cases n with
      | owning | excl => exact hR.elim
      | shared m ls => cases e; exact wp_pure (.some hR.1)
    | owning D it =>
      cases n with
      | shared | excl => exact hR.elim
      | owning l =>
        cases e
        obtain ⟨-, wt, h1, -⟩ := hR
        refine wp_bind (wp_conseq (dropWork_spec h1) ?_)
        rintro _ _ rfl
        exact wp_pure .none
    | excl len g s it =>
      cases n with
      | shared | owning => exact hR.elim
      | excl m g' l done =>
        cases e
        obtain ⟨rfl, rfl, h3⟩ := hR
        simp only [liveM]
        cases hm : m.root with
        | none =>
          rw [hm] at h3
          obtain ⟨h4, -, -, -, -, rfl⟩ := h3
          rw [h4, MT.close]
          exact wp_pure (.some ⟨none, rfl, by simp [writtenAt, hm, vtO]⟩)
        | some nd =>
          rw [hm] at h3
          obtain ⟨hs, rfl, -, wt, ⟨-, h4, -⟩, -⟩ := h3
          refine wp_bind (wp_conseq (close_spec' h4) ?_)
          rintro r _ rfl
          refine wp_pure (.some ⟨r, rfl, ?_⟩)
          simp only [writtenAt, hm, Option.map_some, Node.label, unl_label]
          rfl
  view {j n L} hR := by
    cases j with
    | shared h its =>
      cases n with
      | owning | excl => exact hR.elim
      | shared m ls => exact Or.inr ⟨h, m, rfl, rfl, hR.1⟩
    | owning D it =>
      cases n with
      | shared | excl => exact hR.elim
      | owning l => exact Or.inl ⟨rfl, rfl⟩
    | excl len g s it =>
      cases n with
      | shared | owning => exact hR.elim
      | excl => exact Or.inl ⟨rfl, rfl⟩

end

end Verif.BTreeH
