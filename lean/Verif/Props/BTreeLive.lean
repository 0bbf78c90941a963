import Verif.BTreeHeap.LiveSpec
import Verif.Props.AvlLive
/-!
# Property C54 for `BTreeMap`: iterators kept across other operations

As for `AvlMap` (`Props/AvlLive`).
-/
namespace Verif.Props
open Verif.Heap Verif.Heap.Machine Verif.BTreeH Std
open Verif.BTree (BTreeMap QBnd)
open Verif.BTree.BTreeMap (WF BothExclude)

variable {K V S Q : Type} [Ord K] [Ord Q]

/-- Maps and iterators on memory. -/
abbrev btreeLive (K V S : Type) {Q : Type} [Ord K] [Ord Q] (N : Nat) (b : K → Q) :=
  (btreeM K V S N b).live (liveM K V S N b)

/-- Maps and iterators on values: an iterator is the list of entries it has yet to yield. -/
abbrev btreeLiveV (K V S : Type) {Q : Type} [Ord K] [Ord Q] (N : Nat) (b : K → Q) :=
  (btreeV K V S N b).live (liveV K V S N b)

/-- Commands on one map or its iterators. -/
abbrev BTreeLive1 (K V Q S : Type) := LiveCmd (One K V Q S) (Start K V Q) (Use K V Q S)

/-- Programs on maps and iterators. -/
abbrev BTreeLiveCmd (K V Q S : Type) := Cmd (Make K V) (BTreeLive1 K V Q S) Two (Look K V)

section
variable [TransOrd K] [TransOrd Q] {N : Nat} {b : K → Q}

theorem btreeLive_total (hN : 1 ≤ N) (hb : ∀ a c, compare (b a) (b c) = compare a c) :
    Total (btreeLiveV K V S N b) (InvO (WF N) (InvJ N)) :=
  live_total (btreeV_total hN hb) (liveV_total hN hb)

theorem btreeLive_sound (hN : 1 ≤ N) (hb : ∀ a c, compare (b a) (b c) = compare a c) :
    Sound (btreeLive K V S N b) (btreeLiveV K V S N b) (InvO (WF N) (InvJ N)) (RO R RJ) :=
  live_sound (btreeM_sound hN hb) (liveV_total hN hb) (liveM_sound hN hb)

/-- C54: every program with any number of maps, clones and iterators ends without undefined
behaviour or a panic (other than those of `range`, which are shown), and shows what it shows if
every map is a value of its own and every iterator the list of the entries its map had when the
iterator was made. -/
theorem C54_btree_values (hN : 1 ≤ N) (hb : ∀ a c, compare (b a) (b c) = compare a c)
    (cs : List (BTreeLiveCmd K V Q S)) :
    ∃ ms obs, Machine.run (btreeLiveV K V S N b) cs [] = some (ms, obs) ∧
      Shown (btreeLive K V S N b) cs obs :=
  shown_of (btreeLive_total hN hb) (btreeLive_sound hN hb) cs

end

/-- `next` or `next_back` of the first iterator of a map. -/
def btreeNext (d : Bool) : BTreeLive1 K V Q S := .use (.next 0 d)

/-- The iterators of all entries. -/
def btreeWhole : Start K V Q → Bool
  | .iter | .intoIter | .iterMut _ => true
  | _ => false

/-- The iterators of a range. -/
def btreePart (lb ub : QBnd Q) : Start K V Q → Prop
  | .range lb' ub' | .rangeMut lb' ub' _ => lb' = lb ∧ ub' = ub
  | _ => False

/-- What one call shows: the entry if any, and the length then reported. -/
def btreeShows (x : Option (K × V) × Nat) : Option (Res K V S) := some (.items [x])

/-- The entries yet to come of the first iterator. -/
def btreeLeft : Obj (BTreeMap K V) (VLive K V) → Left (K × V) → Prop
  | .busy (.shared _ its), l => its[0]? = some l
  | .busy (.owning l'), l => l' = l
  | .busy (.excl _ _ l' _), l => l'.slack = l.slack ∧ l'.entries.map (fun e => (e.1, e.2.2)) = l.entries
  | _, _ => False

theorem btreeLeft_next {N : Nat} {b : K → Q} {m : Obj (BTreeMap K V) (VLive K V)} {l : Left (K × V)}
    (d : Bool) (h : btreeLeft m l) : ∃ m', (btreeLiveV K V S N b).one m (btreeNext d) =
      some (some m', [], btreeShows ((l.pop d).1, (l.pop d).2.len)) ∧ btreeLeft m' (l.pop d).2 := by
  cases m with
  | idle m => exact h.elim
  | busy n =>
    cases n with
    | shared m its =>
      have h' : its[0]? = some l := h
      refine ⟨.busy (.shared m (its.set 0 (l.pop d).2)), ?_, ?_⟩
      · simp [Impl.live, btreeNext, liveV, h', btreeShows]
      · cases its <;> simp_all [btreeLeft]
    | owning l' =>
      obtain rfl : l' = l := h
      exact ⟨.busy (.owning (l'.pop d).2), rfl, rfl⟩
    | excl m g l' done =>
      obtain ⟨h1, h2⟩ := h
      have e := dequeStep_map (fun e : K × (Nat × V) => (e.1, e.2.2)) d l'.entries
      rw [h2] at e
      refine ⟨.busy (.excl m g (l'.pop d).2 (done ++ ((l'.pop d).1.map (·.2.1)).toList)), ?_, ?_⟩
      · simp [Impl.live, btreeNext, liveV, btreeShows, Left.pop, Left.len, e, h1]
      · exact ⟨h1, by simp [Left.pop, e]⟩

section
variable [TransOrd K] [TransOrd Q] {N : Nat} {b : K → Q}

omit [TransOrd Q] in
theorem btree_serialize_inv (hN : 1 ≤ N) {m : Obj (BTreeMap K V) (VLive K V)} {y n l}
    (hI : InvO (WF N) (InvJ N) m)
    (e : (btreeLiveV K V S N b).one m (.base .serialize) = some y)
    (ey : y.2.2 = some (.written n l)) : ∃ m', m = .idle m' ∧ WF N m' ∧ m'.len = n ∧ m'.abs = l := by
  cases m with
  | busy j => simp [Impl.live] at e; subst e; cases ey
  | idle m =>
    have hI : WF N m := hI
    simp only [Impl.live, btreeV, BTreeMap.serialize, BTree.BTreeMap.iterList_spec hN hI] at e
    simp only [Option.map_some, Option.bind_eq_bind, Option.bind_some, Option.pure_def,
      Option.some.injEq] at e
    subst e
    simp only [Option.some.injEq, Res.written.injEq] at ey
    exact ⟨m, rfl, hI, ey.1, ey.2⟩

omit [Ord Q] [TransOrd Q] in
theorem label_map (m : BTreeMap K V) :
    m.label.abs.map (fun e => (e.1, e.2.2)) = m.abs := by
  rw [BTree.BTreeMap.label_abs, List.map_map]
  exact List.zipIdx_map_fst ..

/-- C54: an iterator made after any history yields exactly the entries its map had at that time,
from both ends as called, and reports how many are left, whatever is done to other maps in between
the calls: to clones, which share its nodes, or to those it is a clone of. -/
theorem C54_btree_snapshot (hN : 1 ≤ N) (hb : ∀ a c, compare (b a) (b c) = compare a c)
    {h : Mem (ND K V)} {rs : List (Option (Obj HMap (HLive K V)))}
    (hr : Reached (btreeLive K V S N b) h rs) {i n : Nat} {l : List (K × V)}
    (hl : Sees (btreeLive K V S N b) h rs i (.base .serialize) (some (.written n l)))
    {a : Start K V Q} (ha : btreeWhole a = true)
    (body : Mixed (Make K V) (BTreeLive1 K V Q S) Two (Look K V))
    (hbody : ∀ c, .inr c ∈ body → i ∉ c.names) :
    ∃ h' rs' obs,
      (Machine.run (btreeLive K V S N b) (.one i (.start a) :: body.prog btreeNext i) rs).exec h =
        some (h', some (rs', some none :: obs)) ∧
      body.yields obs = (Spec.dequeRun body.calls l).map (fun x => some (btreeShows x)) := by
  refine snapshot (l := ⟨l, 0⟩) (Y := btreeLeft) (btreeLive_total hN hb) (btreeLive_sound hN hb) hr
    hl ?_ (fun d h => btreeLeft_next d h) body hbody
  intro m y hI e ey
  obtain ⟨m, rfl, hm, rfl, rfl⟩ := btree_serialize_inv hN hI e ey
  have hlen := hm.len_eq
  cases a with
  | iter => exact ⟨_, rfl, by simp [btreeLeft, leftAll, hlen]⟩
  | intoIter => exact ⟨_, rfl, by simp [btreeLeft, leftAll, hlen]⟩
  | iterMut g =>
    have hlen' := hm.label.len_eq
    exact ⟨_, rfl, by simp [leftAll, hlen'], label_map m⟩
  | range | rangeMut => cases ha

/-- C54: likewise `range` and `range_mut`, if the call does not panic: they yield the entries
within the bounds that the map had when they were made.  (The length reported counts down from
that of the map.) -/
theorem C54_btree_snapshot_range (hN : 1 ≤ N) (hb : ∀ a c, compare (b a) (b c) = compare a c)
    {h : Mem (ND K V)} {rs : List (Option (Obj HMap (HLive K V)))}
    (hr : Reached (btreeLive K V S N b) h rs) {i n : Nat} {l : List (K × V)}
    (hl : Sees (btreeLive K V S N b) h rs i (.base .serialize) (some (.written n l)))
    {lb ub : QBnd Q} (hbad : lb.bad ub = false) (hex : ¬ BothExclude b lb ub l)
    {a : Start K V Q} (ha : btreePart lb ub a)
    (body : Mixed (Make K V) (BTreeLive1 K V Q S) Two (Look K V))
    (hbody : ∀ c, .inr c ∈ body → i ∉ c.names) :
    ∃ h' rs' obs,
      (Machine.run (btreeLive K V S N b) (.one i (.start a) :: body.prog btreeNext i) rs).exec h =
        some (h', some (rs', some none :: obs)) ∧
      body.yields obs =
        (Spec.dequeRun body.calls
          (l.filter (fun e => (lb.bnd b).okLo e.1 && (ub.bnd b).okHi e.1))).map
        (fun x => some (btreeShows (x.1, x.2 + (n -
          (l.filter (fun e => (lb.bnd b).okLo e.1 && (ub.bnd b).okHi e.1)).length)))) := by
  refine snapshot (l := ⟨l.filter (fun e => (lb.bnd b).okLo e.1 && (ub.bnd b).okHi e.1),
    n - (l.filter (fun e => (lb.bnd b).okLo e.1 && (ub.bnd b).okHi e.1)).length⟩)
    (Y := btreeLeft) (btreeLive_total hN hb) (btreeLive_sound hN hb) hr
    hl ?_ (fun d h => btreeLeft_next d h) body hbody
  intro m y hI e ey
  obtain ⟨m, rfl, hm, rfl, rfl⟩ := btree_serialize_inv hN hI e ey
  cases a with
  | range lb' ub' =>
    obtain ⟨rfl, rfl⟩ := ha
    obtain ⟨it, e1, -, -, h1⟩ := (BTree.BTreeMap.range_spec hN hm hb lb' ub').2 hbad hex
    have e2 : leftRange b m lb' ub' =
        some ⟨Spec.range (lb'.bnd b) (ub'.bnd b) m.abs,
          m.len - (Spec.range (lb'.bnd b) (ub'.bnd b) m.abs).length⟩ := by
      rw [leftRange, e1, ← h1]; rfl
    refine ⟨_, rfl, ?_⟩
    simp only [e2]
    rfl
  | rangeMut lb' ub' g =>
    obtain ⟨rfl, rfl⟩ := ha
    have hex' : ¬ BothExclude b lb' ub' m.label.abs := by
      rintro ⟨q1, q2, r1, r2, r3, e, r4, r5⟩
      refine hex ⟨q1, q2, r1, r2, r3, (e.1, e.2.2), ?_, r5⟩
      rw [← label_map m]
      exact List.mem_map_of_mem r4
    obtain ⟨it, e1, -, -, h1⟩ := (BTree.BTreeMap.range_spec hN hm.label hb lb' ub').2 hbad hex'
    have e2 : leftRange b m.label lb' ub' =
        some ⟨Spec.range (lb'.bnd b) (ub'.bnd b) m.label.abs,
          m.len - (Spec.range (lb'.bnd b) (ub'.bnd b) m.label.abs).length⟩ := by
      rw [leftRange, e1, ← h1]; rfl
    have h2 : (Spec.range (lb'.bnd b) (ub'.bnd b) m.label.abs).map (fun e => (e.1, e.2.2)) =
        m.abs.filter (fun e => (lb'.bnd b).okLo e.1 && (ub'.bnd b).okHi e.1) := by
      conv_rhs => rw [← label_map m, List.filter_map]
      rfl
    have h3 := congrArg List.length h2
    rw [List.length_map] at h3
    refine ⟨_, rfl, ?_⟩
    simp only [e2]
    exact ⟨by simp only [h3], h2⟩
  | iter | intoIter | iterMut => exact ha.elim

/-- A mutable iterator over the slots `E` after some calls. -/
def btreeExcl (m : BTreeMap K V) (g : Nat → K → V → V) (E : List (K × (Nat × V))) (ds : List Bool) :
    Obj (BTreeMap K V) (VLive K V) → Prop
  | .busy (.excl m' g' l done) => m' = m ∧ g' = g ∧
      l.entries = ds.foldl (fun l d => (Spec.dequeStep d l).2) E ∧
      done = (Spec.dequeRun ds E).filterMap (fun y => y.1.map (·.2.1))
  | _ => False

omit [TransOrd K] [TransOrd Q] in
theorem btreeExcl_next {m : BTreeMap K V} {g : Nat → K → V → V} {E : List (K × (Nat × V))}
    {ds : List Bool} {j : Obj (BTreeMap K V) (VLive K V)} (d : Bool) (h : btreeExcl m g E ds j) :
    ∃ m' o, (btreeLiveV K V S N b).one j (btreeNext d) = some (some m', [], o) ∧
      btreeExcl m g E (ds ++ [d]) m' := by
  cases j with
  | idle => exact h.elim
  | busy j =>
    cases j with
    | shared | owning => exact h.elim
    | excl m' g' l done =>
      obtain ⟨rfl, rfl, h3, rfl⟩ := h
      refine ⟨_, _, rfl, rfl, rfl, ?_, ?_⟩
      · simp only [List.foldl_append, List.foldl_cons, List.foldl_nil, ← h3]
        rfl
      · rw [dequeRun_snoc, List.filterMap_append, ← h3]
        cases hp : (Spec.dequeStep d l.entries).1 <;> simp [Left.pop, hp]

omit [TransOrd Q] in
theorem btreeExcl_stop (hN : 1 ≤ N) {m : BTreeMap K V} (hI : WF N m) {g : Nat → K → V → V}
    {F : List ((K × V) × Nat)} {ds : List Bool} {j : Obj (BTreeMap K V) (VLive K V)}
    (h : btreeExcl m g (F.map (fun x => (x.1.1, (x.2, x.1.2)))) ds j) :
    ∃ m' o, (btreeLiveV K V S N b).one j .stop = some (some m', [], o) ∧
      ∃ y, (btreeLiveV K V S N b).one m' (.base .serialize) = some y ∧ y.2.2 = some (.written m.len
        (afterWrites g ((Spec.dequeRun ds F).filterMap (fun y => y.1.map (·.2))) m.abs)) := by
  cases j with
  | idle => exact h.elim
  | busy j =>
    cases j with
    | shared | owning => exact h.elim
    | excl m' g' l done =>
      obtain ⟨rfl, rfl, -, rfl⟩ := h
      rw [got_map (fun x : (K × V) × Nat => (x.1.1, (x.2, x.1.2))) (fun e => e.2.1) (fun x => x.2)
        (fun _ => rfl)]
      generalize (Spec.dequeRun ds F).filterMap _ = slots
      have hw : WF N (writtenAt g' m' slots) := hI.mapIdx _ (fun _ _ => rfl)
      have ha : (writtenAt g' m' slots).abs = afterWrites g' slots m'.abs := by
        rw [afterWrites_eq]
        obtain ⟨n, r⟩ := m'
        cases r with
        | none => rfl
        | some r => exact BTree.Node.mapIdx_toList _ 0 r
      refine ⟨_, _, rfl, _, by
        simp only [Impl.live, btreeV, BTreeMap.serialize, BTree.BTreeMap.iterList_spec hN hw]
        rfl, ?_⟩
      rw [ha]
      rfl

/-- C54: after `iter_mut`, called any number of times from both ends while other maps are changed,
and dropped, the value of the `j`-th entry handed out is what `g j` made of it; all other entries
are as before. -/
theorem C54_btree_written (hN : 1 ≤ N) (hb : ∀ a c, compare (b a) (b c) = compare a c)
    {h : Mem (ND K V)} {rs : List (Option (Obj HMap (HLive K V)))}
    (hr : Reached (btreeLive K V S N b) h rs) {i n : Nat} {l : List (K × V)}
    (hl : Sees (btreeLive K V S N b) h rs i (.base .serialize) (some (.written n l)))
    (g : Nat → K → V → V) (body : Mixed (Make K V) (BTreeLive1 K V Q S) Two (Look K V))
    (hbody : ∀ c, .inr c ∈ body → i ∉ c.names) :
    ∃ h' rs' obs, (Machine.run (btreeLive K V S N b) (.one i (.start (.iterMut g)) ::
        (body.prog btreeNext i ++ [.one i .stop])) rs).exec h = some (h', some (rs', obs)) ∧
      Sees (btreeLive K V S N b) h' rs' i (.base .serialize) (some (.written n (afterWrites g
        ((Spec.dequeRun body.calls l.zipIdx).filterMap (fun y => y.1.map (·.2))) l))) := by
  refine dropped (Y := fun ds j => ∃ m : BTreeMap K V, WF N m ∧ m.len = n ∧ m.abs = l ∧
    btreeExcl m g (l.zipIdx.map (fun x => (x.1.1, (x.2, x.1.2)))) ds j)
    (btreeLive_total hN hb) (btreeLive_sound hN hb) hr body hl ?_ ?_ ?_ hbody
  · intro m y hI e ey
    obtain ⟨m, rfl, hI, rfl, rfl⟩ := btree_serialize_inv hN hI e ey
    exact ⟨_, _, rfl, m, hI, rfl, rfl, rfl, rfl, BTree.BTreeMap.label_abs .., rfl⟩
  · rintro ds j d ⟨m, h1, h2, h3, h4⟩
    obtain ⟨m', o, e, h5⟩ := btreeExcl_next (S := S) (N := N) (b := b) d h4
    exact ⟨m', o, e, m, h1, h2, h3, h5⟩
  · rintro j ⟨m, h1, rfl, rfl, h4⟩
    exact btreeExcl_stop hN h1 h4

/-- C54: the same of `range_mut`, if the call does not panic: only entries in the range are handed
out and written to. -/
theorem C54_btree_written_range (hN : 1 ≤ N) (hb : ∀ a c, compare (b a) (b c) = compare a c)
    {h : Mem (ND K V)} {rs : List (Option (Obj HMap (HLive K V)))}
    (hr : Reached (btreeLive K V S N b) h rs) {i n : Nat} {l : List (K × V)}
    (hl : Sees (btreeLive K V S N b) h rs i (.base .serialize) (some (.written n l)))
    {lb ub : QBnd Q} (hbad : lb.bad ub = false) (hex : ¬ BothExclude b lb ub l)
    (g : Nat → K → V → V) (body : Mixed (Make K V) (BTreeLive1 K V Q S) Two (Look K V))
    (hbody : ∀ c, .inr c ∈ body → i ∉ c.names) :
    ∃ h' rs' obs, (Machine.run (btreeLive K V S N b) (.one i (.start (.rangeMut lb ub g)) ::
        (body.prog btreeNext i ++ [.one i .stop])) rs).exec h = some (h', some (rs', obs)) ∧
      Sees (btreeLive K V S N b) h' rs' i (.base .serialize) (some (.written n (afterWrites g
        ((Spec.dequeRun body.calls (l.zipIdx.filter
          (fun x => (lb.bnd b).okLo x.1.1 && (ub.bnd b).okHi x.1.1))).filterMap
            (fun y => y.1.map (·.2))) l))) := by
  refine dropped (Y := fun ds j => ∃ m : BTreeMap K V, WF N m ∧ m.len = n ∧ m.abs = l ∧
    btreeExcl m g ((l.zipIdx.filter (fun x => (lb.bnd b).okLo x.1.1 && (ub.bnd b).okHi x.1.1)).map
      (fun x => (x.1.1, (x.2, x.1.2)))) ds j)
    (btreeLive_total hN hb) (btreeLive_sound hN hb) hr body hl ?_ ?_ ?_ hbody
  · intro m y hI e ey
    obtain ⟨m, rfl, hm, rfl, rfl⟩ := btree_serialize_inv hN hI e ey
    have hex' : ¬ BothExclude b lb ub m.label.abs := by
      rintro ⟨q1, q2, r1, r2, r3, e, r4, r5⟩
      refine hex ⟨q1, q2, r1, r2, r3, (e.1, e.2.2), ?_, r5⟩
      rw [← label_map m]
      exact List.mem_map_of_mem r4
    obtain ⟨it, e1, -, -, h1⟩ := (BTree.BTreeMap.range_spec hN hm.label hb lb ub).2 hbad hex'
    have e2 : leftRange b m.label lb ub =
        some ⟨Spec.range (lb.bnd b) (ub.bnd b) m.label.abs,
          m.len - (Spec.range (lb.bnd b) (ub.bnd b) m.label.abs).length⟩ := by
      rw [leftRange, e1, ← h1]; rfl
    refine ⟨_, _, rfl, m, hm, rfl, rfl, ?_⟩
    simp only [e2]
    refine ⟨rfl, rfl, ?_, rfl⟩
    simp only [BTree.BTreeMap.label_abs, Spec.range, List.filter_map, List.foldl_nil]
    rfl
  · rintro ds j d ⟨m, h1, h2, h3, h4⟩
    obtain ⟨m', o, e, h5⟩ := btreeExcl_next (S := S) (N := N) (b := b) d h4
    exact ⟨m', o, e, m, h1, h2, h3, h5⟩
  · rintro j ⟨m, h1, rfl, rfl, h4⟩
    exact btreeExcl_stop hN h1 h4

/-- C54: whatever is done to other maps and iterators, after any history, does not change what any
command on map `i` or on its iterators would show. -/
theorem C54_btree_others (hN : 1 ≤ N) (hb : ∀ a c, compare (b a) (b c) = compare a c)
    {h : Mem (ND K V)} {rs : List (Option (Obj HMap (HLive K V)))}
    (hr : Reached (btreeLive K V S N b) h rs) {i : Nat} (hi : i < rs.length)
    (cs : List (BTreeLiveCmd K V Q S)) (hc : ∀ c ∈ cs, i ∉ c.names) :
    ∃ h' rs' obs, (Machine.run (btreeLive K V S N b) cs rs).exec h = some (h', some (rs', obs)) ∧
      ∀ c o, Sees (btreeLive K V S N b) h' rs' i c o ↔ Sees (btreeLive K V S N b) h rs i c o :=
  others (btreeLive_total hN hb) (btreeLive_sound hN hb) hr hi cs hc

/-- C54: threads that own maps and iterators, which may share nodes: what they show does not
depend on the schedule. -/
theorem C54_btree_threads (hN : 1 ≤ N) (hb : ∀ a c, compare (b a) (b c) = compare a c)
    (ph : List (List (Thread (Make K V) (BTreeLive1 K V Q S) Two (Look K V))))
    (hn : ∀ p ∈ ph, (dealt p).Nodup) :
    ∃ obs, (∃ h rs, Runs (btreeLive K V S N b) .empty [] ph h rs obs) ∧
      ∀ h rs obs', Runs (btreeLive K V S N b) .empty [] ph h rs obs' → obs' = obs := by
  obtain ⟨obs, h1, h2, -⟩ := isolated_threads (btreeLive_total hN hb) (btreeLive_sound hN hb)
    (btreeLive_sound hN hb) ph hn
  exact ⟨obs, h1, h2⟩

/-- C54: when all maps and iterators are gone, however far the iterators got, so are all nodes. -/
theorem C54_btree_no_leak (hN : 1 ≤ N) (hb : ∀ a c, compare (b a) (b c) = compare a c)
    {h : Mem (ND K V)} {rs : List (Option (Obj HMap (HLive K V)))}
    (hr : Reached (btreeLive K V S N b) h rs) (hd : ∀ s, some s ∉ rs) (a : Nat) :
    h.cells a = none := by
  obtain ⟨ms, hs⟩ := hr.sim (btreeLive_total hN hb) (btreeLive_sound hN hb)
  exact hs.no_leak hd a

end

/-! ## Examples -/

namespace BTreeLiveDemo

/-- The machine with `MIN_OCCUPANCY` 1. -/
abbrev M := btreeLive Nat Nat Nat 1 (id : Nat → Nat)

/-- Map 0, its clones 1, 2 and 3; an iterator on 0, an owning one on 1 and a mutable one on 2, all
called in turns while 3 is changed; the map under the shared iterator is cloned as 4. -/
def prog : List (BTreeLiveCmd Nat Nat Nat Nat) :=
  [.make (.fromIter [(1, 10), (2, 20), (3, 30), (4, 40), (5, 50)]), .one 0 (.base .clone),
   .one 0 (.base .clone), .one 0 (.base .clone),
   .one 0 (.start .iter), .one 1 (.start .intoIter), .one 2 (.start (.iterMut fun j _ v => v + j + 1)),
   .one 0 (.use (.next 0 true)), .one 1 (.use (.next 0 true)), .one 2 (.use (.next 0 true)),
   .one 3 (.base (.remove 2)), .one 3 (.base (.insert 7 70)),
   .one 0 (.use (.next 0 false)), .one 1 (.use (.next 0 false)), .one 2 (.use (.next 0 false)),
   .one 0 (.use (.byRef .clone)), .one 0 (.use (.range (.included 2) (.excluded 4))),
   .one 3 (.base (.getMut 3 (· + 1))), .one 4 (.base .popFirst),
   .one 0 (.use (.next 0 true)), .one 0 (.use (.next 1 true)), .one 1 (.use (.next 0 true)),
   .one 0 (.use (.next 1 false)), .one 0 (.base .clear),
   .one 0 (.use (.range (.excluded 2) (.excluded 2))),
   .look 0 4 (.eq (fun a b => decide (a = b))),
   .one 0 .stop, .one 1 .stop, .one 2 .stop, .one 0 (.base .serialize), .one 2 (.base .serialize),
   .one 3 (.base .serialize), .one 4 (.base .serialize)]

def u : Option (Option (Res Nat Nat Nat)) := some (some .unit)

/-- What `.items` shows for one call. -/
def at_ (k v n : Nat) : Option (Option (Res Nat Nat Nat)) := some (some (.items [(some (k, v), n)]))

/-- The map under the shared iterator can be read and cloned, but `clear` is refused. -/
def shown : List (Option (Option (Res Nat Nat Nat))) :=
  [u, u, u, u, some none, some none, some none, at_ 1 10 4, at_ 1 10 4, at_ 1 10 4,
   some (some (.val (some 20))), some (some (.val none)), at_ 5 50 3, at_ 5 50 3, at_ 5 50 3,
   u, some none, some (some (.bool true)), some (some (.entry (some (1, 10)))),
   at_ 2 20 2, at_ 2 20 4, at_ 2 20 2, at_ 3 30 3, some none, some (some .panicked),
   some (some (.bool false)),
   some none, some none, some none,
   some (some (.written 5 [(1, 10), (2, 20), (3, 30), (4, 40), (5, 50)])),
   some (some (.written 5 [(1, 11), (2, 20), (3, 30), (4, 40), (5, 52)])),
   some (some (.written 5 [(1, 10), (3, 31), (4, 40), (5, 50), (7, 70)])),
   some (some (.written 4 [(2, 20), (3, 30), (4, 40), (5, 50)]))]

example : ((Machine.run M prog []).exec .empty).map
    (fun x => x.2.map (·.2)) = some (some shown) := by decide +kernel

/-- Memory and objects at the end of a program. -/
def end_ (cs : List (BTreeLiveCmd Nat Nat Nat Nat)) :
    Mem (ND Nat Nat) × List (Option (Obj HMap (HLive Nat Nat))) :=
  match (Machine.run M cs []).exec .empty with
  | some (h, some (rs, _)) => (h, rs)
  | _ => (.empty, [])

theorem hb : ∀ a c : Nat, compare (id a) (id c) = compare a c := fun _ _ => rfl

theorem reached (cs : List (BTreeLiveCmd Nat Nat Nat Nat)) : Reached M (end_ cs).1 (end_ cs).2 := by
  obtain ⟨-, obs, -, h, rs, e⟩ := C54_btree_values (N := 1) (Nat.le_refl 1) hb cs
  have : end_ cs = (h, rs) := by simp [end_, e]
  rw [this]
  exact Reached.of_exec e

/-- In the middle of the program the three iterators are there. -/
example : (end_ (prog.take 20)).2.map (fun o => o.map fun
    | .idle _ => 0
    | .busy (.shared ..) => 1
    | .busy (.owning ..) => 2
    | .busy (.excl ..) => 3) = [some 1, some 2, some 3, some 0, some 0] := by decide +kernel

example := C54_btree_values (N := 1) (Nat.le_refl 1) hb prog
example := C54_btree_others (Nat.le_refl 1) hb (reached (prog.take 20)) (i := 1) (by decide +kernel)
  [.one 2 (btreeNext true), .one 0 .stop, .one 0 (.base .clear), .one 3 (.base .drop)]
  (by simp [Cmd.names])

/-- Map 0 and its clone 1. -/
def two : List (BTreeLiveCmd Nat Nat Nat Nat) :=
  [.make (.fromIter [(1, 10), (2, 20), (3, 30), (4, 40)]), .one 0 (.base .clone)]

theorem seen : Sees M (end_ two).1 (end_ two).2 0 (.base .serialize)
      (some (.written 4 [(1, 10), (2, 20), (3, 30), (4, 40)])) := by
  have : ((Machine.run M [.one 0 (.base .serialize)] (end_ two).2).exec
      (end_ two).1).map (fun x => x.2.map (·.2)) =
      some (some [some (some (.written 4 [(1, 10), (2, 20), (3, 30), (4, 40)]))]) := by decide +kernel
  match h : (Machine.run M [.one 0 (.base .serialize)] (end_ two).2).exec
      (end_ two).1, this with
  | some (h', some (rs', obs)), this =>
    simp only [Option.map_some, Option.some.injEq] at this
    exact ⟨h', rs', by rw [h, this]⟩

/-- Calls from both ends while the clone is changed. -/
def body : Mixed (Make Nat Nat) (BTreeLive1 Nat Nat Nat Nat) Two (Look Nat Nat) :=
  [.inl true, .inr (.one 1 (.base (.insert 2 21))), .inl false, .inr (.one 1 (.base .clear)),
   .inl true, .inr (.one 1 (.base .drop)), .inl true, .inl true]

theorem body_names : ∀ c, .inr c ∈ body → 0 ∉ c.names := by
  intro c hc
  simp only [body, List.mem_cons, List.not_mem_nil, reduceCtorEq, false_or, or_false,
    Sum.inr.injEq] at hc
  rcases hc with rfl | rfl | rfl <;> simp [Cmd.names]

example := C54_btree_snapshot (Nat.le_refl 1) hb (reached two) seen (a := .iter) rfl body body_names
example := C54_btree_snapshot (Nat.le_refl 1) hb (reached two) seen (a := .intoIter) rfl body body_names
example := C54_btree_snapshot (Nat.le_refl 1) hb (reached two) seen
  (a := .iterMut fun _ _ v => v + 1) rfl body body_names

theorem not_both : ¬ BothExclude (id : Nat → Nat) (.included 2) .unbounded
    [(1, 10), (2, 20), (3, 30), (4, 40)] := by rintro ⟨q1, q2, h, -⟩; cases h

example := C54_btree_snapshot_range (Nat.le_refl 1) hb (reached two) seen
  (lb := .included 2) (ub := .unbounded) rfl not_both
  (a := .range (.included 2) .unbounded) ⟨rfl, rfl⟩ body body_names
example := C54_btree_snapshot_range (Nat.le_refl 1) hb (reached two) seen
  (lb := .included 2) (ub := .unbounded) rfl not_both
  (a := .rangeMut (.included 2) .unbounded fun _ _ v => v + 1) ⟨rfl, rfl⟩ body body_names

example := C54_btree_written (Nat.le_refl 1) hb (reached two) seen
  (fun j _ v => 100 * j + v) body body_names
example := C54_btree_written_range (Nat.le_refl 1) hb (reached two) seen
  (lb := .included 2) (ub := .unbounded) rfl not_both (fun j _ v => 100 * j + v) body body_names

/-- Two threads: one goes on with an owning iterator while the other changes the map that shares
its nodes. -/
def phases : List (List (Thread (Make Nat Nat) (BTreeLive1 Nat Nat Nat Nat) Two (Look Nat Nat))) :=
  [[⟨[], prog.take 20⟩],
   [⟨[1], [.one 0 (btreeNext true), .one 0 (btreeNext false), .one 0 .stop]⟩,
    ⟨[0, 3], [.one 0 .stop, .one 0 (.base .clear), .one 1 (.base (.insert 9 9)),
      .one 1 (.start (.rangeMut .unbounded .unbounded fun _ _ v => v)), .one 1 (btreeNext true)]⟩]]

example := C54_btree_threads (N := 1) (Nat.le_refl 1) hb phases (by decide)

/-- All iterators and maps dropped, one iterator in the middle. -/
def fin : List (BTreeLiveCmd Nat Nat Nat Nat) :=
  prog.take 20 ++ [.one 0 .stop, .one 1 .stop, .one 2 .stop, .one 0 (.base .drop),
    .one 2 (.base .drop), .one 3 (.base .drop), .one 4 (.base .drop)]

example (a : Nat) : (end_ fin).1.cells a = none :=
  C54_btree_no_leak (Nat.le_refl 1) hb (reached fin) (by
    have : (end_ fin).2.map Option.isSome = [false, false, false, false, false] := by decide +kernel
    intro s hs
    have := List.mem_map_of_mem (f := Option.isSome) hs
    simp_all) a

end BTreeLiveDemo
end Verif.Props
