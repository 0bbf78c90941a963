import Verif.AvlHeap.LiveSpec
/-!
# Property C54 for `AvlMap`: iterators kept across other operations

Programs are as for C45, and may also make iterators (`iter`, `range`, `into_iter`, `iter_mut`,
`range_mut`), call them one `next` or `next_back` at a time with any other commands in between,
and drop them whenever they like.  `avlLive` runs such programs on reference-counted memory: a
shared iterator is a worklist of references into nodes which other maps may share, an owning one
takes nodes apart or copies them depending on their reference counts at the time of the call, a
mutable one makes shared nodes its own on the way.
-/
namespace Verif.Props
open Verif.Heap Verif.Heap.Machine Verif.AvlH
open Verif.Avl (AvlMap)

variable {K V S : Type} [Ord K]

/-- Maps and iterators on memory. -/
abbrev avlLive (K V S : Type) [Ord K] := (avlM K V S).live (liveM K V S)

/-- Maps and iterators on values: an iterator is the list of entries it has yet to yield. -/
abbrev avlLiveV (K V S : Type) [Ord K] := (avlV K V S).live (liveV K V S)

/-- Commands on one map or its iterators. -/
abbrev AvlLive1 (K V S : Type) := LiveCmd (One K V S) (Start K V) (Use K V S)

/-- Programs on maps and iterators. -/
abbrev AvlLiveCmd (K V S : Type) := Cmd (Make K V) (AvlLive1 K V S) (Two K V) (Look K V)

theorem avlLive_total : Total (avlLiveV K V S) (InvO Ok InvJ) := live_total avlV_total liveV_total

theorem avlLive_sound : Sound (avlLive K V S) (avlLiveV K V S) (InvO Ok InvJ) (RO R RJ) :=
  live_sound avlM_sound liveV_total liveM_sound

/-- C54: every program with any number of maps, clones and iterators ends without panic or
undefined behaviour, and shows what it shows if every map is a value of its own and every iterator
the list of the entries its map had when the iterator was made. -/
theorem C54_avl_values (cs : List (AvlLiveCmd K V S)) :
    ∃ ms obs, Machine.run (avlLiveV K V S) cs [] = some (ms, obs) ∧ Shown (avlLive K V S) cs obs :=
  shown_of avlLive_total avlLive_sound cs

/-- `next` or `next_back` of the first iterator of a map. -/
def avlNext (d : Bool) : AvlLive1 K V S := .use (.next 0 d)

/-- The iterators of all entries. -/
def Start.whole : Start K V → Bool
  | .iter | .intoIter | .iterMut _ => true
  | _ => false

/-- What one call shows: the entry if any, and the length then reported. -/
def avlShows (x : Option (K × V) × Nat) : Option (Res K V S) := some (.items [x])

/-- The entries yet to come of the first iterator. -/
def avlLeft : Obj (AvlMap K V) (VLive K V) → Left (K × V) → Prop
  | .busy (.shared _ its), l => its[0]? = some l
  | .busy (.owning l'), l => l' = l
  | .busy (.excl _ _ l' _), l => l'.slack = l.slack ∧ l'.entries.map (fun e => (e.1, e.2.2)) = l.entries
  | _, _ => False

theorem dequeStep_map {α β : Type} (f : α → β) (d : Bool) (l : List α) :
    Spec.dequeStep d (l.map f) = ((Spec.dequeStep d l).1.map f, (Spec.dequeStep d l).2.map f) := by
  cases d with
  | true => cases l <;> simp [Spec.dequeStep]
  | false =>
    rcases List.eq_nil_or_concat l with h | ⟨e, x, h⟩ <;>
      simp [Spec.dequeStep, h, List.dropLast_append]

theorem avlLeft_next {m : Obj (AvlMap K V) (VLive K V)} {l : Left (K × V)} (d : Bool)
    (h : avlLeft m l) : ∃ m', (avlLiveV K V S).one m (avlNext d) =
      some (some m', [], avlShows ((l.pop d).1, (l.pop d).2.len)) ∧ avlLeft m' (l.pop d).2 := by
  cases m with
  | idle m => exact h.elim
  | busy n =>
    cases n with
    | shared m its =>
      have h' : its[0]? = some l := h
      refine ⟨.busy (.shared m (its.set 0 (l.pop d).2)), ?_, ?_⟩
      · simp [Impl.live, avlNext, liveV, h', avlShows]
      · cases its <;> simp_all [avlLeft]
    | owning l' =>
      obtain rfl : l' = l := h
      exact ⟨.busy (.owning (l'.pop d).2), rfl, rfl⟩
    | excl m g l' done =>
      obtain ⟨h1, h2⟩ := h
      have e := dequeStep_map (fun e : K × (Nat × V) => (e.1, e.2.2)) d l'.entries
      rw [h2] at e
      refine ⟨.busy (.excl m g (l'.pop d).2 (done ++ ((l'.pop d).1.map (·.2.1)).toList)), ?_, ?_⟩
      · simp [Impl.live, avlNext, liveV, avlShows, Left.pop, Left.len, e, h1]
      · exact ⟨h1, by simp [Left.pop, e]⟩

theorem serialize_inv {m : Obj (AvlMap K V) (VLive K V)} {y n l} (hI : InvO Ok InvJ m)
    (e : (avlLiveV K V S).one m (.base .serialize) = some y)
    (ey : y.2.2 = some (.written n l)) : ∃ m', m = .idle m' ∧ Ok m' ∧ m'.len = n ∧ m'.abs = l := by
  cases m with
  | busy j => simp [Impl.live] at e; subst e; cases ey
  | idle m =>
    have hI : Ok m := hI
    simp only [Impl.live, avlV, serialize_ok hI] at e
    simp only [Option.map_some, Option.bind_eq_bind, Option.bind_some, Option.pure_def,
      Option.some.injEq] at e
    subst e
    simp only [Option.some.injEq, Res.written.injEq] at ey
    exact ⟨m, rfl, hI, ey.1, ey.2⟩

/-- C54: an iterator made after any history yields exactly the entries its map had at that time,
from both ends as called, whatever is done to other maps in between the calls: to clones, which
share its nodes, or to those it is a clone of. -/
theorem C54_avl_snapshot {h : Mem (ND K V)} {rs : List (Option (Obj HMap (HLive K V)))}
    (hr : Reached (avlLive K V S) h rs) {i n : Nat} {l : List (K × V)}
    (hl : Sees (avlLive K V S) h rs i (.base .serialize) (some (.written n l)))
    {a : Start K V} (ha : Start.whole a = true)
    (body : Mixed (Make K V) (AvlLive1 K V S) (Two K V) (Look K V))
    (hb : ∀ c, .inr c ∈ body → i ∉ c.names) :
    ∃ h' rs' obs, (Machine.run (avlLive K V S) (.one i (.start a) :: body.prog avlNext i) rs).exec h =
        some (h', some (rs', some none :: obs)) ∧
      body.yields obs = (Spec.dequeRun body.calls l).map
        (fun x => some (avlShows (x.1, x.2 + (n - l.length)))) := by
  refine snapshot (l := ⟨l, n - l.length⟩) (Y := avlLeft) avlLive_total avlLive_sound hr hl ?_
    (fun d h => avlLeft_next d h) body hb
  intro m y hI e ey
  obtain ⟨m, rfl, -, rfl, rfl⟩ := serialize_inv hI e ey
  cases a with
  | iter => exact ⟨_, rfl, rfl⟩
  | intoIter => exact ⟨_, rfl, rfl⟩
  | iterMut g =>
    refine ⟨_, rfl, ?_⟩
    have : (m.root.label 0).toList.map (fun e => (e.1, e.2.2)) = m.root.toList := by
      rw [Avl.label_toList, List.map_map]
      exact List.zipIdx_map_fst ..
    refine ⟨?_, this⟩
    have h2 := congrArg List.length this
    simp only [List.length_map] at h2
    simp [leftAll, AvlMap.abs, h2]
  | range | rangeMut => cases ha

/-- The iterators of a range. -/
def Start.part (lb ub : Bnd K) : Start K V → Prop
  | .range lb' ub' | .rangeMut lb' ub' _ => lb' = lb ∧ ub' = ub
  | _ => False

/-- C54: likewise `range` and `range_mut`, for a lawful key order and lawful bounds: they yield
the entries within the bounds that the map had when they were made. -/
theorem C54_avl_snapshot_range [Std.TransOrd K] {h : Mem (ND K V)}
    {rs : List (Option (Obj HMap (HLive K V)))}
    (hr : Reached (avlLive K V S) h rs) {i n : Nat} {l : List (K × V)}
    (hl : Sees (avlLive K V S) h rs i (.base .serialize) (some (.written n l))) (hs : Sorted l)
    {lb ub : Bnd K} (hlb : lb.Lawful) (hub : ub.Lawful)
    {a : Start K V} (ha : Start.part lb ub a)
    (body : Mixed (Make K V) (AvlLive1 K V S) (Two K V) (Look K V))
    (hb : ∀ c, .inr c ∈ body → i ∉ c.names) :
    ∃ h' rs' obs, (Machine.run (avlLive K V S) (.one i (.start a) :: body.prog avlNext i) rs).exec h =
        some (h', some (rs', some none :: obs)) ∧
      body.yields obs =
        (Spec.dequeRun body.calls (l.filter (fun e => lb.okLo e.1 && ub.okHi e.1))).map
        (fun x => some (avlShows (x.1, x.2 +
          (n - (l.filter (fun e => lb.okLo e.1 && ub.okHi e.1)).length)))) := by
  refine snapshot (l := ⟨l.filter (fun e => lb.okLo e.1 && ub.okHi e.1),
    n - (l.filter (fun e => lb.okLo e.1 && ub.okHi e.1)).length⟩)
    (Y := avlLeft) avlLive_total avlLive_sound hr hl ?_ (fun d h => avlLeft_next d h) body hb
  intro m y hI e ey
  obtain ⟨m, rfl, -, rfl, rfl⟩ := serialize_inv hI e ey
  cases a with
  | range lb' ub' =>
    obtain ⟨rfl, rfl⟩ := ha
    have h1 := Avl.items_rangeOf hlb hub m.len hs
    refine ⟨_, rfl, ?_⟩
    simp only [leftRange, h1]
    rfl
  | rangeMut lb' ub' g =>
    obtain ⟨rfl, rfl⟩ := ha
    have hlab : (m.root.label 0).toList.map (fun e => (e.1, e.2.2)) = m.root.toList := by
      rw [Avl.label_toList, List.map_map]
      exact List.zipIdx_map_fst ..
    have h1 := Avl.items_rangeOf hlb hub m.len (t := m.root.label 0) (by
      have hs' := hs
      rw [AvlMap.abs, ← hlab] at hs'
      exact List.pairwise_map.1 hs')
    refine ⟨_, rfl, ?_⟩
    have h2 : (Spec.range lb' ub' (m.root.label 0).toList).map (fun e => (e.1, e.2.2)) =
        m.abs.filter (fun e => lb'.okLo e.1 && ub'.okHi e.1) := by
      rw [AvlMap.abs, ← hlab, List.filter_map]; rfl
    have h3 := congrArg List.length h2
    rw [List.length_map] at h3
    simp only [leftRange, h1]
    exact ⟨by simp only [h3], h2⟩
  | iter | intoIter | iterMut => exact ha.elim

/-- The entries after `g j` was applied to the value of the entry at the `j`-th of `slots`. -/
def afterWrites (g : Nat → K → V → V) (slots : List Nat) (l : List (K × V)) : List (K × V) :=
  l.zipIdx.map fun x => (x.1.1, match slots.idxOf? x.2 with
    | some j => g j x.1.1 x.1.2
    | none => x.1.2)

theorem updF_idxOf {g : Nat → K → V → V} {i : Nat} {k : K} {v : V} : ∀ {ss : List Nat} {j : Nat},
    updF g j ss i k v = match ss.idxOf? i with
      | some q => g (j + q) k v
      | none => v
  | [], j => rfl
  | s :: ss, j => by
    rw [updF, updF_idxOf (ss := ss)]
    by_cases h : i = s
    · simp [h, List.idxOf?_cons]
    · have h' : ¬ s = i := fun e => h e.symm
      simp only [h, if_false, List.idxOf?_cons, beq_iff_eq, h']
      cases ss.idxOf? i with
      | none => rfl
      | some q => simp [Nat.add_assoc, Nat.add_comm 1 q]

theorem afterWrites_eq (g : Nat → K → V → V) (slots : List Nat) (l : List (K × V)) :
    afterWrites g slots l = l.zipIdx.map fun x => (x.1.1, updF g 0 slots x.2 x.1.1 x.1.2) := by
  simp only [afterWrites, updF_idxOf, Nat.zero_add]

theorem dequeRun_snoc {α : Type} (d : Bool) : ∀ (ds : List Bool) (l : List α),
    Spec.dequeRun (ds ++ [d]) l = Spec.dequeRun ds l ++
      [((Spec.dequeStep d (ds.foldl (fun l d => (Spec.dequeStep d l).2) l)).1,
        (Spec.dequeStep d (ds.foldl (fun l d => (Spec.dequeStep d l).2) l)).2.length)]
  | [], l => rfl
  | d' :: ds, l => by simp only [List.cons_append, Spec.dequeRun, dequeRun_snoc d ds, List.foldl_cons]

theorem got_map {α β : Type} (f : α → β) (p : β → Nat) (q : α → Nat) (hf : ∀ a, p (f a) = q a)
    (ds : List Bool) (l : List α) :
    (Spec.dequeRun ds (l.map f)).filterMap (fun y => y.1.map p) =
      (Spec.dequeRun ds l).filterMap (fun y => y.1.map q) := by
  rw [Avl.dequeRun_map, List.filterMap_map]
  congr 1
  funext y
  simp only [Function.comp, Option.map_map]
  congr 1
  funext a
  exact hf a

/-- A mutable iterator over the slots `E` after some calls. -/
def avlExcl (m : AvlMap K V) (g : Nat → K → V → V) (E : List (K × (Nat × V))) (ds : List Bool) :
    Obj (AvlMap K V) (VLive K V) → Prop
  | .busy (.excl m' g' l done) => m' = m ∧ g' = g ∧
      l.entries = ds.foldl (fun l d => (Spec.dequeStep d l).2) E ∧
      done = (Spec.dequeRun ds E).filterMap (fun y => y.1.map (·.2.1))
  | _ => False

theorem avlExcl_next {m : AvlMap K V} {g : Nat → K → V → V} {E : List (K × (Nat × V))}
    {ds : List Bool} {j : Obj (AvlMap K V) (VLive K V)} (d : Bool) (h : avlExcl m g E ds j) :
    ∃ m' o, (avlLiveV K V S).one j (avlNext d) = some (some m', [], o) ∧
      avlExcl m g E (ds ++ [d]) m' := by
  cases j with
  | idle => exact h.elim
  | busy j =>
    cases j with
    | shared | owning => exact h.elim
    | excl m' g' l done =>
      obtain ⟨rfl, rfl, h3, rfl⟩ := h
      refine ⟨_, _, rfl, rfl, rfl, ?_, ?_⟩
      · simp only [List.foldl_append, List.foldl_cons, List.foldl_nil, ← h3]
        rfl
      · rw [dequeRun_snoc, List.filterMap_append, ← h3]
        cases hp : (Spec.dequeStep d l.entries).1 <;> simp [Left.pop, hp]

theorem unl_toList (f : Nat → K → V → V) : ∀ t : Avl.Tree K (Nat × V),
    (unl f t).toList = t.toList.map (fun e => (e.1, f e.2.1 e.1 e.2.2))
  | .nil => rfl
  | .node k iv lh rh l r => by
    simp only [unl, Avl.Tree.toList, unl_toList f l, unl_toList f r, List.map_append, List.map_cons]

theorem avlExcl_stop {m : AvlMap K V} (hI : Ok m) {g : Nat → K → V → V} {F : List ((K × V) × Nat)}
    {ds : List Bool} {j : Obj (AvlMap K V) (VLive K V)}
    (h : avlExcl m g (F.map (fun x => (x.1.1, (x.2, x.1.2)))) ds j) :
    ∃ m' o, (avlLiveV K V S).one j .stop = some (some m', [], o) ∧
      ∃ y, (avlLiveV K V S).one m' (.base .serialize) = some y ∧ y.2.2 = some (.written m.len
        (afterWrites g ((Spec.dequeRun ds F).filterMap (fun y => y.1.map (·.2))) m.abs)) := by
  cases j with
  | idle => exact h.elim
  | busy j =>
    cases j with
    | shared | owning => exact h.elim
    | excl m' g' l done =>
      obtain ⟨rfl, rfl, -, rfl⟩ := h
      rw [got_map (fun x : (K × V) × Nat => (x.1.1, (x.2, x.1.2))) (fun e => e.2.1) (fun x => x.2)
        (fun _ => rfl)]
      refine ⟨_, _, rfl, _, by simp only [Impl.live, avlV, serialize_ok (hI.unl _)]; rfl, ?_⟩
      simp only [AvlMap.abs, unl_toList, Avl.label_toList, List.map_map, afterWrites_eq]
      rfl

/-- C54: after `iter_mut`, called any number of times from both ends while other maps are changed,
and dropped, the value of the `j`-th entry handed out is what `g j` made of it; all other entries
are as before. -/
theorem C54_avl_written {h : Mem (ND K V)} {rs : List (Option (Obj HMap (HLive K V)))}
    (hr : Reached (avlLive K V S) h rs) {i n : Nat} {l : List (K × V)}
    (hl : Sees (avlLive K V S) h rs i (.base .serialize) (some (.written n l)))
    (g : Nat → K → V → V)
    (body : Mixed (Make K V) (AvlLive1 K V S) (Two K V) (Look K V))
    (hb : ∀ c, .inr c ∈ body → i ∉ c.names) :
    ∃ h' rs' obs, (Machine.run (avlLive K V S) (.one i (.start (.iterMut g)) ::
        (body.prog avlNext i ++ [.one i .stop])) rs).exec h = some (h', some (rs', obs)) ∧
      Sees (avlLive K V S) h' rs' i (.base .serialize) (some (.written n (afterWrites g
        ((Spec.dequeRun body.calls l.zipIdx).filterMap (fun y => y.1.map (·.2))) l))) := by
  refine dropped (Y := fun ds j => ∃ m : AvlMap K V, Ok m ∧ m.len = n ∧ m.abs = l ∧
    avlExcl m g (l.zipIdx.map (fun x => (x.1.1, (x.2, x.1.2)))) ds j)
    avlLive_total avlLive_sound hr body hl ?_ ?_ ?_ hb
  · intro m y hI e ey
    obtain ⟨m, rfl, hI, rfl, rfl⟩ := serialize_inv hI e ey
    exact ⟨_, _, rfl, m, hI, rfl, rfl, rfl, rfl, Avl.label_toList .., rfl⟩
  · rintro ds j d ⟨m, h1, h2, h3, h4⟩
    obtain ⟨m', o, e, h5⟩ := avlExcl_next d h4
    exact ⟨m', o, e, m, h1, h2, h3, h5⟩
  · rintro j ⟨m, h1, rfl, rfl, h4⟩
    exact avlExcl_stop h1 h4

/-- C54: the same of `range_mut`: only entries in the range are handed out and written to. -/
theorem C54_avl_written_range [Std.TransOrd K] {h : Mem (ND K V)}
    {rs : List (Option (Obj HMap (HLive K V)))}
    (hr : Reached (avlLive K V S) h rs) {i n : Nat} {l : List (K × V)}
    (hl : Sees (avlLive K V S) h rs i (.base .serialize) (some (.written n l))) (hs : Sorted l)
    {lb ub : Bnd K} (hlb : lb.Lawful) (hub : ub.Lawful) (g : Nat → K → V → V)
    (body : Mixed (Make K V) (AvlLive1 K V S) (Two K V) (Look K V))
    (hb : ∀ c, .inr c ∈ body → i ∉ c.names) :
    ∃ h' rs' obs, (Machine.run (avlLive K V S) (.one i (.start (.rangeMut lb ub g)) ::
        (body.prog avlNext i ++ [.one i .stop])) rs).exec h = some (h', some (rs', obs)) ∧
      Sees (avlLive K V S) h' rs' i (.base .serialize) (some (.written n (afterWrites g
        ((Spec.dequeRun body.calls (l.zipIdx.filter
          (fun x => lb.okLo x.1.1 && ub.okHi x.1.1))).filterMap (fun y => y.1.map (·.2))) l))) := by
  refine dropped (Y := fun ds j => ∃ m : AvlMap K V, Ok m ∧ m.len = n ∧ m.abs = l ∧
    avlExcl m g ((l.zipIdx.filter (fun x => lb.okLo x.1.1 && ub.okHi x.1.1)).map
      (fun x => (x.1.1, (x.2, x.1.2)))) ds j)
    avlLive_total avlLive_sound hr body hl ?_ ?_ ?_ hb
  · intro m y hI e ey
    obtain ⟨m, rfl, hI, rfl, rfl⟩ := serialize_inv hI e ey
    refine ⟨_, _, rfl, m, hI, rfl, rfl, rfl, rfl, ?_, rfl⟩
    have hlab : (m.root.label 0).toList.map (fun e => (e.1, e.2.2)) = m.root.toList := by
      rw [Avl.label_toList, List.map_map]
      exact List.zipIdx_map_fst ..
    have h1 := Avl.items_rangeOf hlb hub m.len (t := m.root.label 0) (by
      have hs' := hs
      rw [AvlMap.abs, ← hlab] at hs'
      exact List.pairwise_map.1 hs')
    simp only [leftRange, h1, Avl.label_toList, Spec.range, List.filter_map, List.foldl_nil]
    rfl
  · rintro ds j d ⟨m, h1, h2, h3, h4⟩
    obtain ⟨m', o, e, h5⟩ := avlExcl_next d h4
    exact ⟨m', o, e, m, h1, h2, h3, h5⟩
  · rintro j ⟨m, h1, rfl, rfl, h4⟩
    exact avlExcl_stop h1 h4

/-- C54: whatever is done to other maps and iterators, after any history, does not change what any
command on map `i` or on its iterators would show. -/
theorem C54_avl_others {h : Mem (ND K V)} {rs : List (Option (Obj HMap (HLive K V)))}
    (hr : Reached (avlLive K V S) h rs) {i : Nat} (hi : i < rs.length)
    (cs : List (AvlLiveCmd K V S)) (hc : ∀ c ∈ cs, i ∉ c.names) :
    ∃ h' rs' obs, (Machine.run (avlLive K V S) cs rs).exec h = some (h', some (rs', obs)) ∧
      ∀ c o, Sees (avlLive K V S) h' rs' i c o ↔ Sees (avlLive K V S) h rs i c o :=
  others avlLive_total avlLive_sound hr hi cs hc

/-- C54: threads that own maps and iterators, which may share nodes: what they show does not
depend on the schedule. -/
theorem C54_avl_threads
    (ph : List (List (Thread (Make K V) (AvlLive1 K V S) (Two K V) (Look K V))))
    (hn : ∀ p ∈ ph, (dealt p).Nodup) :
    ∃ obs, (∃ h rs, Runs (avlLive K V S) .empty [] ph h rs obs) ∧
      ∀ h rs obs', Runs (avlLive K V S) .empty [] ph h rs obs' → obs' = obs := by
  obtain ⟨obs, h1, h2, -⟩ := isolated_threads avlLive_total avlLive_sound avlLive_sound ph hn
  exact ⟨obs, h1, h2⟩

/-- C54: when all maps and iterators are gone, however far the iterators got, so are all nodes. -/
theorem C54_avl_no_leak {h : Mem (ND K V)} {rs : List (Option (Obj HMap (HLive K V)))}
    (hr : Reached (avlLive K V S) h rs) (hd : ∀ s, some s ∉ rs) (a : Nat) : h.cells a = none := by
  obtain ⟨ms, hs⟩ := hr.sim avlLive_total avlLive_sound
  exact hs.no_leak hd a

/-! ## Examples -/

namespace AvlLiveDemo

/-- Map 0, its clones 1, 2 and 3; an iterator on 0, an owning one on 1 and a mutable one on 2, all
called in turns while 3 is changed; the map under the shared iterator is cloned as 4. -/
def prog : List (AvlLiveCmd Nat Nat Nat) :=
  [.make (.fromIter [(1, 10), (2, 20), (3, 30), (4, 40), (5, 50)]), .one 0 (.base .clone),
   .one 0 (.base .clone), .one 0 (.base .clone),
   .one 0 (.start .iter), .one 1 (.start .intoIter), .one 2 (.start (.iterMut fun j _ v => v + j + 1)),
   .one 0 (.use (.next 0 true)), .one 1 (.use (.next 0 true)), .one 2 (.use (.next 0 true)),
   .one 3 (.base (.remove (compare 2))), .one 3 (.base (.insert 7 70)),
   .one 0 (.use (.next 0 false)), .one 1 (.use (.next 0 false)), .one 2 (.use (.next 0 false)),
   .one 0 (.use (.byRef .clone)), .one 0 (.use (.range (.included (compare 2)) (.excluded (compare 4)))),
   .one 3 (.base (.getMut (compare 3) (· + 1))), .one 4 (.base .popFirst),
   .one 0 (.use (.next 0 true)), .one 0 (.use (.next 1 true)), .one 1 (.use (.next 0 true)),
   .one 0 (.use (.next 1 false)), .one 0 (.base .clear), .look 0 4 (.eq (fun a b => decide (a = b))),
   .one 0 .stop, .one 1 .stop, .one 2 .stop, .one 0 (.base .serialize), .one 2 (.base .serialize),
   .one 3 (.base .serialize), .one 4 (.base .serialize)]

def u : Option (Option (Res Nat Nat Nat)) := some (some .unit)

/-- What `.items` shows for one call. -/
def at_ (k v n : Nat) : Option (Option (Res Nat Nat Nat)) := some (some (.items [(some (k, v), n)]))

/-- The map under the shared iterator can be read and cloned, but `clear` is refused. -/
def shown : List (Option (Option (Res Nat Nat Nat))) :=
  [u, u, u, u, some none, some none, some none, at_ 1 10 4, at_ 1 10 4, at_ 1 10 4,
   some (some (.val (some 20))), some (some (.val none)), at_ 5 50 3, at_ 5 50 3, at_ 5 50 3,
   u, some none, some (some (.bool true)), some (some (.entry (some (1, 10)))),
   at_ 2 20 2, at_ 2 20 4, at_ 2 20 2, at_ 3 30 3, some none, some (some (.bool false)),
   some none, some none, some none,
   some (some (.written 5 [(1, 10), (2, 20), (3, 30), (4, 40), (5, 50)])),
   some (some (.written 5 [(1, 11), (2, 20), (3, 30), (4, 40), (5, 52)])),
   some (some (.written 5 [(1, 10), (3, 31), (4, 40), (5, 50), (7, 70)])),
   some (some (.written 4 [(2, 20), (3, 30), (4, 40), (5, 50)]))]

example : ((Machine.run (avlLive Nat Nat Nat) prog []).exec .empty).map
    (fun x => x.2.map (·.2)) = some (some shown) := by decide +kernel

/-- Memory and objects at the end of a program. -/
def end_ (cs : List (AvlLiveCmd Nat Nat Nat)) :
    Mem (ND Nat Nat) × List (Option (Obj HMap (HLive Nat Nat))) :=
  match (Machine.run (avlLive Nat Nat Nat) cs []).exec .empty with
  | some (h, some (rs, _)) => (h, rs)
  | _ => (.empty, [])

theorem reached (cs : List (AvlLiveCmd Nat Nat Nat)) :
    Reached (avlLive Nat Nat Nat) (end_ cs).1 (end_ cs).2 := by
  obtain ⟨-, obs, -, h, rs, e⟩ := C54_avl_values cs
  have : end_ cs = (h, rs) := by simp [end_, e]
  rw [this]
  exact Reached.of_exec e

/-- In the middle of the program the three iterators are there. -/
example : (end_ (prog.take 20)).2.map (fun o => o.map fun
    | .idle _ => 0
    | .busy (.shared ..) => 1
    | .busy (.owning ..) => 2
    | .busy (.excl ..) => 3) = [some 1, some 2, some 3, some 0, some 0] := by decide +kernel

example := C54_avl_values prog
example := C54_avl_others (reached (prog.take 20)) (i := 1) (by decide +kernel)
  [.one 2 (avlNext true), .one 0 .stop, .one 0 (.base .clear), .one 3 (.base .drop)]
  (by simp [Cmd.names])

/-- Map 0 and its clone 1. -/
def two : List (AvlLiveCmd Nat Nat Nat) :=
  [.make (.fromIter [(1, 10), (2, 20), (3, 30), (4, 40)]), .one 0 (.base .clone)]

theorem seen : Sees (avlLive Nat Nat Nat) (end_ two).1 (end_ two).2 0 (.base .serialize)
      (some (.written 4 [(1, 10), (2, 20), (3, 30), (4, 40)])) := by
  have : ((Machine.run (avlLive Nat Nat Nat) [.one 0 (.base .serialize)] (end_ two).2).exec
      (end_ two).1).map (fun x => x.2.map (·.2)) =
      some (some [some (some (.written 4 [(1, 10), (2, 20), (3, 30), (4, 40)]))]) := by decide +kernel
  match h : (Machine.run (avlLive Nat Nat Nat) [.one 0 (.base .serialize)] (end_ two).2).exec
      (end_ two).1, this with
  | some (h', some (rs', obs)), this =>
    simp only [Option.map_some, Option.some.injEq] at this
    exact ⟨h', rs', by rw [h, this]⟩

/-- Calls from both ends while the clone is changed. -/
def body : Mixed (Make Nat Nat) (AvlLive1 Nat Nat Nat) (Two Nat Nat) (Look Nat Nat) :=
  [.inl true, .inr (.one 1 (.base (.insert 2 21))), .inl false, .inr (.one 1 (.base .clear)),
   .inl true, .inr (.one 1 (.base .drop)), .inl true, .inl true]

theorem body_names : ∀ c, .inr c ∈ body → 0 ∉ c.names := by
  intro c hc
  simp only [body, List.mem_cons, List.not_mem_nil, reduceCtorEq, false_or, or_false,
    Sum.inr.injEq] at hc
  rcases hc with rfl | rfl | rfl <;> simp [Cmd.names]

example := C54_avl_snapshot (reached two) seen (a := .iter) rfl body body_names
example := C54_avl_snapshot (reached two) seen (a := .intoIter) rfl body body_names
example := C54_avl_snapshot (reached two) seen
  (a := .iterMut fun _ _ v => v + 1) rfl body body_names

example : (Spec.dequeRun body.calls [(1, 10), (2, 20), (3, 30), (4, 40)]).map (·.1) =
    [some (1, 10), some (4, 40), some (2, 20), some (3, 30), none] := by decide

example := C54_avl_snapshot_range (reached two) seen (by simp [Sorted, Nat.compare_eq_lt])
  (lb := .included (compare 2)) (ub := .unbounded) (isProbe_compare 2) trivial
  (a := .range (.included (compare 2)) .unbounded) ⟨rfl, rfl⟩ body body_names
example := C54_avl_snapshot_range (reached two) seen (by simp [Sorted, Nat.compare_eq_lt])
  (lb := .included (compare 2)) (ub := .unbounded) (isProbe_compare 2) trivial
  (a := .rangeMut (.included (compare 2)) .unbounded fun _ _ v => v + 1) ⟨rfl, rfl⟩ body body_names

example := C54_avl_written (reached two) seen (fun j _ v => 100 * j + v) body body_names
example := C54_avl_written_range (reached two) seen (by simp [Sorted, Nat.compare_eq_lt])
  (lb := .included (compare 2)) (ub := .unbounded) (isProbe_compare 2) trivial
  (fun j _ v => 100 * j + v) body body_names

/-- Entry 4 is handed out second, entry 2 third. -/
example : afterWrites (fun j _ v => 100 * j + v) ((Spec.dequeRun body.calls
    ([(1, 10), (2, 20), (3, 30), (4, 40)] : List (Nat × Nat)).zipIdx).filterMap
      (fun y => y.1.map (·.2))) [(1, 10), (2, 20), (3, 30), (4, 40)] =
    [(1, 10), (2, 220), (3, 330), (4, 140)] := by decide

/-- Two threads: one goes on with an owning iterator while the other changes the map that shares
its nodes. -/
def phases : List (List (Thread (Make Nat Nat) (AvlLive1 Nat Nat Nat) (Two Nat Nat) (Look Nat Nat))) :=
  [[⟨[], prog.take 20⟩],
   [⟨[1], [.one 0 (avlNext true), .one 0 (avlNext false), .one 0 .stop]⟩,
    ⟨[0, 3], [.one 0 .stop, .one 0 (.base .clear), .one 1 (.base (.insert 9 9)),
      .one 1 (.start (.rangeMut .unbounded .unbounded fun _ _ v => v)), .one 1 (avlNext true)]⟩]]

example := C54_avl_threads phases (by decide)

/-- All iterators and maps dropped, one iterator in the middle. -/
def fin : List (AvlLiveCmd Nat Nat Nat) :=
  prog.take 20 ++ [.one 0 .stop, .one 1 .stop, .one 2 .stop, .one 0 (.base .drop),
    .one 2 (.base .drop), .one 3 (.base .drop), .one 4 (.base .drop)]

example (a : Nat) : (end_ fin).1.cells a = none :=
  C54_avl_no_leak (reached fin) (by
    have : (end_ fin).2.map Option.isSome = [false, false, false, false, false] := by decide +kernel
    intro s hs
    have := List.mem_map_of_mem (f := Option.isSome) hs
    simp_all) a

end AvlLiveDemo
end Verif.Props
