import Verif.AvlHeap.Live
import Verif.AvlHeap.MapSpec
/-!
# `AvlMap`s in use on memory do what they do on values
-/
namespace Verif.AvlH
open Heap Heap.Machine
open Avl (Tree AvlMap iterOf rangeOf items Act wsize pushDesc Iter)

variable {K V S W P N I X : Type}

/-! ## One call, against the entries yet to come -/

/-- An iterator on memory, and the entries yet to come. -/
def ItRel (Z : List (HAct N I) → List (Act K W) → Prop) (n : Nat) (it : HIter N I)
    (l : Left (K × W)) : Prop :=
  ∃ wt, Z it.work wt ∧ items wt = l.entries ∧ it.len = l.len ∧ wsize wt ≤ n

theorem stepG_left {des : Des P S N I} {R : Rel K W P S N I}
    (hd : DesOk des .unbounded .unbounded R) {n : Nat} {d : Bool} {h : List (K × W)} {s : S}
    {it : HIter N I} {l : Left (K × W)} {L : Multiset (Handle P)}
    (hR : ItRel (fun w wt => R h s w wt L) n it l) :
    wp (stepG des n d s it) L (fun x L' => x.2.2.len = (l.pop d).2.len ∧
      (((l.pop d).1 = none ∧ x.2.1 = none ∧
        ItRel (fun w wt => R h x.1 w wt L') n x.2.2 (l.pop d).2) ∨
      ∃ e i u w ut wt, (l.pop d).1 = some e ∧ x.2.1 = some i ∧ u.length = ut.length ∧
        R h x.1 (u ++ .ret i :: w) (ut ++ .ret e :: wt) L' ∧
        ItRel (fun w' wt' => w' = u ++ w ∧ wt' = ut ++ wt) n x.2.2 (l.pop d).2)) := by
  obtain ⟨wt, h1, h2, h3, h4⟩ := hR
  obtain ⟨vit', e, e1, e2⟩ := Iter.step_spec d ⟨wt, it.len⟩ (by
    simp only [h2, h3, Left.len]; omega)
  simp only [h2] at e e1 e2
  have e3 : vit'.len = (l.pop d).2.len := by
    simp only [Left.pop, Left.len, e1] at e2 h3 ⊢
    omega
  refine wp_conseq (stepG_spec hd e h1 rfl h4) ?_
  rintro x L' ⟨g1, g2, (⟨g3, g4, g5⟩ | ⟨y, i, u, w, ut, wt', g3, g4, g5, g6, g7, g8⟩)⟩
  · exact ⟨g1.trans e3, Or.inl ⟨g3, g4, vit'.work, g5, e1, g1.trans e3, g2.trans h4⟩⟩
  · exact ⟨g1.trans e3, Or.inr ⟨y, i, u, w, ut, wt', g3, g4, g5, g6,
      vit'.work, ⟨g7, g8⟩, e1, g1.trans e3, g2.trans h4⟩⟩

theorem stepG_nil (des : Des P S N I) (n : Nat) (d : Bool) (s : S) (len : Nat) :
    stepG des n d s ⟨[], len⟩ = .pure (s, none, ⟨[], len⟩) := by
  cases d <;> cases n <;> rfl

/-! ## The relation -/

/-- A shared iterator of the map `m`. -/
abbrev ShRel (m : AvlMap K V) : HIter (List Nat) (K × V) → Left (K × V) → Prop :=
  ItRel (fun w wt => List.Forall₂ (NAct (vt m.root)) w wt) (3 * m.len + 1)

/-- A map in use, and its value. -/
def RJ : HLive K V → VLive K V → Multiset (Handle (ND K V)) → Prop
  | .shared h its, .shared m ls, L => R h m L ∧ List.Forall₂ (ShRel m) its ls
  | .owning D it, .owning l, L => ItRel (fun w wt => IRel D [] () w wt L) (3 * D + 1) it l
  | .excl h g s it, .excl m g' l done, L => g' = g ∧ h.len = m.len ∧
    match h.root with
    | none => m.root = .nil ∧ it = ⟨[], m.len⟩ ∧ s.opened = [] ∧ l = ⟨[], m.len⟩ ∧ done = [] ∧ L = 0
    | some a => ∃ hs : List (K × (Nat × V)), done = hs.map (·.2.1) ∧
        ItRel (fun w wt => MRel m.len g a (m.root.label 0) hs s w wt L) (3 * m.len + 1) it l
  | _, _, _ => False

/-- What values satisfy. -/
def InvJ : VLive K V → Prop
  | .shared m _ => Ok m
  | .owning _ => True
  | .excl m _ _ _ => Ok m

/-- A `&self` operation returns the map as it was. -/
theorem byRef_gives [Ord K] {c : One K V S} (hc : c.byRef = true) (m : HMap) :
    ((avlM K V S).one m c).Gives (fun x => x.1 = some m) := by
  cases c <;> simp only [One.byRef, Bool.false_eq_true] at hc <;> simp only [avlM] <;>
    first
    | rfl
    | (refine Prog.Gives.bind (fun _ => ?_) _; exact rfl)

theorem byRef_val [Ord K] {c : One K V S} (hc : c.byRef = true) {m : AvlMap K V} {y}
    (e : (avlV K V S).one m c = some y) : y.1 = some m := by
  cases c <;> simp only [One.byRef, Bool.false_eq_true] at hc <;>
    simp only [avlV, Option.some.injEq, Option.map_eq_some_iff] at e <;>
    first
    | (subst e; rfl)
    | (obtain ⟨_, _, rfl⟩ := e; rfl)

theorem leftAll_len {t : Tree K W} {len : Nat} (h : t.size ≤ len) : (leftAll len t).len = len := by
  simp only [leftAll, Left.len]
  rw [Tree.size_eq] at h
  omega

theorem leftRange_len {t : Tree K W} {len : Nat} (h : t.size ≤ len) (lb ub : Bnd K) :
    (leftRange lb ub len t).len = len := by
  have h1 := length_range (len := len) lb ub t
  simp only [leftRange, Left.len]
  omega

theorem liveV_total [Ord K] : LiveTotal (liveV K V S) Ok InvJ where
  start {m} a h := by
    cases a <;> first | exact ⟨_, rfl, h⟩ | exact ⟨_, rfl, trivial⟩
  use {n} b h := by
    cases n with
    | shared m its =>
      cases b with
      | iter | range => exact ⟨_, rfl, h, by simp⟩
      | next i front =>
        simp only [liveV]
        cases its[i]? <;> exact ⟨_, rfl, h, by simp⟩
      | byRef c =>
        simp only [liveV]
        split
        · obtain ⟨y, e, h1, h2⟩ := avlV_total.one c (show Ok m from h)
          exact ⟨(.shared m its, y.2.1, some y.2.2), by rw [e]; rfl, h, h2⟩
        · exact ⟨_, rfl, h, by simp⟩
    | owning l => cases b <;> exact ⟨_, rfl, trivial, by simp⟩
    | excl m g l done => cases b <;> exact ⟨_, rfl, h, by simp⟩
  stop {n} h := by
    cases n with
    | shared m its => exact ⟨_, rfl, by rintro _ ⟨⟩; exact h⟩
    | owning l => exact ⟨_, rfl, by simp⟩
    | excl m g l done => exact ⟨_, rfl, by rintro _ ⟨⟩; exact Ok.unl h _⟩
  view {n m} h e := by
    cases n with
    | shared m its => cases e; exact h
    | owning | excl => cases e

/-! ## Making iterators -/

theorem iterNew_rel {m : AvlMap K V} (h : Ok m) {r : Option Nat} {α : Type}
    {p : Prog (ND K V) α} {Q}
    (hk : ShRel m (HMap.iterNew ⟨m.len, r⟩) (leftAll m.len m.root) → wp p (own r (vt m.root)) Q) :
    wp p (own r (vt m.root)) Q := by
  have hl := (leftAll_len h.size).symm
  have hs := h.size
  refine wp_tree_cases (r := r) (t := m.root) 0 (add_zero _).symm ?_ ?_
  · rintro rfl e
    rw [e] at hl hk
    have := hk ⟨[], .nil, rfl, hl, by simp [wsize]⟩
    simpa only [own_vt_nil, add_zero] using this
  · rintro a k v lh rh l r' rfl e
    rw [e] at hs hl hk
    rw [add_zero]
    refine hk ⟨[.desc (.node k v lh rh l r')], ?_, ?_, hl, ?_⟩
    · rw [e]; simp [HMap.iterNew, NAct, VT.sub, vt]
    · simp [leftAll, Act.items, items]
    · simp only [wsize]; omega

theorem rangeNew_spec {m : AvlMap K V} (h : Ok m) {r : Option Nat} {lb ub : Bnd K} :
    wp (HMap.rangeNew ⟨m.len, r⟩ lb ub) (own r (vt m.root)) (fun x L =>
      L = own r (vt m.root) ∧ ShRel m x (leftRange lb ub m.len m.root)) := by
  have hl := (leftRange_len h.size lb ub).symm
  have hs := h.size
  refine wp_tree_cases (r := r) (t := m.root) 0 (add_zero _).symm ?_ ?_
  · rintro rfl e
    rw [e] at hl ⊢
    refine wp_pure ⟨by simp [vt], [], .nil, ?_, hl, by simp [wsize]⟩
    simp [leftRange, rangeOf, pushDesc, Avl.pruneL, Avl.pruneRrev]
  · rintro a k v lh rh l r' rfl e
    rw [e] at hs hl ⊢
    rw [add_zero]
    simp only [HMap.rangeNew]
    have e1 : pushDesc (Tree.node k v lh rh l r') [] = [.desc (.node k v lh rh l r')] := rfl
    refine wp_bind (wp_conseq (pruneG_spec (n := 3 * m.len + 1) (h := [])
      (desN_ok (a := a) (t := vt (.node k v lh rh l r')) (b := false) lb ub)
      (wt := [.desc (.node k v lh rh l r')])
      (L := own (some a) (vt (.node k v lh rh l r')))
      ⟨by simp [NAct, VT.sub, vt], rfl⟩ (by simp only [wsize]; omega)) ?_)
    rintro ⟨⟨⟩, w⟩ L ⟨h1, h2⟩
    refine wp_bind (wp_conseq (pruneBackG_spec (n := 3 * m.len + 1) (desN_ok lb ub)
      (wt := (Avl.pruneL lb ub [.desc (.node k v lh rh l r')]).reverse) (by simpa using h2)
      (by rw [wsize_reverse]; simp only [wsize] at h1; omega)) ?_)
    rintro ⟨⟨⟩, w'⟩ L ⟨h3, h4, rfl⟩
    refine wp_pure ⟨rfl, _, by rw [e]; exact h4, rfl, hl, ?_⟩
    simp only [rangeOf, e1, wsize_reverse] at h3 ⊢
    simp only [wsize] at h1
    omega

theorem rangeMutNew_spec {m : AvlMap K V} (h : Ok m) {r : Option Nat} {lb ub : Bnd K}
    {g : Nat → K → V → V} :
    wp (HMap.rangeMutNew ⟨m.len, r⟩ lb ub g) (own r (vt m.root)) (fun x L =>
      RJ x (.excl m g (leftRange lb ub m.len (m.root.label 0)) []) L) := by
  have hs := h.size
  have hl := (leftRange_len (len := m.len) (t := m.root.label 0) (by rw [size_label]; exact h.size)
    lb ub).symm
  refine wp_tree_cases (r := r) (t := m.root) 0 (add_zero _).symm ?_ ?_
  · rintro rfl e
    refine wp_pure ⟨rfl, rfl, e, rfl, rfl, ?_, rfl, rfl⟩
    simp [e, Tree.label, leftRange, rangeOf, pushDesc, Avl.pruneL, Avl.pruneRrev]
  · rintro a k v lh rh l r' rfl e
    rw [e] at hs hl ⊢
    rw [add_zero]
    simp only [HMap.rangeMutNew]
    wcall makeMut_tree hs
    rintro a _ rfl
    rw [add_zero]
    have e1 : pushDesc (Tree.label 0 (.node k v lh rh l r')) [] =
      [.desc (Tree.label 0 (.node k v lh rh l r'))] := rfl
    have hsz : wsize [Act.desc (Tree.label 0 (Tree.node k v lh rh l r'))] ≤ 3 * m.len + 1 := by
      simp only [wsize, size_label]; omega
    refine wp_bind (wp_conseq (pruneG_spec (n := 3 * m.len + 1) (h := [])
      (desM_ok (D := m.len) (g := g) lb ub) (MRel_start rfl hs) hsz) ?_)
    rintro ⟨s, w⟩ L ⟨h1, h2⟩
    refine wp_bind (wp_conseq (pruneBackG_spec (n := 3 * m.len + 1) (desM_ok lb ub)
      (wt := (Avl.pruneL lb ub [.desc (Tree.label 0 (.node k v lh rh l r'))]).reverse)
      (by simpa using h2) (by rw [wsize_reverse]; omega)) ?_)
    rintro ⟨s', w'⟩ L ⟨h3, h4⟩
    refine wp_pure ⟨rfl, rfl, [], rfl, _, by rw [e]; exact h4, rfl, hl, ?_⟩
    simp only [rangeOf, e1, wsize_reverse] at h3 ⊢
    omega

theorem iterMutNew_spec {m : AvlMap K V} (h : Ok m) {r : Option Nat} {g : Nat → K → V → V} :
    wp (HMap.iterMutNew ⟨m.len, r⟩ g) (own r (vt m.root)) (fun x L =>
      RJ x (.excl m g (leftAll m.len (m.root.label 0)) []) L) := by
  have hs := h.size
  have hl := (leftAll_len (len := m.len) (t := m.root.label 0)
    (by rw [size_label]; exact h.size)).symm
  refine wp_tree_cases (r := r) (t := m.root) 0 (add_zero _).symm ?_ ?_
  · rintro rfl e
    refine wp_pure ⟨rfl, rfl, e, rfl, rfl, ?_, rfl, rfl⟩
    simp [e, Tree.label, leftAll, Tree.toList]
  · rintro a k v lh rh l r' rfl e
    rw [e] at hs hl ⊢
    rw [add_zero]
    simp only [HMap.iterMutNew]
    wcall makeMut_tree hs
    rintro a _ rfl
    rw [add_zero]
    refine wp_pure ⟨rfl, rfl, [], rfl, _, by rw [e]; exact MRel_start rfl hs, ?_, hl, ?_⟩
    · simp [leftAll, items, Act.items]
    · simp only [wsize, size_label]; omega

/-- One call of a shared iterator. -/
theorem step_shared {m : AvlMap K V} {r : Option Nat} {it : HIter (List Nat) (K × V)}
    {l : Left (K × V)} (hrel : ShRel m it l) {d : Bool} :
    wp (stepG (desN (r.getD 0) .unbounded .unbounded) (3 * m.len + 1) d () it) (own r (vt m.root))
      (fun x L => L = own r (vt m.root) ∧ x.2.1 = (l.pop d).1 ∧ x.2.2.len = (l.pop d).2.len ∧
        ShRel m x.2.2 (l.pop d).2) := by
  have key : ∀ {a : Nat} {M : Multiset (Handle (ND K V))},
      DesOk (desN a .unbounded .unbounded) .unbounded .unbounded
        (fun _ _ w wt L => List.Forall₂ (NAct (vt m.root)) w wt ∧ L = M) →
      wp (stepG (desN a .unbounded .unbounded) (3 * m.len + 1) d () it) M
      (fun x L => L = M ∧ x.2.1 = (l.pop d).1 ∧ x.2.2.len = (l.pop d).2.len ∧
        ShRel m x.2.2 (l.pop d).2) := by
    intro a M hd
    obtain ⟨wt, g1, g2, g3, g4⟩ := hrel
    refine wp_conseq (stepG_left hd (h := []) (l := l) (d := d) ⟨wt, ⟨g1, rfl⟩, g2, g3, g4⟩) ?_
    rintro x L ⟨g1, (⟨g2, g3, wt', ⟨g4, rfl⟩, g5⟩ | ⟨e, i, u, w, ut, wt', g2, g3, g4, ⟨g5, rfl⟩, _, ⟨g6, rfl⟩, g7⟩)⟩
    · exact ⟨rfl, by rw [g2, g3], g1, wt', g4, g5⟩
    · obtain ⟨f1, f2⟩ := (forall₂_app g4).1 g5
      simp only [List.forall₂_cons, NAct] at f2
      obtain ⟨rfl, f2⟩ := f2
      exact ⟨rfl, by rw [g2, g3], g1, ut ++ wt', by rw [g6]; exact (forall₂_app g4).2 ⟨f1, f2⟩, g7⟩
  refine wp_tree_cases (r := r) (t := m.root) 0 (add_zero _).symm ?_ ?_
  · rintro rfl e
    rw [e] at key ⊢
    rw [own_vt_nil]
    refine key ⟨fun h => h.1.imp fun _ _ h => h.kind, ?_⟩
    rintro h s u n w ut k v lh rh l r wt L hl ⟨hR, rfl⟩
    obtain ⟨-, h2⟩ := (forall₂_app hl).1 hR
    simp only [List.forall₂_cons, NAct, vt] at h2
    obtain ⟨⟨-, h3⟩, -⟩ := h2
    cases n <;> simp [VT.sub] at h3
  · rintro a k v lh rh l' r' rfl e
    rw [add_zero, ← e]
    exact key (desN_ok (b := false) .unbounded .unbounded)

/-! ## All operations -/

theorem liveM_sound [Ord K] :
    LiveSound (liveM K V S) (liveV K V S) Ok InvJ R RJ where
  start {h m L a y} hI hR e := by
    obtain ⟨r, rfl, rfl⟩ := hR
    cases a with
    | iter =>
      cases e
      refine iterNew_rel hI fun h1 => ?_
      exact wp_pure ⟨⟨r, rfl, rfl⟩, .cons h1 .nil⟩
    | range lb ub =>
      cases e
      refine wp_bind (wp_conseq (rangeNew_spec hI) ?_)
      rintro x L ⟨rfl, h1⟩
      exact wp_pure ⟨⟨r, rfl, rfl⟩, .cons h1 .nil⟩
    | intoIter =>
      cases e
      refine wp_bind (wp_conseq (optToIterNode_spec hI.size) ?_)
      rintro x L h1
      refine wp_pure ⟨_, h1, ?_, (leftAll_len hI.size).symm, ?_⟩
      · simp [leftAll]
      · have := Avl.wsize_pushDesc m.root []
        have hs := hI.size
        simp only [wsize] at this
        show wsize _ ≤ 3 * m.len + 1
        omega
    | iterMut g => cases e; exact iterMutNew_spec hI
    | rangeMut lb ub g => cases e; exact rangeMutNew_spec hI
  use {j n L b y} hI hR e := by
    have skip : ∀ {j n L y}, RJ j n L →
        (some (n, [], none) : Option (VLive K V × List (AvlMap K V) × Option (Res K V S))) = some y →
        wp (Prog.pure (j, [], none) : Prog (ND K V) (HLive K V × List HMap × Option (Res K V S))) L
          (fun x L' => x.2.2 = y.2.2 ∧ ∃ L1 L2, L' = L1 + L2 ∧
            RJ x.1 y.1 L1 ∧ HoldsL R x.2.1 y.2.1 L2) := by
      rintro j n L y h ⟨⟩
      exact wp_pure ⟨rfl, L, 0, (add_zero _).symm, h, .nil⟩
    cases j with
    | shared h its =>
      cases n with
      | owning | excl => exact hR.elim
      | shared m ls =>
        obtain ⟨⟨r, rfl, rfl⟩, hF⟩ := hR
        cases b with
        | iter =>
          cases e
          refine iterNew_rel hI fun h1 => ?_
          exact wp_pure ⟨rfl, _, 0, (add_zero _).symm, ⟨⟨r, rfl, rfl⟩,
            List.rel_append hF (.cons h1 .nil)⟩, .nil⟩
        | range lb ub =>
          cases e
          refine wp_bind (wp_conseq (rangeNew_spec hI) ?_)
          rintro x L ⟨rfl, h1⟩
          exact wp_pure ⟨rfl, _, 0, (add_zero _).symm, ⟨⟨r, rfl, rfl⟩,
            List.rel_append hF (.cons h1 .nil)⟩, .nil⟩
        | next i front =>
          simp only [liveV, liveM] at e ⊢
          have hlen := hF.length_eq
          cases hi : its[i]? with
          | none =>
            have : ls[i]? = none := by
              rw [List.getElem?_eq_none_iff] at hi ⊢
              omega
            rw [this] at e
            cases e
            exact wp_pure ⟨rfl, _, 0, (add_zero _).symm, ⟨⟨r, rfl, rfl⟩, hF⟩, .nil⟩
          | some it =>
            obtain ⟨hi1, hi2⟩ := List.getElem?_eq_some_iff.1 hi
            have hl : ls[i]? = some ls[i] := List.getElem?_eq_getElem (by omega)
            rw [hl] at e
            have hrel : ShRel m it ls[i] := by
              have := List.forall₂_iff_get.1 hF |>.2 i hi1 (by omega)
              simpa [hi2] using this
            generalize ls[i] = l at e hrel
            cases e
            have hset : ∀ {it' l'}, ShRel m it' l' → List.Forall₂ (ShRel m) (its.set i it') (ls.set i l') := by
              intro it' l' h'
              refine List.forall₂_iff_get.2 ⟨by simp [hlen], ?_⟩
              intro q q1 q2
              simp only [List.get_eq_getElem, List.getElem_set]
              split
              · exact h'
              · exact List.forall₂_iff_get.1 hF |>.2 q (by simpa using q1) (by simpa using q2)
            refine wp_bind (wp_conseq (step_shared hrel) ?_)
            rintro x L ⟨rfl, g1, g2, g3⟩
            exact wp_pure ⟨by rw [g1, g2], _, 0, (add_zero _).symm, ⟨⟨r, rfl, rfl⟩, hset g3⟩, .nil⟩
        | byRef c =>
          simp only [liveV, liveM] at e ⊢
          split
          · next hc =>
            rw [if_pos hc] at e
            obtain ⟨z, e1, rfl⟩ := Option.map_eq_some_iff.1 e
            have hz := byRef_val hc e1
            have h1 := wp_gives (avlM_sound.one hI ⟨r, rfl, rfl⟩ e1) (byRef_gives hc ⟨m.len, r⟩)
            refine wp_bind (wp_conseq h1 ?_)
            rintro x L ⟨g1, g2, L1, L2, rfl, g3, g4⟩
            rw [g1, hz] at g3
            cases g3 with
            | some g3 => exact wp_pure ⟨by rw [g2], L1, L2, rfl, ⟨g3, hF⟩, g4⟩
          · next hc =>
            rw [if_neg hc] at e
            exact skip (j := .shared _ its) (n := .shared m ls) ⟨⟨r, rfl, rfl⟩, hF⟩ e
    | owning D it =>
      cases n with
      | shared | excl => exact hR.elim
      | owning l =>
        cases b with
        | next i front =>
          cases e
          simp only [liveM]
          refine wp_bind (wp_conseq (stepG_left (desI_ok D) (d := front) hR) ?_)
          rintro x L' ⟨g1, (⟨g2, g3, g4⟩ | ⟨e, i, u, w, ut, wt, g2, g3, g4, g5, wt', ⟨g6, rfl⟩, g7, g8, g9⟩)⟩
          · exact wp_pure ⟨by rw [g2, g3, g1], L', 0, (add_zero _).symm, g4, .nil⟩
          · obtain ⟨s', y1, y2⟩ := yldI_ok D g4 g5
            simp only [yldN, Option.some.injEq, Prod.mk.injEq] at y1
            refine wp_pure ⟨by rw [g2, g3, g1, y1.2], L', 0, (add_zero _).symm, ?_, .nil⟩
            exact ⟨ut ++ wt, by rw [g6]; exact y2, g7, g8, g9⟩
        | iter | range | byRef => exact skip (j := .owning D it) hR e
    | excl h g s it =>
      cases n with
      | shared | owning => exact hR.elim
      | excl m g' l done =>
        cases b with
        | next i front =>
          cases e
          obtain ⟨hlen, r⟩ := h
          obtain ⟨rfl, h2, h3⟩ := hR
          dsimp only at h2
          subst h2
          simp only [liveM]
          cases r with
          | none =>
            obtain ⟨h4, rfl, h6, rfl, rfl, rfl⟩ := h3
            rw [stepG_nil]
            refine wp_pure ⟨?_, 0, 0, rfl, ⟨rfl, rfl, h4, rfl, h6, ?_, ?_, rfl⟩, .nil⟩ <;>
              cases front <;> simp [Left.pop, Left.len, Spec.dequeStep]
          | some a =>
            obtain ⟨hs, rfl, h4⟩ := h3
            refine wp_bind (wp_conseq (stepG_left (desM_ok .unbounded .unbounded) (d := front) h4) ?_)
            rintro x L' ⟨g1, (⟨g2, g3, g4⟩ | ⟨e, i, u, w, ut, wt, g2, g3, g4, g5, wt', ⟨g6, rfl⟩, g7, g8, g9⟩)⟩
            · rw [g3]
              exact wp_pure ⟨by rw [g2, g1]; rfl, L', 0, (add_zero _).symm,
                ⟨rfl, rfl, hs, by simp [g2], g4⟩, .nil⟩
            · rw [g3]
              obtain ⟨s', y1, y2⟩ := yldM_ok (labs_label_nodup m.root 0) g4 g5
              simp only [y1]
              refine wp_pure ⟨by rw [g2, g1]; rfl, L', 0, (add_zero _).symm,
                ⟨rfl, rfl, hs ++ [e], by simp [g2], ?_⟩, .nil⟩
              exact ⟨ut ++ wt, by rw [g6]; exact y2, g7, g8, g9⟩
        | iter | range | byRef => exact skip (j := .excl h g s it) hR e
  stop {j n L y} hI hR e := by
    cases j with
    | shared h its =>
      cases n with
      | owning | excl => exact hR.elim
      | shared m ls => cases e; exact wp_pure (.some hR.1)
    | owning D it =>
      cases n with
      | shared | excl => exact hR.elim
      | owning l =>
        cases e
        obtain ⟨wt, ⟨h1, rfl⟩, -⟩ := hR
        refine wp_bind (wp_conseq (dropWork_spec h1) ?_)
        rintro _ _ rfl
        exact wp_pure .none
    | excl h g s it =>
      cases n with
      | shared | owning => exact hR.elim
      | excl m g' l done =>
        cases e
        obtain ⟨hlen, r⟩ := h
        obtain ⟨rfl, h2, h3⟩ := hR
        dsimp only at h2
        subst h2
        simp only [liveM]
        cases r with
        | none =>
          obtain ⟨h4, rfl, h6, rfl, rfl, rfl⟩ := h3
          rw [h6]
          exact wp_pure (.some ⟨none, rfl, by simp [h4, Tree.label, unl, vt]⟩)
        | some a =>
          obtain ⟨hs, rfl, wt, h4, -⟩ := h3
          refine wp_bind (wp_conseq (MRel_end h4) ?_)
          rintro _ _ rfl
          exact wp_pure (.some ⟨some a, rfl, rfl⟩)
  view {j n L} hR := by
    cases j with
    | shared h its =>
      cases n with
      | owning | excl => exact hR.elim
      | shared m ls => exact Or.inr ⟨h, m, rfl, rfl, hR.1⟩
    | owning D it =>
      cases n with
      | shared | excl => exact hR.elim
      | owning l => exact Or.inl ⟨rfl, rfl⟩
    | excl h g s it =>
      cases n with
      | shared | owning => exact hR.elim
      | excl => exact Or.inl ⟨rfl, rfl⟩

end Verif.AvlH
