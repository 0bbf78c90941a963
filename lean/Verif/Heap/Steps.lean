import Verif.Heap.Core
/-!
# The atomic steps keep memory in order

For each step: if the handles it needs are there, it is not stuck, all other handles `F` keep
their values (and stay sole ones if they are), and the counts stay exact.
-/
namespace Verif.Heap
variable {P : Type}

/-- The part of a value reached by a path. -/
def VT.sub : VT P → List Nat → Option (VT P)
  | t, [] => some t
  | .nil, _ :: _ => none
  | .node _ ts, i :: is => match ts[i]? with
    | none => none
    | some t => t.sub is

theorem walk_spec {h : Mem P} {path : List Nat} : ∀ {a : Nat} {t : VT P} {p : P}
    {ts : List (VT P)}, Rep h (some a) t → t.sub path = some (.node p ts) →
    ∃ b c, h.walk a path = some c ∧ h.cells b = some c ∧ c.node.data = p ∧
      ts.length = c.node.kids.length ∧
      ∀ i (h1 : i < c.node.kids.length) (h2 : i < ts.length), Rep h c.node.kids[i] ts[i] := by
  induction path with
  | nil =>
    intro a t p ts hr hs
    cases hr with
    | @node _ c ts' hc hl hk =>
      simp only [VT.sub, Option.some.injEq, VT.node.injEq] at hs
      obtain ⟨rfl, rfl⟩ := hs
      exact ⟨a, c, hc, hc, rfl, hl, hk⟩
  | cons i is ih =>
    intro a t p ts hr hs
    cases hr with
    | @node _ c ts' hc hl hk =>
      simp only [VT.sub] at hs
      by_cases hi : i < ts'.length
      · rw [List.getElem?_eq_getElem hi] at hs
        simp only at hs
        have hr' := hk i (by omega) hi
        have hi' : i < c.node.kids.length := by omega
        simp only [Mem.walk, hc, List.getElem?_eq_getElem hi']
        generalize c.node.kids[i] = r at hr'
        cases r with
        | none =>
          rw [hr'.none_iff] at hs
          cases is <;> simp [VT.sub] at hs
        | some b => exact ih hr' hs
      · rw [List.getElem?_eq_none (by omega)] at hs
        simp at hs

theorem addr_spec {h : Mem P} {path : List Nat} : ∀ {a : Nat} {t : VT P} {p : P}
    {ts : List (VT P)}, Rep h (some a) t → t.sub path = some (.node p ts) →
    ∃ b, h.addr a path = some b ∧ Rep h (some b) (.node p ts) := by
  induction path with
  | nil =>
    intro a t p ts hr hs
    simp only [VT.sub, Option.some.injEq] at hs
    subst hs
    exact ⟨a, rfl, hr⟩
  | cons i is ih =>
    intro a t p ts hr hs
    cases hr with
    | @node _ c ts' hc hl hk =>
      simp only [VT.sub] at hs
      by_cases hi : i < ts'.length
      · rw [List.getElem?_eq_getElem hi] at hs
        simp only at hs
        have hr' := hk i (by omega) hi
        have hi' : i < c.node.kids.length := by omega
        simp only [Mem.addr, hc, List.getElem?_eq_getElem hi']
        generalize c.node.kids[i] = r at hr'
        cases r with
        | none =>
          rw [hr'.none_iff] at hs
          cases is <;> simp [VT.sub] at hs
        | some b => exact ih hr' hs
      · rw [List.getElem?_eq_none (by omega)] at hs
        simp at hs

namespace Own
variable {h : Mem P} {L F : Multiset (Handle P)}

theorem rep_singleton {e : Handle P} (w : Own h ({e} + F)) : Rep h e.ref e.tree :=
  w.rep e (by simp)

theorem ext_single_pos {e : Handle P} {a : Nat} (he : e.ref = some a) : 0 < ext ({e} + F) a :=
  ext_pos (e := e) (by simp) he

/-- Contents of the cell of a handle. -/
theorem cell_of {a : Nat} {t : VT P} {u : Bool} (w : Own h ({⟨some a, t, u⟩} + F)) :
    ∃ c ts, h.cells a = some c ∧ t = .node c.node.data ts ∧ ts.length = c.node.kids.length ∧
      (∀ i (h1 : i < c.node.kids.length) (h2 : i < ts.length), Rep h c.node.kids[i] ts[i]) := by
  obtain ⟨c, hc⟩ := w.cell (e := ⟨some a, t, u⟩) (by simp) rfl
  obtain ⟨ts, h1, h2, h3⟩ := Rep.inv w.rep_singleton hc
  exact ⟨c, ts, hc, h1, h2, h3⟩

theorem alloc {p : P} {ks : List (Option Nat)} {ts : List (VT P)} (hlen : ts.length = ks.length)
    (w : Own h (owns ks ts + F)) :
    Own ⟨(h.put h.next (some ⟨1, ⟨p, ks⟩⟩)).cells, h.next + 1⟩ (uown h.next (.node p ts) + F) := by
  have hnone : h.cells h.next = none := w.fin _ (Nat.le_refl _)
  have hz := w.cnt h.next
  rw [hnone, ext_add, ext_owns hlen] at hz
  simp only at hz
  have hnl := w.no_link (a := h.next) (by omega)
  have hFne : ∀ e ∈ F, e.ref ≠ some h.next := by
    intro e he hea
    have := ext_pos he hea
    omega
  have hkne : some h.next ∉ ks := by rw [← List.count_eq_zero]; omega
  have hcells : ∀ {r t}, Rep (h.put h.next (some ⟨1, ⟨p, ks⟩⟩)) r t →
      Rep ⟨(h.put h.next (some ⟨1, ⟨p, ks⟩⟩)).cells, h.next + 1⟩ r t :=
    by
    intro r t hr
    refine Rep.congr ?_ hr
    intro a; rfl
  have hself : Rep ⟨(h.put h.next (some ⟨1, ⟨p, ks⟩⟩)).cells, h.next + 1⟩ (some h.next)
      (.node p ts) := by
    refine hcells (.node (c := ⟨1, ⟨p, ks⟩⟩) (put_same _ _ _) hlen ?_)
    intro i h1 h2
    refine (rep_owns w.rep h1 h2).put hnl ?_
    intro e
    exact hkne (e ▸ List.getElem_mem h1)
  refine ⟨?_, ?_, ?_, ?_, ?_⟩
  · intro a ha
    show (h.put h.next _).cells a = none
    simp only at ha
    rw [put_ne _ _ (by omega)]
    exact w.fin a (by omega)
  · intro a
    have hlk : links ⟨(h.put h.next (some ⟨1, ⟨p, ks⟩⟩)).cells, h.next + 1⟩ a
        = links h a + ks.count (some a) := by
      show sumTo _ _ + _ = _
      have hl : lc ((h.put h.next (some ⟨1, ⟨p, ks⟩⟩)).cells h.next) a = ks.count (some a) := by
        rw [put_same]; rfl
      rw [← hl]
      congr 1
      exact sumTo_congr (fun i hi => by rw [put_ne _ _ (by omega)])
    rw [hlk]
    show match (h.put h.next _).cells a with | some c => _ | none => _
    rw [ext_add, uown, ext_singleton]
    by_cases ha : a = h.next
    · subst ha
      rw [put_same]
      simp only [if_true]
      omega
    · rw [put_ne _ _ ha]
      have := w.cnt a
      rw [ext_add, ext_owns hlen] at this
      have hne : ¬ (some h.next = some a) := by simpa using fun e => ha e.symm
      simp only [hne, if_false]
      cases hx : h.cells a with
      | none => rw [hx] at this; simp only at this ⊢; omega
      | some d => rw [hx] at this; simp only at this ⊢; omega
  · intro a c hc
    by_cases ha : a = h.next
    · subst ha; exact ⟨_, hself⟩
    · have hc' : (h.put h.next (some ⟨1, ⟨p, ks⟩⟩)).cells a = some c := hc
      rw [put_ne _ _ ha] at hc'
      obtain ⟨t, ht⟩ := w.val a c hc'
      exact ⟨t, hcells (ht.put hnl (by simpa using ha))⟩
  · intro e he
    rcases Multiset.mem_add.1 he with he | he
    · rw [uown, Multiset.mem_singleton] at he
      subst he
      exact hself
    · exact hcells ((w.rep e (Multiset.mem_add.2 (Or.inr he))).put hnl (hFne e he))
  · intro e he hu
    rcases Multiset.mem_add.1 he with he | he
    · rw [uown, Multiset.mem_singleton] at he
      subst he
      exact ⟨h.next, ⟨1, ⟨p, ks⟩⟩, rfl, put_same _ _ _, rfl⟩
    · obtain ⟨x, d, h1, h2, h3⟩ := w.uni e (Multiset.mem_add.2 (Or.inr he)) hu
      refine ⟨x, d, h1, ?_, h3⟩
      show (h.put h.next _).cells x = some d
      rw [put_ne _ _ (fun e' => hFne e he (by rw [h1, e'])), h2]

/-- One more reference to `b`, which is not a sole handle's. -/
theorem incr {b : Nat} {d : Cell P} {t : VT P} (w : Own h L) (hb : h.cells b = some d)
    (hr : Rep h (some b) t) (hu : ∀ e ∈ L, e.uniq = true → e.ref ≠ some b) :
    Own (h.put b (some { d with rc := d.rc + 1 })) (own (some b) t + L) := by
  refine w.congr_cells rfl ?_ ?_ ?_ ?_ ?_
  · intro a
    by_cases ha : a = b
    · subst ha; rw [put_same, hb]; rfl
    · rw [put_ne _ _ ha]
  · intro a c' hc'
    rw [ext_add, ext_own]
    have := w.cnt a
    by_cases ha : a = b
    · subst ha
      rw [put_same] at hc'
      cases hc'
      rw [hb] at this
      simp only [if_true]
      simp only at this
      omega
    · rw [put_ne _ _ ha] at hc'
      rw [hc'] at this
      have hne : ¬ (some b = some a) := by simpa using fun e => ha e.symm
      simp only [hne, if_false]
      simp only at this
      omega
  · intro a ha
    rw [ext_add, ext_own]
    have := w.cnt a
    rw [ha] at this
    have hne : ¬ (some b = some a) := by
      intro e; cases e; rw [hb] at ha; cases ha
    simp only [hne, if_false]
    simp only at this
    omega
  · intro e he
    rcases Multiset.mem_add.1 he with he | he
    · rw [own_some, Multiset.mem_singleton] at he
      subst he; exact hr
    · exact w.rep e he
  · intro e he hue
    rcases Multiset.mem_add.1 he with he | he
    · rw [own_some, Multiset.mem_singleton] at he
      subst he; cases hue
    · obtain ⟨x, c, h1, h2, h3⟩ := w.uni e he hue
      refine ⟨x, c, h1, ?_, h3⟩
      rw [put_ne _ _ (fun e' => hu e he hue (by rw [h1, e'])), h2]

theorem not_uniq_of_two (w : Own h L) {e : Handle P} (he : e ∈ L) (hu : e.uniq = true) {b : Nat}
    (hb : e.ref = some b) : ext L b = 1 ∧ links h b = 0 := by
  obtain ⟨a, c, h1, h2, h3⟩ := w.uni e he hu
  rw [hb] at h1; cases h1
  exact w.sole h2 h3 (ext_pos he hb)

theorem inc {a : Nat} {t : VT P} (w : Own h (own (some a) t + F)) :
    ∃ h', (Op.inc a).step h = some (h', ()) ∧ Own h' (own (some a) t + (own (some a) t + F)) := by
  rw [own_some] at w
  obtain ⟨c, ts, hc, -, -, -⟩ := w.cell_of
  refine ⟨_, by simp only [Op.step, hc]; rfl, ?_⟩
  refine w.incr hc w.rep_singleton ?_
  intro e he hue hea
  obtain ⟨h1, -⟩ := w.not_uniq_of_two he hue hea
  rcases Multiset.mem_add.1 he with h2 | h2
  · rw [Multiset.mem_singleton] at h2; subst h2; cases hue
  · rw [ext_add, ext_singleton] at h1
    have := ext_pos h2 hea
    simp only [if_true] at h1
    omega

theorem read {a : Nat} {t : VT P} {u : Bool} {path : List Nat} {p : P} {ts : List (VT P)}
    (w : Own h ({⟨some a, t, u⟩} + F)) (hp : t.sub path = some (.node p ts)) :
    ∃ n, (Op.read a path).step h = some (h, n) ∧ n.data = p ∧ ts.length = n.kids.length ∧
      ∀ i (h1 : i < n.kids.length) (h2 : i < ts.length), (n.kids[i] = none ↔ ts[i] = .nil) := by
  obtain ⟨b, c, h1, h2, h3, h4, h5⟩ := walk_spec w.rep_singleton hp
  refine ⟨c.node, by simp only [Op.step, h1, Option.map_some], h3, h4, ?_⟩
  intro i i1 i2
  have := h5 i i1 i2
  constructor
  · intro e; rw [e] at this; exact this.none_iff
  · intro e; rw [e] at this; exact this.nil_iff

/-- Two links to the same node stand for the same value. -/
theorem ptrEq {a b : Nat} {t t' : VT P} {u u' : Bool} {path path' : List Nat} {p p' : P}
    {ts ts' : List (VT P)} (w : Own h L) (ha : ⟨some a, t, u⟩ ∈ L) (hb : ⟨some b, t', u'⟩ ∈ L)
    (hp : t.sub path = some (.node p ts)) (hp' : t'.sub path' = some (.node p' ts')) :
    ∃ r : Bool, (Op.ptrEq a path b path').step h = some (h, r) ∧
      (r = true → VT.node p ts = .node p' ts') := by
  obtain ⟨x, h1, h2⟩ := addr_spec (w.rep _ ha) hp
  obtain ⟨y, h3, h4⟩ := addr_spec (w.rep _ hb) hp'
  refine ⟨decide (x = y), by simp only [Op.step, h1, h3]; rfl, ?_⟩
  intro e
  rw [of_decide_eq_true e] at h2
  exact h2.unique h4

theorem incAt {a : Nat} {t : VT P} {u : Bool} {path : List Nat} {p : P} {ts : List (VT P)}
    (w : Own h ({⟨some a, t, u⟩} + F)) (hp : t.sub path = some (.node p ts)) {i : Nat}
    (hi : i < ts.length) :
    ∃ h' r, (Op.incAt a path i).step h = some (h', r) ∧
      Own h' (own r ts[i] + ({⟨some a, t, u⟩} + F)) := by
  obtain ⟨b, c, h1, h2, h3, h4, h5⟩ := walk_spec w.rep_singleton hp
  have hi' : i < c.node.kids.length := by omega
  have hr := h5 i hi' hi
  simp only [Op.step, h1, List.getElem?_eq_getElem hi']
  have hmem : c.node.kids[i] ∈ c.node.kids := List.getElem_mem hi'
  generalize c.node.kids[i] = r at hr hmem
  cases r with
  | none =>
    refine ⟨h, none, rfl, ?_⟩
    rw [hr.none_iff]
    simpa using w
  | some x =>
    cases hx : h.cells x with
    | none =>
      generalize ts[i] = tt at hr
      cases hr with
      | node hc => rw [hx] at hc; cases hc
    | some d =>
      refine ⟨_, some x, by simp only [hx]; rfl, ?_⟩
      refine w.incr hx hr ?_
      intro e he hue hea
      obtain ⟨-, h6⟩ := w.not_uniq_of_two he hue hea
      have := links_of_cell w.fin h2 hmem
      omega

theorem isUnique {a : Nat} {t : VT P} (w : Own h (own (some a) t + F)) :
    ∃ b : Bool, (Op.isUnique a).step h = some (h, b) ∧ (b = true → Own h (uown a t + F)) := by
  rw [own_some] at w
  obtain ⟨c, ts, hc, -, -, -⟩ := w.cell_of
  refine ⟨decide (c.rc = 1), by simp only [Op.step, hc]; rfl, ?_⟩
  intro hb
  have h1 : c.rc = 1 := by simpa using hb
  have hx : ∀ x, ext (uown a t + F) x = ext ({⟨some a, t, false⟩} + F) x := by
    intro x; rw [ext_add, ext_add, uown, ext_singleton, ext_singleton]
  refine ⟨w.fin, ?_, w.val, ?_, ?_⟩
  · intro x; rw [hx]; exact w.cnt x
  · intro e he
    rcases Multiset.mem_add.1 he with he | he
    · rw [uown, Multiset.mem_singleton] at he; subst he; exact w.rep_singleton
    · exact w.rep e (Multiset.mem_add.2 (Or.inr he))
  · intro e he hu
    rcases Multiset.mem_add.1 he with he | he
    · rw [uown, Multiset.mem_singleton] at he; subst he; exact ⟨a, c, rfl, hc, h1⟩
    · exact w.uni e (Multiset.mem_add.2 (Or.inr he)) hu

/-- Forget that a handle is the sole one. -/
theorem forget {a : Nat} {t : VT P} (w : Own h (uown a t + F)) : Own h (own (some a) t + F) := by
  have hx : ∀ x, ext (uown a t + F) x = ext (own (some a) t + F) x := by
    intro x; rw [ext_add, ext_add, uown, own_some, ext_singleton, ext_singleton]
  refine ⟨w.fin, ?_, w.val, ?_, ?_⟩
  · intro x; rw [← hx]; exact w.cnt x
  · intro e he
    rcases Multiset.mem_add.1 he with he | he
    · rw [own_some, Multiset.mem_singleton] at he; subst he; exact w.rep_singleton
    · exact w.rep e (Multiset.mem_add.2 (Or.inr he))
  · intro e he hu
    rcases Multiset.mem_add.1 he with he | he
    · rw [own_some, Multiset.mem_singleton] at he; subst he; cases hu
    · exact w.uni e (Multiset.mem_add.2 (Or.inr he)) hu

/-- The node of a sole handle, moved out. -/
theorem take_out {a : Nat} {c : Cell P} {ts : List (VT P)} {p : P} {u : Bool}
    (w : Own h ({⟨some a, .node p ts, u⟩} + F)) (hc : h.cells a = some c) (h1 : c.rc = 1) :
    c.node.data = p ∧ ts.length = c.node.kids.length ∧
      Own (h.put a none) (owns c.node.kids ts + F) := by
  obtain ⟨ts', h2, hlen, hk⟩ := Rep.inv w.rep_singleton hc
  simp only [VT.node.injEq] at h2
  obtain ⟨rfl, rfl⟩ := h2
  have hs := w.sole hc h1 (ext_single_pos rfl)
  have hnl := w.no_link hs.2
  have hFa : ext F a = 0 := by
    have := hs.1
    rw [ext_add, ext_singleton] at this
    simp only [if_true] at this
    omega
  have hka : some a ∉ c.node.kids := hnl a c hc
  refine ⟨rfl, hlen, w.modify hc hs.2 hFa ?_ rfl ?_ ?_ ?_⟩
  · intro x hx
    have hne : ¬ (some a = some x) := by simpa using fun e => hx e.symm
    rw [ext_owns hlen, ext_singleton]
    simp only [lc, hne, if_false]
    omega
  · simp only
    rw [ext_owns hlen, List.count_eq_zero]
    exact hka
  · intro e he
    obtain ⟨i, i1, i2, rfl⟩ := mem_owns he
    refine (hk i i1 i2).put hnl ?_
    intro e'
    exact hka (e' ▸ List.getElem_mem i1)
  · intro e he hu
    obtain ⟨i, i1, i2, rfl⟩ := mem_owns he
    cases hu

theorem dec {a : Nat} {p : P} {ts : List (VT P)} (w : Own h (own (some a) (.node p ts) + F)) :
    ∃ (h' : Mem P) (r : Option (Node P)), (Op.dec a).step h = some (h', r) ∧
      match r with
      | none => Own h' F
      | some n => n.data = p ∧ ts.length = n.kids.length ∧ Own h' (owns n.kids ts + F) := by
  rw [own_some] at w
  obtain ⟨c, hc⟩ := w.cell (e := ⟨some a, .node p ts, false⟩) (by simp) rfl
  simp only [Op.step, hc]
  by_cases h1 : c.rc = 1
  · simp only [h1, if_true]
    exact ⟨_, _, rfl, w.take_out hc h1⟩
  · simp only [h1, if_false]
    refine ⟨_, none, rfl, ?_⟩
    refine w.congr_cells rfl ?_ ?_ ?_ ?_ ?_
    · intro x
      by_cases hx : x = a
      · subst hx; rw [put_same, hc]; rfl
      · rw [put_ne _ _ hx]
    · intro x c' hc'
      have := w.cnt x
      rw [ext_add, ext_singleton] at this
      by_cases hx : x = a
      · subst hx
        rw [put_same] at hc'
        cases hc'
        rw [hc] at this
        simp only [if_true] at this
        dsimp only
        omega
      · rw [put_ne _ _ hx] at hc'
        rw [hc'] at this
        have hne : ¬ (some a = some x) := by simpa using fun e => hx e.symm
        simp only [hne, if_false] at this
        omega
    · intro x hx
      have := w.cnt x
      rw [ext_add, hx] at this
      simp only at this
      omega
    · intro e he; exact w.rep e (Multiset.mem_add.2 (Or.inr he))
    · intro e he hu
      have hm := Multiset.mem_add.2 (Or.inr (a := e ∈ ({⟨some a, .node p ts, false⟩} : Multiset (Handle P))) he)
      obtain ⟨x, d, h3, h4, h5⟩ := w.uni e hm hu
      refine ⟨x, d, h3, ?_, h5⟩
      rw [put_ne _ _ ?_, h4]
      rintro rfl
      rw [hc] at h4; cases h4
      exact h1 h5

theorem tryUnwrap {a : Nat} {p : P} {ts : List (VT P)}
    (w : Own h (own (some a) (.node p ts) + F)) :
    ∃ (h' : Mem P) (r : Option (Node P)), (Op.tryUnwrap a).step h = some (h', r) ∧
      match r with
      | none => Own h' (own (some a) (.node p ts) + F)
      | some n => n.data = p ∧ ts.length = n.kids.length ∧ Own h' (owns n.kids ts + F) := by
  have w0 := w
  rw [own_some] at w
  obtain ⟨c, hc⟩ := w.cell (e := ⟨some a, .node p ts, false⟩) (by simp) rfl
  simp only [Op.step, hc]
  by_cases h1 : c.rc = 1
  · simp only [h1, if_true]
    exact ⟨_, _, rfl, w.take_out hc h1⟩
  · simp only [h1, if_false]
    exact ⟨h, none, rfl, w0⟩

theorem uown_cell {a : Nat} {t : VT P} (w : Own h (uown a t + F)) :
    ∃ c, h.cells a = some c ∧ c.rc = 1 := by
  obtain ⟨x, c, h1, h2, h3⟩ := w.uni ⟨some a, t, true⟩ (by simp [uown]) rfl
  cases h1
  exact ⟨c, h2, h3⟩

/-- The cell of a sole handle gets new contents. -/
theorem rewrite {a : Nat} {c : Cell P} {p q : P} {ts ss : List (VT P)} {ks : List (Option Nat)}
    (w : Own h (uown a (.node p ts) + (owns ks ss + F))) (hc : h.cells a = some c)
    (h1 : c.rc = 1) (hss : ss.length = ks.length) :
    ts.length = c.node.kids.length ∧
    Own (h.put a (some ⟨1, ⟨q, ks⟩⟩)) (uown a (.node q ss) + (owns c.node.kids ts + F)) := by
  obtain ⟨ts', h2, hlen, hk⟩ := Rep.inv (w.rep_singleton) hc
  simp only [VT.node.injEq] at h2
  obtain ⟨rfl, rfl⟩ := h2
  have hs := w.sole hc h1 (ext_single_pos rfl)
  have hnl := w.no_link hs.2
  have hz := hs.1
  rw [ext_add, ext_add, uown, ext_singleton, ext_owns hss] at hz
  simp only [if_true] at hz
  have hka : some a ∉ c.node.kids := hnl a c hc
  have hksa : some a ∉ ks := by rw [← List.count_eq_zero]; omega
  refine ⟨hlen, ?_⟩
  have w' : Own h ((uown a (.node c.node.data ts) + owns ks ss) + F) := by rwa [add_assoc]
  rw [← add_assoc]
  have hself : Rep (h.put a (some ⟨1, ⟨q, ks⟩⟩)) (some a) (.node q ss) := by
    refine .node (c := ⟨1, ⟨q, ks⟩⟩) (put_same _ _ _) hss ?_
    intro i i1 i2
    have hwr : ∀ e ∈ owns ks ss + F, Rep h e.ref e.tree :=
      fun e he => w.rep e (Multiset.mem_add.2 (Or.inr he))
    refine (rep_owns hwr i1 i2).put hnl ?_
    intro e
    exact hksa (e ▸ List.getElem_mem i1)
  refine w'.modify hc hs.2 (by omega) ?_ ?_ ?_ ?_ ?_
  · intro x hx
    have hne : ¬ (some a = some x) := by simpa using fun e => hx e.symm
    rw [ext_add, ext_add, ext_owns hlen, ext_owns hss, uown, uown, ext_singleton, ext_singleton]
    simp only [lc, hne, if_false]
    omega
  · simp only [lc, List.count_eq_zero]; exact hksa
  · refine ⟨?_, Nat.one_pos, _, hself⟩
    rw [ext_add, ext_owns hlen, uown, ext_singleton, List.count_eq_zero.2 hka]
    simp
  · intro e he
    rcases Multiset.mem_add.1 he with he | he
    · rw [uown, Multiset.mem_singleton] at he; subst he; exact hself
    · obtain ⟨i, i1, i2, rfl⟩ := mem_owns he
      refine (hk i i1 i2).put hnl ?_
      intro e'
      exact hka (e' ▸ List.getElem_mem i1)
  · intro e he hu
    rcases Multiset.mem_add.1 he with he | he
    · rw [uown, Multiset.mem_singleton] at he; subst he
      exact ⟨a, _, rfl, put_same _ _ _, rfl⟩
    · obtain ⟨i, i1, i2, rfl⟩ := mem_owns he
      cases hu

theorem «open» {a : Nat} {p : P} {ts : List (VT P)} (w : Own h (uown a (.node p ts) + F)) :
    ∃ h' n, (Op.open a).step h = some (h', n) ∧ n.data = p ∧ ts.length = n.kids.length ∧
      Own h' (uown a (.node p []) + (owns n.kids ts + F)) := by
  obtain ⟨c, hc, h1⟩ := w.uown_cell
  obtain ⟨ts', h2, hlen, hk⟩ := Rep.inv (w.rep_singleton) hc
  simp only [VT.node.injEq] at h2
  obtain ⟨rfl, rfl⟩ := h2
  have := rewrite (q := c.node.data) (ss := []) (ks := []) (F := F) (by simpa using w) hc h1 rfl
  exact ⟨_, c.node, by simp only [Op.step, hc, h1, if_true], rfl, hlen, this.2⟩

theorem close {a : Nat} {p q : P} {ts : List (VT P)} {ks : List (Option Nat)}
    (hlen : ts.length = ks.length)
    (w : Own h (uown a (.node p []) + (owns ks ts + F))) :
    ∃ h', (Op.close a ⟨q, ks⟩).step h = some (h', ()) ∧ Own h' (uown a (.node q ts) + F) := by
  obtain ⟨c, hc, h1⟩ := w.uown_cell
  obtain ⟨ts', h2, hl, hk⟩ := Rep.inv (w.rep_singleton) hc
  simp only [VT.node.injEq] at h2
  obtain ⟨rfl, rfl⟩ := h2
  have hkn : c.node.kids = [] := by simpa using hl.symm
  have := rewrite (q := q) w hc h1 hlen
  refine ⟨_, by simp only [Op.step, hc, h1, hkn, and_self, if_true]; rfl, ?_⟩
  have h3 := this.2
  rw [hkn] at h3
  simpa using h3

end Own

/-! ## No leak -/

/-- If there is no handle left, nothing is allocated any more. -/
theorem Own.no_leak {h : Mem P} (w : Own h 0) : ∀ a, h.cells a = none := by
  -- from a cell one gets to a cell that links to it, hence to ever bigger values
  by_contra hne
  have hne : ∃ a, h.cells a ≠ none := by
    by_contra hcon
    exact hne (fun a => by
      by_contra h'; exact hcon ⟨a, h'⟩)
  have parent : ∀ a c, h.cells a = some c → ∃ b d, h.cells b = some d ∧ some a ∈ d.node.kids := by
    intro a c hc
    have := w.cnt a
    rw [hc, ext_zero] at this
    by_contra hno
    have h0 : links h a = 0 := by
      refine sumTo_zero ?_
      intro b _
      cases hb : h.cells b with
      | none => rfl
      | some d =>
        simp only [lc, List.count_eq_zero]
        intro hm
        exact hno ⟨b, d, hb, hm⟩
    simp only at this
    omega
  -- a chain of k+1 nested values starting at any cell of depth bound k is impossible
  have key : ∀ (n : Nat) a c, h.cells a = some c → ∃ b d path, h.cells b = some d ∧
      path.length = n ∧ h.walk b path = some c := by
    intro n
    induction n with
    | zero => intro a c hc; exact ⟨a, c, [], hc, rfl, hc⟩
    | succ n ih =>
      intro a c hc
      obtain ⟨b, d, hb, hm⟩ := parent a c hc
      obtain ⟨i, hi, hia⟩ := List.getElem_of_mem hm
      have : ∀ {path : List Nat} {x : Nat}, h.walk x path = some d → h.walk x (path ++ [i]) = some c := by
        intro path
        induction path with
        | nil =>
          intro x hx
          simp only [Mem.walk] at hx
          simp only [List.nil_append, Mem.walk, hx, List.getElem?_eq_getElem hi, hia, hc]
        | cons j js ihp =>
          intro x hx
          simp only [List.cons_append, Mem.walk] at hx ⊢
          cases hcx : h.cells x with
          | none => rw [hcx] at hx; cases hx
          | some cx =>
            rw [hcx] at hx
            simp only at hx ⊢
            cases hk : cx.node.kids[j]? with
            | none => rw [hk] at hx; cases hx
            | some r =>
              rw [hk] at hx
              cases r with
              | none => cases hx
              | some y => exact ihp hx
      obtain ⟨x, e, path, h1, h2, h3⟩ := ih b d hb
      exact ⟨x, e, path ++ [i], h1, by simp [h2], this h3⟩
  -- depth of a value
  have depth : ∀ {r t}, Rep h r t → ∃ k, ∀ a, r = some a → ∀ path, k ≤ path.length → h.walk a path = none := by
    intro r t hr
    induction hr with
    | nil => exact ⟨0, by simp⟩
    | @node a c ts hc hl hk ih =>
      have : ∃ k, ∀ i (h1 : i < c.node.kids.length), ∀ b, c.node.kids[i] = some b →
          ∀ path, k ≤ path.length → h.walk b path = none := by
        have aux : ∀ m, m ≤ c.node.kids.length → ∃ k, ∀ i (h1 : i < c.node.kids.length), i < m →
            ∀ b, c.node.kids[i] = some b → ∀ path, k ≤ path.length → h.walk b path = none := by
          intro m
          induction m with
          | zero => intro _; exact ⟨0, by simp⟩
          | succ m ihm =>
            intro hm
            obtain ⟨k1, hk1⟩ := ihm (by omega)
            obtain ⟨k2, hk2⟩ := ih m (by omega) (by omega)
            refine ⟨max k1 k2, ?_⟩
            intro i hi him b hb path hp
            by_cases e : i = m
            · subst e; exact hk2 b hb path (by omega)
            · exact hk1 i hi (by omega) b hb path (by omega)
        obtain ⟨k, hk⟩ := aux _ (Nat.le_refl _)
        exact ⟨k, fun i hi => hk i hi hi⟩
      obtain ⟨k, hk'⟩ := this
      refine ⟨k + 1, ?_⟩
      intro a' ha path hp
      cases ha
      cases path with
      | nil => simp at hp
      | cons i is =>
        simp only [Mem.walk, hc]
        by_cases hi : i < c.node.kids.length
        · rw [List.getElem?_eq_getElem hi]
          cases hki : c.node.kids[i] with
          | none => rfl
          | some b => exact hk' i hi b hki is (by simpa using hp)
        · rw [List.getElem?_eq_none (by omega)]
  -- a common bound
  have bound : ∀ m, ∃ k, ∀ a < m, ∀ path : List Nat, k ≤ path.length → h.walk a path = none := by
    intro m
    induction m with
    | zero => exact ⟨0, by simp⟩
    | succ m ihm =>
      obtain ⟨k1, hk1⟩ := ihm
      have : ∃ k2, ∀ path : List Nat, k2 ≤ path.length → h.walk m path = none := by
        cases hm : h.cells m with
        | none =>
          refine ⟨0, ?_⟩
          intro path _
          cases path <;> simp [Mem.walk, hm]
        | some c =>
          obtain ⟨t, ht⟩ := w.val m c hm
          obtain ⟨k, hk⟩ := depth ht
          exact ⟨k, hk m rfl⟩
      obtain ⟨k2, hk2⟩ := this
      refine ⟨max k1 k2, ?_⟩
      intro a ha path hp
      by_cases e : a = m
      · subst e; exact hk2 path (by omega)
      · exact hk1 a (by omega) path (by omega)
  obtain ⟨a, ha⟩ := hne
  cases hc : h.cells a with
  | none => exact ha hc
  | some c =>
    obtain ⟨k, hk⟩ := bound h.next
    obtain ⟨b, d, path, h1, h2, h3⟩ := key k a c hc
    rw [hk b (w.lt_next h1) path (by omega)] at h3
    cases h3

theorem Own.empty : Own (Mem.empty : Mem P) 0 := by
  refine ⟨fun _ _ => rfl, ?_, ?_, by simp, by simp⟩
  · intro a
    show ext 0 a + links Mem.empty a = 0
    simp [links, Mem.empty, sumTo]
  · intro a c hc; simp [Mem.empty] at hc

end Verif.Heap
