import Verif.Fixed.Iter
/-!
# The node iterators of the fixed-layout B-tree from both ends (src/btree/core.rs:973-1211)

`InnerIter` calls only their `next` (core.rs:1266, 1288); here they are taken by themselves.
-/
set_option linter.unusedSectionVars false
namespace Verif.Fixed
open Verif.BTree Verif.BTree.Node
variable {E C K V : Type}

/-! ### `NodeIter` -/

/-- core.rs:973-980 `NodeIter`, over slice iterators that are the lists of what they have still
to yield. -/
structure NB (K V C : Type) where
  keys : List K
  vals : List V
  kids : List C
  isNext : Bool
  isNextBack : Bool

/-- core.rs:990-1000 `NodeIter::next`. -/
def NB.next (w : NB K V C) : Option (Act (K × V) C) × NB K V C :=
  if w.isNext then
    let w := {w with isNext := w.kids.length == 0}
    match w.keys with
    | [] => (none, w)
    | k :: keys =>
      let w := {w with keys := keys}
      match w.vals with
      | [] => (none, w)
      | v :: vals => (some (.ret (k, v)), {w with vals := vals})
  else
    let w := {w with isNext := true}
    match w.kids with
    | [] => (none, w)
    | c :: kids => (some (.desc c), {w with kids := kids})

/-- core.rs:1009-1019 `NodeIter::next_back`. -/
def NB.nextBack (w : NB K V C) : Option (Act (K × V) C) × NB K V C :=
  if w.isNextBack then
    let w := {w with isNextBack := w.kids.length == 0}
    match w.keys.getLast? with
    | none => (none, w)
    | some k =>
      let w := {w with keys := w.keys.dropLast}
      match w.vals.getLast? with
      | none => (none, w)
      | some v => (some (.ret (k, v)), {w with vals := w.vals.dropLast})
  else
    let w := {w with isNextBack := true}
    match w.kids.getLast? with
    | none => (none, w)
    | some c => (some (.desc c), {w with kids := w.kids.dropLast})

/-- core.rs:1037-1052 `new` for `NodeIterRef` and 1061-1082 for `NodeIterMut`. -/
def NB.new (n : Node K V) : NB K V (Node K V) :=
  ⟨n.elems.map (·.1), n.elems.map (·.2), n.kids, !(n.kids.length > 0 : Bool),
    !(n.kids.length > 0 : Bool)⟩

/-- A schedule of calls of `next` (`true`) and `next_back`: the results. -/
def NB.run : List Bool → NB K V C → List (Option (Act (K × V) C))
  | [], _ => []
  | d :: ds, w =>
    let x := if d then w.next else w.nextBack
    x.1 :: NB.run ds x.2

/-- The entries and children in alternation, starting with an entry or a child; when the
children are used up, the entries left. -/
def alt : Bool → List E → List C → List (Act E C)
  | true, [], _ => []
  | true, e :: es, ks => .ret e :: alt false es ks
  | false, es, c :: ks => .desc c :: alt true es ks
  | false, es, [] => es.map .ret
termination_by _ es ks => es.length + ks.length

theorem alt_nil (f : Bool) (es : List E) : alt f es ([] : List C) = es.map .ret := by
  cases f with
  | false => rw [alt]
  | true =>
    cases es with
    | nil => simp [alt]
    | cons e es => rw [alt, alt]; rfl

/-- 1 for `true`. -/
def bit (b : Bool) : Nat := if b then 1 else 0

theorem alt_snoc_kid : ∀ (n : Nat) (f : Bool) (es : List E) (ks : List C) (c : C),
    es.length + ks.length ≤ n → ks.length + bit f = es.length →
    alt f es (ks ++ [c]) = alt f es ks ++ [.desc c] := by
  intro n
  induction n with
  | zero =>
    intro f es ks c h1 h2
    have he : es = [] := List.length_eq_zero_iff.1 (by omega)
    have hk : ks = [] := List.length_eq_zero_iff.1 (by omega)
    subst he hk
    cases f with
    | true => simp [bit] at h2
    | false => simp [alt]
  | succ n ih =>
    intro f es ks c h1 h2
    cases f with
    | true =>
      cases es with
      | nil => simp [bit] at h2
      | cons e es =>
        simp [bit] at h1 h2
        rw [alt, alt, ih false es ks c (by omega) (by simp [bit]; omega)]
        rfl
    | false =>
      cases ks with
      | nil =>
        have : es = [] := List.length_eq_zero_iff.1 (by simp [bit] at h2; omega)
        subst this
        simp [alt]
      | cons d ks =>
        simp [bit] at h1 h2
        rw [List.cons_append, alt, alt, ih true es ks c (by omega) (by simp [bit]; omega)]
        rfl

theorem alt_snoc_elem : ∀ (n : Nat) (f : Bool) (es : List E) (ks : List C) (e : E),
    es.length + ks.length ≤ n → (ks.length + bit f = es.length + 1 ∨ ks = []) →
    alt f (es ++ [e]) ks = alt f es ks ++ [.ret e] := by
  intro n
  induction n with
  | zero =>
    intro f es ks e h1 h2
    have he : es = [] := List.length_eq_zero_iff.1 (by omega)
    have hk : ks = [] := List.length_eq_zero_iff.1 (by omega)
    subst he hk
    simp [alt_nil]
  | succ n ih =>
    intro f es ks e h1 h2
    cases ks with
    | nil => simp [alt_nil]
    | cons c ks =>
      rcases h2 with h2 | h2
      · cases f with
        | true =>
          cases es with
          | nil => simp [bit] at h2
          | cons e' es =>
            simp [bit] at h1 h2
            rw [List.cons_append, alt, alt, ih false es (c :: ks) e (by simp; omega)
              (by simp [bit]; omega)]
            rfl
        | false =>
          simp [bit] at h1 h2
          rw [alt, alt, ih true es ks e (by omega) (by simp [bit]; omega)]
          rfl
      · cases h2

/-- A state of a `NodeIter` between calls, `es` being the entries left. -/
structure NB.Ok (w : NB K V C) (es : List (K × V)) : Prop where
  keys : w.keys = es.map (·.1)
  vals : w.vals = es.map (·.2)
  alt : w.kids.length + bit w.isNext + bit w.isNextBack = es.length + 1 ∨
    (w.kids = [] ∧ (es = [] ∨ (w.isNext = true ∧ w.isNextBack = true)))

theorem NB.next_spec {w : NB K V C} {es : List (K × V)} (h : w.Ok es) :
    ∃ es', w.next.2.Ok es' ∧ w.next.1 = (alt w.isNext es w.kids).head? ∧
      alt w.next.2.isNext es' w.next.2.kids = (alt w.isNext es w.kids).tail := by
  obtain ⟨keys, vals, kids, f, b⟩ := w
  obtain ⟨h1, h2, h3⟩ := h
  simp only at h1 h2 h3
  subst h1 h2
  cases f with
  | true =>
    cases es with
    | nil =>
      refine ⟨[], ⟨by simp [NB.next], by simp [NB.next], ?_⟩, ?_, ?_⟩
      · simp only [NB.next, List.map_nil]
        rcases h3 with h3 | ⟨h3, -⟩
        · simp [bit] at h3
          have : kids = [] := List.length_eq_zero_iff.1 (by omega)
          exact Or.inr ⟨this, by simp⟩
        · exact Or.inr ⟨h3, by simp⟩
      · simp [NB.next, Fixed.alt]
      · simp only [NB.next, List.map_nil]
        have : kids = [] := by
          rcases h3 with h3 | ⟨h3, -⟩
          · simp [bit] at h3
            exact List.length_eq_zero_iff.1 (by omega)
          · exact h3
        subst this
        simp [alt_nil]
    | cons e es =>
      refine ⟨es, ⟨by simp [NB.next], by simp [NB.next], ?_⟩, ?_, ?_⟩
      · simp only [NB.next, List.map_cons]
        cases kids with
        | nil =>
          right
          refine ⟨rfl, ?_⟩
          rcases h3 with h3 | ⟨-, h3 | h3⟩
          · simp [bit] at h3
            cases b with
            | true =>
              simp at h3
              exact Or.inl h3
            | false =>
              simp at h3
          · cases h3
          · exact Or.inr ⟨by simp, h3.2⟩
        | cons c kids =>
          left
          rcases h3 with h3 | ⟨h3, -⟩
          · simp [bit] at h3 ⊢
            omega
          · cases h3
      · simp [NB.next, Fixed.alt]
      · simp only [NB.next, List.map_cons]
        rw [Fixed.alt, List.tail_cons]
        cases kids with
        | nil => simp [alt_nil]
        | cons c kids => simp
  | false =>
    cases kids with
    | nil =>
      have he : es = [] := by
        rcases h3 with h3 | ⟨-, h3 | h3⟩
        · simp [bit] at h3
          cases b with
          | true => simp at h3; exact h3
          | false => simp at h3
        · exact h3
        · simp at h3
      subst he
      refine ⟨[], ⟨by simp [NB.next], by simp [NB.next], Or.inr ⟨by simp [NB.next], Or.inl rfl⟩⟩,
        ?_, ?_⟩
      · simp [NB.next, Fixed.alt]
      · simp [NB.next, Fixed.alt]
    | cons c kids =>
      refine ⟨es, ⟨by simp [NB.next], by simp [NB.next], ?_⟩, ?_, ?_⟩
      · left
        rcases h3 with h3 | ⟨h3, -⟩
        · simp [NB.next, bit] at h3 ⊢
          omega
        · cases h3
      · simp [NB.next, Fixed.alt]
      · simp [NB.next, Fixed.alt]

theorem NB.nextBack_spec {w : NB K V C} {es : List (K × V)} (h : w.Ok es) :
    ∃ es', w.nextBack.2.Ok es' ∧ w.nextBack.1 = (alt w.isNext es w.kids).getLast? ∧
      alt w.nextBack.2.isNext es' w.nextBack.2.kids = (alt w.isNext es w.kids).dropLast := by
  obtain ⟨keys, vals, kids, f, b⟩ := w
  obtain ⟨h1, h2, h3⟩ := h
  simp only at h1 h2 h3
  subst h1 h2
  cases b with
  | true =>
    rcases List.eq_nil_or_concat es with rfl | ⟨es, e, rfl⟩
    · have : kids = [] := by
        rcases h3 with h3 | ⟨h3, -⟩
        · simp only [bit, if_true, List.length_nil] at h3
          exact List.length_eq_zero_iff.1 (by omega)
        · exact h3
      subst this
      refine ⟨[], ⟨by simp [NB.nextBack], by simp [NB.nextBack], ?_⟩, ?_, ?_⟩
      · exact Or.inr ⟨by simp [NB.nextBack], Or.inl rfl⟩
      · simp [NB.nextBack, alt_nil]
      · simp [NB.nextBack, alt_nil]
    · simp only [List.concat_eq_append] at h3 ⊢
      have hs : alt f (es ++ [e]) kids = alt f es kids ++ [.ret e] := by
        apply alt_snoc_elem _ f es kids e (Nat.le_refl _)
        rcases h3 with h3 | ⟨h3, -⟩
        · left
          simp [bit] at h3 ⊢
          omega
        · exact Or.inr h3
      refine ⟨es, ⟨by simp [NB.nextBack], by simp [NB.nextBack], ?_⟩, ?_, ?_⟩
      · simp only [NB.nextBack, if_true, List.map_append, List.map_cons, List.map_nil,
          List.getLast?_concat]
        cases kids with
        | nil =>
          right
          refine ⟨rfl, ?_⟩
          rcases h3 with h3 | ⟨-, h3 | h3⟩
          · simp [bit] at h3
            cases f with
            | true => simp at h3; exact Or.inl h3
            | false => simp at h3
          · simp at h3
          · exact Or.inr ⟨h3.1, by simp⟩
        | cons c kids =>
          left
          rcases h3 with h3 | ⟨h3, -⟩
          · simp [bit] at h3 ⊢
            omega
          · cases h3
      · rw [hs]; simp [NB.nextBack]
      · rw [hs]; simp [NB.nextBack]
  | false =>
    rcases List.eq_nil_or_concat kids with rfl | ⟨kids, c, rfl⟩
    · have he : es = [] := by
        rcases h3 with h3 | ⟨-, h3 | h3⟩
        · simp [bit] at h3
          cases f with
          | true => simp at h3; exact h3
          | false => simp at h3
        · exact h3
        · simp at h3
      subst he
      refine ⟨[], ⟨by simp [NB.nextBack], by simp [NB.nextBack],
        Or.inr ⟨by simp [NB.nextBack], Or.inl rfl⟩⟩, ?_, ?_⟩
      · simp [NB.nextBack, alt_nil]
      · simp [NB.nextBack, alt_nil]
    · simp only [List.concat_eq_append] at h3 ⊢
      have hl : kids.length + bit f = es.length := by
        rcases h3 with h3 | ⟨h3, -⟩
        · simp [bit] at h3 ⊢
          omega
        · simp at h3
      have hs := alt_snoc_kid _ f es kids c (Nat.le_refl _) hl
      refine ⟨es, ⟨by simp [NB.nextBack], by simp [NB.nextBack], ?_⟩, ?_, ?_⟩
      · left
        simp [NB.nextBack, bit] at hl ⊢
        omega
      · rw [hs]; simp [NB.nextBack]
      · rw [hs]; simp [NB.nextBack]

theorem NB.run_spec : ∀ (ds : List Bool) {w : NB K V C} {es : List (K × V)}, w.Ok es →
    w.run ds = (Spec.dequeRun ds (alt w.isNext es w.kids)).map (·.1) := by
  intro ds
  induction ds with
  | nil => intro w es _; rfl
  | cons d ds ih =>
    intro w es h
    cases d with
    | true =>
      obtain ⟨es', h1, h2, h3⟩ := NB.next_spec h
      simp only [NB.run, if_true, Spec.dequeRun, Spec.dequeStep, List.map_cons]
      rw [h2, ih h1, h3]
    | false =>
      obtain ⟨es', h1, h2, h3⟩ := NB.nextBack_spec h
      simp only [NB.run, Spec.dequeRun, Spec.dequeStep, List.map_cons]
      simp only [Bool.false_eq_true, if_false]
      rw [h2, ih h1, h3]

theorem NB.new_ok (n : Node K V) (h : n.kids = [] ∨ n.kids.length = n.elems.length + 1) :
    (NB.new n).Ok n.elems := by
  refine ⟨rfl, rfl, ?_⟩
  obtain ⟨es, ks⟩ := n
  rcases h with h | h
  · have : ks = [] := h
    subst this
    right; simp [NB.new]
  · have : ks ≠ [] := by rintro rfl; simp [Node.kids] at h
    left; simpa [NB.new, bit, this] using h

/-! ### `NodeIntoIter` -/

/-- core.rs:1151-1189 `NodeIntoIter::next_back`.  `next_elem_x -= 1` (1173) panics at 0 in a
debug build; in a release build it wraps, and the slot read then is the same.  Slots from `len`
on are not initialised, or beyond the array. -/
def II.nextBack (w : II K V) : Option (II K V × Option (Act (Bool × (K × V)) (Bool × ANode K V))) :=
  if w.kx < w.ek ∧ w.ee < w.ek then
    match takeSlot w.own w.ks (w.ek - 1) with
    | none => none
    | some (c, ks) => some ({w with ks := ks, ek := w.ek - 1}, some (.desc (w.own && c.own, c)))
  else if w.ex < w.ee then
    if w.ex = 0 then none
    else
      match takeSlot w.own w.es w.ee with
      | none => none
      | some (e, es) => some ({w with es := es, ex := w.ex - 1}, some (.ret (w.own, e)))
  else some (w, none)

/-- States of a `NodeIntoIter` that calls lead to from a new one. -/
inductive II.Reach : II K V → Prop
  | new {c w} : iiOps.make c = some w → II.Reach w
  | next {w w' r} : II.Reach w → iiOps.next w = some (w', r) → II.Reach w'
  | back {w w' r} : II.Reach w → w.nextBack = some (w', r) → II.Reach w'

theorem takeSlot_length {α : Type} {own : Bool} {s s' : List (Option α)} {i : Nat} {a : α}
    (h : takeSlot own s i = some (a, s')) : s'.length = s.length ∧ i < s.length := by
  unfold takeSlot at h
  split at h
  · rename_i b hb
    have := (List.getElem?_eq_some_iff.1 hb).1
    cases h
    cases own <;> simp [this]
  · cases h

theorem II.Reach.ee {w : II K V} (h : w.Reach) : w.ee = w.es.length := by
  induction h with
  | new h => simp only [iiOps] at h; cases h; simp
  | next _ h ih =>
    simp only [iiOps] at h
    split at h
    · split at h
      · cases h
      · cases h; exact ih
    · split at h
      · split at h
        · cases h
        · rename_i e es he
          cases h
          exact ih.trans (takeSlot_length he).1.symm
      · cases h; exact ih
  | back _ h ih =>
    unfold II.nextBack at h
    split at h
    · split at h
      · cases h
      · cases h; exact ih
    · split at h
      · split at h
        · cases h
        · split at h
          · cases h
          · rename_i e es he
            cases h
            exact ih.trans (takeSlot_length he).1.symm
      · cases h; exact ih

/-- A schedule of calls of `next` (`true`) and `next_back`: the results. -/
def II.run : List Bool → II K V →
    Option (List (Option (Act (Bool × (K × V)) (Bool × ANode K V))))
  | [], _ => some []
  | d :: ds, w =>
    match (if d then iiOps.next w else w.nextBack) with
    | none => none
    | some (w', r) => (II.run ds w').map (r :: ·)

/-- A state of a `NodeIntoIter` after calls of `next`, `es` and `ks` being left. -/
structure II.Fwd (w : II K V) (es : List (K × V)) (ks : List (ANode K V)) : Prop where
  hes : SlotsOk w.own w.es w.ex es
  hks : SlotsOk w.own w.ks w.kx ks
  hee : w.ee = w.ex + es.length
  hek : w.ek = w.kx + ks.length
  shape : ks = [] ∨ (w.kx = w.ex ∧ ks.length = es.length + 1) ∨
    (w.kx = w.ex + 1 ∧ ks.length = es.length)

/-- The results still to come. -/
def II.acts (w : II K V) (es : List (K × V)) (ks : List (ANode K V)) :
    List (Act (Bool × (K × V)) (Bool × ANode K V)) :=
  alt (decide (w.ex < w.kx)) (es.map (fun e => (w.own, e)))
    (ks.map (fun c => (w.own && c.own, c)))

theorem II.Fwd.next {w : II K V} {es ks} (h : w.Fwd es ks) :
    ∃ w' es' ks', iiOps.next w = some (w', (w.acts es ks).head?) ∧ w'.Fwd es' ks' ∧
      w'.acts es' ks' = (w.acts es ks).tail := by
  have hek := h.hek
  have hee := h.hee
  simp only [iiOps]
  cases ks with
  | nil =>
    rw [if_neg (by simp at hek; omega)]
    cases es with
    | nil =>
      rw [if_neg (by simp at hee; omega)]
      exact ⟨w, [], [], by simp [II.acts, alt_nil], h, by simp [II.acts, alt_nil]⟩
    | cons e es =>
      rw [if_pos (by simp at hee; omega)]
      obtain ⟨s', e', hs', -⟩ := h.hes.take
      rw [e']
      refine ⟨{w with es := s', ex := w.ex + 1}, es, [], by simp [II.acts, alt_nil], ⟨hs', h.hks, ?_, hek, Or.inl rfl⟩,
        by simp [II.acts, alt_nil]⟩
      simp only [List.length_cons] at hee ⊢
      omega
  | cons c ks =>
    have hsh := h.shape
    simp only [List.length_cons, reduceCtorEq, false_or] at hsh hek
    by_cases hc : w.kx ≤ w.ex
    · rw [if_pos ⟨by omega, hc⟩]
      obtain ⟨s', e', hs', -⟩ := h.hks.take
      rw [e']
      have hd : ¬ w.ex < w.kx := by omega
      refine ⟨{w with ks := s', kx := w.kx + 1}, es, ks, ?_, ⟨h.hes, hs', hee, by simp only; omega,
        Or.inr (Or.inr ⟨by simp only; omega, by omega⟩)⟩, ?_⟩
      · simp [II.acts, hd, alt]
      · have : w.ex < w.kx + 1 := by omega
        simp [II.acts, hd, alt, this]
    · rw [if_neg (by omega)]
      cases es with
      | nil => simp at hsh; omega
      | cons e es =>
        rw [if_pos (by simp at hee; omega)]
        obtain ⟨s', e', hs', -⟩ := h.hes.take
        rw [e']
        have hd : w.ex < w.kx := by omega
        simp only [List.length_cons] at hee hsh
        refine ⟨{w with es := s', ex := w.ex + 1}, es, c :: ks, ?_, ⟨hs', h.hks, by simp only; omega, by simpa using hek,
          Or.inr (Or.inl ⟨by simp only; omega, by simp only [List.length_cons]; omega⟩)⟩, ?_⟩
        · simp [II.acts, hd, alt]
        · have : ¬ w.ex + 1 < w.kx := by omega
          simp [II.acts, hd, alt, this]

theorem II.Fwd.run : ∀ (j : Nat) {w : II K V} {es ks}, w.Fwd es ks →
    w.run (List.replicate j true) =
      some ((Spec.dequeRun (List.replicate j true) (w.acts es ks)).map (·.1)) := by
  intro j
  induction j with
  | zero => intro w es ks _; rfl
  | succ j ih =>
    intro w es ks h
    obtain ⟨w', es', ks', h1, h2, h3⟩ := h.next
    rw [List.replicate_succ, II.run]
    simp only [if_true, h1, ih h2, h3, Option.map_some, Spec.dequeRun, Spec.dequeStep,
      List.map_cons]

theorem II.fwd_new (own : Bool) (n : ANode K V)
    (h : n.kids = [] ∨ n.kids.length = n.elems.length + 1) :
    ∃ w, iiOps.make (own, n) = some w ∧ w.Fwd n.elems n.kids ∧ w.own = own ∧ w.ex = 0 ∧
      w.kx = 0 :=
  ⟨_, rfl, ⟨slotsOk_new _ _, slotsOk_new _ _, by simp, by simp, by
    rcases h with h | h
    · exact Or.inl h
    · exact Or.inr (Or.inl ⟨rfl, h⟩)⟩, rfl, rfl, rfl⟩

/-- The state of a `NodeIntoIter` of an inner node, no call of `next_back` having been made. -/
def II.Inner (w : II K V) : Prop := w.ek = w.ee + 1 ∧ (w.kx = w.ex ∨ w.kx = w.ex + 1)

theorem II.Inner.next {w w' : II K V} {r} (h : w.Inner) (e : iiOps.next w = some (w', r)) :
    w'.Inner := by
  obtain ⟨h1, h2⟩ := h
  simp only [iiOps] at e
  split at e
  · split at e <;> cases e
    exact ⟨h1, by simp only; omega⟩
  · split at e
    · split at e <;> cases e
      exact ⟨h1, by simp only; omega⟩
    · cases e; exact ⟨h1, h2⟩

/-- The first call of `next_back` yields what is last. -/
theorem II.Fwd.back {w : II K V} {es ks} (h : w.Fwd es ks) (hi : w.Inner) :
    ∃ w', w.nextBack = some (w', (w.acts es ks).getLast?) := by
  obtain ⟨h1, h2⟩ := hi
  have hek := h.hek
  have hee := h.hee
  rcases List.eq_nil_or_concat ks with rfl | ⟨ks', c, rfl⟩
  · have : es = [] := List.length_eq_zero_iff.1 (by simp at hek; omega)
    subst this
    simp only [List.length_nil, Nat.add_zero] at hek hee
    refine ⟨w, ?_⟩
    rw [II.nextBack, if_neg (by omega), if_neg (by omega)]
    simp [II.acts, alt_nil]
  · obtain ⟨pre, h3, h4, -⟩ := h.hks
    simp only [List.concat_eq_append, List.length_append, List.length_cons, List.length_nil] at hek
    have hs : w.ks[w.ek - 1]? = some (some c) := by
      rw [h3, List.concat_eq_append, List.map_append, ← List.append_assoc,
        List.getElem?_append_right (by simp; omega)]
      have : w.ek - 1 - (pre ++ ks'.map some).length = 0 := by simp; omega
      rw [this]; rfl
    rw [II.nextBack, if_pos ⟨by omega, by omega⟩, takeSlot, hs]
    refine ⟨_, congrArg some (Prod.ext rfl ?_)⟩
    simp only [II.acts, List.concat_eq_append, List.map_append, List.map_cons, List.map_nil]
    rw [alt_snoc_kid _ _ _ _ _ (Nat.le_refl _) (by
      simp only [List.length_map]
      rcases h2 with h2 | h2
      · have : ¬ w.ex < w.kx := by omega
        simp only [this, decide_false, bit, Bool.false_eq_true, if_false]; omega
      · have : w.ex < w.kx := by omega
        simp only [this, decide_true, bit, if_true]; omega)]
    simp

theorem II.Fwd.run_back : ∀ (j : Nat) {w : II K V} {es ks}, w.Fwd es ks → w.Inner →
    w.run (List.replicate j true ++ [false]) =
      some ((Spec.dequeRun (List.replicate j true ++ [false]) (w.acts es ks)).map (·.1)) := by
  intro j
  induction j with
  | zero =>
    intro w es ks h hi
    obtain ⟨w', e⟩ := h.back hi
    simp [II.run, e, Spec.dequeRun, Spec.dequeStep]
  | succ j ih =>
    intro w es ks h hi
    obtain ⟨w', es', ks', h1, h2, h3⟩ := h.next
    rw [List.replicate_succ, List.cons_append, II.run]
    simp only [if_true, h1, ih h2 (hi.next h1), h3, Option.map_some, Spec.dequeRun, Spec.dequeStep,
      List.map_cons]

/-- No entry is ever yielded by `next_back`. -/
theorem II.Reach.nextBack_ret {w : II K V} (h : w.Reach) : ∀ w' e,
    w.nextBack ≠ some (w', some (.ret e)) := by
  intro w' e hb
  unfold II.nextBack at hb
  split at hb
  · split at hb
    · cases hb
    · cases hb
  · split at hb
    · split at hb
      · cases hb
      · split at hb
        · cases hb
        · rename_i e es he
          have := (takeSlot_length he).2
          rw [h.ee] at this
          exact absurd this (Nat.lt_irrefl _)
    · cases hb

end Verif.Fixed
