import Verif.Heap.History
import Verif.Spec.Basic
/-!
# Objects in use: iterators that live across commands

A program may keep an iterator and do other things between its calls.  While the iterator lives,
its object is borrowed: it can be used by `&self` if the iterator is a shared one, and not at all
if it is a mutable one; an owning iterator has used its object up.  `Live` gives what can be done
to an object in use; `Impl.live` is the machine whose objects are either idle or in use.

A command that the borrow checker would refuse is skipped, as is one naming no object.
-/
namespace Verif.Heap

/-- Every result the program can have. -/
def Prog.Gives {P α : Type} (φ : α → Prop) : Prog P α → Prop
  | .pure x => φ x
  | .panic => True
  | .op _ k => ∀ r, (k r).Gives φ

theorem Prog.Gives.bind {P α β : Type} {φ : β → Prop} {f : α → Prog P β} (h : ∀ x, (f x).Gives φ) :
    ∀ p : Prog P α, (p.bind f).Gives φ
  | .pure x => h x
  | .panic => trivial
  | .op _ k => fun r => Prog.Gives.bind h (k r)

theorem wp_gives {P α : Type} {φ : α → Prop} {Q : α → Multiset (Handle P) → Prop} :
    ∀ {p : Prog P α} {L}, wp p L Q → p.Gives φ → wp p L (fun x L' => φ x ∧ Q x L')
  | .pure x, L, h, hp => fun m F ho => by
    obtain ⟨L', h1, h2⟩ := h m F ho
    exact ⟨L', h1, hp, h2⟩
  | .panic, L, h, _ => h
  | .op o k, L, h, hp => fun m F ho => by
    obtain ⟨m', r, L', h1, h2, h3⟩ := h m F ho
    exact ⟨m', r, L', h1, h2, wp_gives h3 (hp r)⟩

end Verif.Heap

namespace Verif.Heap.Machine
open Verif.Heap

variable {P H J M N O C0 C1 C2 CR A B : Type}

/-- What can be done to an object in use: begin, work with it, end.  `view` is the object inside,
where `&self` operations are allowed. -/
structure Live (F : Type → Type) (H J O A B : Type) where
  start : H → A → F J
  use : J → B → F (J × List H × Option O)
  stop : J → F (Option H)
  view : J → Option H

/-- An object. -/
inductive Obj (H J : Type) where
  | idle (h : H)
  | busy (j : J)

/-- Commands on one object. -/
inductive LiveCmd (C1 A B : Type) where
  | base (c : C1)
  | start (a : A)
  | use (b : B)
  | stop

/-- What `&self` operations may be applied to. -/
def Live.seen {F : Type → Type} (E : Live F H J O A B) : Obj H J → Option H
  | .idle h => some h
  | .busy j => E.view j

/-- The machine with objects in use.  Skipped commands, and those with nothing to see, show
`none`. -/
def Impl.live {F : Type → Type} [Monad F] (I : Impl F H O C0 C1 C2 CR) (E : Live F H J O A B) :
    Impl F (Obj H J) (Option O) C0 (LiveCmd C1 A B) C2 CR where
  make c := bind (I.make c) fun x => pure (x.1.map .idle, some x.2)
  one
    | .idle h, .base c => bind (I.one h c) fun x => pure (x.1.map .idle, x.2.1.map .idle, some x.2.2)
    | .idle h, .start a => bind (E.start h a) fun j => pure (some (.busy j), [], none)
    | .busy j, .use b => bind (E.use j b) fun x => pure (some (.busy x.1), x.2.1.map .idle, x.2.2)
    | .busy j, .stop => bind (E.stop j) fun x => pure (x.map .idle, [], none)
    | o, _ => pure (some o, [], none)
  two
    | .idle h, .idle k, c => bind (I.two h k c) fun x =>
        pure (x.1.map .idle, x.2.1.map .idle, x.2.2.1.map .idle, some x.2.2.2)
    | o, p, _ => pure (some o, some p, [], none)
  look o p c :=
    match E.seen o, E.seen p with
    | some h, some k => bind (I.look h k c) fun x => pure (some x)
    | _, _ => pure none

/-- What has to be shown of the operations on values. -/
structure LiveTotal (E : Live Option M N O A B) (Inv : M → Prop) (InvJ : N → Prop) : Prop where
  start : ∀ {m} a, Inv m → ∃ y, E.start m a = some y ∧ InvJ y
  use : ∀ {n} b, InvJ n → ∃ y, E.use n b = some y ∧ InvJ y.1 ∧ ∀ m ∈ y.2.1, Inv m
  stop : ∀ {n}, InvJ n → ∃ y, E.stop n = some y ∧ ∀ m ∈ y, Inv m
  view : ∀ {n m}, InvJ n → E.view n = some m → Inv m

/-- What has to be shown of the operations on memory. -/
structure LiveSound (E : Live (Prog P) H J O A B) (W : Live Option M N O A B) (Inv : M → Prop)
    (InvJ : N → Prop) (R : H → M → Multiset (Handle P) → Prop)
    (RJ : J → N → Multiset (Handle P) → Prop) : Prop where
  start : ∀ {h m L a y}, Inv m → R h m L → W.start m a = some y →
    wp (E.start h a) L (fun x L' => RJ x y L')
  use : ∀ {j n L b y}, InvJ n → RJ j n L → W.use n b = some y →
    wp (E.use j b) L (fun x L' => x.2.2 = y.2.2 ∧ ∃ L1 L2, L' = L1 + L2 ∧
      RJ x.1 y.1 L1 ∧ HoldsL R x.2.1 y.2.1 L2)
  stop : ∀ {j n L y}, InvJ n → RJ j n L → W.stop n = some y →
    wp (E.stop j) L (fun x L' => HoldsO R x y L')
  view : ∀ {j n L}, RJ j n L → (E.view j = none ∧ W.view n = none) ∨
    ∃ h m, E.view j = some h ∧ W.view n = some m ∧ R h m L

/-- An object and its value. -/
def RO (R : H → M → Multiset (Handle P) → Prop) (RJ : J → N → Multiset (Handle P) → Prop) :
    Obj H J → Obj M N → Multiset (Handle P) → Prop
  | .idle h, .idle m, L => R h m L
  | .busy j, .busy n, L => RJ j n L
  | _, _, _ => False

/-- The invariant of a value. -/
def InvO (Inv : M → Prop) (InvJ : N → Prop) : Obj M N → Prop
  | .idle m => Inv m
  | .busy n => InvJ n

section
variable {I : Impl (Prog P) H O C0 C1 C2 CR} {V : Impl Option M O C0 C1 C2 CR}
variable {E : Live (Prog P) H J O A B} {W : Live Option M N O A B}
variable {Inv : M → Prop} {InvJ : N → Prop}
variable {R : H → M → Multiset (Handle P) → Prop} {RJ : J → N → Multiset (Handle P) → Prop}

theorem LiveTotal.seen (TE : LiveTotal W Inv InvJ) {o : Obj M N} {m : M}
    (h : InvO Inv InvJ o) (e : W.seen o = some m) : Inv m := by
  cases o with
  | idle m' => cases e; exact h
  | busy n => exact TE.view h e

theorem idle_inv {ms : List M} (h : ∀ m ∈ ms, Inv m) :
    ∀ o ∈ ms.map (Obj.idle (J := N)), InvO Inv InvJ o := by
  intro o ho
  obtain ⟨m, hm, rfl⟩ := List.mem_map.1 ho
  exact h m hm

theorem idle_invO {ms : Option M} (h : ∀ m ∈ ms, Inv m) :
    ∀ o ∈ ms.map (Obj.idle (J := N)), InvO Inv InvJ o := by
  intro o ho
  obtain ⟨m, hm, rfl⟩ := Option.map_eq_some_iff.1 ho
  exact h m hm

theorem live_total (T : Total V Inv) (TE : LiveTotal W Inv InvJ) :
    Total (V.live W) (InvO Inv InvJ) where
  make c := by
    obtain ⟨y, e, h1⟩ := T.make c
    exact ⟨(y.1.map .idle, some y.2), by simp [Impl.live, e], idle_inv h1⟩
  one {o} c hI := by
    have skip : ∃ y : Option (Obj M N) × List (Obj M N) × Option O,
        (some (some o, [], none) : Option _) = some y ∧
        (∀ m' ∈ y.1, InvO Inv InvJ m') ∧ ∀ m' ∈ y.2.1, InvO Inv InvJ m' :=
      ⟨_, rfl, by rintro m ⟨⟩; exact hI, by simp⟩
    cases o with
    | idle m =>
      cases c with
      | base c =>
        obtain ⟨y, e, h1, h2⟩ := T.one c hI
        exact ⟨(y.1.map .idle, y.2.1.map .idle, some y.2.2), by simp [Impl.live, e],
          idle_invO h1, idle_inv h2⟩
      | start a =>
        obtain ⟨y, e, h1⟩ := TE.start a hI
        exact ⟨(some (.busy y), [], none), by simp [Impl.live, e],
          by rintro m ⟨⟩; exact h1, by simp⟩
      | use | stop => exact skip
    | busy n =>
      cases c with
      | use b =>
        obtain ⟨y, e, h1, h2⟩ := TE.use b hI
        exact ⟨(some (.busy y.1), y.2.1.map .idle, y.2.2), by simp [Impl.live, e],
          by rintro m ⟨⟩; exact h1, idle_inv h2⟩
      | stop =>
        obtain ⟨y, e, h1⟩ := TE.stop hI
        exact ⟨(y.map .idle, [], none), by simp [Impl.live, e], idle_invO h1, by simp⟩
      | base | start => exact skip
  two {o p} c h1 h2 := by
    have skip : ∃ y : Option (Obj M N) × Option (Obj M N) × List (Obj M N) × Option O,
        (some (some o, some p, [], none) : Option _) = some y ∧
        (∀ m' ∈ y.1, InvO Inv InvJ m') ∧ (∀ m' ∈ y.2.1, InvO Inv InvJ m') ∧
        ∀ m' ∈ y.2.2.1, InvO Inv InvJ m' :=
      ⟨_, rfl, by rintro m ⟨⟩; exact h1, by rintro m ⟨⟩; exact h2, by simp⟩
    cases o with
    | idle m =>
      cases p with
      | idle n =>
        obtain ⟨y, e, g1, g2, g3⟩ := T.two c h1 h2
        exact ⟨(y.1.map .idle, y.2.1.map .idle, y.2.2.1.map .idle, some y.2.2.2),
          by simp [Impl.live, e], idle_invO g1, idle_invO g2, idle_inv g3⟩
      | busy n => exact skip
    | busy m => exact skip
  look {o p} c h1 h2 := by
    cases e1 : W.seen o with
    | none => exact ⟨none, by simp [Impl.live, e1]⟩
    | some m =>
      cases e2 : W.seen p with
      | none => exact ⟨none, by simp [Impl.live, e1, e2]⟩
      | some n =>
        obtain ⟨y, e⟩ := T.look c (TE.seen h1 e1) (TE.seen h2 e2)
        exact ⟨some y, by simp [Impl.live, e1, e2, e]⟩

theorem idle_holdsO {x : Option H} {y : Option M} {L} (h : HoldsO R x y L) :
    HoldsO (RO R RJ) (x.map .idle) (y.map .idle) L := by
  cases h with
  | none => exact .none
  | some h => exact .some h

theorem idle_holdsL {x : List H} : ∀ {y : List M} {L}, HoldsL R x y L →
    HoldsL (RO R RJ) (x.map .idle) (y.map .idle) L := by
  induction x with
  | nil =>
    intro y L h
    cases y with
    | nil => cases h; exact .nil
    | cons => cases h
  | cons a x ih =>
    intro y L h
    cases y with
    | nil => cases h
    | cons b y =>
      cases h with
      | cons h1 h2 => exact .cons (idle_holdsO h1) (ih h2)

theorem LiveSound.seen (SE : LiveSound E W Inv InvJ R RJ) {o : Obj H J} {p : Obj M N} {L}
    (h : RO R RJ o p L) : (E.seen o = none ∧ W.seen p = none) ∨
      ∃ h m, E.seen o = some h ∧ W.seen p = some m ∧ R h m L := by
  cases o <;> cases p <;> try exact h.elim
  · exact Or.inr ⟨_, _, rfl, rfl, h⟩
  · exact SE.view h

theorem live_sound (S : Sound I V Inv R) (TE : LiveTotal W Inv InvJ)
    (SE : LiveSound E W Inv InvJ R RJ) :
    Sound (I.live E) (V.live W) (InvO Inv InvJ) (RO R RJ) where
  make {c y} e := by
    simp only [Impl.live, Option.bind_eq_bind, Option.bind_eq_some_iff, Option.pure_def,
      Option.some.injEq] at e
    obtain ⟨y, e, rfl⟩ := e
    refine wp_call 0 (S.make e) (add_zero _).symm ?_
    rintro x L ⟨h1, h2⟩
    rw [add_zero]
    exact wp_pure ⟨by rw [h1], idle_holdsL h2⟩
  one {o p L c y} hI hR e := by
    have skip : ∀ {o p L y}, RO R RJ o p L →
        (some (some p, [], none) : Option (Option (Obj M N) × List (Obj M N) × Option O)) = some y →
        wp (pure (some o, [], none) : Prog P (Option (Obj H J) × List (Obj H J) × Option O)) L
          (fun x L' => x.2.2 = y.2.2 ∧ ∃ L1 L2, L' = L1 + L2 ∧
            HoldsO (RO R RJ) x.1 y.1 L1 ∧ HoldsL (RO R RJ) x.2.1 y.2.1 L2) := by
      rintro o p L y h ⟨⟩
      exact wp_pure ⟨rfl, L, 0, (add_zero _).symm, .some h, .nil⟩
    cases o with
    | idle h =>
      cases p with
      | busy n => exact hR.elim
      | idle m =>
        cases c with
        | base c =>
          simp only [Impl.live, Option.bind_eq_bind, Option.bind_eq_some_iff, Option.pure_def,
            Option.some.injEq] at e
          obtain ⟨y, e, rfl⟩ := e
          refine wp_call 0 (S.one hI hR e) (add_zero _).symm ?_
          rintro x L' ⟨h1, L1, L2, rfl, h2, h3⟩
          rw [add_zero]
          exact wp_pure ⟨by rw [h1], L1, L2, rfl, idle_holdsO h2, idle_holdsL h3⟩
        | start a =>
          simp only [Impl.live, Option.bind_eq_bind, Option.bind_eq_some_iff, Option.pure_def,
            Option.some.injEq] at e
          obtain ⟨y, e, rfl⟩ := e
          refine wp_call 0 (SE.start hI hR e) (add_zero _).symm ?_
          rintro x L' h1
          rw [add_zero]
          exact wp_pure ⟨rfl, L', 0, (add_zero _).symm, .some h1, .nil⟩
        | use | stop => exact skip (o := .idle h) hR e
    | busy j =>
      cases p with
      | idle n => exact hR.elim
      | busy n =>
        cases c with
        | use b =>
          simp only [Impl.live, Option.bind_eq_bind, Option.bind_eq_some_iff, Option.pure_def,
            Option.some.injEq] at e
          obtain ⟨y, e, rfl⟩ := e
          refine wp_call 0 (SE.use hI hR e) (add_zero _).symm ?_
          rintro x L' ⟨h1, L1, L2, rfl, h2, h3⟩
          rw [add_zero]
          exact wp_pure ⟨h1, L1, L2, rfl, .some h2, idle_holdsL h3⟩
        | stop =>
          simp only [Impl.live, Option.bind_eq_bind, Option.bind_eq_some_iff, Option.pure_def,
            Option.some.injEq] at e
          obtain ⟨y, e, rfl⟩ := e
          refine wp_call 0 (SE.stop hI hR e) (add_zero _).symm ?_
          rintro x L' h1
          rw [add_zero]
          exact wp_pure ⟨rfl, L', 0, (add_zero _).symm, idle_holdsO h1, .nil⟩
        | base | start => exact skip (o := .busy j) hR e
  two {o p L o' p' L' c y} hI hI' hR hR' e := by
    have skip : ∀ {o p L o' p' L' y}, RO R RJ o p L → RO R RJ o' p' L' →
        (some (some p, some p', [], none) : Option (Option (Obj M N) × Option (Obj M N) ×
          List (Obj M N) × Option O)) = some y →
        wp (pure (some o, some o', [], none) : Prog P (Option (Obj H J) × Option (Obj H J) ×
          List (Obj H J) × Option O)) (L + L')
          (fun x M => x.2.2.2 = y.2.2.2 ∧ ∃ L1 L2 L3, M = L1 + L2 + L3 ∧
            HoldsO (RO R RJ) x.1 y.1 L1 ∧ HoldsO (RO R RJ) x.2.1 y.2.1 L2 ∧
            HoldsL (RO R RJ) x.2.2.1 y.2.2.1 L3) := by
      rintro o p L o' p' L' y h h' ⟨⟩
      exact wp_pure ⟨rfl, L, L', 0, (add_zero _).symm, .some h, .some h', .nil⟩
    cases o with
    | busy j =>
      cases p with
      | idle m => exact hR.elim
      | busy n => exact skip (o := .busy j) hR hR' e
    | idle h =>
      cases p with
      | busy n => exact hR.elim
      | idle m =>
        cases o' with
        | busy j =>
          cases p' with
          | idle m => exact hR'.elim
          | busy n => exact skip (o := .idle h) hR hR' e
        | idle h' =>
          cases p' with
          | busy n => exact hR'.elim
          | idle m' =>
            simp only [Impl.live, Option.bind_eq_bind, Option.bind_eq_some_iff, Option.pure_def,
              Option.some.injEq] at e
            obtain ⟨y, e, rfl⟩ := e
            refine wp_call 0 (S.two hI hI' hR hR' e) (add_zero _).symm ?_
            rintro x L' ⟨h1, L1, L2, L3, rfl, h2, h3, h4⟩
            rw [add_zero]
            exact wp_pure ⟨by rw [h1], L1, L2, L3, rfl, idle_holdsO h2, idle_holdsO h3,
              idle_holdsL h4⟩
  look {o p L o' p' L' c y Z G G'} hI hI' hR hR' eG eG' e := by
    simp only [Impl.live] at e ⊢
    rcases SE.seen hR with ⟨h1, h2⟩ | ⟨h, m, h1, h2, h3⟩
    · rw [h2] at e
      rw [h1]
      cases e
      exact wp_pure ⟨rfl, rfl⟩
    · rcases SE.seen hR' with ⟨g1, g2⟩ | ⟨k, n, g1, g2, g3⟩
      · rw [h2, g2] at e
        rw [h1, g1]
        cases e
        exact wp_pure ⟨rfl, rfl⟩
      · rw [h2, g2] at e
        rw [h1, g1]
        simp only [Option.bind_eq_bind, Option.bind_eq_some_iff, Option.pure_def,
          Option.some.injEq] at e
        obtain ⟨y, e, rfl⟩ := e
        refine wp_call 0 (S.look (TE.seen hI h2) (TE.seen hI' g2) h3 g3 eG eG' e)
          (add_zero _).symm ?_
        rintro x L' ⟨rfl, rfl⟩
        rw [add_zero]
        exact wp_pure ⟨rfl, rfl⟩

end
/-! ## Iterators on values -/

/-- The entries yet to come, and by how much the length reported exceeds their number. -/
structure Left (X : Type) where
  entries : List X
  slack : Nat

/-- `next` or `next_back`. -/
def Left.pop {X : Type} (front : Bool) (l : Left X) : Option X × Left X :=
  ((Spec.dequeStep front l.entries).1, ⟨(Spec.dequeStep front l.entries).2, l.slack⟩)

/-- The length reported. -/
def Left.len {X : Type} (l : Left X) : Nat := l.entries.length + l.slack

/-- A program in which an iterator is called now and then (`inl`), in between other commands. -/
abbrev Mixed (C0 C1 C2 CR : Type) := List (Bool ⊕ Cmd C0 C1 C2 CR)

/-- The program, the iterator being `next` of object `i`. -/
def Mixed.prog (next : Bool → C1) (i : Nat) (body : Mixed C0 C1 C2 CR) : List (Cmd C0 C1 C2 CR) :=
  body.map (Sum.elim (fun d => .one i (next d)) id)

/-- The calls of the iterator. -/
def Mixed.calls (body : Mixed C0 C1 C2 CR) : List Bool := body.filterMap Sum.getLeft?

/-- What the calls of the iterator show, out of everything shown. -/
def Mixed.yields (body : Mixed C0 C1 C2 CR) (obs : List O) : List O :=
  (body.zip obs).filterMap (fun x => if x.1.isLeft then some x.2 else none)

section
variable {V : Impl Option M O C0 C1 C2 CR} {X : Type}

/-- On values: whatever comes in between, the calls yield the entries the iterator started with. -/
theorem mixed_yields {next : Bool → C1} {shows : Option X × Nat → O} {Y : M → Left X → Prop}
    (hn : ∀ {m l} d, Y m l → ∃ m', V.one m (next d) =
      some (some m', [], shows ((l.pop d).1, (l.pop d).2.len)) ∧ Y m' (l.pop d).2) {i : Nat} :
    ∀ {body : Mixed C0 C1 C2 CR} {ms : List (Option M)} {m : M} {l : Left X} {z},
    (∀ c, .inr c ∈ body → i ∉ c.names) → ms[i]? = some (some m) → Y m l →
    run V (body.prog next i) ms = some z →
    body.yields z.2 = (Spec.dequeRun body.calls l.entries).map
      (fun x => some (shows (x.1, x.2 + l.slack)))
  | [], ms, m, l, z, _, _, _, e => by cases e; rfl
  | .inl d :: body, ms, m, l, z, hb, hi, hY, e => by
    obtain ⟨y, w, e1, e2, rfl⟩ := run_cons e
    obtain ⟨m', g1, g2⟩ := hn d hY
    simp only [Sum.elim_inl, step, hi, Option.join_some, g1, Option.bind_eq_bind,
      Option.bind_some, Option.pure_def, Option.some.injEq, List.map_nil, List.append_nil] at e1
    subst e1
    have hlt : i < ms.length := (List.getElem?_eq_some_iff.1 hi).1
    have := mixed_yields hn (i := i) (body := body) (m := m') (l := (l.pop d).2) (z := w)
      (fun c hc => hb c (List.mem_cons_of_mem _ hc)) (by simp [hlt]) g2 e2
    simp only [Mixed.yields, Mixed.calls] at this
    simp only [Mixed.yields, Mixed.calls, List.zip_cons_cons, List.filterMap_cons, Sum.isLeft_inl,
      if_true, Sum.getLeft?_inl, Spec.dequeRun, List.map_cons, this]
    rfl
  | .inr c :: body, ms, m, l, z, hb, hi, hY, e => by
    obtain ⟨y, w, e1, e2, rfl⟩ := run_cons e
    have hlt : i < ms.length := (List.getElem?_eq_some_iff.1 hi).1
    have hk := step_keeps (c := c) e1 (hb c (List.mem_cons_self ..)) hlt
    have := mixed_yields hn (i := i) (body := body) (m := m) (l := l) (z := w)
      (fun c hc => hb c (List.mem_cons_of_mem _ hc)) (hk.trans hi) hY e2
    simpa [Mixed.yields, Mixed.calls, List.filterMap_cons, Sum.getLeft?_inr] using this

/-- On memory: an iterator is made on object `i`, then called in between commands on other
objects. -/
theorem snapshot {I : Impl (Prog P) H O C0 C1 C2 CR} {Inv : M → Prop}
    {R : H → M → Multiset (Handle P) → Prop} (T : Total V Inv) (S : Sound I V Inv R)
    {h : Mem P} {rs} (hr : Reached I h rs) {i : Nat} {start see : C1} {next : Bool → C1}
    {shows : Option X × Nat → O} {Y : M → Left X → Prop} {seen o : O} {l : Left X}
    (hsee : Sees I h rs i see seen)
    (hst : ∀ {m y}, Inv m → V.one m see = some y → y.2.2 = seen →
      ∃ m', V.one m start = some (some m', [], o) ∧ Y m' l)
    (hn : ∀ {m l} d, Y m l → ∃ m', V.one m (next d) =
      some (some m', [], shows ((l.pop d).1, (l.pop d).2.len)) ∧ Y m' (l.pop d).2)
    (body : Mixed C0 C1 C2 CR) (hb : ∀ c, .inr c ∈ body → i ∉ c.names) :
    ∃ h' rs' obs, (run I (.one i start :: body.prog next i) rs).exec h =
        some (h', some (rs', some o :: obs)) ∧
      body.yields obs = (Spec.dequeRun body.calls l.entries).map
        (fun x => some (shows (x.1, x.2 + l.slack))) := by
  obtain ⟨ms, hs⟩ := hr.sim T S
  obtain ⟨m, y, g1, g2, g3⟩ := (sees_iff T S hs).1 hsee
  obtain ⟨m', g4, g5⟩ := hst (hs.1.get g1) g2 g3
  obtain ⟨z, e, h', rs', e2, -⟩ := Sim.run T S (.one i start :: body.prog next i) hs
  obtain ⟨y', w, e3, e4, rfl⟩ := run_cons e
  have hi : ms[i]? = some (some m) := Option.join_eq_some_iff.1 g1
  have hlt : i < ms.length := (List.getElem?_eq_some_iff.1 hi).1
  simp only [step, hi, Option.join_some, g4, Option.bind_eq_bind, Option.bind_some,
    Option.pure_def, Option.some.injEq, List.map_nil, List.append_nil] at e3
  subst e3
  exact ⟨h', rs', w.2, e2, mixed_yields hn hb (by simp [hlt]) g5 e4⟩

/-- On values: the object after the calls. -/
theorem mixed_end {next : Bool → C1} {Y : List Bool → M → Prop}
    (hn : ∀ {ds m} d, Y ds m → ∃ m' o, V.one m (next d) = some (some m', [], o) ∧ Y (ds ++ [d]) m')
    {i : Nat} : ∀ {body : Mixed C0 C1 C2 CR} {ms : List (Option M)} {m : M} {ds z cs},
    (∀ c, .inr c ∈ body → i ∉ c.names) → ms[i]? = some (some m) → Y ds m →
    run V (body.prog next i ++ cs) ms = some z →
    ∃ ms' m' w, ms'[i]? = some (some m') ∧ Y (ds ++ body.calls) m' ∧ run V cs ms' = some w ∧
      w.1 = z.1
  | [], ms, m, ds, z, cs, _, hi, hY, e => ⟨ms, m, z, hi, by simpa [Mixed.calls] using hY, e, rfl⟩
  | .inl d :: body, ms, m, ds, z, cs, hb, hi, hY, e => by
    obtain ⟨y, w, e1, e2, rfl⟩ := run_cons e
    obtain ⟨m', o, g1, g2⟩ := hn d hY
    simp only [Sum.elim_inl, step, hi, Option.join_some, g1, Option.bind_eq_bind,
      Option.bind_some, Option.pure_def, Option.some.injEq, List.map_nil, List.append_nil] at e1
    subst e1
    have hlt : i < ms.length := (List.getElem?_eq_some_iff.1 hi).1
    have := mixed_end hn (i := i) (body := body) (m := m') (ds := ds ++ [d]) (z := w) (cs := cs)
      (fun c hc => hb c (List.mem_cons_of_mem _ hc)) (by simp [hlt]) g2 e2
    simpa [Mixed.calls] using this
  | .inr c :: body, ms, m, ds, z, cs, hb, hi, hY, e => by
    obtain ⟨y, w, e1, e2, rfl⟩ := run_cons e
    have hlt : i < ms.length := (List.getElem?_eq_some_iff.1 hi).1
    have hk := step_keeps (c := c) e1 (hb c (List.mem_cons_self ..)) hlt
    have := mixed_end hn (i := i) (body := body) (m := m) (ds := ds) (z := w) (cs := cs)
      (fun c hc => hb c (List.mem_cons_of_mem _ hc)) (hk.trans hi) hY e2
    simpa [Mixed.calls, List.filterMap_cons, Sum.getLeft?_inr] using this

/-- On memory: an iterator is made on object `i`, called in between commands on other objects, and
dropped; then the object is looked at. -/
theorem dropped {I : Impl (Prog P) H O C0 C1 C2 CR} {Inv : M → Prop}
    {R : H → M → Multiset (Handle P) → Prop} (T : Total V Inv) (S : Sound I V Inv R)
    {h : Mem P} {rs} (hr : Reached I h rs) {i : Nat} {start stop see : C1} {next : Bool → C1}
    {Y : List Bool → M → Prop} {seen : O} {later : O} (body : Mixed C0 C1 C2 CR)
    (hsee : Sees I h rs i see seen)
    (hst : ∀ {m y}, Inv m → V.one m see = some y → y.2.2 = seen →
      (∃ m' o, V.one m start = some (some m', [], o) ∧ Y [] m'))
    (hn : ∀ {ds m} d, Y ds m → ∃ m' o, V.one m (next d) = some (some m', [], o) ∧ Y (ds ++ [d]) m')
    (hend : ∀ {m}, Y body.calls m → ∃ m' o, V.one m stop = some (some m', [], o) ∧
      ∃ y, V.one m' see = some y ∧ y.2.2 = later)
    (hb : ∀ c, .inr c ∈ body → i ∉ c.names) :
    ∃ h' rs' obs, (run I (.one i start :: (body.prog next i ++ [.one i stop])) rs).exec h =
        some (h', some (rs', obs)) ∧ Sees I h' rs' i see later := by
  obtain ⟨ms, hs⟩ := hr.sim T S
  obtain ⟨m, y, g1, g2, g3⟩ := (sees_iff T S hs).1 hsee
  obtain ⟨m', o, g4, g5⟩ := hst (hs.1.get g1) g2 g3
  obtain ⟨z, e, h', rs', e2, hs'⟩ :=
    Sim.run T S (.one i start :: (body.prog next i ++ [.one i stop])) hs
  refine ⟨h', rs', z.2, e2, (sees_iff T S hs').2 ?_⟩
  obtain ⟨y', w, e3, e4, rfl⟩ := run_cons e
  have hi : ms[i]? = some (some m) := Option.join_eq_some_iff.1 g1
  have hlt : i < ms.length := (List.getElem?_eq_some_iff.1 hi).1
  simp only [step, hi, Option.join_some, g4, Option.bind_eq_bind, Option.bind_some,
    Option.pure_def, Option.some.injEq, List.map_nil, List.append_nil] at e3
  subst e3
  obtain ⟨ms2, m2, w2, f1, f2, f3, f4⟩ := mixed_end hn hb (by simp [hlt]) g5 e4
  obtain ⟨m3, o3, f5, y3, f6, f7⟩ := hend (by simpa using f2)
  obtain ⟨y4, w4, e5, e6, rfl⟩ := run_cons f3
  have hlt2 : i < ms2.length := (List.getElem?_eq_some_iff.1 f1).1
  simp only [step, f1, Option.join_some, f5, Option.bind_eq_bind, Option.bind_some,
    Option.pure_def, Option.some.injEq, List.map_nil, List.append_nil] at e5
  subst e5
  cases e6
  rw [← f4]
  exact ⟨m3, y3, by simp [hlt2], f6, f7⟩

end
end Verif.Heap.Machine
