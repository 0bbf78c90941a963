import Verif.Unwind.Core
import Verif.Drop.Raw
/-!
# `Stack` when `Clone` or `Drop` of an element panics (src/stack.rs)

A node is an element and a mark: the `Rc` that leads to it is not the only one.  `Rc::make_mut`
copies a node that is marked, which calls `Clone` of its element and takes a further reference to
the rest, so that the node below becomes marked; `Rc::try_unwrap` of a marked node fails and the
element is cloned.

An operation ends as in `Verif.Wild.Core`: the outer `none` is a panic of the crate's own that is
not documented; `unwound s` means that `Clone` panicked, leaving `s` behind the `&mut`; `done r`
that it returned.  The documented panics of `remove` and `split_off` are the result `none`.

Simplifications: a clone of an element is the element; marks are never cleared when another stack
goes away (a stack may find itself marked without need, so that `Clone` is called more often than
it is).
-/
set_option linter.unusedVariables false
namespace Verif.Unwind.Stk
open Verif.Wild Std
universe w
variable {σ : Type w} {T : Type}

/-- `Clone::clone` or `Drop::drop` of an element: `true` is a panic. -/
abbrev Cl1 (σ : Type w) (T : Type) := T → σ → Bool × σ

/-- stack.rs:8-14: the nodes from the top, each with the mark "shared". -/
abbrev Cells (T : Type) := List (T × Bool)

/-- stack.rs:43-47 `Stack`. -/
structure Stk (T : Type) where
  len : Nat
  elems : Cells T
  deriving DecidableEq, Repr

/-- A further reference to the top node. -/
def share : Cells T → Cells T
  | [] => []
  | (x, _) :: l => (x, true) :: l

/-- `Rc::make_mut` of the `n` nodes from the top, in the loops of `remove` (stack.rs:376-384) and
`split_off` (452-460): the nodes passed, and the link reached. -/
def openAll (c : Cl1 σ T) : Nat → Cells T → σ → Option (Ends (Cells T) (Cells T × Cells T) × σ)
  | 0, l, s => some (.done ([], l), s)
  | _ + 1, [], _ => none
  | n + 1, (x, true) :: l, s =>
    match c x s with
    | (true, s) => some (.unwound ((x, true) :: l), s)
    | (false, s) =>
      match openAll c n (share l) s with
      | none => none
      | some (.unwound l, s) => some (.unwound ((x, false) :: l), s)
      | some (.done (p, l), s) => some (.done ((x, false) :: p, l), s)
  | n + 1, (x, false) :: l, s =>
    match openAll c n l s with
    | none => none
    | some (.unwound l, s) => some (.unwound ((x, false) :: l), s)
    | some (.done (p, l), s) => some (.done ((x, false) :: p, l), s)

namespace Stk

/-- stack.rs:120-125 `new`. -/
def new : Stk T := ⟨0, []⟩

/-- stack.rs:206-212 `push`. -/
def push (m : Stk T) (x : T) : Stk T := ⟨m.len + 1, (x, false) :: m.elems⟩

/-- stack.rs:249-254 `top_mut`, `g` being what the caller does with the reference. -/
def topMut (c : Cl1 σ T) (g : T → T) (m : Stk T) (s : σ) :
    Option (Ends (Stk T) (Stk T × Bool) × σ) :=
  match m.elems with
  | [] => some (.done (m, false), s)
  | (x, false) :: l => some (.done (⟨m.len, (g x, false) :: l⟩, true), s)
  | (x, true) :: l =>
    match c x s with
    | (true, s) => some (.unwound m, s)
    | (false, s) => some (.done (⟨m.len, (g x, false) :: share l⟩, true), s)

/-- stack.rs:257-279 `pop`. -/
def pop (c : Cl1 σ T) (m : Stk T) (s : σ) : Option (Ends (Stk T) (Stk T × Option T) × σ) :=
  match m.elems with
  | [] => some (.done (m, none), s)
  | (x, sh) :: l =>
    if m.len = 0 then none
    else if sh then
      match c x s with
      | (true, s) => some (.unwound ⟨m.len - 1, share l⟩, s)
      | (false, s) => some (.done (⟨m.len - 1, share l⟩, some x), s)
    else some (.done (⟨m.len - 1, l⟩, some x), s)

/-- stack.rs:367-404 `remove`. -/
def remove (c : Cl1 σ T) (i : Nat) (m : Stk T) (s : σ) :
    Option (Ends (Stk T) (Stk T × Option T) × σ) :=
  if i ≥ m.len then some (.done (m, none), s)
  else
    match openAll c (m.len - 1 - i) m.elems s with
    | none => none
    | some (.unwound l, s) => some (.unwound ⟨m.len, l⟩, s)
    | some (.done (_, []), s) => none
    | some (.done (p, (x, sh) :: l), s) =>
      if sh then
        match c x s with
        | (true, s) => some (.unwound ⟨m.len - 1, p ++ share l⟩, s)
        | (false, s) => some (.done (⟨m.len - 1, p ++ share l⟩, some x), s)
      else some (.done (⟨m.len - 1, p ++ l⟩, some x), s)

/-- stack.rs:426-474 `split_off`. -/
def splitOff (c : Cl1 σ T) (i : Nat) (m : Stk T) (s : σ) :
    Option (Ends (Stk T) (Stk T × Option (Stk T)) × σ) :=
  if i > m.len then some (.done (m, none), s)
  else if i = 0 then some (.done (⟨0, []⟩, some ⟨m.len, m.elems⟩), s)
  else if i = m.len then some (.done (m, some new), s)
  else
    match openAll c (m.len - i) m.elems s with
    | none => none
    | some (.unwound l, s) => some (.unwound ⟨m.len, l⟩, s)
    | some (.done (p, l), s) =>
      some (.done (⟨m.len - (m.len - i), l⟩, some ⟨m.len - i, p⟩), s)

/-- stack.rs:90-96 `IterMut::next`, called `n` times, `g` being what the caller does with each
reference before asking for the next. -/
def iterMutLoop (c : Cl1 σ T) (g : T → T) : Nat → Cells T → σ → Ends (Cells T) (Cells T) × σ
  | 0, l, s => (.done l, s)
  | _ + 1, [], s => (.done [], s)
  | n + 1, (x, true) :: l, s =>
    match c x s with
    | (true, s) => (.unwound ((x, true) :: l), s)
    | (false, s) =>
      match iterMutLoop c g n (share l) s with
      | (.unwound l, s) => (.unwound ((g x, false) :: l), s)
      | (.done l, s) => (.done ((g x, false) :: l), s)
  | n + 1, (x, false) :: l, s =>
    match iterMutLoop c g n l s with
    | (.unwound l, s) => (.unwound ((g x, false) :: l), s)
    | (.done l, s) => (.done ((g x, false) :: l), s)

/-- stack.rs:189-193 `iter_mut`. -/
def iterMut (c : Cl1 σ T) (g : T → T) (n : Nat) (m : Stk T) (s : σ) : Ends (Stk T) (Stk T) × σ :=
  match iterMutLoop c g n m.elems s with
  | (.unwound l, s) => (.unwound ⟨m.len, l⟩, s)
  | (.done l, s) => (.done ⟨m.len, l⟩, s)

end Stk

/-! ### Destruction -/

/-- How it ends, what it destroys, the deepest nesting of destructors of nodes, and the state of
`Drop` thereafter. -/
structure Gone (σ : Type w) (T : Type) where
  how : Fixed.Raw.How
  out : List T
  depth : Nat
  st : σ

/-- The drop glue of a link (stack.rs:8-14, `Option<Rc<List<T>>>`): the last reference to a node
destroys the element and then the rest, even if the element's destructor panicked; `u`: the thread
is unwinding already. -/
def glue (d : Cl1 σ T) : Bool → Cells T → σ → Gone σ T
  | _, [], s => ⟨.fine, [], 0, s⟩
  | _, (_, true) :: _, s => ⟨.fine, [], 0, s⟩
  | u, (x, false) :: l, s =>
    match d x s with
    | (true, s) =>
      if u then ⟨.abort, [x], 1, s⟩
      else
        let r := glue d true l s
        ⟨if r.how = .fine then .panic else .abort, x :: r.out, r.depth + 1, r.st⟩
    | (false, s) =>
      let r := glue d u l s
      ⟨r.how, x :: r.out, r.depth + 1, r.st⟩

/-- stack.rs:310-313, the loop of `clear`: `hd = next.rest.take()` destroys the old node, whose
link is empty by then, and assigns; if the element's destructor panics, unwinding destroys `hd`. -/
def clearLoop (d : Cl1 σ T) : Cells T → σ → Gone σ T
  | [], s => ⟨.fine, [], 0, s⟩
  | (_, true) :: _, s => ⟨.fine, [], 0, s⟩
  | (x, false) :: l, s =>
    match d x s with
    | (true, s) =>
      let r := glue d true l s
      ⟨if r.how = .fine then .panic else .abort, x :: r.out, max 1 r.depth, r.st⟩
    | (false, s) =>
      let r := clearLoop d l s
      ⟨r.how, x :: r.out, max 1 r.depth, r.st⟩

/-- stack.rs:306-314 `clear`, 501-506 `drop`: what is left behind the `&mut`, and what happened. -/
def Stk.clear (d : Cl1 σ T) (m : Stk T) (s : σ) : Stk T × Gone σ T :=
  (⟨0, []⟩, clearLoop d m.elems s)

/-! ### Programs -/

/-- One call; each may be given a `Clone` or `Drop` of its own. -/
inductive Cmd (σ : Type w) (T : Type) where
  | push (i : Nat) (x : T)
  | pop (i : Nat) (c : Cl1 σ T)
  | topMut (i : Nat) (c : Cl1 σ T) (g : T → T)
  | iterMut (i : Nat) (c : Cl1 σ T) (g : T → T) (n : Nat)
  | remove (i : Nat) (c : Cl1 σ T) (at_ : Nat)
  /-- `stacks[j] = stacks[i].split_off(at)`; if that panics, nothing is assigned -/
  | splitOff (i j : Nat) (c : Cl1 σ T) (at_ : Nat)
  /-- `stacks[j] = stacks[i].clone()` -/
  | clone (i j : Nat)
  | clear (i : Nat) (d : Cl1 σ T)

/-- The stacks of a program. -/
abbrev Stks (T : Type) := Nat → Stk T

def upd (st : Stks T) (i : Nat) (m : Stk T) : Stks T := fun j => if j = i then m else st j

/-- What an operation leaves in its variable; a panic of `Clone` is caught. -/
def after {R : Type} (st : Stks T) (i : Nat) : Option (Ends (Stk T) (Stk T × R) × σ) →
    Option (Stks T × σ)
  | none => none
  | some (.unwound m, s) => some (upd st i m, s)
  | some (.done (m, _), s) => some (upd st i m, s)

/-- One call; `none` is an undocumented panic of the crate, or an abort. -/
def step (st : Stks T) (s : σ) : Cmd σ T → Option (Stks T × σ)
  | .push i x => some (upd st i ((st i).push x), s)
  | .pop i c => after st i ((st i).pop c s)
  | .topMut i c g => after st i ((st i).topMut c g s)
  | .iterMut i c g n =>
    match (st i).iterMut c g n s with
    | (.unwound m, s) => some (upd st i m, s)
    | (.done m, s) => some (upd st i m, s)
  | .remove i c k => after st i ((st i).remove c k s)
  | .splitOff i j c k =>
    match (st i).splitOff c k s with
    | none => none
    | some (.unwound m, s) => some (upd st i m, s)
    | some (.done (m, none), s) => some (upd st i m, s)
    | some (.done (m, some t), s) => some (upd (upd st i m) j t, s)
  | .clone i j =>
    let m : Stk T := ⟨(st i).len, share (st i).elems⟩
    some (upd (upd st i m) j m, s)
  | .clear i d =>
    let r := (st i).clear d s
    if r.2.how = .abort then none else some (upd st i r.1, r.2.st)

def run : Stks T → σ → List (Cmd σ T) → Option (Stks T × σ)
  | st, s, [] => some (st, s)
  | st, s, cmd :: cs =>
    match step st s cmd with
    | none => none
    | some (st, s) => run st s cs

/-! ### Facts -/

/-- The elements, from the top. -/
def Stk.list (m : Stk T) : List T := m.elems.map (·.1)

/-- `len` is right. -/
def Stk.Ok (m : Stk T) : Prop := m.len = m.elems.length

/-- `Clone` panics at some time. -/
def Bad1 (c : Cl1 σ T) : Prop := ∃ x s, (c x s).1 = true

theorem bad1 {c : Cl1 σ T} {x : T} {s s' : σ} (h : c x s = (true, s')) : Bad1 c :=
  ⟨x, s, by rw [h]⟩

theorem share_map (l : Cells T) : (share l).map (·.1) = l.map (·.1) := by
  rcases l with _ | ⟨⟨x, b⟩, l⟩ <;> rfl

theorem share_length (l : Cells T) : (share l).length = l.length := by
  rcases l with _ | ⟨⟨x, b⟩, l⟩ <;> rfl

theorem openAll_spec (c : Cl1 σ T) : ∀ (n : Nat) (l : Cells T) (s : σ), n ≤ l.length →
    ∃ r s', openAll c n l s = some (r, s') ∧
      match r with
      | .unwound l' => l'.map (·.1) = l.map (·.1) ∧ Bad1 c
      | .done (p, q) => p.map (·.1) = (l.map (·.1)).take n ∧ q.map (·.1) = (l.map (·.1)).drop n
  | 0, l, s, _ => ⟨.done ([], l), s, rfl, by simp⟩
  | n + 1, [], s, h => by simp at h
  | n + 1, (x, true) :: l, s, h => by
    rw [openAll]
    rcases e : c x s with ⟨_ | _, s1⟩
    · obtain ⟨r, s', e1, h1⟩ := openAll_spec c n (share l) s1
        (by rw [share_length]; simpa using h)
      simp only [e1]
      rw [share_map] at h1
      rcases r with l' | ⟨p, q⟩
      · exact ⟨.unwound ((x, false) :: l'), _, rfl, by simpa using h1.1, h1.2⟩
      · exact ⟨.done ((x, false) :: p, q), _, rfl, by simpa using h1.1, by simpa using h1.2⟩
    · exact ⟨.unwound ((x, true) :: l), _, rfl, rfl, bad1 e⟩
  | n + 1, (x, false) :: l, s, h => by
    rw [openAll]
    obtain ⟨r, s', e1, h1⟩ := openAll_spec c n l s (by simpa using h)
    simp only [e1]
    rcases r with l' | ⟨p, q⟩
    · exact ⟨.unwound ((x, false) :: l'), _, rfl, by simpa using h1.1, h1.2⟩
    · exact ⟨.done ((x, false) :: p, q), _, rfl, by simpa using h1.1, by simpa using h1.2⟩

namespace Stk

theorem Ok.list {m : Stk T} (h : m.Ok) : m.len = m.list.length := by
  rw [Stk.list, List.length_map]; exact h

theorem ok_of_list {m : Stk T} (h : m.len = m.list.length) : m.Ok := by
  rw [Stk.list, List.length_map] at h; exact h

theorem push_list (m : Stk T) (x : T) : (m.push x).list = x :: m.list := rfl

theorem topMut_spec (c : Cl1 σ T) (g : T → T) {m : Stk T} (hm : m.Ok) (s : σ) :
    ∃ r s', m.topMut c g s = some (r, s') ∧
      match r with
      | .unwound m' => m' = m ∧ Bad1 c
      | .done (m', b) => m'.Ok ∧ m'.list = m.list.modifyHead g ∧ b = !m.list.isEmpty := by
  obtain ⟨n, l⟩ := m
  rcases l with _ | ⟨⟨x, _ | _⟩, l⟩
  · exact ⟨_, _, rfl, hm, rfl, rfl⟩
  · exact ⟨_, _, rfl, hm, rfl, rfl⟩
  · simp only [topMut]
    rcases e : c x s with ⟨_ | _, s1⟩
    · refine ⟨_, _, rfl, ?_, ?_, rfl⟩
      · simpa [Ok, share_length] using hm
      · simp [Stk.list, share_map]
    · exact ⟨_, _, rfl, rfl, bad1 e⟩

theorem pop_spec (c : Cl1 σ T) {m : Stk T} (hm : m.Ok) (s : σ) :
    ∃ r s', m.pop c s = some (r, s') ∧
      match r with
      | .unwound m' => m'.Ok ∧ m.list ≠ [] ∧ m'.list = m.list.tail ∧ Bad1 c
      | .done (m', o) => m'.Ok ∧ m'.list = m.list.tail ∧ o = m.list.head? := by
  obtain ⟨n, l⟩ := m
  rcases l with _ | ⟨⟨x, sh⟩, l⟩
  · exact ⟨_, _, rfl, hm, rfl, rfl⟩
  · have hn : n = l.length + 1 := hm
    subst hn
    simp only [pop, Nat.succ_ne_zero, if_false]
    rcases sh with _ | _
    · exact ⟨_, _, rfl, rfl, rfl, rfl⟩
    · rw [if_pos rfl]
      rcases e : c x s with ⟨_ | _, s1⟩
      · exact ⟨_, _, rfl, by simp [Ok, share_length], by simp [Stk.list, share_map], rfl⟩
      · exact ⟨_, _, rfl, by simp [Ok, share_length], by simp [Stk.list],
          by simp [Stk.list, share_map], bad1 e⟩

theorem remove_spec (c : Cl1 σ T) (i : Nat) {m : Stk T} (hm : m.Ok) (s : σ) :
    ∃ r s', m.remove c i s = some (r, s') ∧
      match r with
      | .unwound m' => m'.Ok ∧ i < m.len ∧
          (m'.list = m.list ∨ m'.list = m.list.eraseIdx (m.len - 1 - i)) ∧ Bad1 c
      | .done (m', o) => m'.Ok ∧
          ((m.len ≤ i ∧ m' = m ∧ o = none) ∨
           (i < m.len ∧ m'.list = m.list.eraseIdx (m.len - 1 - i) ∧ o ≠ none ∧
            o = m.list[m.len - 1 - i]?)) := by
  rw [remove]
  by_cases h : i ≥ m.len
  · rw [if_pos h]; exact ⟨_, _, rfl, hm, .inl ⟨h, rfl, rfl⟩⟩
  rw [if_neg h]
  have hi : i < m.len := by omega
  have hl := hm.list
  obtain ⟨r, s1, e1, h1⟩ := openAll_spec c (m.len - 1 - i) m.elems s (by
    have : m.len = m.elems.length := hm
    omega)
  simp only [e1]
  rcases r with l' | ⟨p, q⟩
  · refine ⟨_, _, rfl, ?_, hi, .inl h1.1, h1.2⟩
    apply ok_of_list
    rw [hl]; exact congrArg List.length h1.1.symm
  · obtain ⟨h2, h3⟩ := h1
    have hlt : m.len - 1 - i < m.list.length := by omega
    change q.map (·.1) = m.list.drop _ at h3
    change p.map (·.1) = m.list.take _ at h2
    rw [List.drop_eq_getElem_cons hlt] at h3
    rcases q with _ | ⟨⟨x, sh⟩, q⟩
    · simp at h3; omega
    simp only [List.map_cons, List.cons.injEq] at h3
    obtain ⟨rfl, h3⟩ := h3
    have key : (p ++ q).map (·.1) = m.list.eraseIdx (m.len - 1 - i) := by
      rw [List.map_append, h2, h3, List.eraseIdx_eq_take_drop_succ]
    have key' : (p ++ share q).map (·.1) = m.list.eraseIdx (m.len - 1 - i) := by
      rw [List.map_append, share_map, ← List.map_append]; exact key
    have hget : m.list[m.len - 1 - i]? = some (m.list[m.len - 1 - i]'hlt) :=
      List.getElem?_eq_getElem hlt
    have lenE : (m.list.eraseIdx (m.len - 1 - i)).length = m.len - 1 := by
      rw [List.length_eraseIdx_of_lt hlt]; omega
    have ok1 : Ok (⟨m.len - 1, p ++ q⟩ : Stk T) :=
      ok_of_list (by rw [show Stk.list ⟨m.len - 1, p ++ q⟩ = _ from key, lenE])
    have ok2 : Ok (⟨m.len - 1, p ++ share q⟩ : Stk T) :=
      ok_of_list (by rw [show Stk.list ⟨m.len - 1, p ++ share q⟩ = _ from key', lenE])
    rcases sh with _ | _
    · exact ⟨_, _, rfl, ok1, .inr ⟨hi, key, by simp, hget.symm⟩⟩
    · simp only [if_true]
      rcases e : c (m.list[m.len - 1 - i]'hlt) s1 with ⟨_ | _, s2⟩
      · exact ⟨_, _, rfl, ok2, .inr ⟨hi, key', by simp, hget.symm⟩⟩
      · exact ⟨_, _, rfl, ok2, hi, .inr key', bad1 e⟩

theorem splitOff_spec (c : Cl1 σ T) (i : Nat) {m : Stk T} (hm : m.Ok) (s : σ) :
    ∃ r s', m.splitOff c i s = some (r, s') ∧
      match r with
      | .unwound m' => m'.Ok ∧ i < m.len ∧ m'.list = m.list ∧ Bad1 c
      | .done (m', none) => m.len < i ∧ m' = m
      | .done (m', some t) => i ≤ m.len ∧ m'.Ok ∧ t.Ok ∧ m'.list = m.list.drop (m.len - i) ∧
          t.list = m.list.take (m.len - i) := by
  have hl := hm.list
  rw [splitOff]
  by_cases h : i > m.len
  · rw [if_pos h]; exact ⟨_, _, rfl, h, rfl⟩
  rw [if_neg h]
  by_cases h0 : i = 0
  · subst h0
    rw [if_pos rfl]
    refine ⟨_, _, rfl, by omega, rfl, hm, ?_, ?_⟩
    · rw [List.drop_of_length_le (by omega)]; rfl
    · rw [List.take_of_length_le (by omega)]
  rw [if_neg h0]
  by_cases h1 : i = m.len
  · subst h1
    rw [if_pos rfl]
    refine ⟨_, _, rfl, Nat.le_refl _, hm, rfl, ?_, ?_⟩ <;> simp [new, Stk.list]
  rw [if_neg h1]
  obtain ⟨r, s1, e1, h1⟩ := openAll_spec c (m.len - i) m.elems s (by
    have : m.len = m.elems.length := hm
    omega)
  simp only [e1]
  rcases r with l' | ⟨p, q⟩
  · refine ⟨_, _, rfl, ?_, by omega, h1.1, h1.2⟩
    apply ok_of_list
    rw [hl]; exact congrArg List.length h1.1.symm
  · refine ⟨_, _, rfl, by omega, ok_of_list ?_, ok_of_list ?_, h1.2, h1.1⟩
    · rw [show Stk.list ⟨m.len - (m.len - i), q⟩ = _ from h1.2]
      change m.len - (m.len - i) = (m.list.drop _).length
      rw [List.length_drop]; omega
    · rw [show Stk.list ⟨m.len - i, p⟩ = _ from h1.1]
      change m.len - i = (m.list.take _).length
      rw [List.length_take]; omega

theorem iterMutLoop_spec (c : Cl1 σ T) (g : T → T) : ∀ (n : Nat) (l : Cells T) (s : σ),
    match (iterMutLoop c g n l s).1 with
    | .unwound l' => (∃ k < n, k < l.length ∧
        l'.map (·.1) = ((l.map (·.1)).take k).map g ++ (l.map (·.1)).drop k) ∧ Bad1 c
    | .done l' => l'.map (·.1) = ((l.map (·.1)).take n).map g ++ (l.map (·.1)).drop n
  | 0, l, s => by simp [iterMutLoop]
  | n + 1, [], s => by simp [iterMutLoop]
  | n + 1, (x, true) :: l, s => by
    rw [iterMutLoop]
    rcases e : c x s with ⟨_ | _, s1⟩
    · have h1 := iterMutLoop_spec c g n (share l) s1
      simp only
      rcases e1 : iterMutLoop c g n (share l) s1 with ⟨l' | l', s2⟩
      · rw [e1] at h1
        simp only [share_map, share_length] at h1 ⊢
        obtain ⟨⟨k, hk, hk', h1⟩, hb⟩ := h1
        exact ⟨⟨k + 1, by omega, by simp; omega, by simpa using h1⟩, hb⟩
      · rw [e1] at h1
        simp only [share_map] at h1 ⊢
        simpa using h1
    · exact ⟨⟨0, by omega, by simp, by simp⟩, bad1 e⟩
  | n + 1, (x, false) :: l, s => by
    rw [iterMutLoop]
    have h1 := iterMutLoop_spec c g n l s
    rcases e1 : iterMutLoop c g n l s with ⟨l' | l', s2⟩
    · rw [e1] at h1
      simp only at h1 ⊢
      obtain ⟨⟨k, hk, hk', h1⟩, hb⟩ := h1
      exact ⟨⟨k + 1, by omega, by simp; omega, by simpa using h1⟩, hb⟩
    · rw [e1] at h1
      simp only at h1 ⊢
      simpa using h1

theorem iterMut_spec (c : Cl1 σ T) (g : T → T) (n : Nat) {m : Stk T} (hm : m.Ok) (s : σ) :
    match (m.iterMut c g n s).1 with
    | .unwound m' => m'.Ok ∧ (∃ k < n, k < m.len ∧
        m'.list = (m.list.take k).map g ++ m.list.drop k) ∧ Bad1 c
    | .done m' => m'.Ok ∧ m'.list = (m.list.take n).map g ++ m.list.drop n := by
  have h1 := iterMutLoop_spec c g n m.elems s
  have hl := hm.list
  have hlen : ∀ k, ((m.list.take k).map g ++ m.list.drop k).length = m.list.length := by
    intro k; simp; omega
  rw [iterMut]
  rcases e1 : iterMutLoop c g n m.elems s with ⟨l' | l', s2⟩
  · rw [e1] at h1
    obtain ⟨⟨k, hk, hk', h1⟩, hb⟩ := h1
    refine ⟨ok_of_list ?_, ⟨k, hk, by rw [show m.len = m.elems.length from hm]; exact hk', h1⟩, hb⟩
    rw [show Stk.list ⟨m.len, l'⟩ = _ from h1]
    exact hl.trans (hlen k).symm
  · rw [e1] at h1
    refine ⟨ok_of_list ?_, h1⟩
    rw [show Stk.list ⟨m.len, l'⟩ = _ from h1]
    exact hl.trans (hlen n).symm

end Stk

/-! ### Destruction -/

/-- The nodes to which no one else leads. -/
def sole : Cells T → List T
  | (x, false) :: l => x :: sole l
  | _ => []

theorem glue_spec (d : Cl1 σ T) : ∀ (u : Bool) (l : Cells T) (s : σ),
    (glue d u l s).depth = (glue d u l s).out.length ∧
    (glue d u l s).out <+: sole l ∧
    ((glue d u l s).how ≠ .abort → (glue d u l s).out = sole l) ∧
    ((glue d u l s).how ≠ .fine → ∃ x ∈ sole l, ∃ s, (d x s).1 = true)
  | _, [], s => by simp [glue, sole]
  | _, (_, true) :: _, s => by simp [glue, sole]
  | u, (x, false) :: l, s => by
    rw [glue, sole]
    rcases e : d x s with ⟨_ | _, s1⟩
    · obtain ⟨h1, h2, h3, h4⟩ := glue_spec d u l s1
      simp only
      refine ⟨by simp [h1], by simpa using h2, fun h => by rw [h3 h], fun h => ?_⟩
      obtain ⟨y, hy, hs⟩ := h4 h
      exact ⟨y, .tail _ hy, hs⟩
    · have hx : ∃ y ∈ x :: sole l, ∃ s, (d y s).1 = true := ⟨x, .head _, s, by rw [e]⟩
      rcases u with _ | _
      · obtain ⟨h1, h2, h3, h4⟩ := glue_spec d true l s1
        simp only [Bool.false_eq_true, if_false]
        refine ⟨by simp [h1], by simpa using h2, fun h => ?_, fun _ => hx⟩
        by_cases hf : (glue d true l s1).how = .fine
        · rw [h3 (by rw [hf]; decide)]
        · rw [if_neg hf] at h; exact absurd rfl h
      · simp only [if_true]
        exact ⟨rfl, by simp, by simp, fun _ => hx⟩

theorem glue_true (d : Cl1 σ T) : ∀ (l : Cells T) (s : σ), (glue d true l s).how ≠ .panic
  | [], s => by simp [glue]
  | (_, true) :: _, s => by simp [glue]
  | (x, false) :: l, s => by
    rw [glue]
    rcases e : d x s with ⟨_ | _, s1⟩
    · exact glue_true d l s1
    · simp

theorem clearLoop_spec (d : Cl1 σ T) : ∀ (l : Cells T) (s : σ),
    (clearLoop d l s).out <+: sole l ∧
    ((clearLoop d l s).how ≠ .abort → (clearLoop d l s).out = sole l) ∧
    ((clearLoop d l s).how ≠ .fine → ∃ x ∈ sole l, ∃ s, (d x s).1 = true) ∧
    ((clearLoop d l s).how = .fine → (clearLoop d l s).depth ≤ 1) ∧
    (clearLoop d l s).depth ≤ max 1 ((sole l).length - 1)
  | [], s => by simp [clearLoop, sole]
  | (_, true) :: _, s => by simp [clearLoop, sole]
  | (x, false) :: l, s => by
    rw [clearLoop, sole]
    rcases e : d x s with ⟨_ | _, s1⟩
    · obtain ⟨h2, h3, h4, h5, h6⟩ := clearLoop_spec d l s1
      simp only
      refine ⟨by simpa using h2, fun h => by rw [h3 h], fun h => ?_, fun h => ?_, ?_⟩
      · obtain ⟨y, hy, hs⟩ := h4 h
        exact ⟨y, .tail _ hy, hs⟩
      · have := h5 h; omega
      · simp only [List.length_cons]; omega
    · have hx : ∃ y ∈ x :: sole l, ∃ s, (d y s).1 = true := ⟨x, .head _, s, by rw [e]⟩
      obtain ⟨h1, h2, h3, h4⟩ := glue_spec d true l s1
      simp only
      refine ⟨by simpa using h2, fun h => ?_, fun _ => hx, fun h => ?_, ?_⟩
      · by_cases hf : (glue d true l s1).how = .fine
        · rw [h3 (by rw [hf]; decide)]
        · rw [if_neg hf] at h; exact absurd rfl h
      · by_cases hf : (glue d true l s1).how = .fine
        · rw [if_pos hf] at h; cases h
        · rw [if_neg hf] at h; cases h
      · have := h2.length_le
        simp only [List.length_cons]; omega

/-- A destructor that panics once, on the top element. -/
theorem clearLoop_first {d : Cl1 σ T} {x : T} {l : Cells T} {s s1 : σ} (h : d x s = (true, s1))
    (hl : ∀ y ∈ l, y.2 = false ∧ ∀ s, (d y.1 s).1 = false) :
    (clearLoop d ((x, false) :: l) s).how = .panic ∧
    (clearLoop d ((x, false) :: l) s).depth = max 1 l.length := by
  have hs : sole l = l.map (·.1) := by
    clear h
    induction l with
    | nil => rfl
    | cons y l ih =>
      obtain ⟨y, b⟩ := y
      obtain rfl : b = false := (hl _ (.head _)).1
      simp only [sole, List.map_cons, List.cons.injEq, true_and]
      exact ih (fun z hz => hl z (.tail _ hz))
  obtain ⟨h1, h2, h3, h4⟩ := glue_spec d true l s1
  have hf : (glue d true l s1).how = .fine := by
    refine Decidable.byContradiction fun hne => ?_
    obtain ⟨y, hy, s2, e⟩ := h4 hne
    rw [hs] at hy
    obtain ⟨z, hz, rfl⟩ := List.mem_map.1 hy
    rw [(hl z hz).2 s2] at e
    cases e
  rw [clearLoop]
  simp only [h, hf, if_true, true_and]
  rw [h1, h3 (by rw [hf]; decide), hs, List.length_map]

/-! ### Programs -/

theorem upd_ok {st : Stks T} {i : Nat} {m : Stk T} (h : ∀ j, (st j).Ok) (hm : m.Ok) :
    ∀ j, ((upd st i m) j).Ok := by
  intro j
  by_cases e : j = i
  · rw [upd, if_pos e]; exact hm
  · rw [upd, if_neg e]; exact h j

/-- A call leaves every stack in order, unless two destructors panic in one `clear`. -/
theorem step_ok {st : Stks T} (h : ∀ j, (st j).Ok) (s : σ) (cmd : Cmd σ T) :
    (∃ st' s', step st s cmd = some (st', s') ∧ ∀ j, (st' j).Ok) ∨
    (∃ i d, cmd = .clear i d ∧ ((st i).clear d s).2.how = .abort) := by
  cases cmd with
  | push i x =>
    refine .inl ⟨_, _, rfl, upd_ok h ?_⟩
    have := h i
    simpa [Stk.push, Stk.Ok] using this
  | pop i c =>
    obtain ⟨r, s', e, hr⟩ := Stk.pop_spec c (h i) s
    left
    rcases r with m' | ⟨m', o⟩
    · exact ⟨_, _, by rw [step, e]; rfl, upd_ok h hr.1⟩
    · exact ⟨_, _, by rw [step, e]; rfl, upd_ok h hr.1⟩
  | topMut i c g =>
    obtain ⟨r, s', e, hr⟩ := Stk.topMut_spec c g (h i) s
    left
    rcases r with m' | ⟨m', o⟩
    · exact ⟨_, _, by rw [step, e]; rfl, upd_ok h (by rw [hr.1]; exact h i)⟩
    · exact ⟨_, _, by rw [step, e]; rfl, upd_ok h hr.1⟩
  | iterMut i c g n =>
    have hr := Stk.iterMut_spec c g n (h i) s
    left
    rcases e : (st i).iterMut c g n s with ⟨m' | m', s'⟩
    · rw [e] at hr
      exact ⟨_, _, by rw [step, e], upd_ok h hr.1⟩
    · rw [e] at hr
      exact ⟨_, _, by rw [step, e], upd_ok h hr.1⟩
  | remove i c k =>
    obtain ⟨r, s', e, hr⟩ := Stk.remove_spec c k (h i) s
    left
    rcases r with m' | ⟨m', o⟩
    · exact ⟨_, _, by rw [step, e]; rfl, upd_ok h hr.1⟩
    · exact ⟨_, _, by rw [step, e]; rfl, upd_ok h hr.1⟩
  | splitOff i j c k =>
    obtain ⟨r, s', e, hr⟩ := Stk.splitOff_spec c k (h i) s
    left
    rcases r with m' | ⟨m', _ | t⟩
    · exact ⟨_, _, by rw [step, e], upd_ok h hr.1⟩
    · exact ⟨_, _, by rw [step, e], upd_ok h (by rw [hr.2]; exact h i)⟩
    · exact ⟨_, _, by rw [step, e], upd_ok (upd_ok h hr.2.1) hr.2.2.1⟩
  | clone i j =>
    left
    have : Stk.Ok (⟨(st i).len, share (st i).elems⟩ : Stk T) := by
      have := h i
      simpa [Stk.Ok, share_length] using this
    exact ⟨_, _, rfl, upd_ok (upd_ok h this) this⟩
  | clear i d =>
    by_cases ha : ((st i).clear d s).2.how = .abort
    · exact .inr ⟨i, d, rfl, ha⟩
    · exact .inl ⟨_, _, by rw [step]; exact if_neg ha, upd_ok h (show (⟨0, []⟩ : Stk T).Ok from rfl)⟩

/-- What another stack holds is not changed by a call. -/
theorem step_other {st st' : Stks T} {s s' : σ} {cmd : Cmd σ T} {k : Nat}
    (hk : match cmd with
      | .push i _ | .pop i _ | .topMut i _ _ | .iterMut i _ _ _ | .remove i _ _ | .clear i _ => k ≠ i
      | .splitOff i j _ _ => k ≠ i ∧ k ≠ j
      | .clone _ j => k ≠ j)
    (e : step st s cmd = some (st', s')) : (st' k).list = (st k).list := by
  have hu : ∀ {i : Nat} {m : Stk T} {st : Stks T}, k ≠ i → upd st i m k = st k := by
    intro i m st hne; rw [upd, if_neg hne]
  have haft : ∀ {R : Type} {i : Nat} {o : Option (Ends (Stk T) (Stk T × R) × σ)}, k ≠ i →
      after st i o = some (st', s') → (st' k).list = (st k).list := by
    intro R i o hne e
    rcases o with _ | ⟨m | ⟨m, r⟩, s2⟩
    · cases e
    · cases e; rw [hu hne]
    · cases e; rw [hu hne]
  cases cmd with
  | push i x => cases e; rw [hu hk]
  | pop i c => exact haft hk e
  | topMut i c g => exact haft hk e
  | remove i c a => exact haft hk e
  | iterMut i c g n =>
    rw [step] at e
    rcases e1 : (st i).iterMut c g n s with ⟨m' | m', s2⟩ <;> rw [e1] at e <;> cases e <;> rw [hu hk]
  | splitOff i j c a =>
    rw [step] at e
    rcases e1 : (st i).splitOff c a s with _ | ⟨m' | ⟨m', _ | t⟩, s2⟩ <;> rw [e1] at e <;> cases e
    · rw [hu hk.1]
    · rw [hu hk.1]
    · rw [hu hk.2, hu hk.1]
  | clone i j =>
    cases e
    rw [hu hk]
    by_cases hi : k = i
    · subst hi
      rw [upd, if_pos rfl, Stk.list, Stk.list, share_map]
    · rw [hu hi]
  | clear i d =>
    rw [step] at e
    by_cases ha : ((st i).clear d s).2.how = .abort
    · rw [if_pos ha] at e; cases e
    · rw [if_neg ha] at e; cases e; rw [hu hk]

end Verif.Unwind.Stk
