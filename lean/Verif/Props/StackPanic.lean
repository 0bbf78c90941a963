import Verif.Unwind.Stack
/-!
# Properties C63 and C64: stacks when `Clone` or `Drop` of an element panics

`Stk.list` is what iteration shows, from the top.
-/
namespace Verif.Props
open Verif.Unwind.Stk Verif.Wild
universe w
variable {σ : Type w} {T : Type}

/-- C63: whatever `Clone` does, `pop` panics in no other way than by `Clone`, and then the top
element is gone, as if it had been returned. -/
theorem C63_pop (c : Cl1 σ T) {m : Stk T} (hm : m.len = m.list.length) (s : σ) :
    ∃ r s', m.pop c s = some (r, s') ∧
      match r with
      | .unwound m' => m'.len = m'.list.length ∧ m.list ≠ [] ∧ m'.list = m.list.tail
      | .done (m', o) => m'.len = m'.list.length ∧ m'.list = m.list.tail ∧ o = m.list.head? := by
  obtain ⟨r, s', e, h⟩ := Stk.pop_spec c (Stk.ok_of_list hm) s
  rcases r with m' | ⟨m', o⟩
  · exact ⟨.unwound m', s', e, h.1.list, h.2.1, h.2.2.1⟩
  · exact ⟨.done (m', o), s', e, h.1.list, h.2⟩

/-- C63: `top_mut` that `Clone` interrupts leaves the stack as it was. -/
theorem C63_top_mut (c : Cl1 σ T) (g : T → T) {m : Stk T} (hm : m.len = m.list.length) (s : σ) :
    ∃ r s', m.topMut c g s = some (r, s') ∧
      match r with
      | .unwound m' => m' = m
      | .done (m', b) => m'.len = m'.list.length ∧ m'.list = m.list.modifyHead g ∧
          b = !m.list.isEmpty := by
  obtain ⟨r, s', e, h⟩ := Stk.topMut_spec c g (Stk.ok_of_list hm) s
  rcases r with m' | ⟨m', o⟩
  · exact ⟨.unwound m', s', e, h.1⟩
  · exact ⟨.done (m', o), s', e, h.1.list, h.2⟩

/-- C63: `remove(i)` that `Clone` interrupts leaves the stack as it was, or without element `i`
(counted from the bottom); the documented panic (result `none`) comes exactly from an index out of
range. -/
theorem C63_remove (c : Cl1 σ T) (i : Nat) {m : Stk T} (hm : m.len = m.list.length) (s : σ) :
    ∃ r s', m.remove c i s = some (r, s') ∧
      match r with
      | .unwound m' => m'.len = m'.list.length ∧
          (m'.list = m.list ∨ m'.list = m.list.eraseIdx (m.len - 1 - i))
      | .done (m', o) =>
          (m.len ≤ i → m' = m ∧ o = none) ∧
          (i < m.len → m'.len = m'.list.length ∧ m'.list = m.list.eraseIdx (m.len - 1 - i) ∧
            ∃ x, o = some x ∧ m.list.reverse[i]? = some x) := by
  obtain ⟨r, s', e, h⟩ := Stk.remove_spec c i (Stk.ok_of_list hm) s
  rcases r with m' | ⟨m', o⟩
  · exact ⟨.unwound m', s', e, h.1.list, h.2.2.1⟩
  · refine ⟨.done (m', o), s', e, ?_⟩
    obtain ⟨h0, ⟨h1, rfl, rfl⟩ | ⟨h1, h2, h3, h4⟩⟩ := h
    · exact ⟨fun _ => ⟨rfl, rfl⟩, fun h => absurd h1 (by omega)⟩
    · refine ⟨fun h => absurd h1 (by omega), fun _ => ⟨h0.list, h2, ?_⟩⟩
      rcases o with _ | x
      · exact absurd rfl h3
      · refine ⟨x, rfl, ?_⟩
        rw [List.getElem?_reverse (by omega), ← hm]
        exact h4.symm

/-- C63: `split_off(i)` that `Clone` interrupts leaves the stack as it was; else the stack keeps
its `i` bottom elements and the rest is returned. -/
theorem C63_split_off (c : Cl1 σ T) (i : Nat) {m : Stk T} (hm : m.len = m.list.length) (s : σ) :
    ∃ r s', m.splitOff c i s = some (r, s') ∧
      match r with
      | .unwound m' => m'.len = m.len ∧ m'.list = m.list
      | .done (m', none) => m.len < i ∧ m' = m
      | .done (m', some t) => i ≤ m.len ∧ m'.len = i ∧ m'.list.length = i ∧
          t.len = t.list.length ∧ t.list ++ m'.list = m.list := by
  obtain ⟨r, s', e, h⟩ := Stk.splitOff_spec c i (Stk.ok_of_list hm) s
  rcases r with m' | ⟨m', _ | t⟩
  · exact ⟨.unwound m', s', e, by rw [h.1.list, hm, h.2.2.1], h.2.2.1⟩
  · exact ⟨.done (m', none), s', e, h⟩
  · obtain ⟨h1, h2, h3, h4, h5⟩ := h
    have hl : m'.list.length = i := by rw [h4, List.length_drop]; omega
    exact ⟨.done (m', some t), s', e, h1, by rw [h2.list, hl], hl, h3.list,
      by rw [h4, h5, List.take_append_drop]⟩

/-- C63: `n` steps of `iter_mut`, with a write after each, that `Clone` interrupts leave the stack
with the writes done so far. -/
theorem C63_iter_mut (c : Cl1 σ T) (g : T → T) (n : Nat) {m : Stk T} (hm : m.len = m.list.length)
    (s : σ) :
    match (m.iterMut c g n s).1 with
    | .unwound m' => m'.len = m.len ∧ ∃ k < n, k < m.len ∧
        m'.list = (m.list.take k).map g ++ m.list.drop k
    | .done m' => m'.len = m.len ∧ m'.list = (m.list.take n).map g ++ m.list.drop n := by
  have h := Stk.iterMut_spec c g n (Stk.ok_of_list hm) s
  rcases e : (m.iterMut c g n s).1 with m' | m'
  · rw [e] at h
    obtain ⟨h1, ⟨k, hk, hk', h2⟩, -⟩ := h
    refine ⟨?_, k, hk, hk', h2⟩
    rw [h1.list, h2, hm]; simp; omega
  · rw [e] at h
    refine ⟨?_, h.2⟩
    rw [h.1.list, h.2, hm]; simp; omega

/-- Every stack's `len()` is the number of its elements. -/
def AllOk (st : Stks T) : Prop := ∀ j, (st j).len = (st j).list.length

/-- C63: a program over any number of stacks, in which `Clone` and `Drop` of the elements panic
at any time (each panic being caught), runs to its end with every `len()` right, or else it is
aborted by a `clear` that met a second panicking destructor. -/
theorem C63_programs : ∀ (cs : List (Cmd σ T)) {st : Stks T} (_ : AllOk st) (s : σ),
    (∃ st' s', run st s cs = some (st', s') ∧ AllOk st') ∨
    (∃ cs1 cs2 i d st1 s1, cs = cs1 ++ .clear i d :: cs2 ∧ run st s cs1 = some (st1, s1) ∧
      ((st1 i).clear d s1).2.how = .abort ∧ run st s cs = none)
  | [], st, h, s => .inl ⟨st, s, rfl, h⟩
  | cmd :: cs, st, h, s => by
    rcases step_ok (fun j => Stk.ok_of_list (h j)) s cmd with ⟨st', s', e, h'⟩ | ⟨i, d, rfl, ha⟩
    · have hr : ∀ cs, run st s (cmd :: cs) = run st' s' cs := fun cs => by rw [run, e]
      rcases C63_programs cs (fun j => (h' j).list) s' with
        ⟨st2, s2, e2, h2⟩ | ⟨cs1, cs2, i, d, st1, s1, rfl, e2, e3, e4⟩
      · exact .inl ⟨st2, s2, by rw [hr, e2], h2⟩
      · exact .inr ⟨cmd :: cs1, cs2, i, d, st1, s1, rfl, by rw [hr, e2], e3, by rw [hr, e4]⟩
    · refine .inr ⟨[], cs, i, d, st, s, rfl, rfl, ha, ?_⟩
      rw [run, step, if_pos ha]

/-- C63: a call, interrupted or not, changes no other stack, whatever they share. -/
theorem C63_others {st st' : Stks T} {s s' : σ} {cmd : Cmd σ T} {k : Nat}
    (hk : match cmd with
      | .push i _ | .pop i _ | .topMut i _ _ | .iterMut i _ _ _ | .remove i _ _ | .clear i _ => k ≠ i
      | .splitOff i j _ _ => k ≠ i ∧ k ≠ j
      | .clone _ j => k ≠ j)
    (e : step st s cmd = some (st', s')) : (st' k).list = (st k).list :=
  step_other hk e

/-- C64: whatever `Drop` does, `clear` leaves the stack empty, and destroys no element twice and no
element that another stack still has: what it destroys is an initial part of the nodes that are
not shared, in order from the top, and all of them unless the process is aborted; and it is aborted
or panics only if the destructor of one of these does. -/
theorem C64_clear (d : Cl1 σ T) (m : Stk T) (s : σ) :
    (m.clear d s).1 = Stk.new ∧
    (m.clear d s).2.out <+: (m.elems.takeWhile (fun e => !e.2)).map (·.1) ∧
    ((m.clear d s).2.how ≠ .abort →
      (m.clear d s).2.out = (m.elems.takeWhile (fun e => !e.2)).map (·.1)) ∧
    ((m.clear d s).2.how ≠ .fine → ∃ e ∈ m.elems, e.2 = false ∧ ∃ s, (d e.1 s).1 = true) := by
  have hs : ∀ l : Cells T, sole l = (l.takeWhile (fun e => !e.2)).map (·.1) := by
    intro l
    induction l with
    | nil => rfl
    | cons e l ih =>
      obtain ⟨x, _ | _⟩ := e
      · simp [sole, ih]
      · simp [sole]
  have hmem : ∀ (l : Cells T) (x : T), x ∈ sole l → ∃ e ∈ l, e.2 = false ∧ e.1 = x := by
    intro l x
    induction l with
    | nil => intro h; cases h
    | cons e l ih =>
      obtain ⟨y, _ | _⟩ := e
      · intro h
        rcases List.mem_cons.1 h with rfl | h
        · exact ⟨_, .head _, rfl, rfl⟩
        · obtain ⟨e, h1, h2⟩ := ih h
          exact ⟨e, .tail _ h1, h2⟩
      · intro h; cases h
  obtain ⟨h2, h3, h4, -, -⟩ := clearLoop_spec d m.elems s
  rw [hs] at h2 h3
  refine ⟨rfl, h2, h3, fun h => ?_⟩
  obtain ⟨x, hx, s', e⟩ := h4 h
  obtain ⟨y, h5, h6, rfl⟩ := hmem _ _ hx
  exact ⟨y, h5, h6, s', e⟩

/-- C64, what holds of it: as long as no destructor panics, `clear` of a stack of any length nests
destructors of nodes at most one deep.  Missing: the case that one does (`C64_clear_false`). -/
theorem C64_clear_partial (d : Cl1 σ T) (m : Stk T) (s : σ) (hd : ∀ x s, (d x s).1 = false) :
    (m.clear d s).2.how = .fine ∧ (m.clear d s).2.depth ≤ 1 := by
  obtain ⟨-, -, h4, h5, -⟩ := clearLoop_spec d m.elems s
  have hf : (m.clear d s).2.how = .fine := by
    refine Decidable.byContradiction fun hne => ?_
    obtain ⟨x, -, s', e⟩ := h4 hne
    rw [hd] at e; cases e
  exact ⟨hf, h5 hf⟩

/-- C64: how deep it can be at worst. -/
theorem C64_clear_bound (d : Cl1 σ T) {m : Stk T} (hm : m.len = m.list.length) (s : σ) :
    (m.clear d s).2.depth ≤ max 1 (m.len - 1) := by
  obtain ⟨-, -, -, -, h⟩ := clearLoop_spec d m.elems s
  have : ∀ l : Cells T, (sole l).length ≤ l.length := by
    intro l
    induction l with
    | nil => exact Nat.le_refl _
    | cons e l ih =>
      obtain ⟨x, _ | _⟩ := e
      · simpa [sole] using ih
      · simp [sole]
  have h2 := this m.elems
  have h3 : m.len = m.elems.length := by rw [hm, Stk.list, List.length_map]
  change (clearLoop d m.elems s).depth ≤ _
  omega

/-- C64 is false if a destructor panics: for any `n` there is a stack of `n + 1` elements, shared
with no one, and a `Drop` that panics once, for which `clear` nests destructors `n` deep. -/
theorem C64_clear_false (n : Nat) (hn : 0 < n) :
    ∃ (m : Stk Nat) (d : Cl1 Unit Nat), m.len = m.list.length ∧ m.len = n + 1 ∧
      (∀ x ∈ m.list.tail, ∀ s, (d x s).1 = false) ∧
      (m.clear d ()).2.how = .panic ∧ (m.clear d ()).2.depth = n := by
  refine ⟨⟨n + 1, (0, false) :: List.replicate n (1, false)⟩, fun x _ => (x == 0, ()), by simp
    [Stk.list], rfl, ?_, ?_⟩
  · intro x hx s
    simp only [Stk.list, List.map_cons, List.tail_cons, List.map_replicate] at hx
    rw [(List.mem_replicate.1 hx).2]; rfl
  · obtain ⟨h1, h2⟩ := clearLoop_first (d := fun (x : Nat) (_ : Unit) => (x == 0, ())) (x := 0)
      (l := List.replicate n (1, false)) (s := ()) rfl (by
        intro y hy
        rw [(List.mem_replicate.1 hy).2]
        exact ⟨rfl, fun _ => rfl⟩)
    refine ⟨h1, ?_⟩
    have : (Stk.clear (fun (x : Nat) (_ : Unit) => (x == 0, ()))
      ⟨n + 1, (0, false) :: List.replicate n (1, false)⟩ ()).2.depth = _ := h2
    rw [this, List.length_replicate]
    omega

end Verif.Props

/-! ## Examples -/
namespace Verif.DemoS
open Verif.Props Verif.Unwind.Stk Verif.Wild

/-- A stack 4 3 2 1 whose two lower nodes are shared with another one. -/
def m : Stk Nat := ⟨4, [(4, false), (3, false), (2, true), (1, false)]⟩

/-- `Clone` that panics from the `n`-th call on, as the state counts down. -/
def boom : Cl1 Nat Nat := fun _ n => (n == 0, n - 1)

example : m.len = m.list.length := rfl
/-- Removing the third from the top: its `Clone` panics, and it is gone. -/
example : m.remove boom 1 0 = some (.unwound ⟨3, [(4, false), (3, false), (1, true)]⟩, 0) := rfl
/-- Removing the lowest: the copy of the third panics, and nothing has changed. -/
example : m.remove boom 0 0 = some (.unwound m, 0) := rfl
/-- The same, if the panic comes with the second clone: a copy has been made, and 1 is gone. -/
example : m.remove boom 0 1 = some (.unwound ⟨3, [(4, false), (3, false), (2, false)]⟩, 0) := rfl
example : m.remove boom 0 2 = some (.done (⟨3, [(4, false), (3, false), (2, false)]⟩, some 1), 0) :=
  rfl
example : m.remove boom 4 0 = some (.done (m, none), 0) := rfl
example : m.splitOff boom 1 0 = some (.unwound m, 0) := rfl
example : m.splitOff boom 1 1 =
    some (.done (⟨1, [(1, true)]⟩, some ⟨3, [(4, false), (3, false), (2, false)]⟩), 0) := rfl
example : m.iterMut boom (· + 10) 3 0 =
    (.unwound ⟨4, [(14, false), (13, false), (2, true), (1, false)]⟩, 0) := rfl
/-- `pop` of a shared node. -/
example : (⟨2, [(2, true), (1, false)]⟩ : Stk Nat).pop boom 0 = some (.unwound ⟨1, [(1, true)]⟩, 0) :=
  rfl
example : (⟨2, [(2, true), (1, false)]⟩ : Stk Nat).topMut boom (· + 1) 0 =
    some (.unwound ⟨2, [(2, true), (1, false)]⟩, 0) := rfl

/-- A program with two panics of `Clone` and one of `Drop`, and what it leaves. -/
def prog : List (Cmd Nat Nat) :=
  [.push 0 1, .push 0 2, .clone 0 1, .pop 0 boom, .push 1 3, .remove 1 boom 0, .splitOff 1 2 boom 1,
   .clear 0 (fun x s => (x == 1, s)), .clear 1 (fun x s => (x == 3, s))]

example : AllOk (fun _ => Stk.new : Stks Nat) := fun _ => rfl
example : (run (fun _ => Stk.new) 0 prog).map (fun r => ((r.1 0).list, (r.1 1).list, r.1 2)) =
    some ([], [], ⟨0, []⟩) := rfl
example : (run (fun _ => Stk.new) 0 (prog.take 6)).map
    (fun r => ((r.1 0).list, (r.1 1).list, r.1 2)) = some ([1], [3, 2, 1], ⟨0, []⟩) := rfl

/-- Five elements of a stack of its own, the destructor of the second of which panics: the other
three are destroyed one within the other. -/
example :
    let r := (Stk.clear (fun x s => (x == 4, s))
      (⟨5, [(5, false), (4, false), (3, false), (2, false), (1, false)]⟩ : Stk Nat) ()).2
    (r.how, r.out, r.depth) = (.panic, [5, 4, 3, 2, 1], 3) := rfl
/-- A second one aborts. -/
example :
    let r := (Stk.clear (fun x s => (x == 4 || x == 2, s))
      (⟨5, [(5, false), (4, false), (3, false), (2, false), (1, false)]⟩ : Stk Nat) ()).2
    (r.how, r.out, r.depth) = (.abort, [5, 4, 3, 2], 2) := rfl
/-- None panics. -/
example :
    let r := (Stk.clear (fun _ s => (false, s))
      (⟨3, [(5, false), (4, false), (3, true)]⟩ : Stk Nat) ()).2
    (r.how, r.out, r.depth) = (.fine, [5, 4], 1) := rfl

end Verif.DemoS
