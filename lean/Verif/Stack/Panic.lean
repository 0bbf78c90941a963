import Verif.Stack.Machine
/-!
# `Stack` on reference-counted memory when `Clone` of an element panics

Each operation is given a number `k`: the call of `Clone` after the `k`-th panics.  (An operation
calls `Clone` no more after that, so this covers every behaviour of `Clone`.)  A panic is caught by
the caller; what the operation has done to memory and to its stack by then stays, and its local
variables are dropped.  The programs follow `Verif.Stack.Model`; a node that was opened on the way
is closed with the link as the panic left it.
-/
namespace Verif.Stack
open Heap
variable {T : Type}

/-- `Rc::make_mut` with up to `k` calls of `Clone`: whether it panicked, the link, and how many
calls are left.  `derive(Clone)` of `List` (stack.rs:6) clones the element first, so that nothing has
changed when that panics. -/
def makeMutC (D k a : Nat) : Prog T (Bool × Nat × Nat) :=
  (lift (.isUnique a)).bind fun (b : Bool) =>
    if b then .pure (false, a, k) else
      match k with
      | 0 => .pure (true, a, 0)
      | k + 1 =>
        (lift (.read a [])).bind fun n =>
        (cloneKids a 0 n.kids.length).bind fun ks =>
        (lift (.alloc ⟨n.data, ks⟩)).bind fun a' =>
        (drop D (some a)).bind fun _ => .pure (false, a', k)

namespace Stack

/-- stack.rs:249-254 `top_mut`; `none`: `Clone` panicked. -/
def topMutC (s : Stack T) (k : Nat) (g : T → T) : Prog T (Stack T × Option Bool) :=
  match s.elems with
  | none => .pure (s, some false)
  | some a =>
    (makeMutC (s.len + 1) k a).bind fun x =>
      if x.1 then .pure (⟨s.len, some x.2.1⟩, none)
      else
        (lift (.open x.2.1)).bind fun n =>
        (lift (.close x.2.1 ⟨g n.data, n.kids⟩)).bind fun _ =>
          .pure (⟨s.len, some x.2.1⟩, some true)

/-- The two arms of `match Rc::try_unwrap(rc)` in `pop` (stack.rs:267-277) and `remove`
(392-402): the new link, the element unless `Clone` panicked, and how many calls are left.  The link
is cloned and stored before the element is cloned; `rc` is dropped either way. -/
def unlinkC (D k a : Nat) : Prog T (Option Nat × Option T × Nat) :=
  (lift (.tryUnwrap a)).bind fun
    | some n =>
      match n.kids with
      | [rest] => .pure (rest, some n.data, k)
      | _ => .panic
    | none =>
      (lift (.incAt a [] 0)).bind fun rest =>
      (lift (.read a [])).bind fun n =>
      (drop D (some a)).bind fun _ => .pure (rest, if k = 0 then none else some n.data, k - 1)

/-- stack.rs:257-280 `pop`: the outer `none` is a panic of `Clone`; how many calls are left. -/
def popC (s : Stack T) (k : Nat) : Prog T (Stack T × Option (Option T) × Nat) :=
  match s.elems with
  | none => .pure (s, some none, k)
  | some a =>
    if s.len = 0 then .panic else
      (unlinkC (s.len + 1) k a).bind fun x => .pure (⟨s.len - 1, x.1⟩, x.2.1.map some, x.2.2)

/-- stack.rs:84-97 `IterMut::next`, called `n` times (or until the end): whether `Clone` panicked,
and the link. -/
def iterMutLoopC (D : Nat) (g : Nat → T → T) :
    Nat → Nat → Nat → Option Nat → Prog T (Bool × Option Nat)
  | _, 0, _, link => .pure (false, link)
  | _, _ + 1, _, none => .pure (false, none)
  | i, n + 1, k, some a =>
    (makeMutC D k a).bind fun x =>
      if x.1 then .pure (true, some x.2.1)
      else
        (lift (.open x.2.1)).bind fun c =>
        match c.kids with
        | [rest] =>
          (iterMutLoopC D g (i + 1) n x.2.2 rest).bind fun y =>
          (lift (.close x.2.1 ⟨g i c.data, [y.2]⟩)).bind fun _ => .pure (y.1, some x.2.1)
        | _ => .panic

/-- stack.rs:189-193 `iter_mut` with up to `n` calls of `next`. -/
def iterMutC (s : Stack T) (k n : Nat) (g : Nat → T → T) : Prog T (Stack T × Bool) :=
  (iterMutLoopC (s.len + 1) g 0 n k s.elems).bind fun x => .pure (⟨s.len, x.2⟩, x.1)

/-- How the loop of `remove` and what follows end. -/
inductive Rm (T : Type) where
  /-- `make_mut` panicked, before `self.len -= 1` -/
  | walk
  /-- `n.elem.clone()` panicked, at the end -/
  | last
  | done (x : T)

/-- stack.rs:378-402, the loop of `remove` and what follows. -/
def removeLoopC (D : Nat) : Nat → Nat → Option Nat → Prog T (Option Nat × Rm T)
  | _, _, none => .panic
  | 0, k, some a =>
    (unlinkC D k a).bind fun x =>
      .pure (x.1, match x.2.1 with
        | none => .last
        | some y => .done y)
  | i + 1, k, some a =>
    (makeMutC D k a).bind fun x =>
      if x.1 then .pure (some x.2.1, .walk)
      else
        (lift (.open x.2.1)).bind fun c =>
        match c.kids with
        | [rest] =>
          (removeLoopC D i x.2.2 rest).bind fun y =>
          (lift (.close x.2.1 ⟨c.data, [y.1]⟩)).bind fun _ => .pure (some x.2.1, y.2)
        | _ => .panic

/-- stack.rs:367-403 `remove`; `len` is counted down between the loop and the last `match`. -/
def removeC (s : Stack T) (k i : Nat) : Prog T (Stack T × Option T) :=
  if i ≥ s.len then .panic else
    (removeLoopC (s.len + 1) (s.len - 1 - i) k s.elems).bind fun x =>
      .pure (match x.2 with
        | .walk => (⟨s.len, x.1⟩, none)
        | .last => (⟨s.len - 1, x.1⟩, none)
        | .done y => (⟨s.len - 1, x.1⟩, some y))

/-- stack.rs:452-464, the loop of `split_off` and the split: (bottom, top), or `true` and the whole
list if `Clone` panicked. -/
def splitLoopC (D : Nat) : Nat → Nat → Option Nat → Prog T (Bool × Option Nat × Option Nat)
  | 0, _, curr => .pure (false, curr, none)
  | _ + 1, _, none => .panic
  | i + 1, k, some a =>
    (makeMutC D k a).bind fun x =>
      if x.1 then .pure (true, none, some x.2.1)
      else
        (lift (.open x.2.1)).bind fun c =>
        match c.kids with
        | [rest] =>
          (splitLoopC D i x.2.2 rest).bind fun y =>
          (lift (.close x.2.1 ⟨c.data, [y.2.2]⟩)).bind fun _ => .pure (y.1, y.2.1, some x.2.1)
        | _ => .panic

/-- stack.rs:426-473 `split_off`: what is left and what is returned (unless `Clone` panicked). -/
def splitOffC (s : Stack T) (k i : Nat) : Prog T (Stack T × Option (Stack T)) :=
  if i > s.len then .panic
  else if i = 0 then .pure (new, some ⟨s.len, s.elems⟩)
  else if i = s.len then .pure (s, some new)
  else
    (splitLoopC (s.len + 1) (s.len - i) k s.elems).bind fun x =>
      .pure (if x.1 then (⟨s.len, x.2.2⟩, none)
        else (⟨s.len - (s.len - i), x.2.1⟩, some ⟨s.len - i, x.2.2⟩))

/-- stack.rs:99-109, 526-528 `IntoIter`: up to `n` calls of `next`, until `Clone` panics. -/
def intoIterRunC (s : Stack T) (k : Nat) : Nat → Prog T (Stack T × Option (List (Option T)))
  | 0 => .pure (s, some [])
  | n + 1 =>
    (popC s k).bind fun x =>
      match x.2.1 with
      | none => .pure (x.1, none)
      | some z => (intoIterRunC x.1 x.2.2 n).bind fun y => .pure (y.1, y.2.map (z :: ·))

end Stack

/-! ## What they do -/

variable {s : Stack T} {l : List T} {L : Multiset (Handle T)}

theorem wp_makeMutC {D k a : Nat} {p : T} {ts : List (VT T)} (hd : (VT.node p ts).Dep D) :
    wp (makeMutC D k a) (own (some a) (.node p ts)) (fun x L' =>
      (x.1 = true ∧ k = 0 ∧ L' = own (some x.2.1) (.node p ts)) ∨
      (x.1 = false ∧ k ≤ x.2.2 + 1 ∧ L' = uown x.2.1 (.node p ts))) := by
  refine wp_isUnique 0 rfl (wp_pure (.inr ⟨rfl, by simp, rfl⟩)) ?_
  simp only [Bool.false_eq_true, if_false]
  rcases k with _ | k
  · exact wp_pure (.inl ⟨rfl, rfl, rfl⟩)
  · refine wp_read (u := false) 0 rfl rfl ?_
    intro n hn hl _
    subst hn
    refine wp_call 0 (wp_cloneKids (p := n.data) (ts := ts) (u := false) (by omega)) rfl ?_
    rintro ks _ ⟨h1, rfl⟩
    rw [List.drop_zero] at h1
    rw [List.drop_zero]
    refine wp_alloc {⟨some a, .node n.data ts, false⟩} h1 (by rw [add_zero]) ?_
    intro a'
    refine wp_call (uown a' (.node n.data ts)) (wp_drop hd) (by rw [add_comm]; rfl) ?_
    rintro _ _ rfl
    exact wp_pure (.inr ⟨rfl, Nat.le_refl _, by rw [zero_add]⟩)

theorem topMutC_spec (h : Holds s l L) (k : Nat) (g : T → T) :
    wp (s.topMutC k g) L (fun x L' =>
      (x.2 = none ∧ k = 0 ∧ l ≠ [] ∧ Holds x.1 l L') ∨
      (x.2 = some (!l.isEmpty) ∧ Holds x.1 (l.modifyHead g) L')) := by
  obtain ⟨h1, rfl⟩ := h
  unfold Stack.topMutC
  refine wp_vt_cases 0 (add_zero _).symm ?_ ?_
  · intro e1 e2
    rw [e1, e2]
    exact wp_pure (.inr ⟨rfl, by rw [h1, e2]; rfl, by simp [vt, e1]⟩)
  · intro a x xs e1 e2
    rw [e1]
    have hd : (vt (x :: xs)).Dep (s.len + 1) := vt_dep _ (by rw [h1, e2]; omega)
    refine wp_call 0 (wp_makeMutC hd) rfl ?_
    rintro ⟨p, a', k'⟩ _ (⟨rfl, hk, rfl⟩ | ⟨rfl, -, rfl⟩)
    · simp only [if_true]
      exact wp_pure (.inl ⟨rfl, hk, by simp [e2], h1, by rw [e2, add_zero]; rfl⟩)
    · simp only [Bool.false_eq_true, if_false]
      refine wp_open 0 rfl ?_
      intro ks hl
      refine wp_close (p := x) (q := g x) 0 hl (by simp) ?_
      refine wp_forget 0 rfl (wp_pure (.inr ?_))
      rw [e2, add_zero]
      exact ⟨rfl, by simp [h1, e2], rfl⟩

theorem unlinkC_spec {D k a : Nat} {x : T} {xs : List T} (hD : (vt (x :: xs)).Dep D) :
    wp (Stack.unlinkC D k a) (own (some a) (vt (x :: xs))) (fun y L' =>
      ((y.2.1 = none ∧ k = 0) ∨ (y.2.1 = some x ∧ k ≤ y.2.2 + 1)) ∧ L' = own y.1 (vt xs)) := by
  refine wp_tryUnwrap (p := x) (ts := [vt xs]) 0 rfl ?_ ?_
  · dsimp only
    refine wp_incAt (u := false) (p := x) (ts := [vt xs]) 0 rfl rfl (by simp) ?_
    intro r
    refine wp_read (u := false) (t := vt (x :: xs)) (own r (vt xs)) (by rw [add_comm]; rfl) rfl ?_
    intro n hn _ _
    refine wp_call (own r (vt xs)) (wp_drop (r := some a) hD) (by rw [add_comm]; rfl) ?_
    rintro _ _ rfl
    refine wp_pure ⟨?_, by rw [zero_add]⟩
    by_cases hk : k = 0
    · exact .inl ⟨by simp [hk], hk⟩
    · exact .inr ⟨by simp [hk, hn], by simp only; omega⟩
  · intro ks hl
    obtain ⟨r, rfl⟩ := one_link hl
    exact wp_pure ⟨.inr ⟨rfl, by simp⟩, by simp⟩

theorem popC_spec (h : Holds s l L) (k : Nat) :
    wp (s.popC k) L (fun x L' => ((x.2.1 = none ∧ k = 0 ∧ l ≠ []) ∨
      (x.2.1 = some l.head? ∧ k ≤ x.2.2 + 1)) ∧
      Holds x.1 l.tail L') := by
  obtain ⟨h1, rfl⟩ := h
  unfold Stack.popC
  refine wp_vt_cases 0 (add_zero _).symm ?_ ?_
  · intro e1 e2
    rw [e1, e2]
    exact wp_pure ⟨.inr ⟨rfl, by simp⟩, by rw [h1, e2]; rfl, by simp [vt, e1]⟩
  · intro a x xs e1 e2
    rw [e1]
    have hd : (vt (x :: xs)).Dep (s.len + 1) := vt_dep _ (by rw [h1, e2]; omega)
    have hl : s.len ≠ 0 := by rw [h1, e2]; simp
    simp only [hl, if_false]
    refine wp_call 0 (unlinkC_spec (k := k) hd) rfl ?_
    rintro ⟨r, y, k'⟩ _ ⟨e, rfl⟩
    refine wp_pure ?_
    rw [e2, add_zero]
    refine ⟨?_, by simp [h1, e2], rfl⟩
    rcases e with ⟨e, hk⟩ | ⟨e, hk⟩
    · exact .inl ⟨by simp only at e; simp [e], hk, by simp⟩
    · exact .inr ⟨by simp only at e; simp [e], hk⟩

theorem iterMutLoopC_spec {D : Nat} (g : Nat → T → T) :
    ∀ {n i k : Nat} {r : Option Nat} {l : List T}, l.length ≤ D →
    wp (Stack.iterMutLoopC D g i n k r) (own r (vt l)) (fun x L' =>
      (x.1 = true ∧ ∃ j, k ≤ j ∧ j < n ∧ j < l.length ∧
        L' = own x.2 (vt ((l.take j).mapIdx (fun m y => g (i + m) y) ++ l.drop j))) ∨
      (x.1 = false ∧
        L' = own x.2 (vt ((l.take n).mapIdx (fun j x => g (i + j) x) ++ l.drop n)))) := by
  intro n
  induction n with
  | zero => intro i k r l _; exact wp_pure (.inr (by simp))
  | succ n ih =>
    intro i k r l hD
    refine wp_vt_cases (r := r) (l := l) 0 (add_zero _).symm ?_ ?_
    · rintro rfl rfl; exact wp_pure (.inr (by simp [vt]))
    · rintro a x xs rfl rfl
      have hd := vt_dep (x :: xs) hD
      refine wp_call 0 (wp_makeMutC hd) rfl ?_
      rintro ⟨p, a', k'⟩ _ (⟨rfl, hk, rfl⟩ | ⟨rfl, hk, rfl⟩)
      · simp only [if_true]
        exact wp_pure (.inl ⟨rfl, 0, by omega, by omega, by simp, by rw [add_zero]; rfl⟩)
      · simp only [Bool.false_eq_true, if_false]
        refine wp_open 0 rfl ?_
        intro ks hl
        obtain ⟨rest, rfl⟩ := one_link hl
        dsimp only
        refine wp_call (uown a' (.node x [])) (ih (l := xs) (i := i + 1) (k := k')
          (by simp at hD; omega)) (by simp [add_comm]) ?_
        rintro ⟨q, r'⟩ _ (⟨rfl, j, h1, h2, h3, rfl⟩ | ⟨rfl, rfl⟩)
        · refine wp_close (q := g i x) (ts := [_]) 0 rfl (by
            rw [owns_cons, owns_nil, add_zero, add_zero, add_comm]) ?_
          refine wp_forget 0 rfl (wp_pure (.inl ⟨rfl, j + 1, ?_, by omega, by simpa using h3, ?_⟩))
          · simp only at hk; omega
          · rw [add_zero, List.take_succ_cons, List.mapIdx_cons, List.drop_succ_cons,
              List.cons_append, vt]
            simp only [Nat.add_zero, Nat.add_assoc, Nat.add_comm 1]
        · refine wp_close (q := g i x) (ts := [_]) 0 rfl (by
            rw [owns_cons, owns_nil, add_zero, add_zero, add_comm]) ?_
          refine wp_forget 0 rfl (wp_pure (.inr ⟨rfl, ?_⟩))
          rw [add_zero, List.take_succ_cons, List.mapIdx_cons, List.drop_succ_cons,
            List.cons_append, vt]
          simp only [Nat.add_zero, Nat.add_assoc, Nat.add_comm 1]

theorem iterMutC_spec (h : Holds s l L) (k n : Nat) (g : Nat → T → T) :
    wp (s.iterMutC k n g) L (fun x L' =>
      (x.2 = true ∧ ∃ j, k ≤ j ∧ j < n ∧ j < l.length ∧
        Holds x.1 ((l.take j).mapIdx g ++ l.drop j) L') ∨
      (x.2 = false ∧ Holds x.1 ((l.take n).mapIdx g ++ l.drop n) L')) := by
  obtain ⟨h1, rfl⟩ := h
  refine wp_call 0 (iterMutLoopC_spec g (k := k) (l := l) (by omega)) (add_zero _).symm ?_
  rintro ⟨p, r'⟩ _ (⟨rfl, j, h2, h3, h4, rfl⟩ | ⟨rfl, rfl⟩)
  · refine wp_pure (.inl ⟨rfl, j, h2, h3, h4, ?_, by simp⟩)
    simp [h1]
    omega
  · refine wp_pure (.inr ⟨rfl, ?_, by simp⟩)
    simp [h1]
    omega

theorem removeLoopC_spec {D : Nat} : ∀ {i k : Nat} {r : Option Nat} {l : List T}, l.length ≤ D →
    ∀ (hi : i < l.length),
    wp (Stack.removeLoopC D i k r) (own r (vt l)) (fun x L' =>
      match x.2 with
      | .walk => k < i ∧ L' = own x.1 (vt l)
      | .last => k ≤ i ∧ L' = own x.1 (vt (l.eraseIdx i))
      | .done y => y = l[i] ∧ L' = own x.1 (vt (l.eraseIdx i))) := by
  intro i
  induction i with
  | zero =>
    intro k r l hD hi
    refine wp_vt_cases (r := r) (l := l) 0 (add_zero _).symm ?_ ?_
    · rintro rfl rfl; simp at hi
    · rintro a x xs rfl rfl
      refine wp_call 0 (unlinkC_spec (k := k) (vt_dep _ hD)) rfl ?_
      rintro ⟨r, y, k'⟩ _ ⟨⟨e, hk⟩ | ⟨e, -⟩, rfl⟩
      · simp only at e
        subst e
        exact wp_pure ⟨by omega, by rw [add_zero]; rfl⟩
      · simp only at e
        subst e
        exact wp_pure ⟨rfl, by rw [add_zero]; rfl⟩
  | succ i ih =>
    intro k r l hD hi
    refine wp_vt_cases (r := r) (l := l) 0 (add_zero _).symm ?_ ?_
    · rintro rfl rfl; simp at hi
    · rintro a x xs rfl rfl
      refine wp_call 0 (wp_makeMutC (vt_dep (x :: xs) hD)) rfl ?_
      rintro ⟨p, a', k'⟩ _ (⟨rfl, hk, rfl⟩ | ⟨rfl, hk, rfl⟩)
      · simp only [if_true]
        exact wp_pure ⟨by omega, by rw [add_zero]; rfl⟩
      · simp only [Bool.false_eq_true, if_false]
        refine wp_open 0 rfl ?_
        intro ks hl
        obtain ⟨rest, rfl⟩ := one_link hl
        dsimp only
        refine wp_call (uown a' (.node x [])) (ih (l := xs) (k := k') (by simp at hD; omega)
          (by simpa using hi)) (by simp [add_comm]) ?_
        simp only at hk
        rintro ⟨r', y⟩ M hy
        rcases y with _ | _ | y <;> obtain ⟨e, rfl⟩ := hy
        all_goals
          refine wp_close (q := x) (ts := [_]) 0 rfl (by
            rw [owns_cons, owns_nil, add_zero, add_zero, add_comm]) ?_
          refine wp_forget 0 rfl (wp_pure ?_)
          rw [add_zero]
        · exact ⟨by omega, rfl⟩
        · exact ⟨by omega, rfl⟩
        · exact ⟨by rw [e]; rfl, rfl⟩

theorem removeC_spec (h : Holds s l L) (k : Nat) {i : Nat} (hi : i < l.length) :
    wp (s.removeC k i) L (fun x L' =>
      (x.2 = none ∧ k < l.length - i ∧
        (Holds x.1 l L' ∨ Holds x.1 (l.eraseIdx (l.length - 1 - i)) L')) ∨
      (x.2 = some l[l.length - 1 - i] ∧ Holds x.1 (l.eraseIdx (l.length - 1 - i)) L')) := by
  obtain ⟨h1, rfl⟩ := h
  unfold Stack.removeC
  have : ¬ (i ≥ s.len) := by omega
  simp only [this, if_false]
  have hi' : s.len - 1 - i < l.length := by omega
  have hlen : s.len - 1 = (l.eraseIdx (l.length - 1 - i)).length := by
    simp only [h1, List.length_eraseIdx]
    rw [if_pos (by omega)]
  refine wp_call 0 (removeLoopC_spec (k := k) (by omega) hi') (add_zero _).symm ?_
  rintro ⟨r, y⟩ M hy
  rcases y with _ | _ | y <;> obtain ⟨e, rfl⟩ := hy
  · exact wp_pure (.inl ⟨rfl, by omega, .inl ⟨h1, by rw [add_zero]⟩⟩)
  · exact wp_pure (.inl ⟨rfl, by omega, .inr ⟨hlen, by rw [add_zero, h1]⟩⟩)
  · exact wp_pure (.inr ⟨by simp only [e, h1], hlen, by rw [add_zero, h1]⟩)

theorem splitLoopC_spec {D : Nat} : ∀ {i k : Nat} {r : Option Nat} {l : List T}, l.length ≤ D →
    i ≤ l.length →
    wp (Stack.splitLoopC D i k r) (own r (vt l)) (fun x L' =>
      (x.1 = true ∧ k < i ∧ L' = own x.2.2 (vt l)) ∨
      (x.1 = false ∧ L' = own x.2.1 (vt (l.drop i)) + own x.2.2 (vt (l.take i)))) := by
  intro i
  induction i with
  | zero => intro k r l hD _; exact wp_pure (.inr (by simp [vt]))
  | succ i ih =>
    intro k r l hD hi
    refine wp_vt_cases (r := r) (l := l) 0 (add_zero _).symm ?_ ?_
    · rintro rfl rfl; simp at hi
    · rintro a x xs rfl rfl
      refine wp_call 0 (wp_makeMutC (vt_dep (x :: xs) hD)) rfl ?_
      rintro ⟨p, a', k'⟩ _ (⟨rfl, hk, rfl⟩ | ⟨rfl, hk, rfl⟩)
      · simp only [if_true]
        exact wp_pure (.inl ⟨rfl, by omega, by rw [add_zero]; rfl⟩)
      · simp only [Bool.false_eq_true, if_false]
        refine wp_open 0 rfl ?_
        intro ks hl
        obtain ⟨rest, rfl⟩ := one_link hl
        dsimp only
        refine wp_call (uown a' (.node x [])) (ih (l := xs) (k := k') (by simp at hD; omega)
          (by simpa using hi)) (by simp [add_comm]) ?_
        simp only at hk
        rintro ⟨q, b, t⟩ _ (⟨rfl, h2, rfl⟩ | ⟨rfl, rfl⟩)
        · refine wp_close (q := x) (ts := [_]) 0 rfl (by
            rw [owns_cons, owns_nil, add_zero, add_zero, add_comm]) ?_
          refine wp_forget 0 rfl (wp_pure (.inl ⟨rfl, by omega, ?_⟩))
          rw [add_zero]; rfl
        · refine wp_close (q := x) (ts := [vt (xs.take i)]) (own b (vt (xs.drop i))) rfl (by
            rw [owns_cons, owns_nil, add_zero]; ac_rfl) ?_
          refine wp_forget (own b (vt (xs.drop i))) rfl (wp_pure (.inr ⟨rfl, ?_⟩))
          rw [List.drop_succ_cons, List.take_succ_cons, add_comm]
          rfl

theorem splitOffC_spec (h : Holds s l L) (k : Nat) {i : Nat} (hi : i ≤ l.length) :
    wp (s.splitOffC k i) L (fun x L' =>
      (x.2 = none ∧ 0 < i ∧ k < l.length - i ∧ Holds x.1 l L') ∨
      ∃ t L1 L2, x.2 = some t ∧ L' = L1 + L2 ∧
        Holds x.1 (l.drop (l.length - i)) L1 ∧ Holds t (l.take (l.length - i)) L2) := by
  obtain ⟨h1, rfl⟩ := h
  unfold Stack.splitOffC
  have : ¬ (i > s.len) := by omega
  simp only [this, if_false]
  by_cases hz : i = 0
  · subst hz
    simp only [if_true]
    refine wp_pure (.inr ⟨_, 0, _, rfl, (zero_add _).symm,
      ⟨by simp [Stack.new], by simp [Stack.new, vt]⟩, ?_⟩)
    exact ⟨by simp [h1], by simp⟩
  · simp only [hz, if_false]
    by_cases hl : i = s.len
    · subst hl
      simp only [if_true]
      refine wp_pure (.inr ⟨_, _, 0, rfl, (add_zero _).symm, ⟨by simp [h1], by simp [h1]⟩, ?_⟩)
      exact ⟨by simp [Stack.new, h1], by simp [Stack.new, h1, vt]⟩
    · simp only [hl, if_false]
      refine wp_call 0 (splitLoopC_spec (k := k) (l := l) (i := s.len - i) (by omega) (by omega))
        (add_zero _).symm ?_
      rintro ⟨q, b, t⟩ _ (⟨rfl, h2, rfl⟩ | ⟨rfl, rfl⟩)
      · exact wp_pure (.inl ⟨rfl, by omega, by omega, h1, by rw [add_zero]; rfl⟩)
      · rw [add_zero]
        refine wp_pure (.inr ⟨_, _, _, rfl, rfl, ⟨?_, ?_⟩, ⟨?_, ?_⟩⟩) <;> simp [h1]

theorem intoIterRunC_spec : ∀ (n : Nat) {k : Nat} {s : Stack T} {l : List T}
    {L : Multiset (Handle T)}, Holds s l L →
    wp (s.intoIterRunC k n) L (fun x L' =>
      (x.2 = none ∧ ∃ j, k ≤ j ∧ j < n ∧ j < l.length ∧ Holds x.1 (l.drop (j + 1)) L') ∨
      (x.2 = some ((List.range n).map (fun j => l[j]?)) ∧ Holds x.1 (l.drop n) L'))
  | 0, k, s, l, L, h => wp_pure (.inr (by simpa using h))
  | n + 1, k, s, l, L, h => by
    refine wp_call 0 (popC_spec h k) (add_zero _).symm ?_
    rintro ⟨s1, o, k'⟩ L' ⟨⟨e, hk, hl⟩ | ⟨e, hk⟩, h'⟩
    · simp only at e
      subst e
      refine wp_pure (.inl ⟨rfl, 0, by omega, by omega, List.length_pos_iff.2 hl, ?_⟩)
      rw [add_zero]
      simpa using h'
    · simp only at e hk h'
      subst e
      rw [add_zero]
      dsimp only
      refine wp_call 0 (intoIterRunC_spec n (k := k') h') (add_zero _).symm ?_
      rintro ⟨s2, y⟩ L'' (⟨e2, j, h2, h3, h4, h5⟩ | ⟨e2, h5⟩)
      · simp only at e2
        subst e2
        refine wp_pure (.inl ⟨rfl, j + 1, by omega, by omega, by simp at h4; omega, ?_⟩)
        rw [add_zero]
        simpa using h5
      · simp only at e2
        subst e2
        refine wp_pure (.inr ⟨?_, ?_⟩)
        · rw [List.range_succ_eq_map, List.map_cons, List.map_map]
          simp only [Option.map_some, Function.comp_def]
          congr 2
          · exact List.head?_eq_getElem?
          · simp
        · rw [add_zero]
          simpa using h5

/-! ## Histories -/

/-- An operation on one stack, `Clone` panicking after `k` calls; the observation is `none` if it
did. -/
def cprog1 (c : Cmps T) (k : Nat) (s : Stack T) :
    SOp T → Prog T (Option (Stack T) × List (Stack T) × Option (Obs T))
  | .pop _ => (s.popC k).bind fun x => .pure (some x.1, [], x.2.1.map .elem)
  | .topMut _ g => (s.topMutC k g).bind fun x => .pure (some x.1, [], x.2.map .bool)
  | .iterMut _ n g =>
    (s.iterMutC k n g).bind fun x => .pure (some x.1, [], if x.2 then none else some .unit)
  | .intoIter _ n => (s.intoIterRunC k n).bind fun x => .pure (some x.1, [], x.2.map .seq)
  | .remove _ i =>
    (s.removeC k i).bind fun x => .pure (some x.1, [], x.2.map (fun y => .elem (some y)))
  | .splitOff _ i =>
    (s.splitOffC k i).bind fun x => .pure (some x.1, x.2.toList, x.2.map (fun _ => .unit))
  | o => (prog1 c s o).bind fun x => .pure (x.1, x.2.1, some x.2.2)

/-- One operation, `Clone` panicking after `k` calls.  A panic of `Clone` is caught; the stack is
what the operation left behind the `&mut`. -/
def cstep (c : Cmps T) (k : Nat) (o : SOp T) (st : State T) : Option (State T × Option (Obs T)) :=
  match o.uses with
  | .one i =>
    match st.regs[i]? with
    | some (some s) =>
      match (cprog1 c k s o).exec st.mem with
      | none => none
      | some (h, none) => some (⟨h, st.regs⟩, some .panicked)
      | some (h, some x) => some (⟨h, st.regs.set i x.1 ++ x.2.1.map some⟩, x.2.2)
    | _ => some (st, some .noReg)
  | _ => (hstep c o st).map (fun x => (x.1, some x.2))

/-- A history in which every operation has a `Clone` of its own. -/
def crun (c : Cmps T) : List (Nat × SOp T) → State T → Option (State T × List (Option (Obs T)))
  | [], st => some (st, [])
  | (k, o) :: os, st =>
    match cstep c k o st with
    | none => none
    | some (st', x) => (crun c os st').map (fun y => (y.1, x :: y.2))

/-- What an operation on the list `l` may leave if `Clone` panics at the call after the `k`-th. -/
def Cut (l : List T) (k : Nat) (l' : List T) : SOp T → Prop
  | .pop _ => k = 0 ∧ l ≠ [] ∧ l' = l.tail
  | .topMut _ _ => k = 0 ∧ l ≠ [] ∧ l' = l
  | .iterMut _ n g => ∃ j, k ≤ j ∧ j < n ∧ j < l.length ∧ l' = (l.take j).mapIdx g ++ l.drop j
  | .intoIter _ n => ∃ j, k ≤ j ∧ j < n ∧ j < l.length ∧ l' = l.drop (j + 1)
  | .remove _ i => i < l.length ∧ k < l.length - i ∧ (l' = l ∨ l' = (l.reverse.eraseIdx i).reverse)
  | .splitOff _ i => 0 < i ∧ k < l.length - i ∧ l' = l
  | _ => False

theorem cprog1_spec (c : Cmps T) (k : Nat) {s : Stack T} {l : List T} {L : Multiset (Handle T)}
    (h : Holds s l L) (o : SOp T) : (∃ i, o.uses = .one i) →
    wp (cprog1 c k s o) L (fun x L' =>
      (x.2.2 = none ∧ x.2.1 = [] ∧ ∃ s' l', x.1 = some s' ∧ Cut l k l' o ∧ Holds s' l' L') ∨
      ∃ b, x.2.2 = some b ∧ Rel1 (x.1, x.2.1, b) (spec1 c l o) L') ∨
      (cprog1 c k s o = .panic ∧ spec1 c l o = (some l, [], .panicked)) := by
  have z : L = L + 0 := (add_zero _).symm
  intro hu
  have plain : cprog1 c k s o = (prog1 c s o).bind (fun x => .pure (x.1, x.2.1, some x.2.2)) →
      wp (cprog1 c k s o) L (fun x L' =>
      (x.2.2 = none ∧ x.2.1 = [] ∧ ∃ s' l', x.1 = some s' ∧ Cut l k l' o ∧ Holds s' l' L') ∨
      ∃ b, x.2.2 = some b ∧ Rel1 (x.1, x.2.1, b) (spec1 c l o) L') ∨
      (cprog1 c k s o = .panic ∧ spec1 c l o = (some l, [], .panicked)) := by
    intro e
    rw [e]
    rcases prog1_spec c h o hu with hw | ⟨hp, hs⟩
    · left
      refine wp_call 0 hw z ?_
      intro x L' hr
      rw [add_zero]
      exact wp_pure (.inr ⟨_, rfl, hr⟩)
    · right
      exact ⟨by rw [hp]; rfl, hs⟩
  obtain ⟨i, hu⟩ := hu
  cases o with
  | new => cases hu
  | fromIter => cases hu
  | eq => cases hu
  | cmp => cases hu
  | partialCmp => cases hu
  | pop i =>
    left
    refine wp_call 0 (popC_spec h k) z ?_
    rintro ⟨s', b, k'⟩ L' ⟨⟨e, h1, h2⟩ | ⟨e, -⟩, h'⟩ <;> simp only at e <;> subst e <;> rw [add_zero]
    · exact wp_pure (.inl ⟨rfl, rfl, _, _, rfl, ⟨h1, h2, rfl⟩, h'⟩)
    · exact wp_pure (.inr ⟨_, rfl, rel1_one _ h'⟩)
  | topMut i g =>
    left
    refine wp_call 0 (topMutC_spec h k g) z ?_
    rintro ⟨s', b⟩ L' (⟨e, h1, h2, h'⟩ | ⟨e, h'⟩) <;> simp only at e <;> subst e <;> rw [add_zero]
    · exact wp_pure (.inl ⟨rfl, rfl, _, _, rfl, ⟨h1, h2, rfl⟩, h'⟩)
    · exact wp_pure (.inr ⟨_, rfl, rel1_one _ h'⟩)
  | iterMut i n g =>
    left
    refine wp_call 0 (iterMutC_spec h k n g) z ?_
    rintro ⟨s', b⟩ L' (⟨e, j, h1, h2, h3, h'⟩ | ⟨e, h'⟩) <;> simp only at e <;> subst e <;>
      rw [add_zero]
    · exact wp_pure (.inl ⟨rfl, rfl, _, _, rfl, ⟨j, h1, h2, h3, rfl⟩, h'⟩)
    · exact wp_pure (.inr ⟨_, rfl, rel1_one _ h'⟩)
  | intoIter i n =>
    left
    refine wp_call 0 (intoIterRunC_spec n (k := k) h) z ?_
    rintro ⟨s', b⟩ L' (⟨e, j, h1, h2, h3, h'⟩ | ⟨e, h'⟩) <;> simp only at e <;> subst e <;>
      rw [add_zero]
    · exact wp_pure (.inl ⟨rfl, rfl, _, _, rfl, ⟨j, h1, h2, h3, rfl⟩, h'⟩)
    · exact wp_pure (.inr ⟨_, rfl, rel1_one _ h'⟩)
  | remove i n =>
    by_cases hn : n < l.length
    · left
      refine wp_call 0 (removeC_spec h k hn) z ?_
      rintro ⟨s', b⟩ L' (⟨e, h1, h'⟩ | ⟨e, h'⟩) <;> simp only at e <;> subst e <;> rw [add_zero]
      · rcases h' with h' | h'
        · exact wp_pure (.inl ⟨rfl, rfl, _, _, rfl, ⟨hn, h1, .inl rfl⟩, h'⟩)
        · exact wp_pure (.inl ⟨rfl, rfl, _, _, rfl, ⟨hn, h1, .inr (rev_eraseIdx hn).symm⟩, h'⟩)
      · refine wp_pure (.inr ⟨_, rfl, ?_⟩)
        simp only [spec1, rev_getElem? hn, rev_eraseIdx hn]
        exact rel1_one _ h'
    · right
      have : n ≥ s.len := by rw [h.1]; omega
      refine ⟨by simp only [cprog1, Stack.removeC, this, if_true]; rfl, ?_⟩
      simp only [spec1]
      rw [List.getElem?_eq_none (by simpa using hn)]
  | splitOff i n =>
    by_cases hn : n ≤ l.length
    · left
      refine wp_call 0 (splitOffC_spec h k hn) z ?_
      rintro ⟨s', b⟩ L' (⟨e, h1, h2, h'⟩ | ⟨t, L1, L2, e, e', h1, h2⟩) <;> simp only at e <;> subst e <;>
        rw [add_zero]
      · exact wp_pure (.inl ⟨rfl, rfl, _, _, rfl, ⟨h1, h2, rfl⟩, h'⟩)
      · refine wp_pure (.inr ⟨_, rfl, ?_⟩)
        simp only [spec1, hn, if_true]
        rw [List.reverse_take, List.reverse_drop, List.reverse_reverse, List.length_reverse]
        exact rel1_two _ e' h1 h2
    · right
      have : n > s.len := by rw [h.1]; omega
      refine ⟨by simp only [cprog1, Stack.splitOffC, this, if_true]; rfl, ?_⟩
      simp only [spec1, hn, if_false]
  | _ => exact plain rfl

/-- One operation: as if the registers were independent lists, or `Clone` panicked and only the list
operated on has changed, as `Cut` says. -/
theorem cstep_sim (c : Cmps T) (k : Nat) (o : SOp T) {st : State T} {ls : List (Option (List T))}
    (hs : Sim st ls) : ∃ st' b ls', cstep c k o st = some (st', b) ∧ Sim st' ls' ∧
      ((b = some (sstep c o ls).2 ∧ ls' = (sstep c o ls).1) ∨
        (b = none ∧ ∃ i l l', o.uses = .one i ∧ ls[i]? = some (some l) ∧ Cut l k l' o ∧
          ls' = ls.set i (some l'))) := by
  have hplain : (∀ i, o.uses ≠ .one i) → ∃ st' b ls', cstep c k o st = some (st', b) ∧ Sim st' ls' ∧
      ((b = some (sstep c o ls).2 ∧ ls' = (sstep c o ls).1) ∨
        (b = none ∧ ∃ i l l', o.uses = .one i ∧ ls[i]? = some (some l) ∧ Cut l k l' o ∧
          ls' = ls.set i (some l'))) := by
    intro hu
    obtain ⟨st', e, h'⟩ := hstep_sim c o hs
    refine ⟨st', _, _, ?_, h', .inl ⟨rfl, rfl⟩⟩
    unfold cstep
    split
    · rename_i i e1; exact absurd e1 (hu i)
    · rw [e]; rfl
  cases hu : o.uses with
  | zero => exact hu ▸ hplain (by rw [hu]; intro i h; cases h)
  | two i j => exact hu ▸ hplain (by rw [hu]; intro i h; cases h)
  | one i =>
    obtain ⟨M, hR, hO⟩ := hs
    unfold cstep sstep
    simp only [hu]
    rcases hR.get i with ⟨e1, e2⟩ | ⟨s, l, L, M', e1, e2, e3, h4, h5⟩
    · simp only [e1, e2]
      exact ⟨st, _, ls, rfl, ⟨M, hR, hO⟩, .inl ⟨rfl, rfl⟩⟩
    · cases h4 with
      | none =>
        simp only [e1, e2]
        exact ⟨st, _, ls, rfl, ⟨M, hR, hO⟩, .inl ⟨rfl, rfl⟩⟩
      | @some s l _ h4 =>
        simp only [e1, e2]
        rcases cprog1_spec c k h4 o ⟨i, hu⟩ with hw | ⟨hp, hsp⟩
        · rw [e3] at hO
          obtain ⟨h', ⟨x1, x2, x3⟩, L', e, ho, hrel⟩ := wp_exec hw hO
          simp only [e]
          rcases hrel with ⟨r1, r2, s', l', r3, hc, hh⟩ | ⟨b, r1, r2, L1, L2, rfl, r3, r4⟩
          · simp only at r1 r2 r3
            subst r1 r2 r3
            refine ⟨_, _, _, rfl, ⟨L' + M', ?_, ho⟩,
              .inr ⟨rfl, i, l, l', rfl, e2, hc, rfl⟩⟩
            simpa using h5 _ _ _ (.some hh)
          · simp only at r1 r2 r3 r4
            refine ⟨_, _, _, rfl, ⟨L1 + M' + L2, (h5 _ _ _ r3).append r4, ?_⟩,
              .inl ⟨by rw [r1, r2], rfl⟩⟩
            have : L1 + M' + L2 = L1 + L2 + M' := by ac_rfl
            rwa [this]
        · simp only [hp, hsp, Prog.exec]
          refine ⟨_, _, _, rfl, ⟨M, hR, hO⟩, .inl ⟨rfl, ?_⟩⟩
          simp only [List.map_nil, List.append_nil]
          obtain ⟨hlt, hg⟩ := List.getElem?_eq_some_iff.1 e2
          rw [← hg]; exact (List.set_getElem_self hlt).symm

end Verif.Stack
