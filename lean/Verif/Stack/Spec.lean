import Verif.Stack.Model
/-!
# `Stack` programs and lists

`Holds s l L`: the handles `L` are exactly those of the stack `s`, and it stands for the list `l`,
top first.
-/
namespace Verif.Stack
open Heap
variable {T : Type}

/-- The value of a list of elements, as a chain of nodes. -/
def vt : List T → VT T
  | [] => .nil
  | x :: xs => .node x [vt xs]

/-- `s` stands for `l`, top first, and holds the handles `L`. -/
def Holds (s : Stack T) (l : List T) (L : Multiset (Handle T)) : Prop :=
  s.len = l.length ∧ L = own s.elems (vt l)

theorem vt_dep : ∀ (l : List T) {n : Nat}, l.length ≤ n → (vt l).Dep n
  | [], _, _ => .nil
  | x :: xs, n, h => by
    obtain ⟨m, rfl⟩ : ∃ m, n = m + 1 := ⟨n - 1, by simp at h; omega⟩
    refine .node ?_
    intro t ht
    rw [List.mem_singleton] at ht
    subst ht
    exact vt_dep xs (by simpa using h)

theorem vt_sub : ∀ (l : List T) (i : Nat) (h : i < l.length),
    (vt l).sub (List.replicate i 0) = some (.node l[i] [vt (l.drop (i + 1))])
  | x :: xs, 0, _ => by simp [vt, VT.sub]
  | x :: xs, i + 1, h => by
    have h' : i < xs.length := by simpa using h
    rw [List.replicate_succ]
    show (match [vt xs][0]? with | none => none | some t => t.sub _) = _
    simp only [List.getElem?_cons_zero]
    rw [vt_sub xs i h']
    simp

/-- What the link of a list is, by cases. -/
theorem wp_vt_cases {α : Type} {p : Prog T α} {r : Option Nat} {l : List T}
    {M : Multiset (Handle T)} {Q : α → Multiset (Handle T) → Prop} (G : Multiset (Handle T))
    (hM : M = own r (vt l) + G)
    (hn : r = none → l = [] → wp p G Q)
    (hs : ∀ a x xs, r = some a → l = x :: xs → wp p (own (some a) (.node x [vt xs]) + G) Q) :
    wp p M Q := by
  refine wp_own_cases G hM ?_ ?_
  · intro h1 h2
    cases l with
    | nil => exact hn h1 rfl
    | cons => cases h2
  · intro a q ts h1 h2
    cases l with
    | nil => cases h2
    | cons x xs =>
      simp only [vt, VT.node.injEq] at h2
      obtain ⟨rfl, rfl⟩ := h2
      exact hs a x xs h1 rfl

theorem one_link {t : VT T} {ks : List (Option Nat)} (h : [t].length = ks.length) :
    ∃ r, ks = [r] := by
  match ks, h with
  | [r], _ => exact ⟨r, rfl⟩

theorem holds_new : Holds (Stack.new : Stack T) [] 0 := ⟨rfl, rfl⟩

variable {s : Stack T} {l : List T} {L : Multiset (Handle T)}

theorem clone_spec (h : Holds s l L) :
    wp s.clone L (fun s' L' => ∃ L1 L2, L' = L1 + L2 ∧ Holds s l L1 ∧ Holds s' l L2) := by
  obtain ⟨h1, rfl⟩ := h
  refine wp_call 0 (wp_cloneRef (t := vt l)) (add_zero _).symm ?_
  rintro r _ ⟨rfl, rfl⟩
  exact wp_pure ⟨_, _, by rw [add_zero], ⟨h1, rfl⟩, ⟨h1, rfl⟩⟩

theorem push_spec (h : Holds s l L) (x : T) :
    wp (s.push x) L (fun s' L' => Holds s' (x :: l) L') := by
  obtain ⟨h1, rfl⟩ := h
  refine wp_alloc (ts := [vt l]) 0 rfl (by simp) ?_
  intro a
  refine wp_forget 0 rfl (wp_pure ⟨by simp [h1], by rw [add_zero]; rfl⟩)

theorem top_spec (h : Holds s l L) :
    wp s.top L (fun x L' => x = l.head? ∧ L' = L) := by
  obtain ⟨h1, rfl⟩ := h
  unfold Stack.top
  refine wp_vt_cases 0 (add_zero _).symm ?_ ?_
  · intro e1 e2
    rw [e1, e2]
    exact wp_pure ⟨rfl, rfl⟩
  · intro a x xs e1 e2
    rw [e1, e2, add_zero]
    refine wp_read (u := false) 0 rfl rfl ?_
    intro n hn _ _
    exact wp_pure ⟨by rw [hn]; rfl, rfl⟩

theorem topMut_spec (h : Holds s l L) (g : T → T) :
    wp (s.topMut g) L (fun x L' => x.2 = !l.isEmpty ∧
      Holds x.1 (l.modifyHead g) L') := by
  obtain ⟨h1, rfl⟩ := h
  unfold Stack.topMut
  refine wp_vt_cases 0 (add_zero _).symm ?_ ?_
  · intro e1 e2
    rw [e1, e2]
    exact wp_pure ⟨rfl, by rw [h1, e2]; rfl, by simp [vt, e1]⟩
  · intro a x xs e1 e2
    rw [e1]
    have hd : (vt (x :: xs)).Dep (s.len + 1) := vt_dep _ (by rw [h1, e2]; omega)
    refine wp_call 0 (wp_makeMut hd) rfl ?_
    rintro a' _ rfl
    refine wp_open 0 rfl ?_
    intro ks hl
    refine wp_close (p := x) (q := g x) 0 hl (by simp) ?_
    refine wp_forget 0 rfl (wp_pure ?_)
    rw [e2, add_zero]
    exact ⟨rfl, by simp [h1, e2], rfl⟩

theorem unlink_spec {D a : Nat} {x : T} {xs : List T} (hD : (vt (x :: xs)).Dep D) :
    wp (Stack.unlink D a) (own (some a) (vt (x :: xs))) (fun y L' => y.2 = x ∧
      L' = own y.1 (vt xs)) := by
  refine wp_tryUnwrap (p := x) (ts := [vt xs]) 0 rfl ?_ ?_
  · dsimp only
    refine wp_incAt (u := false) (p := x) (ts := [vt xs]) 0 rfl rfl (by simp) ?_
    intro r
    refine wp_read (u := false) (t := vt (x :: xs)) (own r (vt xs)) (by rw [add_comm]; rfl) rfl ?_
    intro n hn _ _
    refine wp_call (own r (vt xs)) (wp_drop (r := some a) hD) (by rw [add_comm]; rfl) ?_
    rintro _ _ rfl
    exact wp_pure ⟨hn, by rw [zero_add]⟩
  · intro ks hl
    obtain ⟨r, rfl⟩ := one_link hl
    exact wp_pure ⟨rfl, by simp⟩

theorem pop_spec (h : Holds s l L) :
    wp s.pop L (fun x L' => x.2 = l.head? ∧ Holds x.1 l.tail L') := by
  obtain ⟨h1, rfl⟩ := h
  unfold Stack.pop
  refine wp_vt_cases 0 (add_zero _).symm ?_ ?_
  · intro e1 e2
    rw [e1, e2]
    exact wp_pure ⟨rfl, by rw [h1, e2]; rfl, by simp [vt, e1]⟩
  · intro a x xs e1 e2
    rw [e1]
    have hd : (vt (x :: xs)).Dep (s.len + 1) := vt_dep _ (by rw [h1, e2]; omega)
    have hl : s.len ≠ 0 := by rw [h1, e2]; simp
    simp only [hl, if_false]
    refine wp_call 0 (unlink_spec hd) rfl ?_
    rintro y _ ⟨e, rfl⟩
    refine wp_pure ?_
    rw [e2, e, add_zero]
    exact ⟨rfl, by simp [h1, e2], rfl⟩

theorem clearLoop_spec {D : Nat} : ∀ {n : Nat} {r : Option Nat} {l : List T}, l.length ≤ D →
    l.length < n → 1 ≤ D →
    wp (Stack.clearLoop D n r) (own r (vt l)) (fun _ L' => L' = 0) := by
  intro n
  induction n with
  | zero => intro r l _ h; omega
  | succ n ih =>
    intro r l hD hn h1
    refine wp_vt_cases (r := r) (l := l) 0 (add_zero _).symm ?_ ?_
    · rintro rfl rfl; exact wp_pure rfl
    · rintro a x xs rfl rfl
      have hd := vt_dep (x :: xs) hD
      refine wp_isUnique 0 rfl ?_ ?_
      · simp only [if_true]
        refine wp_open 0 rfl ?_
        intro ks hl
        obtain ⟨rest, rfl⟩ := one_link hl
        dsimp only
        refine wp_close (p := x) (q := x) (ts := [.nil]) (own rest (vt xs)) rfl (by simp) ?_
        refine wp_forget (own rest (vt xs)) rfl ?_
        have hd1 : (VT.node x [.nil]).Dep D := by
          obtain ⟨m, rfl⟩ : ∃ m, D = m + 1 := ⟨D - 1, by omega⟩
          exact .node (by intro t ht; rw [List.mem_singleton] at ht; subst ht; exact .nil)
        refine wp_call (own rest (vt xs)) (wp_drop hd1) rfl ?_
        rintro _ _ rfl
        rw [zero_add]
        simp only [List.length_cons] at hD hn
        exact ih (by omega) (by omega) h1
      · simp only [Bool.false_eq_true, if_false]
        rw [add_zero]
        exact wp_drop hd

theorem clear_spec (h : Holds s l L) : wp s.clear L (fun s' L' => Holds s' [] L') := by
  obtain ⟨h1, rfl⟩ := h
  refine wp_call 0 (clearLoop_spec (l := l) (by omega) (by omega) (by omega)) (add_zero _).symm ?_
  rintro _ _ rfl
  exact wp_pure holds_new

theorem iterNext_spec (h : Holds s l L) (i : Nat) (hi : i ≤ l.length) :
    wp (s.iterNext i) L (fun x L' => L' = L ∧ x = (l[i]?, if i < l.length then i + 1 else i)) := by
  obtain ⟨h1, rfl⟩ := h
  unfold Stack.iterNext
  refine wp_vt_cases (r := s.elems) (l := l) 0 (add_zero _).symm ?_ ?_
  · intro e1 e2
    rw [e1, e2]
    cases i <;> exact wp_pure ⟨rfl, by simp⟩
  · intro a x xs e1 e2
    rw [e1]
    dsimp only
    have hM : own (some a) (.node x [vt xs]) + 0 = own (some a) (vt l) := by rw [e2, add_zero]; rfl
    rw [hM]
    have follow : ∀ {link : Option Nat}, (link = none ↔ i = l.length) →
        wp (match (some a : Option Nat), link with
          | some a, some _ =>
            (lift (.read a (List.replicate i 0))).bind fun n => .pure (some n.data, i + 1)
          | _, _ => .pure (none, i)) (own (some a) (vt l))
          (fun x L' => L' = own (some a) (vt l) ∧ x = (l[i]?, if i < l.length then i + 1 else i)) := by
      intro link hlink
      cases link with
      | none =>
        have : i = l.length := hlink.1 rfl
        subst this
        exact wp_pure ⟨rfl, by simp⟩
      | some b =>
        have hi : i < l.length := by
          rcases Nat.lt_or_ge i l.length with h | h
          · exact h
          · exact absurd (hlink.2 (by omega)) (by simp)
        refine wp_read (u := false) 0 rfl (vt_sub l i hi) ?_
        intro n hn _ _
        refine wp_pure ⟨rfl, ?_⟩
        simp [hn, hi]
    cases i with
    | zero => exact follow (link := some a) (by simp [e2])
    | succ j =>
      have hj : j < l.length := by omega
      refine wp_read (u := false) 0 rfl (vt_sub l j hj) ?_
      intro n hn hl hk
      obtain ⟨link, hks⟩ := one_link hl
      simp only [hks]
      refine follow ?_
      have := hk 0 (by simp [hks]) (by simp)
      simp only [hks, List.getElem_cons_zero] at this
      rw [this]
      constructor
      · intro hv
        have : l.drop (j + 1) = [] := by
          cases hd : l.drop (j + 1) with
          | nil => rfl
          | cons y ys => rw [hd] at hv; cases hv
        have := congrArg List.length this
        simp at this
        omega
      · intro hv
        rw [List.drop_eq_nil_of_le (by omega)]; rfl

theorem iterRun_spec (h : Holds s l L) : ∀ (n i : Nat), i ≤ l.length →
    wp (s.iterRun i n) L (fun xs L' => L' = L ∧
      xs = (List.range n).map (fun j => l[i + j]?)) := by
  intro n
  induction n with
  | zero => intro i _; exact wp_pure ⟨rfl, rfl⟩
  | succ n ih =>
    intro i hi
    refine wp_call 0 (iterNext_spec h i hi) (add_zero _).symm ?_
    rintro _ _ ⟨rfl, rfl⟩
    dsimp only
    rw [add_zero]
    by_cases hlt : i < l.length
    · simp only [hlt, if_true]
      refine wp_call 0 (ih (i + 1) (by omega)) (add_zero _).symm ?_
      rintro _ _ ⟨rfl, rfl⟩
      refine wp_pure ⟨by rw [add_zero], ?_⟩
      rw [List.range_succ_eq_map, List.map_cons, List.map_map]
      simp [Function.comp_def, Nat.add_assoc, Nat.add_comm 1]
    · simp only [hlt, if_false]
      refine wp_call 0 (ih i hi) (add_zero _).symm ?_
      rintro _ _ ⟨rfl, rfl⟩
      refine wp_pure ⟨by rw [add_zero], ?_⟩
      rw [List.range_succ_eq_map, List.map_cons, List.map_map]
      have : ∀ j, l[i + j]? = none := fun j => List.getElem?_eq_none (by omega)
      simp [Function.comp_def, this]

theorem iterAll_spec (h : Holds s l L) : ∀ (n i : Nat), i ≤ l.length → l.length < i + n →
    wp (s.iterAll i n) L (fun xs L' => L' = L ∧ xs = l.drop i) := by
  intro n
  induction n with
  | zero => intro i _ _; omega
  | succ n ih =>
    intro i hi hn
    refine wp_call 0 (iterNext_spec h i hi) (add_zero _).symm ?_
    rintro _ _ ⟨rfl, rfl⟩
    rw [add_zero]
    by_cases hlt : i < l.length
    · simp only [hlt, if_true, List.getElem?_eq_getElem hlt]
      refine wp_call 0 (ih (i + 1) (by omega) (by omega)) (add_zero _).symm ?_
      rintro _ _ ⟨rfl, rfl⟩
      refine wp_pure ⟨by rw [add_zero], ?_⟩
      rw [← List.drop_eq_getElem_cons hlt]
    · simp only [List.getElem?_eq_none (Nat.le_of_not_lt hlt)]
      exact wp_pure ⟨rfl, (List.drop_eq_nil_of_le (by omega)).symm⟩

theorem iter_spec (h : Holds s l L) : wp s.iter L (fun xs L' => L' = L ∧ xs = l) := by
  refine wp_conseq (iterAll_spec h (s.len + 1) 0 (by omega) (by have := h.1; omega)) ?_
  rintro x _ ⟨rfl, rfl⟩
  exact ⟨rfl, by simp⟩

theorem iterMutLoop_spec {D : Nat} (g : Nat → T → T) : ∀ {n i : Nat} {r : Option Nat} {l : List T},
    l.length ≤ D →
    wp (Stack.iterMutLoop D g i n r) (own r (vt l)) (fun r' L' =>
      L' = own r' (vt ((l.take n).mapIdx (fun j x => g (i + j) x) ++ l.drop n))) := by
  intro n
  induction n with
  | zero => intro i r l _; exact wp_pure (by simp)
  | succ n ih =>
    intro i r l hD
    refine wp_vt_cases (r := r) (l := l) 0 (add_zero _).symm ?_ ?_
    · rintro rfl rfl; exact wp_pure (by simp [vt])
    · rintro a x xs rfl rfl
      have hd := vt_dep (x :: xs) hD
      refine wp_call 0 (wp_makeMut hd) rfl ?_
      rintro a' _ rfl
      refine wp_open 0 rfl ?_
      intro ks hl
      obtain ⟨rest, rfl⟩ := one_link hl
      dsimp only
      refine wp_call (uown a' (.node x [])) (ih (l := xs) (i := i + 1) (by simp at hD; omega))
        (by simp [add_comm]) ?_
      rintro r' _ rfl
      refine wp_close (q := g i x) (ts := [_]) 0 rfl (by
        rw [owns_cons, owns_nil, add_zero, add_zero, add_comm]) ?_
      refine wp_forget 0 rfl (wp_pure ?_)
      rw [add_zero, List.take_succ_cons, List.mapIdx_cons, List.drop_succ_cons, List.cons_append, vt]
      simp only [Nat.add_zero, Nat.add_assoc, Nat.add_comm 1]

theorem iterMut_spec (h : Holds s l L) (n : Nat) (g : Nat → T → T) :
    wp (s.iterMut n g) L (fun s' L' => Holds s' ((l.take n).mapIdx g ++ l.drop n) L') := by
  obtain ⟨h1, rfl⟩ := h
  refine wp_call 0 (iterMutLoop_spec g (l := l) (by omega)) (add_zero _).symm ?_
  rintro r' _ rfl
  refine wp_pure ⟨?_, by simp⟩
  simp [h1]
  omega

theorem removeLoop_spec {D : Nat} : ∀ {i : Nat} {r : Option Nat} {l : List T}, l.length ≤ D →
    ∀ (hi : i < l.length),
    wp (Stack.removeLoop D i r) (own r (vt l)) (fun x L' => x.2 = l[i] ∧
      L' = own x.1 (vt (l.eraseIdx i))) := by
  intro i
  induction i with
  | zero =>
    intro r l hD hi
    refine wp_vt_cases (r := r) (l := l) 0 (add_zero _).symm ?_ ?_
    · rintro rfl rfl; simp at hi
    · rintro a x xs rfl rfl
      rw [add_zero]
      exact unlink_spec (vt_dep _ hD)
  | succ i ih =>
    intro r l hD hi
    refine wp_vt_cases (r := r) (l := l) 0 (add_zero _).symm ?_ ?_
    · rintro rfl rfl; simp at hi
    · rintro a x xs rfl rfl
      refine wp_call 0 (wp_makeMut (vt_dep (x :: xs) hD)) rfl ?_
      rintro a' _ rfl
      refine wp_open 0 rfl ?_
      intro ks hl
      obtain ⟨rest, rfl⟩ := one_link hl
      dsimp only
      refine wp_call (uown a' (.node x [])) (ih (l := xs) (by simp at hD; omega) (by simpa using hi))
        (by simp [add_comm]) ?_
      rintro y _ ⟨e, rfl⟩
      refine wp_close (q := x) (ts := [_]) 0 rfl (by
        rw [owns_cons, owns_nil, add_zero, add_zero, add_comm]) ?_
      refine wp_forget 0 rfl (wp_pure ?_)
      rw [add_zero]
      exact ⟨by rw [e]; rfl, rfl⟩

theorem remove_spec (h : Holds s l L) {i : Nat} (hi : i < l.length) :
    wp (s.remove i) L (fun x L' => x.2 = l[l.length - 1 - i] ∧
      Holds x.1 (l.eraseIdx (l.length - 1 - i)) L') := by
  obtain ⟨h1, rfl⟩ := h
  unfold Stack.remove
  have : ¬ (i ≥ s.len) := by omega
  simp only [this, if_false]
  have hi' : s.len - 1 - i < l.length := by omega
  refine wp_call 0 (removeLoop_spec (by omega) hi') (add_zero _).symm ?_
  rintro x _ ⟨e, rfl⟩
  refine wp_pure ⟨?_, ?_, ?_⟩
  · rw [e]; simp only [h1]
  · simp only [h1, List.length_eraseIdx]
    rw [if_pos (by omega)]
  · rw [add_zero, h1]

theorem splitLoop_spec {D : Nat} : ∀ {i : Nat} {r : Option Nat} {l : List T}, l.length ≤ D →
    i ≤ l.length →
    wp (Stack.splitLoop D i r) (own r (vt l)) (fun x L' =>
      L' = own x.1 (vt (l.drop i)) + own x.2 (vt (l.take i))) := by
  intro i
  induction i with
  | zero => intro r l hD _; exact wp_pure (by simp [vt])
  | succ i ih =>
    intro r l hD hi
    refine wp_vt_cases (r := r) (l := l) 0 (add_zero _).symm ?_ ?_
    · rintro rfl rfl; simp at hi
    · rintro a x xs rfl rfl
      refine wp_call 0 (wp_makeMut (vt_dep (x :: xs) hD)) rfl ?_
      rintro a' _ rfl
      refine wp_open 0 rfl ?_
      intro ks hl
      obtain ⟨rest, rfl⟩ := one_link hl
      dsimp only
      refine wp_call (uown a' (.node x [])) (ih (l := xs) (by simp at hD; omega) (by simpa using hi))
        (by simp [add_comm]) ?_
      rintro y _ rfl
      refine wp_close (q := x) (ts := [vt (xs.take i)]) (own y.1 (vt (xs.drop i))) rfl (by
        rw [owns_cons, owns_nil, add_zero]; ac_rfl) ?_
      refine wp_forget (own y.1 (vt (xs.drop i))) rfl (wp_pure ?_)
      rw [List.drop_succ_cons, List.take_succ_cons, add_comm]
      rfl

theorem splitOff_spec (h : Holds s l L) {i : Nat} (hi : i ≤ l.length) :
    wp (s.splitOff i) L (fun x L' => ∃ L1 L2, L' = L1 + L2 ∧
      Holds x.1 (l.drop (l.length - i)) L1 ∧ Holds x.2 (l.take (l.length - i)) L2) := by
  obtain ⟨h1, rfl⟩ := h
  unfold Stack.splitOff
  have : ¬ (i > s.len) := by omega
  simp only [this, if_false]
  by_cases hz : i = 0
  · subst hz
    simp only [if_true]
    refine wp_pure ⟨0, _, (zero_add _).symm, ⟨by simp [Stack.new], by simp [Stack.new, vt]⟩, ?_⟩
    exact ⟨by simp [h1], by simp⟩
  · simp only [hz, if_false]
    by_cases hl : i = s.len
    · subst hl
      simp only [if_true]
      refine wp_pure ⟨_, 0, (add_zero _).symm, ⟨by simp [h1], by simp [h1]⟩, ?_⟩
      exact ⟨by simp [Stack.new, h1], by simp [Stack.new, h1, vt]⟩
    · simp only [hl, if_false]
      refine wp_call 0 (splitLoop_spec (l := l) (i := s.len - i) (by omega) (by omega))
        (add_zero _).symm ?_
      rintro x _ rfl
      rw [add_zero]
      refine wp_pure ⟨_, _, rfl, ⟨?_, by rw [h1]⟩, ⟨?_, by rw [h1]⟩⟩ <;> simp [h1]

theorem extend_spec : ∀ (xs : List T) {s : Stack T} {l : List T} {L : Multiset (Handle T)},
    Holds s l L → wp (s.extend xs) L (fun s' L' => Holds s' (xs.reverse ++ l) L')
  | [], s, l, L, h => wp_pure (by simpa using h)
  | x :: xs, s, l, L, h => by
    refine wp_call 0 (push_spec h x) (add_zero _).symm ?_
    intro s' L' h'
    rw [add_zero]
    refine wp_conseq (extend_spec xs h') ?_
    intro s'' L'' h''
    simpa using h''

theorem intoIterRun_spec : ∀ (n : Nat) {s : Stack T} {l : List T} {L : Multiset (Handle T)},
    Holds s l L → wp (s.intoIterRun n) L (fun x L' => x.2 = (List.range n).map (fun j => l[j]?) ∧
      Holds x.1 (l.drop n) L')
  | 0, s, l, L, h => wp_pure (by simpa using h)
  | n + 1, s, l, L, h => by
    refine wp_call 0 (pop_spec h) (add_zero _).symm ?_
    rintro x L' ⟨e, h'⟩
    rw [add_zero]
    refine wp_call 0 (intoIterRun_spec n h') (add_zero _).symm ?_
    rintro y L'' ⟨e2, h''⟩
    refine wp_pure ⟨?_, ?_⟩
    · rw [List.range_succ_eq_map, List.map_cons, List.map_map, e, e2]
      simp only [Function.comp_def]
      congr 1
      · exact List.head?_eq_getElem? 
      · simp
    · rw [add_zero]
      simpa using h''

theorem contains_spec (eqT : T → T → Bool) (h : Holds s l L) (x : T) :
    wp (s.contains eqT x) L (fun b L' => L' = L ∧ b = l.any (fun y => eqT x y)) := by
  refine wp_call 0 (iter_spec h) (add_zero _).symm ?_
  rintro _ _ ⟨rfl, rfl⟩
  exact wp_pure ⟨add_zero _, rfl⟩

section
variable {s' : Stack T} {l' : List T} {L' : Multiset (Handle T)}

theorem two_iters {β : Type} (h : Holds s l L) (h' : Holds s' l' L') (f : List T → List T → β) :
    wp (s.iter.bind fun a => s'.iter.bind fun b => .pure (f a b)) (L + L')
      (fun b M => M = L + L' ∧ b = f l l') := by
  refine wp_call L' (iter_spec h) rfl ?_
  rintro _ M ⟨hM, rfl⟩
  subst hM
  refine wp_call M (iter_spec h') (add_comm _ _) ?_
  rintro _ M' ⟨hM', rfl⟩
  subst hM'
  exact wp_pure ⟨add_comm _ _, rfl⟩

theorem eqStack_spec (eqT : T → T → Bool) (h : Holds s l L) (h' : Holds s' l' L') :
    wp (s.eqStack eqT s') (L + L') (fun b M => M = L + L' ∧
      b = (decide (l.length = l'.length) && (l.zip l').all (fun x => eqT x.1 x.2))) := by
  unfold Stack.eqStack
  by_cases he : s.len = s'.len
  · simp only [he, if_true]
    have : l.length = l'.length := by rw [← h.1, ← h'.1, he]
    simp only [this, decide_true, Bool.true_and]
    exact two_iters h h' _
  · simp only [he, if_false]
    have : ¬ l.length = l'.length := by rw [← h.1, ← h'.1]; exact he
    exact wp_pure ⟨rfl, by simp [this]⟩

theorem partialCmpLoop_eq (cmpT : T → T → Option Ordering) : ∀ l l' : List T,
    Stack.partialCmpLoop cmpT l l' = Spec.lexPartialCmp cmpT l l'
  | [], [] => rfl
  | [], _ :: _ => rfl
  | _ :: _, [] => rfl
  | a :: as, b :: bs => by
    simp only [Stack.partialCmpLoop, Spec.lexPartialCmp]
    rw [partialCmpLoop_eq cmpT as bs]
    cases cmpT a b with
    | none => rfl
    | some o => cases o <;> rfl

end

end Verif.Stack
