import Verif.Heap.Steps
/-!
# Reasoning about programs on reference-counted memory

`wp p L Q`: started with the handles `L` (and whatever other handles the rest of the world has),
program `p` never panics nor gets stuck, whatever the rest of the world does in between its
steps, and ends with a result and handles as `Q` says.
-/
namespace Verif.Heap
variable {P : Type} {α β : Type}

/-- Weakest precondition; see above. -/
def wp : Prog P α → Multiset (Handle P) → (α → Multiset (Handle P) → Prop) → Prop
  | .pure x, L, Q => ∀ h F, Own h (L + F) → ∃ L', Own h (L' + F) ∧ Q x L'
  | .panic, L, _ => ∀ h F, ¬ Own h (L + F)
  | .op o k, L, Q => ∀ h F, Own h (L + F) →
      ∃ h' r L', o.step h = some (h', r) ∧ Own h' (L' + F) ∧ wp (k r) L' Q

/-- A single step as a program. -/
def lift (o : Op P) : Prog P o.Resp := .op o .pure

variable {L L' F G : Multiset (Handle P)} {Q : α → Multiset (Handle P) → Prop}

/-- Started with handles `L` only, the program runs to its end, and all handles `F` of others
keep their values. -/
theorem wp_exec {p : Prog P α} : ∀ {L : Multiset (Handle P)}, wp p L Q →
    ∀ {h : Mem P}, Own h (L + F) →
    ∃ h' x L', p.exec h = some (h', some x) ∧ Own h' (L' + F) ∧ Q x L' := by
  induction p with
  | pure x =>
    intro L hw h ho
    obtain ⟨L', h1, h2⟩ := hw h F ho
    exact ⟨h, x, L', rfl, h1, h2⟩
  | panic => intro L hw h ho; exact absurd ho (hw h F)
  | op o k ih =>
    intro L hw h ho
    obtain ⟨h', r, L', h1, h2, h3⟩ := hw h F ho
    obtain ⟨h'', x, L'', h4, h5, h6⟩ := ih r h3 h2
    exact ⟨h'', x, L'', by simp only [Prog.exec, h1, h4], h5, h6⟩

/-- The precondition may be weakened to what holds whenever it does. -/
theorem wp_pre {p : Prog P α} (hL : ∀ h F, Own h (L + F) → ∃ L', Own h (L' + F) ∧ wp p L' Q) :
    wp p L Q := by
  cases p with
  | pure x =>
    intro h F ho
    obtain ⟨L', h1, h2⟩ := hL h F ho
    exact h2 h F h1
  | panic =>
    intro h F ho
    obtain ⟨L', h1, h2⟩ := hL h F ho
    exact h2 h F h1
  | op o k =>
    intro h F ho
    obtain ⟨L', h1, h2⟩ := hL h F ho
    exact h2 h F h1

theorem wp_pure {x : α} (h : Q x L) : wp (.pure x) L Q := fun _ _ ho => ⟨L, ho, h⟩

theorem wp_conseq {R : α → Multiset (Handle P) → Prop} {p : Prog P α} :
    ∀ {L : Multiset (Handle P)}, wp p L Q → (∀ x L', Q x L' → R x L') → wp p L R := by
  induction p with
  | pure x =>
    intro L hw hi h F ho
    obtain ⟨L', h1, h2⟩ := hw h F ho
    exact ⟨L', h1, hi _ _ h2⟩
  | panic => intro L hw _; exact hw
  | op o k ih =>
    intro L hw hi h F ho
    obtain ⟨h', r, L', h1, h2, h3⟩ := hw h F ho
    exact ⟨h', r, L', h1, h2, ih r h3 hi⟩

theorem wp_bind {p : Prog P α} {f : α → Prog P β} {R : β → Multiset (Handle P) → Prop} :
    ∀ {L : Multiset (Handle P)}, wp p L (fun x L' => wp (f x) L' R) → wp (p.bind f) L R := by
  induction p with
  | pure x =>
    intro L hw
    exact wp_pre (fun h F ho => hw h F ho)
  | panic => intro L hw; exact hw
  | op o k ih =>
    intro L hw h F ho
    obtain ⟨h', r, L', h1, h2, h3⟩ := hw h F ho
    exact ⟨h', r, L', h1, h2, ih r h3⟩

theorem wp_frame {p : Prog P α} (G : Multiset (Handle P)) : ∀ {L : Multiset (Handle P)}, wp p L Q →
    wp p (L + G) (fun x L' => ∃ L1, L' = L1 + G ∧ Q x L1) := by
  induction p with
  | pure x =>
    intro L hw h F ho
    obtain ⟨L', h1, h2⟩ := hw h (G + F) (by rwa [← add_assoc])
    exact ⟨L' + G, by rwa [add_assoc], L', rfl, h2⟩
  | panic =>
    intro L hw h F ho
    exact hw h (G + F) (by rwa [← add_assoc])
  | op o k ih =>
    intro L hw h F ho
    obtain ⟨h', r, L', h1, h2, h3⟩ := hw h (G + F) (by rwa [← add_assoc])
    exact ⟨h', r, L' + G, h1, by rwa [add_assoc], ih r h3⟩

/-- Calling a subprogram that needs the handles `L`, with further handles `G` at hand. -/
theorem wp_call {p : Prog P α} {f : α → Prog P β} {R : β → Multiset (Handle P) → Prop}
    {M : Multiset (Handle P)} (G : Multiset (Handle P)) (hp : wp p L Q) (hM : M = L + G)
    (hk : ∀ x L', Q x L' → wp (f x) (L' + G) R) : wp (p.bind f) M R := by
  subst hM
  refine wp_bind (wp_conseq (wp_frame G hp) ?_)
  rintro x _ ⟨L1, rfl, hq⟩
  exact hk x L1 hq

/-- The last call. -/
theorem wp_tail {p : Prog P α} {R : α → Multiset (Handle P) → Prop}
    {M : Multiset (Handle P)} (G : Multiset (Handle P)) (hp : wp p L Q) (hM : M = L + G)
    (hk : ∀ x L', Q x L' → R x (L' + G)) : wp p M R := by
  subst hM
  refine wp_conseq (wp_frame G hp) ?_
  rintro x _ ⟨L1, rfl, hq⟩
  exact hk x L1 hq

/-- What a link is, by cases. -/
theorem wp_own_cases {p : Prog P α} {r : Option Nat} {t : VT P} {M : Multiset (Handle P)}
    (G : Multiset (Handle P)) (hM : M = own r t + G)
    (hn : r = none → t = .nil → wp p G Q)
    (hs : ∀ a q ts, r = some a → t = .node q ts → wp p (own (some a) (.node q ts) + G) Q) :
    wp p M Q := by
  subst hM
  refine wp_pre ?_
  intro h F ho
  have hr : Rep h r t := rep_own (L := G + F) (fun e he => ho.rep e (by rwa [add_assoc]))
  cases hr with
  | nil => exact ⟨G, by simpa using ho, hn rfl rfl⟩
  | @node a c ts hc hl hk => exact ⟨_, ho, hs a _ ts rfl rfl⟩

/-- A handle stands for a node. -/
theorem wp_some {p : Prog P α} {a : Nat} {t : VT P} {M : Multiset (Handle P)}
    (G : Multiset (Handle P)) (hM : M = own (some a) t + G)
    (hs : ∀ q ts, t = .node q ts → wp p (own (some a) (.node q ts) + G) Q) :
    wp p M Q := by
  refine wp_own_cases G hM (fun h => nomatch h) ?_
  rintro _ q ts ⟨⟩ e
  exact hs q ts e

theorem wp_forget {p : Prog P α} {a : Nat} {t : VT P} {M : Multiset (Handle P)}
    (G : Multiset (Handle P)) (hM : M = uown a t + G) (hs : wp p (own (some a) t + G) Q) :
    wp p M Q := by
  subst hM
  refine wp_pre ?_
  intro h F ho
  rw [add_assoc] at ho
  exact ⟨_, by rw [add_assoc]; exact ho.forget, hs⟩

/-! ## Rules for the steps -/

section
variable {M : Multiset (Handle P)} {R : β → Multiset (Handle P) → Prop}

theorem wp_alloc {p : P} {ks : List (Option Nat)} {ts : List (VT P)} {f : Nat → Prog P β}
    (G : Multiset (Handle P)) (hlen : ts.length = ks.length) (hM : M = owns ks ts + G)
    (hk : ∀ a, wp (f a) (uown a (.node p ts) + G) R) :
    wp ((lift (.alloc ⟨p, ks⟩)).bind f) M R := by
  subst hM
  intro h F ho
  rw [add_assoc] at ho
  exact ⟨_, _, _, rfl, by rw [add_assoc]; exact ho.alloc hlen, hk _⟩

theorem wp_read {a : Nat} {t : VT P} {u : Bool} {path : List Nat} {p : P} {ts : List (VT P)}
    {f : Node P → Prog P β} (G : Multiset (Handle P)) (hM : M = {⟨some a, t, u⟩} + G)
    (hp : t.sub path = some (.node p ts))
    (hk : ∀ n : Node P, n.data = p → ts.length = n.kids.length →
      (∀ i (h1 : i < n.kids.length) (h2 : i < ts.length), (n.kids[i] = none ↔ ts[i] = .nil)) →
      wp (f n) M R) :
    wp ((lift (.read a path)).bind f) M R := by
  subst hM
  intro h F ho
  have ho' := ho
  rw [add_assoc] at ho'
  obtain ⟨n, h1, h2, h3, h4⟩ := ho'.read hp
  exact ⟨h, n, _, h1, ho, hk n h2 h3 h4⟩

theorem wp_ptrEq {a b : Nat} {t t' : VT P} {u u' : Bool} {path path' : List Nat} {p p' : P}
    {ts ts' : List (VT P)} {f : Bool → Prog P β} (G G' : Multiset (Handle P))
    (hM : M = {⟨some a, t, u⟩} + G) (hM' : M = {⟨some b, t', u'⟩} + G')
    (hp : t.sub path = some (.node p ts)) (hp' : t'.sub path' = some (.node p' ts'))
    (hk : ∀ r : Bool, (r = true → VT.node p ts = .node p' ts') → wp (f r) M R) :
    wp ((lift (.ptrEq a path b path')).bind f) M R := by
  intro h F ho
  obtain ⟨r, h1, h2⟩ := ho.ptrEq (a := a) (b := b) (t := t) (t' := t') (u := u) (u' := u')
    (by rw [hM]; simp) (by rw [hM']; simp) hp hp'
  exact ⟨h, r, M, h1, ho, hk r h2⟩

theorem wp_incAt {a : Nat} {t : VT P} {u : Bool} {path : List Nat} {p : P} {ts : List (VT P)}
    {i : Nat} {f : Option Nat → Prog P β} (G : Multiset (Handle P)) (hM : M = {⟨some a, t, u⟩} + G)
    (hp : t.sub path = some (.node p ts)) (hi : i < ts.length)
    (hk : ∀ r, wp (f r) (own r ts[i] + M) R) :
    wp ((lift (.incAt a path i)).bind f) M R := by
  subst hM
  intro h F ho
  rw [add_assoc] at ho
  obtain ⟨h', r, h1, h2⟩ := ho.incAt hp hi
  exact ⟨h', r, _, h1, by rw [add_assoc, add_assoc]; exact h2, hk r⟩

theorem wp_inc {a : Nat} {t : VT P} {f : Unit → Prog P β} (G : Multiset (Handle P))
    (hM : M = own (some a) t + G)
    (hk : wp (f ()) (own (some a) t + M) R) :
    wp ((lift (.inc a)).bind f) M R := by
  subst hM
  intro h F ho
  rw [add_assoc] at ho
  obtain ⟨h', h1, h2⟩ := ho.inc
  exact ⟨h', (), _, h1, by rw [add_assoc, add_assoc]; exact h2, hk⟩

theorem wp_isUnique {a : Nat} {t : VT P} {f : Bool → Prog P β} (G : Multiset (Handle P))
    (hM : M = own (some a) t + G) (ht : wp (f true) (uown a t + G) R) (hf : wp (f false) M R) :
    wp ((lift (.isUnique a)).bind f) M R := by
  subst hM
  intro h F ho
  have ho' := ho
  rw [add_assoc] at ho'
  obtain ⟨b, h1, h2⟩ := ho'.isUnique
  cases b with
  | true => exact ⟨h, true, _, h1, by rw [add_assoc]; exact h2 rfl, ht⟩
  | false => exact ⟨h, false, _, h1, ho, hf⟩

theorem wp_dec {a : Nat} {p : P} {ts : List (VT P)} {f : Option (Node P) → Prog P β}
    (G : Multiset (Handle P)) (hM : M = own (some a) (.node p ts) + G)
    (hn : wp (f none) G R)
    (hs : ∀ ks, ts.length = ks.length → wp (f (some ⟨p, ks⟩)) (owns ks ts + G) R) :
    wp ((lift (.dec a)).bind f) M R := by
  subst hM
  intro h F ho
  rw [add_assoc] at ho
  obtain ⟨h', r, h1, h2⟩ := ho.dec
  cases r with
  | none => exact ⟨h', none, _, h1, h2, hn⟩
  | some n =>
    obtain ⟨rfl, h3, h4⟩ := h2
    exact ⟨h', some n, _, h1, by rw [add_assoc]; exact h4, hs n.kids h3⟩

theorem wp_tryUnwrap {a : Nat} {p : P} {ts : List (VT P)} {f : Option (Node P) → Prog P β}
    (G : Multiset (Handle P)) (hM : M = own (some a) (.node p ts) + G)
    (hn : wp (f none) M R)
    (hs : ∀ ks, ts.length = ks.length → wp (f (some ⟨p, ks⟩)) (owns ks ts + G) R) :
    wp ((lift (.tryUnwrap a)).bind f) M R := by
  subst hM
  intro h F ho
  rw [add_assoc] at ho
  obtain ⟨h', r, h1, h2⟩ := ho.tryUnwrap
  cases r with
  | none => exact ⟨h', none, _, h1, by rw [add_assoc]; exact h2, hn⟩
  | some n =>
    obtain ⟨rfl, h3, h4⟩ := h2
    exact ⟨h', some n, _, h1, by rw [add_assoc]; exact h4, hs n.kids h3⟩

theorem wp_open {a : Nat} {p : P} {ts : List (VT P)} {f : Node P → Prog P β}
    (G : Multiset (Handle P)) (hM : M = uown a (.node p ts) + G)
    (hk : ∀ ks, ts.length = ks.length →
      wp (f ⟨p, ks⟩) (uown a (.node p []) + (owns ks ts + G)) R) :
    wp ((lift (.open a)).bind f) M R := by
  subst hM
  intro h F ho
  rw [add_assoc] at ho
  obtain ⟨h', n, h1, rfl, h3, h4⟩ := ho.open
  exact ⟨h', n, _, h1, by rw [add_assoc, add_assoc]; exact h4, hk n.kids h3⟩

theorem wp_close {a : Nat} {p q : P} {ts : List (VT P)} {ks : List (Option Nat)}
    {f : Unit → Prog P β} (G : Multiset (Handle P)) (hlen : ts.length = ks.length)
    (hM : M = uown a (.node p []) + (owns ks ts + G))
    (hk : wp (f ()) (uown a (.node q ts) + G) R) :
    wp ((lift (.close a ⟨q, ks⟩)).bind f) M R := by
  subst hM
  intro h F ho
  rw [add_assoc, add_assoc] at ho
  obtain ⟨h', h1, h2⟩ := ho.close (q := q) hlen
  exact ⟨h', (), _, h1, by rw [add_assoc]; exact h2, hk⟩

end

/-! ## Derived operations of `Arc` -/

/-- Nesting depth of a value is at most `n`. -/
inductive VT.Dep : Nat → VT P → Prop
  | nil {n} : Dep n .nil
  | node {n p ts} (h : ∀ t ∈ ts, Dep n t) : Dep (n + 1) (.node p ts)

theorem VT.Dep.mono {t : VT P} {n : Nat} (h : t.Dep n) : ∀ {m}, n ≤ m → t.Dep m := by
  induction h with
  | nil => intro m _; exact .nil
  | @node n p ts h ih =>
    intro m hm
    obtain ⟨m', rfl⟩ : ∃ m', m = m' + 1 := ⟨m - 1, by omega⟩
    exact .node (fun t ht => ih t ht (by omega))

/-- Run `f` on each link. -/
def forAll (f : Option Nat → Prog P Unit) : List (Option Nat) → Prog P Unit
  | [] => .pure ()
  | r :: rs => (f r).bind fun _ => forAll f rs

/-- `drop` of a link: decrement, and if it was the last, drop the contents.  The first argument is
the recursion depth available. -/
def drop : Nat → Option Nat → Prog P Unit
  | _, none => .pure ()
  | 0, some _ => .panic
  | D + 1, some a => (lift (.dec a)).bind fun
    | none => .pure ()
    | some n => forAll (drop D) n.kids

/-- Clone the links `i, …, i + n - 1` of the node of handle `a`. -/
def cloneKids (a : Nat) : Nat → Nat → Prog P (List (Option Nat))
  | _, 0 => .pure []
  | i, n + 1 => (lift (.incAt a [] i)).bind fun r => (cloneKids a (i + 1) n).bind fun rs =>
      .pure (r :: rs)

/-- `Arc::make_mut`: the handle, made the sole one by cloning the node if need be.  `D` bounds the
recursion of dropping the old handle. -/
def makeMut (D : Nat) (a : Nat) : Prog P Nat :=
  (lift (.isUnique a)).bind fun (b : Bool) =>
    if b then .pure a else
      (lift (.read a [])).bind fun n =>
      (cloneKids a 0 n.kids.length).bind fun ks =>
      (lift (.alloc ⟨n.data, ks⟩)).bind fun a' =>
      (drop D (some a)).bind fun _ => .pure a'

/-- `Arc::try_unwrap(a).unwrap_or_else(|a| (*a).clone())`, in one of its spellings. -/
def unwrapOrClone (D : Nat) (a : Nat) : Prog P (Node P) :=
  (lift (.tryUnwrap a)).bind fun
    | some n => .pure n
    | none =>
      (lift (.read a [])).bind fun n =>
      (cloneKids a 0 n.kids.length).bind fun ks =>
      (drop D (some a)).bind fun _ => .pure ⟨n.data, ks⟩

/-- `Option<Arc<Node>>::clone`. -/
def cloneRef : Option Nat → Prog P (Option Nat)
  | none => .pure none
  | some a => (lift (.inc a)).bind fun _ => .pure (some a)

theorem wp_forAll_drop {D : Nat} (ih : ∀ {r : Option Nat} {t : VT P}, t.Dep D →
    wp (drop D r) (own r t) (fun _ L' => L' = 0)) :
    ∀ {ks : List (Option Nat)} {ts : List (VT P)}, ts.length = ks.length → (∀ t ∈ ts, t.Dep D) →
      wp (forAll (drop D) ks) (owns ks ts) (fun _ L' => L' = 0) := by
  intro ks
  induction ks with
  | nil =>
    intro ts hl _
    cases ts with
    | nil => exact wp_pure rfl
    | cons => simp at hl
  | cons k ks ih2 =>
    intro ts hl hd
    cases ts with
    | nil => simp at hl
    | cons t ts =>
      refine wp_call (owns ks ts) (ih (hd t (by simp))) rfl ?_
      rintro _ _ rfl
      simp only [zero_add]
      exact ih2 (by simpa using hl) (fun t ht => hd t (by simp [ht]))

theorem wp_drop {D : Nat} : ∀ {r : Option Nat} {t : VT P}, t.Dep D →
    wp (drop D r) (own r t) (fun _ L' => L' = 0) := by
  induction D with
  | zero =>
    intro r t hd
    refine wp_own_cases (r := r) (t := t) 0 (by simp) ?_ ?_
    · rintro rfl rfl; exact wp_pure rfl
    · rintro a q ts rfl rfl; cases hd
  | succ D ih =>
    intro r t hd
    refine wp_own_cases (r := r) (t := t) 0 (by simp) ?_ ?_
    · rintro rfl rfl; exact wp_pure rfl
    · rintro a q ts rfl rfl
      cases hd with
      | node hd =>
        refine wp_dec 0 rfl (wp_pure rfl) ?_
        intro ks hl
        rw [add_zero]
        exact wp_forAll_drop ih hl hd

theorem wp_cloneKids {a : Nat} {p : P} {ts : List (VT P)} {u : Bool} : ∀ {n i : Nat},
    i + n = ts.length →
    wp (cloneKids a i n) {⟨some a, .node p ts, u⟩} (fun ks L' =>
      (ts.drop i).length = ks.length ∧
        L' = owns ks (ts.drop i) + {⟨some a, .node p ts, u⟩}) := by
  intro n
  induction n with
  | zero =>
    intro i hi
    have : ts.drop i = [] := List.drop_eq_nil_of_le (by omega)
    exact wp_pure (by simp [this, owns])
  | succ n ih =>
    intro i hi
    have hlt : i < ts.length := by omega
    refine wp_incAt 0 rfl rfl hlt ?_
    intro r
    refine wp_call (own r ts[i]) (ih (i := i + 1) (by omega)) (by rw [add_comm]) ?_
    rintro ks _ ⟨h1, rfl⟩
    refine wp_pure ?_
    rw [List.drop_eq_getElem_cons hlt]
    refine ⟨by simp [← h1]; omega, ?_⟩
    rw [owns_cons]
    ac_rfl

theorem wp_makeMut {D a : Nat} {p : P} {ts : List (VT P)} (hd : (VT.node p ts).Dep D) :
    wp (makeMut D a) (own (some a) (.node p ts)) (fun a' L' => L' = uown a' (.node p ts)) := by
  refine wp_isUnique 0 rfl (wp_pure rfl) ?_
  simp only [Bool.false_eq_true, if_false]
  refine wp_read (u := false) 0 rfl rfl ?_
  intro n hn hl _
  subst hn
  refine wp_call 0 (wp_cloneKids (p := n.data) (ts := ts) (u := false) (by omega)) rfl ?_
  rintro ks _ ⟨h1, rfl⟩
  rw [List.drop_zero] at h1
  rw [List.drop_zero]
  refine wp_alloc {⟨some a, .node n.data ts, false⟩} h1 (by rw [add_zero]) ?_
  intro a'
  refine wp_call (uown a' (.node n.data ts)) (wp_drop hd) (by rw [add_comm]; rfl) ?_
  rintro _ _ rfl
  exact wp_pure (by rw [zero_add])

theorem wp_unwrapOrClone {D a : Nat} {p : P} {ts : List (VT P)} (hd : (VT.node p ts).Dep D) :
    wp (unwrapOrClone D a) (own (some a) (.node p ts))
      (fun n L' => ∃ ks, n = ⟨p, ks⟩ ∧ ts.length = ks.length ∧ L' = owns ks ts) := by
  refine wp_tryUnwrap 0 rfl ?_ ?_
  · dsimp only
    refine wp_read (u := false) 0 rfl rfl ?_
    intro n hn hl _
    subst hn
    refine wp_call 0 (wp_cloneKids (p := n.data) (ts := ts) (u := false) (by omega)) rfl ?_
    rintro ks _ ⟨h1, rfl⟩
    rw [List.drop_zero] at h1
    rw [List.drop_zero]
    refine wp_call (owns ks ts) (wp_drop (r := some a) hd) (by rw [add_zero, add_comm]; rfl) ?_
    rintro _ _ rfl
    exact wp_pure ⟨ks, rfl, h1, by rw [zero_add]⟩
  · intro ks hl
    exact wp_pure ⟨ks, rfl, hl, by rw [add_zero]⟩

theorem wp_cloneRef {r : Option Nat} {t : VT P} :
    wp (cloneRef r) (own r t) (fun r' L' => r' = r ∧ L' = own r t + own r' t) := by
  refine wp_own_cases (r := r) (t := t) 0 (by simp) ?_ ?_
  · rintro rfl rfl; exact wp_pure (by simp)
  · rintro a q ts rfl rfl
    refine wp_inc 0 rfl ?_
    exact wp_pure ⟨rfl, by rw [add_zero]⟩

/-! ## Threads -/

/-- One step of one thread of a pool. -/
inductive PStep : Mem P × List (Prog P α) → Mem P × List (Prog P α) → Prop
  | mk {h h' : Mem P} {ps : List (Prog P α)} {i : Nat} {o : Op P} {k : o.Resp → Prog P α}
      {r : o.Resp} (hi : i < ps.length) (hp : ps[i] = .op o k) (hs : o.step h = some (h', r)) :
      PStep (h, ps) (h', ps.set i (k r))

/-- Any interleaving. -/
inductive PRun : Mem P × List (Prog P α) → Mem P × List (Prog P α) → Prop
  | refl {s} : PRun s s
  | step {s t u} : PRun s t → PStep t u → PRun s u

/-- The threads with what each of them holds are in order. -/
inductive Pool (Qs : Nat → α → Multiset (Handle P) → Prop) :
    Nat → List (Prog P α) → Multiset (Handle P) → Prop
  | nil {n} : Pool Qs n [] 0
  | cons {n p ps L M} : wp p L (Qs n) → Pool Qs (n + 1) ps M → Pool Qs n (p :: ps) (L + M)

theorem Pool.step {Qs : Nat → α → Multiset (Handle P) → Prop} {h h' : Mem P} {o : Op P}
    {k : o.Resp → Prog P α} {r : o.Resp} (hs : o.step h = some (h', r)) :
    ∀ {ps : List (Prog P α)} {n : Nat} {M F : Multiset (Handle P)} {i : Nat}, Pool Qs n ps M →
    Own h (M + F) → ∀ (hi : i < ps.length), ps[i] = .op o k →
    ∃ M', Pool Qs n (ps.set i (k r)) M' ∧ Own h' (M' + F) := by
  intro ps
  induction ps with
  | nil => intro n M F i _ _ hi; simp at hi
  | cons p ps ih =>
    intro n M F i hpool ho hi hp
    cases hpool with
    | @cons _ _ _ L M hw hrest =>
      cases i with
      | zero =>
        simp only [List.getElem_cons_zero] at hp
        subst hp
        rw [add_assoc] at ho
        obtain ⟨h1, r1, L', h2, h3, h4⟩ := hw h (M + F) ho
        rw [hs] at h2
        cases h2
        exact ⟨L' + M, .cons h4 hrest, by rwa [add_assoc]⟩
      | succ i =>
        simp only [List.getElem_cons_succ] at hp
        have ho' : Own h (M + (L + F)) := by
          have : M + (L + F) = L + M + F := by ac_rfl
          rwa [this]
        obtain ⟨M', h1, h2⟩ := ih hrest ho' (by simpa using hi) hp
        refine ⟨L + M', .cons hw h1, ?_⟩
        have : L + M' + F = M' + (L + F) := by ac_rfl
        rwa [this]

theorem Pool.run {Qs : Nat → α → Multiset (Handle P) → Prop} {s u : Mem P × List (Prog P α)}
    (hr : PRun s u) {n : Nat} {M F : Multiset (Handle P)} (hp : Pool Qs n s.2 M)
    (ho : Own s.1 (M + F)) : ∃ M', Pool Qs n u.2 M' ∧ Own u.1 (M' + F) := by
  induction hr with
  | refl => exact ⟨M, hp, ho⟩
  | step _ hs ih =>
    obtain ⟨M1, h1, h2⟩ := ih
    cases hs with
    | mk hi hpi hst => exact h1.step hst h2 hi hpi

/-- No thread is ever at a panic, and none is ever stuck. -/
theorem Pool.progress {Qs : Nat → α → Multiset (Handle P) → Prop} {h : Mem P} :
    ∀ {ps : List (Prog P α)} {n : Nat} {M F : Multiset (Handle P)}, Pool Qs n ps M →
    Own h (M + F) → ∀ p ∈ ps, p ≠ .panic ∧
      ∀ o k, p = .op o k → ∃ h' r, o.step h = some (h', r) := by
  intro ps
  induction ps with
  | nil => intro _ _ _ _ _ p hp; simp at hp
  | cons p ps ih =>
    intro n M F hpool ho q hq
    cases hpool with
    | @cons _ _ _ L M hw hrest =>
      rcases List.mem_cons.1 hq with rfl | hq
      · rw [add_assoc] at ho
        refine ⟨?_, ?_⟩
        · rintro rfl; exact hw h (M + F) ho
        · rintro o k rfl
          obtain ⟨h', r, L', h1, -, -⟩ := hw h (M + F) ho
          exact ⟨h', r, h1⟩
      · have ho' : Own h (M + (L + F)) := by
          have : M + (L + F) = L + M + F := by ac_rfl
          rwa [this]
        exact ih hrest ho' q hq

/-- When all threads are done: each has ended as it would have alone. -/
theorem Pool.done {Qs : Nat → α → Multiset (Handle P) → Prop} {h : Mem P} :
    ∀ {xs : List α} {n : Nat} {M F : Multiset (Handle P)}, Pool Qs n (xs.map .pure) M →
    Own h (M + F) → ∃ Ls : List (Multiset (Handle P)), Ls.length = xs.length ∧
      Own h (Ls.sum + F) ∧ ∀ i (h1 : i < xs.length) (h2 : i < Ls.length), Qs (n + i) xs[i] Ls[i] := by
  intro xs
  induction xs with
  | nil =>
    intro n M F hp ho
    cases hp
    exact ⟨[], rfl, by simpa using ho, by simp⟩
  | cons x xs ih =>
    intro n M F hp ho
    cases hp with
    | @cons _ _ _ L M hw hrest =>
      rw [add_assoc] at ho
      obtain ⟨L', h1, h2⟩ := hw h (M + F) ho
      have ho' : Own h (M + (L' + F)) := by
        have : M + (L' + F) = L' + (M + F) := by ac_rfl
        rwa [this]
      obtain ⟨Ls, h3, h4, h5⟩ := ih hrest ho'
      refine ⟨L' :: Ls, by simp [h3], ?_, ?_⟩
      · have : (L' :: Ls).sum + F = Ls.sum + (L' + F) := by rw [List.sum_cons]; ac_rfl
        rwa [this]
      · intro i i1 i2
        cases i with
        | zero => exact h2
        | succ i =>
          have := h5 i (by simpa using i1) (by simpa using i2)
          have e : n + 1 + i = n + (i + 1) := by omega
          rw [e] at this
          simpa using this

end Verif.Heap
