import Verif.AvlHeap.Set
import Verif.AvlHeap.MapSpec
import Verif.Avl.Subset
/-!
# `AvlSet::is_subset` on reference-counted memory

On memory `Arc::ptr_eq` compares addresses.  Whatever the addresses are, the answers are those of
some oracle that says "same" of equal subtrees only; and with any such oracle the result is the
same.
-/
set_option linter.unusedSectionVars false
namespace Verif.AvlH
open Heap Heap.Machine
open Avl (Tree AvlMap AvlSet)
open Avl.AvlSet (Seek seek hasAll noLeft pushRt)

variable {T : Type}

/-! ## Oracles -/

/-- An oracle that says "same" of equal subtrees only. -/
abbrev Fair (ans : Nat → Tree T Unit → Tree T Unit → Bool) : Prop :=
  ∀ n a b, ans n a b = true → a = b

/-- One oracle for the first `n` questions, another for the rest. -/
def comb (n : Nat) (ans ans' : Nat → Tree T Unit → Tree T Unit → Bool) :
    Nat → Tree T Unit → Tree T Unit → Bool := fun m => if m < n then ans m else ans' m

theorem comb_lt {n m : Nat} (ans ans' : Nat → Tree T Unit → Tree T Unit → Bool) (h : m < n) :
    comb n ans ans' m = ans m := if_pos h

theorem comb_ge {n m : Nat} (ans ans' : Nat → Tree T Unit → Tree T Unit → Bool) (h : n ≤ m) :
    comb n ans ans' m = ans' m := if_neg (by omega)

theorem Fair.comb {ans ans' : Nat → Tree T Unit → Tree T Unit → Bool} (h : Fair ans)
    (h' : Fair ans') (n : Nat) : Fair (comb n ans ans') := by
  intro m a b e
  unfold AvlH.comb at e
  split at e
  · exact h m a b e
  · exact h' m a b e

section
variable [Ord T] {ans ans' : Nat → Tree T Unit → Tree T Unit → Bool}

/-- One turn of the search at the node on top of the stack, if that is not the same node: the
search ends, or goes on with another stack. -/
def seekStep (key : T) (w : List (Tree T Unit × Bool)) : Tree T Unit → Bool →
    Option (Seek (List (Tree T Unit × Bool)) ⊕ List (Tree T Unit × Bool))
  | .nil, _ => none
  | .node k v lh rh l r, done =>
    match compare key k with
    | .lt =>
      if done then some (.inl .fail)
      else
        match l with
        | .nil => none
        | l => some (.inr ((l, noLeft l) :: (.node k v lh rh l r, true) :: w))
    | .eq => some (.inl (.found (pushRt r w)))
    | .gt => some (.inr (pushRt r w))

/-- What follows such a turn. -/
def seekGo (ans : Nat → Tree T Unit → Tree T Unit → Bool) (lhs : Tree T Unit) (key : T)
    (fuel n : Nat) : Option (Seek (List (Tree T Unit × Bool)) ⊕ List (Tree T Unit × Bool)) →
    Option (Nat × Seek (List (Tree T Unit × Bool)))
  | none => none
  | some (.inl r) => some (n, r)
  | some (.inr w) => seek ans lhs key fuel n w

theorem seek_cons (lhs : Tree T Unit) (key : T) (fuel n : Nat) (rhs : Tree T Unit) (done : Bool)
    (w : List (Tree T Unit × Bool)) : seek ans lhs key (fuel + 1) n ((rhs, done) :: w) =
      if ans n lhs rhs then some (n + 1, .same w)
      else seekGo ans lhs key fuel (n + 1) (seekStep key w rhs done) := by
  by_cases h : ans n lhs rhs = true
  · simp [seek, h]
  · cases rhs with
    | nil => simp [seek, h, seekStep, seekGo]
    | node k v lh rh l r =>
      simp only [seek, h, seekStep]
      cases compare key k with
      | lt => cases done <;> cases l <;> simp [seekGo]
      | eq => simp [seekGo]
      | gt => simp [seekGo]

theorem seek_congr (lhs : Tree T Unit) (key : T) : ∀ (fuel n : Nat) (w : List (Tree T Unit × Bool)),
    (∀ m, n ≤ m → ans m = ans' m) → seek ans lhs key fuel n w = seek ans' lhs key fuel n w := by
  intro fuel
  induction fuel with
  | zero => intro n w _; rfl
  | succ fuel ih =>
    intro n w h
    match w with
    | [] => rfl
    | (rhs, done) :: w =>
      have h1 := fun w => ih (n + 1) w (fun m hm => h m (by omega))
      rw [seek_cons, seek_cons, h n le_rfl]
      congr 1
      unfold seekGo
      split <;> simp [h1]

theorem seek_local (lhs : Tree T Unit) (key : T) : ∀ (fuel n : Nat) (w : List (Tree T Unit × Bool))
    (n' : Nat) (r : Seek (List (Tree T Unit × Bool))), seek ans lhs key fuel n w = some (n', r) →
    n ≤ n' ∧ ((∀ m, m < n' → ans m = ans' m) → seek ans' lhs key fuel n w = some (n', r)) := by
  intro fuel
  induction fuel with
  | zero => intro n w n' r e; cases e
  | succ fuel ih =>
    intro n w n' r e
    match w with
    | [] => cases e; exact ⟨le_rfl, fun _ => rfl⟩
    | (rhs, done) :: w =>
      rw [seek_cons] at e
      rw [seek_cons]
      split at e
      · next hc =>
        cases e
        exact ⟨by omega, fun h => by rw [← h n (by omega), if_pos hc]⟩
      · next hc =>
        unfold seekGo at e
        split at e
        · cases e
        · next hs =>
          cases e
          exact ⟨by omega, fun h => by rw [← h n (by omega), if_neg hc, hs]; rfl⟩
        · next hs =>
          obtain ⟨h1, h2⟩ := ih _ _ _ _ e
          exact ⟨by omega, fun h => by rw [← h n (by omega), if_neg hc, hs]; exact h2 h⟩

theorem hasAll_local (fuel : Nat) : ∀ (t : Tree T Unit) (n : Nat) (w : List (Tree T Unit × Bool))
    (b : Bool) (n' : Nat) (w' : List (Tree T Unit × Bool)), hasAll ans fuel t n w = some (b, n', w') →
    n ≤ n' ∧ ((∀ m, m < n' → ans m = ans' m) → hasAll ans' fuel t n w = some (b, n', w')) := by
  intro t
  induction t with
  | nil => intro n w b n' w' e; cases e; exact ⟨le_rfl, fun _ => rfl⟩
  | node k v lh rh l r ihl ihr =>
    intro n w b n' w' e
    rw [hasAll] at e
    rw [hasAll]
    split at e
    · cases e
    · next n1 w1 e1 =>
      cases e
      obtain ⟨h1, h2⟩ := ihl _ _ _ _ _ e1
      exact ⟨h1, fun h => by rw [h2 h]⟩
    · next n1 w1 e1 =>
      obtain ⟨h1, h2⟩ := ihl _ _ _ _ _ e1
      split at e
      · cases e
      · next n2 e2 =>
        cases e
        obtain ⟨h3, h4⟩ := seek_local (ans' := ans') _ _ _ _ _ _ _ e2
        refine ⟨by omega, fun h => ?_⟩
        rw [h2 (fun m hm => h m (by omega))]
        dsimp only
        rw [h4 h]
      · next n2 w2 e2 =>
        cases e
        obtain ⟨h3, h4⟩ := seek_local (ans' := ans') _ _ _ _ _ _ _ e2
        refine ⟨by omega, fun h => ?_⟩
        rw [h2 (fun m hm => h m (by omega))]
        dsimp only
        rw [h4 h]
      · next n2 w2 e2 =>
        obtain ⟨h3, h4⟩ := seek_local (ans' := ans') _ _ _ _ _ _ _ e2
        obtain ⟨h5, h6⟩ := ihr _ _ _ _ _ e
        refine ⟨by omega, fun h => ?_⟩
        rw [h2 (fun m hm => h m (by omega))]
        dsimp only
        rw [h4 (fun m hm => h m (by omega))]
        exact h6 h

theorem hasAll_congr (fuel : Nat) : ∀ (t : Tree T Unit) (n : Nat) (w : List (Tree T Unit × Bool)),
    (∀ m, n ≤ m → ans m = ans' m) → hasAll ans fuel t n w = hasAll ans' fuel t n w := by
  intro t
  induction t with
  | nil => intro n w _; rfl
  | node k v lh rh l r ihl ihr =>
    intro n w h
    rw [hasAll, hasAll, ← ihl n w h]
    split
    · rfl
    · rfl
    · next n1 w1 e1 =>
      have h1 := (hasAll_local (ans' := ans') _ _ _ _ _ _ _ e1).1
      rw [← seek_congr _ _ _ _ _ (fun m hm => h m (by omega))]
      split
      · rfl
      · rfl
      · rfl
      · next n2 w2 e2 =>
        have h2 := (seek_local (ans' := ans') _ _ _ _ _ _ _ e2).1
        exact ihr _ _ (fun m hm => h m (by omega))

end

/-! ## Memory -/

theorem vt_inj : ∀ {s s' : Tree T Unit}, vt s = vt s' → s = s'
  | .nil, .nil, _ => rfl
  | .nil, .node .., h => by simp [vt] at h
  | .node .., .nil, h => by simp [vt] at h
  | .node k v lh rh l r, .node k' v' lh' rh' l' r', h => by
    simp only [vt, VT.node.injEq, ND.mk.injEq, List.cons.injEq, and_true] at h
    obtain ⟨⟨rfl, -, rfl, rfl⟩, h1, h2⟩ := h
    rw [vt_inj h1, vt_inj h2]

section
variable {M : Multiset (Handle (ND T Unit))} {α β : Type}

/-- A call that leaves memory as it is. -/
theorem wp_look {L0 G : Multiset (Handle (ND T Unit))} {p : Prog (ND T Unit) α}
    {f : α → Prog (ND T Unit) β} {Q : α → Prop} {R : β → Multiset (Handle (ND T Unit)) → Prop}
    (hM : M = L0 + G) (spec : wp p L0 (fun x L => Q x ∧ L = L0))
    (k : ∀ x, Q x → wp (f x) M R) : wp (p.bind f) M R := by
  refine wp_call G spec hM ?_
  rintro x L ⟨h, hL⟩
  subst L
  rw [← hM]
  exact k x h

/-- A stack of paths, and the nodes there. -/
def StackR (t : VT (ND T Unit)) : List (List Nat × Bool) → List (Tree T Unit × Bool) → Prop :=
  List.Forall₂ fun p e => t.sub p.1 = some (vt e.1) ∧ e.1 ≠ .nil ∧ p.2 = e.2

/-- The outcomes of a search. -/
inductive SeekR (t : VT (ND T Unit)) : Seek (List (List Nat × Bool)) →
    Seek (List (Tree T Unit × Bool)) → Prop
  | fail : SeekR t .fail .fail
  | found {hw w} : StackR t hw w → SeekR t (.found hw) (.found w)
  | same {hw w} : StackR t hw w → SeekR t (.same hw) (.same w)

variable {a b : Nat} {ta tb : VT (ND T Unit)} {ua ub : Bool}
  {Ga Gb : Multiset (Handle (ND T Unit))}

theorem noLeftAt_spec {s : Tree T Unit} {path : List Nat} (hs : s ≠ .nil)
    (hp : tb.sub path = some (vt s)) : wp (HMap.noLeftAt (T := T) b path) {⟨some b, tb, ub⟩}
      (fun x L => x = noLeft s ∧ L = {⟨some b, tb, ub⟩}) := by
  cases s with
  | nil => exact absurd rfl hs
  | node k v lh rh l r =>
    refine wp_bind (wp_conseq (readN_spec hp) ?_)
    rintro x L ⟨rfl, rfl⟩
    refine wp_pure ⟨?_, rfl⟩
    cases l <;> rfl

theorem pushRtAt_spec {k : T} {v : Unit} {lh rh : Int} {l r : Tree T Unit} {path : List Nat}
    {hw : List (List Nat × Bool)} {w : List (Tree T Unit × Bool)}
    (hp : tb.sub path = some (vt (.node k v lh rh l r))) (hw' : StackR tb hw w) :
    wp (HMap.pushRtAt (T := T) b path (isNode r) hw) {⟨some b, tb, ub⟩}
      (fun x L => StackR tb x (pushRt r w) ∧ L = {⟨some b, tb, ub⟩}) := by
  have h1 := (sub_kids hp).2
  cases r with
  | nil => exact wp_pure ⟨hw', rfl⟩
  | node k1 v1 lh1 rh1 l1 r1 =>
    refine wp_bind (wp_conseq (noLeftAt_spec (by simp) h1) ?_)
    rintro x L ⟨rfl, rfl⟩
    exact wp_pure ⟨.cons ⟨h1, by simp, rfl⟩ hw', rfl⟩

open Classical in
theorem seekAt_spec [Ord T] (hMa : M = {⟨some a, ta, ua⟩} + Ga) (hMb : M = {⟨some b, tb, ub⟩} + Gb)
    {lp : List Nat} {lhs : Tree T Unit} (hl : lhs ≠ .nil) (hlp : ta.sub lp = some (vt lhs))
    (key : T) : ∀ (fuel n : Nat) (hw : List (List Nat × Bool)) (w : List (Tree T Unit × Bool)),
    StackR tb hw w → (∀ ans, Fair ans → seek ans lhs key fuel n w ≠ none) →
    wp (HMap.seekAt a lp key b fuel hw) M (fun x L => L = M ∧ ∃ ans, Fair ans ∧ ∃ n' r,
      seek ans lhs key fuel n w = some (n', r) ∧ SeekR tb x r) := by
  intro fuel
  induction fuel with
  | zero => intro n hw w _ H; exact absurd rfl (H (fun _ _ _ => false) (by simp [Fair]))
  | succ fuel ih =>
    intro n hw w hR H
    cases hR with
    | nil =>
      exact wp_pure ⟨rfl, fun _ _ _ => false, by simp [Fair], n, .fail, rfl, .fail⟩
    | @cons p e hw w h hR =>
      obtain ⟨rp, done⟩ := p
      obtain ⟨rhs, done'⟩ := e
      obtain ⟨h1, h2, h3⟩ := h
      dsimp only at h1 h2 h3
      subst h3
      cases lhs with
      | nil => exact absurd rfl hl
      | node k0 v0 lh0 rh0 l0 r0 =>
      cases rhs with
      | nil => exact absurd rfl h2
      | node k v lh rh l r =>
      -- the oracle that says no this time
      have hno : ∀ ans, (comb (n + 1) (fun _ _ _ => false) ans : Nat → Tree T Unit → _ → Bool) n
          (.node k0 v0 lh0 rh0 l0 r0) (.node k v lh rh l r) = false := by
        intro ans; rw [comb_lt _ _ (by omega)]
      have hgo : ∀ ans, seek (comb (n + 1) (fun _ _ _ => false) ans) (.node k0 v0 lh0 rh0 l0 r0) key
          (fuel + 1) n ((.node k v lh rh l r, done) :: w) =
          seekGo ans (.node k0 v0 lh0 rh0 l0 r0) key fuel (n + 1)
            (seekStep key w (.node k v lh rh l r) done) := by
        intro ans
        rw [seek_cons, hno, if_neg (by simp)]
        unfold seekGo
        split
        · rfl
        · rfl
        · exact seek_congr _ _ _ _ _ (fun m hm => comb_ge _ _ hm)
      have fair0 : Fair (fun _ _ _ => false : Nat → Tree T Unit → Tree T Unit → Bool) := by
        simp [Fair]
      have H' : ∀ ans, Fair ans → seekGo ans (.node k0 v0 lh0 rh0 l0 r0) key fuel (n + 1)
            (seekStep key w (.node k v lh rh l r) done) ≠ none := by
        intro ans ha
        rw [← hgo]
        exact H _ (fair0.comb ha _)
      rw [HMap.seekAt]
      refine wp_ptrEq Ga Gb hMa hMb hlp h1 ?_
      intro q hq
      cases q with
      | true =>
        have heq : Tree.node k0 v0 lh0 rh0 l0 r0 = .node k v lh rh l r := vt_inj (hq rfl)
        refine wp_pure ⟨rfl, fun _ x y => decide (x = y), by simp [Fair], n + 1, .same w, ?_,
          .same hR⟩
        rw [seek_cons, if_pos (by simpa using heq)]
      | false =>
        rw [if_neg (by simp)]
        refine wp_look hMb (readN_spec h1) ?_
        rintro x rfl
        dsimp only
        simp only [seekStep] at hgo H'
        cases hc : compare key k with
        | lt =>
          simp only [hc] at hgo H' ⊢
          cases done with
          | true =>
            exact wp_pure ⟨rfl, _, fair0.comb fair0 (n + 1), n + 1, .fail, hgo _, .fail⟩
          | false =>
            cases l with
            | nil => exact absurd rfl (H' _ fair0)
            | node k1 v1 lh1 rh1 l1 r1 =>
              have h4 := (sub_kids h1).1
              simp only [isNode, Bool.false_eq_true, if_false, if_true] at hgo H' ⊢
              refine wp_look hMb (noLeftAt_spec (by simp) h4) ?_
              rintro x rfl
              refine wp_conseq (ih (n + 1) _ _ (.cons ⟨h4, by simp, rfl⟩
                (.cons ⟨h1, by simp, rfl⟩ hR)) H') ?_
              rintro x L ⟨rfl, ans, ha, n', r', e, hr⟩
              exact ⟨rfl, _, fair0.comb ha (n + 1), n', r', (hgo ans).trans e, hr⟩
        | eq =>
          simp only [hc] at hgo H' ⊢
          refine wp_look hMb (pushRtAt_spec h1 hR) ?_
          intro x hx
          exact wp_pure ⟨rfl, _, fair0.comb fair0 (n + 1), n + 1, _, hgo _, .found hx⟩
        | gt =>
          simp only [hc] at hgo H' ⊢
          refine wp_look hMb (pushRtAt_spec h1 hR) ?_
          intro x hx
          refine wp_conseq (ih (n + 1) _ _ hx H') ?_
          rintro x L ⟨rfl, ans, ha, n', r', e, hr⟩
          exact ⟨rfl, _, fair0.comb ha (n + 1), n', r', (hgo ans).trans e, hr⟩

theorem hasKid_spec [Ord T] {fuel N : Nat} {s : Tree T Unit} {path : List Nat}
    {hw : List (List Nat × Bool)} {w : List (Tree T Unit × Bool)} {n : Nat}
    (hw' : StackR tb hw w)
    (hgo : s ≠ .nil → wp (HMap.hasAllAt a b fuel N path hw) M (fun x L => L = M ∧
      ∃ ans, Fair ans ∧ ∃ n' w', hasAll ans fuel s n w = some (x.1, n', w') ∧ StackR tb x.2 w')) :
    wp (HMap.hasKid (HMap.hasAllAt a b fuel N) (isNode s) path hw) M (fun x L => L = M ∧
      ∃ ans, Fair ans ∧ ∃ n' w', hasAll ans fuel s n w = some (x.1, n', w') ∧ StackR tb x.2 w') := by
  cases s with
  | nil => exact wp_pure ⟨rfl, fun _ _ _ => false, by simp [Fair], n, w, rfl, hw'⟩
  | node => exact hgo (by simp)

theorem hasAllAt_spec [Ord T] (hMa : M = {⟨some a, ta, ua⟩} + Ga)
    (hMb : M = {⟨some b, tb, ub⟩} + Gb) (fuel : Nat) : ∀ (N : Nat) (lhs : Tree T Unit) (n : Nat)
    (lp : List Nat) (hw : List (List Nat × Bool)) (w : List (Tree T Unit × Bool)),
    lhs ≠ .nil → ta.sub lp = some (vt lhs) → lhs.size ≤ N → StackR tb hw w →
    (∀ ans, Fair ans → hasAll ans fuel lhs n w ≠ none) →
    wp (HMap.hasAllAt a b fuel N lp hw) M (fun x L => L = M ∧ ∃ ans, Fair ans ∧ ∃ n' w',
      hasAll ans fuel lhs n w = some (x.1, n', w') ∧ StackR tb x.2 w') := by
  intro N
  induction N with
  | zero =>
    intro lhs n lp hw w h1 _ h2
    cases lhs with
    | nil => exact absurd rfl h1
    | node => simp [Tree.size] at h2
  | succ N ih =>
    intro lhs n lp hw w h1 hlp hN hw' H
    cases lhs with
    | nil => exact absurd rfl h1
    | node k v lh rh l r =>
    obtain ⟨hl, hr⟩ := sub_kids hlp
    simp only [Tree.size] at hN
    rw [HMap.hasAllAt]
    refine wp_look hMa (readN_spec hlp) ?_
    rintro x rfl
    dsimp only
    have H1 : ∀ ans, Fair ans → hasAll ans fuel l n w ≠ none := by
      intro ans ha e
      refine H ans ha ?_
      rw [hasAll, e]
    refine wp_bind (wp_conseq (hasKid_spec hw' (fun h => ih l n _ hw w h hl (by omega) hw' H1)) ?_)
    rintro ⟨y1, hw1⟩ L ⟨rfl, ans1, ha1, n1, w1, e1, hw1'⟩
    dsimp only at e1 hw1' ⊢
    cases y1 with
    | false =>
      exact wp_pure ⟨rfl, ans1, ha1, n1, w1, by rw [hasAll, e1], hw1'⟩
    | true =>
      rw [if_pos rfl]
      have c1 : ∀ ans, hasAll (comb n1 ans1 ans) fuel l n w = some (true, n1, w1) := fun ans =>
        (hasAll_local _ _ _ _ _ _ _ e1).2 (fun m hm => (comb_lt _ _ hm).symm)
      have c2 : ∀ ans, seek (comb n1 ans1 ans) (.node k v lh rh l r) k fuel n1 w1 =
          seek ans (.node k v lh rh l r) k fuel n1 w1 := fun ans =>
        seek_congr _ _ _ _ _ (fun m hm => comb_ge _ _ hm)
      refine wp_bind (wp_conseq (seekAt_spec hMa hMb (by simp) hlp k fuel n1 hw1 w1 hw1' ?_) ?_)
      · intro ans ha e
        refine H _ (ha1.comb ha n1) ?_
        rw [hasAll, c1]
        dsimp only
        rw [c2, e]
      · rintro x L ⟨rfl, ans2, ha2, n2, z, e2, hz⟩
        have hf := ha1.comb ha2 n1
        cases hz with
        | fail =>
          refine wp_pure ⟨rfl, _, hf, n2, w1, ?_, hw1'⟩
          rw [hasAll, c1]
          dsimp only
          rw [c2, e2]
        | @same hw2 w2 hz =>
          refine wp_pure ⟨rfl, _, hf, n2, w2, ?_, hz⟩
          rw [hasAll, c1]
          dsimp only
          rw [c2, e2]
        | @found hw2 w2 hz =>
          have h12 : n1 ≤ n2 := (seek_local (ans' := ans2) _ _ _ _ _ _ _ e2).1
          have c3 : ∀ ans, hasAll (comb n2 (comb n1 ans1 ans2) ans) fuel (.node k v lh rh l r) n w =
              hasAll ans fuel r n2 w2 := by
            intro ans
            have d1 : hasAll (comb n2 (comb n1 ans1 ans2) ans) fuel l n w = some (true, n1, w1) :=
              (hasAll_local _ _ _ _ _ _ _ (c1 ans2)).2
                (fun m hm => (comb_lt _ _ (by omega)).symm)
            have d2 : seek (comb n2 (comb n1 ans1 ans2) ans) (.node k v lh rh l r) k fuel n1 w1 =
                some (n2, .found w2) :=
              (seek_local _ _ _ _ _ _ _ ((c2 ans2).trans e2)).2 (fun m hm => (comb_lt _ _ hm).symm)
            rw [hasAll, d1]
            dsimp only
            rw [d2]
            exact hasAll_congr _ _ _ _ (fun m hm => comb_ge _ _ hm)
          have H3 : ∀ ans, Fair ans → hasAll ans fuel r n2 w2 ≠ none := by
            intro ans ha
            rw [← c3]
            exact H _ (hf.comb ha n2)
          refine wp_conseq (hasKid_spec hz (fun h => ih r n2 _ hw2 w2 h hr (by omega) hz H3)) ?_
          rintro x L ⟨rfl, ans3, ha3, n3, w3, e3, h3⟩
          exact ⟨rfl, _, hf.comb ha3 n2, n3, w3, (c3 ans3).trans e3, h3⟩

end

/-! ## The whole call -/

open Avl.AvlSet in
/-- With any fair oracle and enough fuel the answer is the same. -/
theorem hasAll_fst [Ord T] [Std.TransOrd T] {ans ans' : Nat → Tree T Unit → Tree T Unit → Bool}
    (h : Fair ans) (h' : Fair ans') {fuel fuel' : Nat} {l r : Tree T Unit}
    (hl : Sorted l.toList) (hr : Sorted r.toList) (hn : r ≠ .nil) (hf : 2 * r.size < fuel)
    (hf' : 2 * r.size < fuel') :
    ∃ b w1 w2, hasAll ans fuel l 0 [(r, noLeft r)] = some (b, w1) ∧
      hasAll ans' fuel' l 0 [(r, noLeft r)] = some (b, w2) := by
  have hok : ∀ e ∈ [(r, noLeft r)], EntryOk e := by
    intro e he
    rw [List.mem_singleton.1 he]
    exact entryOk_noLeft hn
  have ha : aheads [(r, noLeft r)] = r.toList := by simp [ahead_noLeft, aheads]
  have hm : mus [(r, noLeft r)] ≤ 2 * r.size := by
    have := mu_noLeft r
    simp [mus]; omega
  obtain ⟨b, n1, w1, e1, t1, f1⟩ := hasAll_spec h fuel l 0 [(r, noLeft r)] hl hok
    (by rw [ha]; exact hr) (by omega)
  obtain ⟨b', n2, w2, e2, t2, f2⟩ := hasAll_spec h' fuel' l 0 [(r, noLeft r)] hl hok
    (by rw [ha]; exact hr) (by omega)
  refine ⟨b, _, (n2, w2), e1, ?_⟩
  rw [e2]
  cases b <;> cases b'
  · rfl
  · obtain ⟨x, hx, h3⟩ := f1 rfl
    obtain ⟨e, he, h4⟩ := (t2 rfl).1 x hx
    exact absurd h4 (h3 e he)
  · obtain ⟨x, hx, h3⟩ := f2 rfl
    obtain ⟨e, he, h4⟩ := (t1 rfl).1 x hx
    exact absurd h4 (h3 e he)
  · rfl

/-- A link is missing exactly where there is no tree. -/
theorem wp_tree_look {α : Type} {p : Prog (ND T Unit) α} {r : Option Nat} {t : Tree T Unit}
    {M G : Multiset (Handle (ND T Unit))} {Q : α → Multiset (Handle (ND T Unit)) → Prop}
    (hM : M = own r (vt t) + G) (hn : r = none → t = .nil → wp p M Q)
    (hs : ∀ a, r = some a → t ≠ .nil → M = {⟨some a, vt t, false⟩} + G → wp p M Q) :
    wp p M Q := by
  refine wp_tree_cases G hM ?_ ?_
  · intro h1 h2
    have : M = G := by rw [hM, h1, h2]; simp [vt]
    rw [← this]
    exact hn h1 h2
  · intro a k v lh rh l r' h1 h2
    have : M = own (some a) (vt (.node k v lh rh l r')) + G := by rw [hM, h1, h2]
    rw [← this]
    exact hs a h1 (by rw [h2]; simp) (by rw [hM, h1, h2]; rfl)

/-- Whatever nodes the two sets share: `is_subset` says what it says of values without shared
nodes. -/
theorem hisSubset_spec [Ord T] [Std.TransOrd T] {M : Multiset (Handle (ND T Unit))}
    {x y : AvlSet T} {r1 r2 : Option Nat} (hx : Ok x.map) (hy : Ok y.map)
    (sx : Sorted x.map.root.toList) (sy : Sorted y.map.root.toList)
    {G G' : Multiset (Handle (ND T Unit))}
    (hM : M = own r1 (vt x.map.root) + G) (hM' : M = own r2 (vt y.map.root) + G') :
    wp (HMap.isSubset (T := T) ⟨x.map.len, r1⟩ ⟨y.map.len, r2⟩) M (fun z L =>
      z = AvlSet.isSubset (fun _ _ _ => false) x y ∧ L = M) := by
  obtain ⟨⟨n, t⟩⟩ := x
  obtain ⟨⟨n', t'⟩⟩ := y
  have hsx := hx.size
  have hsy := hy.size
  dsimp only at hsx hsy sx sy hM hM' ⊢
  unfold HMap.isSubset
  by_cases h0 : (n == 0) = true
  · have e : AvlSet.isSubset (fun _ _ _ => false) ⟨⟨n, t⟩⟩ ⟨⟨n', t'⟩⟩ = some true := if_pos h0
    rw [e, if_pos h0]; exact wp_pure ⟨rfl, rfl⟩
  · rw [if_neg h0]
    by_cases hlt : n' < n
    · have e : AvlSet.isSubset (fun _ _ _ => false) ⟨⟨n, t⟩⟩ ⟨⟨n', t'⟩⟩ = some false :=
        (if_neg h0).trans (if_pos hlt)
      rw [e, if_pos hlt]; exact wp_pure ⟨rfl, rfl⟩
    · rw [if_neg hlt]
      have hno : t = .nil ∨ t' = .nil →
          AvlSet.isSubset (fun _ _ _ => false) ⟨⟨n, t⟩⟩ ⟨⟨n', t'⟩⟩ = none := by
        intro h
        refine (if_neg h0).trans ((if_neg hlt).trans ?_)
        cases t with
        | nil => rfl
        | node =>
          cases t' with
          | nil => rfl
          | node => simp at h
      refine wp_tree_look hM ?_ ?_
      · rintro rfl ht
        rw [hno (.inl ht)]
        exact wp_pure ⟨rfl, rfl⟩
      · rintro a rfl ht hMa
        refine wp_tree_look hM' ?_ ?_
        · rintro rfl ht'
          rw [hno (.inr ht')]
          exact wp_pure ⟨rfl, rfl⟩
        · rintro b rfl ht' hMb
          have hyes : AvlSet.isSubset (fun _ _ _ => false) ⟨⟨n, t⟩⟩ ⟨⟨n', t'⟩⟩ =
              (hasAll (fun _ _ _ => false) (2 * t'.size + 1) t 0 [(t', noLeft t')]).map (·.1) := by
            refine (if_neg h0).trans ((if_neg hlt).trans ?_)
            cases t with
            | nil => exact absurd rfl ht
            | node =>
              cases t' with
              | nil => exact absurd rfl ht'
              | node => rfl
          have hp : (vt t').sub [] = some (vt t') := rfl
          refine wp_look hMb (noLeftAt_spec ht' hp) ?_
          rintro nl rfl
          have fair0 : Fair (fun _ _ _ => false : Nat → Tree T Unit → Tree T Unit → Bool) := by
            simp [Fair]
          refine wp_bind (wp_conseq (hasAllAt_spec hMa hMb (2 * n' + 1) n t 0 [] _
            [(t', noLeft t')] ht rfl hsx
            (.cons ⟨hp, ht', rfl⟩ .nil) ?_) ?_)
          · intro ans ha e
            obtain ⟨b, w1, w2, h1, -⟩ := hasAll_fst ha ha (fuel := 2 * n' + 1) (fuel' := 2 * n' + 1)
              sx sy ht' (by omega) (by omega)
            rw [h1] at e
            cases e
          · rintro z L ⟨rfl, ans, ha, n2, w2, e, -⟩
            obtain ⟨b, w1, w3, h1, h2⟩ := hasAll_fst ha fair0 (fuel := 2 * n' + 1)
              (fuel' := 2 * t'.size + 1) sx sy ht' (by omega) (by omega)
            rw [hyes, h2]
            rw [e] at h1
            cases h1
            exact wp_pure ⟨rfl, rfl⟩

end Verif.AvlH
