import Verif.Unwind.Bulk
/-!
# What an `AvlMap` owns

An entry is *owned* by a tree if nothing else reaches it: neither its node nor one above it is
shared.  `tally` counts the entries that `Clone` has returned copies of.  Each operation is shown
to account for what it owns at the end: it owned it before, was given it, or had it cloned.
-/
set_option linter.unusedVariables false
namespace Verif.Unwind
open Verif.Wild
universe w
variable {σ : Type w} {K V : Type}

/-- `Clone`, with a count of the copies it has made of entries whose key satisfies `q`; one that
panics has made none. -/
def tally (q : K → Bool) (c : Cl σ K V) : Cl (Nat × σ) K V := fun es s =>
  match c es s.2 with
  | (true, s') => (true, (s.1, s'))
  | (false, s') => (false, (s.1 + (es.map Prod.fst).countP q, s'))

/-- One if the key is counted. -/
def one (q : K → Bool) (k : K) : Nat := if q k then 1 else 0

/-- Likewise, if the node is shared. -/
def oneIf (q : K → Bool) (b : Bool) (k : K) : Nat := if b then one q k else 0

theorem cloneIf_tally {q : K → Bool} {c : Cl σ K V} {sh b : Bool} {e : K × V} {s s' : Nat × σ}
    (h : cloneIf (tally q c) sh [e] s = (b, s')) :
    s'.1 = s.1 + (if sh && !b then one q e.1 else 0) := by
  cases sh with
  | false => cases h; simp
  | true =>
    simp only [cloneIf, tally, if_true] at h
    rcases hc : c [e] s.2 with ⟨_ | _, s2⟩ <;> rw [hc] at h <;> cases h <;>
      simp [one, List.countP_cons]

/-- What is owned at the end (`b` of the result, `u` of what a panic leaves) was owned before
(`a`), or cloned; nothing is lost unless there is a panic. -/
def Acct {U R : Type} (a : Nat) (u : U → Nat) (b : R → Nat) (s : Nat × σ) :
    Option (Ends U R × (Nat × σ)) → Prop
  | none => True
  | some (.unwound x, s') => u x + s.1 ≤ a + s'.1
  | some (.done r, s') => b r + s.1 = a + s'.1

/-- Likewise, where some may be lost. -/
def AcctLe {U R : Type} (a : Nat) (u : U → Nat) (b : R → Nat) (s : Nat × σ) :
    Option (Ends U R × (Nat × σ)) → Prop
  | none => True
  | some (.unwound x, s') => u x + s.1 ≤ a + s'.1
  | some (.done r, s') => b r + s.1 ≤ a + s'.1

theorem Acct.le {U R : Type} {a : Nat} {u : U → Nat} {b : R → Nat} {s : Nat × σ}
    {x : Option (Ends U R × (Nat × σ))} (h : Acct a u b s x) : AcctLe a u b s x := by
  match x, h with
  | none, _ => trivial
  | some (.unwound x, s'), h => exact h
  | some (.done r, s'), h => exact Nat.le_of_eq h

end Verif.Unwind

namespace Verif.Avl
open Verif.Wild Verif.Unwind
universe w
variable {σ : Type w} {K V : Type}

namespace STree

/-- The keys of the entries that nothing else reaches. -/
def own : STree K V → List K
  | nil => []
  | node sh k _ _ _ l r => if sh then [] else own l ++ k :: own r

/-- How many of them are counted. -/
def cnt (q : K → Bool) (t : STree K V) : Nat := t.own.countP q

variable {q : K → Bool} {c : Cl σ K V}

@[simp] theorem cnt_nil : (nil : STree K V).cnt q = 0 := rfl

@[simp] theorem cnt_node (sh : Bool) (k : K) (v : V) (lh rh : Int) (l r : STree K V) :
    (node sh k v lh rh l r).cnt q = if sh then 0 else l.cnt q + one q k + r.cnt q := by
  cases sh
  · simp only [cnt, own, one, List.countP_append, List.countP_cons, Bool.false_eq_true, if_false]
    omega
  · rfl

@[simp] theorem cnt_shareIf (b : Bool) (t : STree K V) :
    (t.shareIf b).cnt q = if b then 0 else t.cnt q := by
  cases t <;> cases b <;> simp [shareIf]

@[simp] theorem cnt_mk (k : K) (v : V) (l r : STree K V) :
    (mk k v l r).cnt q = l.cnt q + one q k + r.cnt q := by simp [mk]

abbrev bt (q : K → Bool) {B : Type} (x : STree K V × B) : Nat := x.1.cnt q

/-- What a removal returns counts as owned. -/
abbrev rt (q : K → Bool) {B : Type} (x : STree K V × Option (K × V) × B) : Nat :=
  x.1.cnt q + (x.2.1.elim 0 (fun e => one q e.1))

/-- Closes a goal about counts after the cases of a function. -/
macro "acct" : tactic => `(tactic| (simp only [Acct, AcctLe, bt, rt, oneIf,
  Option.elim, cnt_node, cnt_shareIf, cnt_mk, cnt_nil] at *; grind))

theorem rotLfC_acc (t : STree K V) (s : Nat × σ) :
    Acct (t.cnt q) (cnt q) (bt q) s (rotLfC (tally q c) t s) := by
  unfold rotLfC
  split
  · split <;> rename_i h <;> have h1 := cloneIf_tally h <;> clear h
    · acct
    · acct
  · trivial

theorem rotRtC_acc (t : STree K V) (s : Nat × σ) :
    Acct (t.cnt q) (cnt q) (bt q) s (rotRtC (tally q c) t s) := by
  unfold rotRtC
  split
  · split <;> rename_i h <;> have h1 := cloneIf_tally h <;> clear h
    · acct
    · acct
  · trivial

theorem rotRtLfC_acc (t : STree K V) (s : Nat × σ) :
    Acct (t.cnt q) (cnt q) (bt q) s (rotRtLfC (tally q c) t s) := by
  unfold rotRtLfC
  split
  · split <;> rename_i h <;> have h1 := cloneIf_tally h <;> clear h
    · acct
    · split <;> rename_i h <;> have h2 := cloneIf_tally h <;> clear h
      · acct
      · acct
  · trivial

theorem rotLfRtC_acc (t : STree K V) (s : Nat × σ) :
    Acct (t.cnt q) (cnt q) (bt q) s (rotLfRtC (tally q c) t s) := by
  unfold rotLfRtC
  split
  · split <;> rename_i h <;> have h1 := cloneIf_tally h <;> clear h
    · acct
    · split <;> rename_i h <;> have h2 := cloneIf_tally h <;> clear h
      · acct
      · acct
  · trivial

theorem rebalLfToRtC_acc (t : STree K V) (s : Nat × σ) :
    Acct (t.cnt q) (cnt q) (bt q) s (rebalLfToRtC (tally q c) t s) := by
  unfold rebalLfToRtC
  split
  · split
    · trivial
    · split
      · exact rotRtC_acc _ s
      · exact rotLfRtC_acc _ s
  · trivial

theorem rebalRtToLfC_acc (t : STree K V) (s : Nat × σ) :
    Acct (t.cnt q) (cnt q) (bt q) s (rebalRtToLfC (tally q c) t s) := by
  unfold rebalRtToLfC
  split
  · split
    · trivial
    · split
      · exact rotLfC_acc _ s
      · exact rotRtLfC_acc _ s
  · trivial

theorem afterInsLfC_acc (k : K) (v : V) (lh rh : Int) (l r : STree K V) (b : Bool) (s : Nat × σ) :
    Acct (l.cnt q + one q k + r.cnt q) (cnt q) (bt q) s
      (afterInsLfC (tally q c) k v lh rh l r b s) := by
  unfold afterInsLfC
  dsimp only
  generalize (lh + if b = true then 1 else 0) = x
  split
  · have h := rebalLfToRtC_acc (q := q) (c := c) (node false k v x rh l r) s
    split <;> rename_i e <;> rw [e] at h <;> clear e
    · trivial
    · acct
    · acct
  · acct

theorem afterInsRtC_acc (k : K) (v : V) (lh rh : Int) (l r : STree K V) (b : Bool) (s : Nat × σ) :
    Acct (l.cnt q + one q k + r.cnt q) (cnt q) (bt q) s
      (afterInsRtC (tally q c) k v lh rh l r b s) := by
  unfold afterInsRtC
  dsimp only
  generalize (rh + if b = true then 1 else 0) = x
  split
  · have h := rebalRtToLfC_acc (q := q) (c := c) (node false k v lh x l r) s
    split <;> rename_i e <;> rw [e] at h <;> clear e
    · trivial
    · acct
    · acct
  · acct

theorem afterRmLfC_acc (k : K) (v : V) (lh rh : Int) (l r : STree K V) (b : Bool) (s : Nat × σ) :
    Acct (l.cnt q + one q k + r.cnt q) (cnt q) (bt q) s
      (afterRmLfC (tally q c) k v lh rh l r b s) := by
  unfold afterRmLfC
  dsimp only
  generalize (lh - if b = true then 1 else 0) = x
  split
  · have h := rebalRtToLfC_acc (q := q) (c := c) (node false k v x rh l r) s
    simpa using h
  · acct

theorem afterRmRtC_acc (k : K) (v : V) (lh rh : Int) (l r : STree K V) (b : Bool) (s : Nat × σ) :
    Acct (l.cnt q + one q k + r.cnt q) (cnt q) (bt q) s
      (afterRmRtC (tally q c) k v lh rh l r b s) := by
  unfold afterRmRtC
  dsimp only
  generalize (rh - if b = true then 1 else 0) = x
  split
  · have h := rebalLfToRtC_acc (q := q) (c := c) (node false k v lh x l r) s
    simpa using h
  · acct

/-- The account of an insertion: an entry that is replaced is lost. -/
def InsAcct {R : Type} (a : Nat) (u : STree K V → Nat) (b : R → Nat) (old : R → Option V)
    (s : Nat × σ) : Option (Ends (STree K V) R × (Nat × σ)) → Prop
  | none => True
  | some (.unwound x, s') => u x + s.1 ≤ a + s'.1
  | some (.done r, s') => b r + s.1 ≤ a + s'.1 ∧
      a + s'.1 ≤ b r + s.1 + (if (old r).isSome then 1 else 0)

theorem one_le (q : K → Bool) (k : K) : one q k ≤ 1 := by unfold one; split <;> omega

theorem insC_acc [Ord K] (k : K) (v : V) : ∀ (t : STree K V) (up : Bool) (s : Nat × σ),
    InsAcct ((t.shareIf up).cnt q + one q k) (cnt q) (bt q) (fun r => r.2.1) s
      (insC (tally q c) k v up t s) := by
  intro t
  induction t with
  | nil => intro up s; simp [insC, InsAcct, bt, shareIf]
  | node sh nk nv lh rh l r ihl ihr =>
    intro up s
    have o1 := one_le q nk
    unfold insC
    split <;> rename_i h <;> have h1 := cloneIf_tally h <;> clear h
    · simp only [InsAcct]; acct
    · rename_i s1
      split
      · simp only [InsAcct]; acct
      · have hl := ihl (sh || up) s1
        split <;> rename_i e <;> rw [e] at hl <;> clear e
        · trivial
        · simp only [InsAcct] at *; acct
        · rename_i l' old b s2
          have h2 := afterInsLfC_acc (q := q) (c := c) nk nv lh rh l' (r.shareIf (sh || up)) b s2
          split <;> rename_i e <;> rw [e] at h2 <;> clear e
          · trivial
          · simp only [InsAcct] at *; acct
          · simp only [InsAcct] at *; acct
      · have hr := ihr (sh || up) s1
        split <;> rename_i e <;> rw [e] at hr <;> clear e
        · trivial
        · simp only [InsAcct] at *; acct
        · rename_i r' old b s2
          have h2 := afterInsRtC_acc (q := q) (c := c) nk nv lh rh (l.shareIf (sh || up)) r' b s2
          split <;> rename_i e <;> rw [e] at h2 <;> clear e
          · trivial
          · simp only [InsAcct] at *; acct
          · simp only [InsAcct] at *; acct

theorem rmLeftmostC_acc : ∀ (t : STree K V) (up : Bool) (s : Nat × σ),
    Acct ((t.shareIf up).cnt q) (cnt q) (rt q) s (rmLeftmostC (tally q c) up t s) := by
  intro t
  induction t with
  | nil => intro up s; simp [rmLeftmostC, Acct, shareIf]
  | node sh k v lh rh l r ihl ihr =>
    intro up s
    unfold rmLeftmostC
    split <;> rename_i h <;> have h1 := cloneIf_tally h <;> clear h
    · acct
    · rename_i s1
      split
      · cases l with
        | nil => acct
        | node => simp [isNil] at *
      · have hl := ihl (sh || up) s1
        split <;> rename_i e <;> rw [e] at hl <;> clear e
        · trivial
        · acct
        · rename_i l' kv b s2
          have h2 := afterRmLfC_acc (q := q) (c := c) k v lh rh l' (r.shareIf (sh || up)) b s2
          split <;> rename_i e <;> rw [e] at h2 <;> clear e
          · trivial
          · acct
          · acct

theorem rmRightmostC_acc : ∀ (t : STree K V) (up : Bool) (s : Nat × σ),
    Acct ((t.shareIf up).cnt q) (cnt q) (rt q) s (rmRightmostC (tally q c) up t s) := by
  intro t
  induction t with
  | nil => intro up s; simp [rmRightmostC, Acct, shareIf]
  | node sh k v lh rh l r ihl ihr =>
    intro up s
    unfold rmRightmostC
    split <;> rename_i h <;> have h1 := cloneIf_tally h <;> clear h
    · acct
    · rename_i s1
      split
      · cases r with
        | nil => acct
        | node => simp [isNil] at *
      · have hl := ihr (sh || up) s1
        split <;> rename_i e <;> rw [e] at hl <;> clear e
        · trivial
        · acct
        · rename_i r' kv b s2
          have h2 := afterRmRtC_acc (q := q) (c := c) k v lh rh (l.shareIf (sh || up)) r' b s2
          split <;> rename_i e <;> rw [e] at h2 <;> clear e
          · trivial
          · acct
          · acct

theorem rmHereC_acc (b : Bool) (k : K) (v : V) (lh rh : Int) (l r : STree K V) (s : Nat × σ) :
    Acct ((l.shareIf b).cnt q + one q k + (r.shareIf b).cnt q) (cnt q) (rt q) s
      (rmHereC (tally q c) b k v lh rh l r s) := by
  unfold rmHereC
  split
  · cases l with
    | nil => acct
    | node => simp [isNil] at *
  · split
    · cases r with
      | nil => acct
      | node => simp [isNil] at *
    · have hr := rmLeftmostC_acc (q := q) (c := c) r b s
      split <;> rename_i e <;> rw [e] at hr <;> clear e
      · trivial
      · acct
      · trivial
      · rename_i r' sk sv b' s2
        have h2 := afterRmRtC_acc (q := q) (c := c) sk sv lh rh (l.shareIf b) r' b' s2
        split <;> rename_i e <;> rw [e] at h2 <;> clear e
        · trivial
        · acct
        · acct

theorem rmC_acc (p : K → Ordering) : ∀ (t : STree K V) (up : Bool) (s : Nat × σ),
    Acct ((t.shareIf up).cnt q) (cnt q) (rt q) s (rmC (tally q c) p up t s) := by
  intro t
  induction t with
  | nil => intro up s; simp [rmC, Acct, shareIf]
  | node sh k v lh rh l r ihl ihr =>
    intro up s
    unfold rmC
    split <;> rename_i h <;> have h1 := cloneIf_tally h <;> clear h
    · acct
    · rename_i s1
      split
      · have hl := ihl (sh || up) s1
        split <;> rename_i e <;> rw [e] at hl <;> clear e
        · trivial
        · acct
        · rename_i l' kv b s2
          have h2 := afterRmLfC_acc (q := q) (c := c) k v lh rh l' (r.shareIf (sh || up)) b s2
          split <;> rename_i e <;> rw [e] at h2 <;> clear e
          · trivial
          · acct
          · acct
      · have hl := ihr (sh || up) s1
        split <;> rename_i e <;> rw [e] at hl <;> clear e
        · trivial
        · acct
        · rename_i r' kv b s2
          have h2 := afterRmRtC_acc (q := q) (c := c) k v lh rh (l.shareIf (sh || up)) r' b s2
          split <;> rename_i e <;> rw [e] at h2 <;> clear e
          · trivial
          · acct
          · acct
      · have h2 := rmHereC_acc (q := q) (c := c) (sh || up) k v lh rh l r s1
        revert h2
        generalize rmHereC (tally q c) (sh || up) k v lh rh l r s1 = x
        intro h2
        match x, h2 with
        | none, _ => trivial
        | some (.unwound _, _), h2 => acct
        | some (.done _, _), h2 => acct

theorem getMutC_acc (p : K → Ordering) (g : V → V) : ∀ (t : STree K V) (up : Bool) (s : Nat × σ),
    Acct ((t.shareIf up).cnt q) (cnt q) (bt q) s (some (getMutC (tally q c) p g up t s)) := by
  intro t
  induction t with
  | nil => intro up s; simp [getMutC, Acct, shareIf, bt]
  | node sh k v lh rh l r ihl ihr =>
    intro up s
    unfold getMutC
    split <;> rename_i h <;> have h1 := cloneIf_tally h <;> clear h
    · acct
    · rename_i s1
      split
      · have hl := ihl (sh || up) s1
        split <;> rename_i e <;> rw [e] at hl <;> clear e
        · acct
        · acct
      · acct
      · have hl := ihr (sh || up) s1
        split <;> rename_i e <;> rw [e] at hl <;> clear e
        · acct
        · acct

/-! ### Whole trees -/

/-- Nothing is left behind. -/
abbrev zero {U : Type} (_ : U) : Nat := 0

theorem lost_acc {U R : Type} {a : Nat} {u : U → Nat} {b : R → Nat} {s : Nat × σ}
    {x : Option (Ends U R × (Nat × σ))} (h : Acct a u b s x) : Acct a zero b s (lost x) := by
  match x, h with
  | none, _ => trivial
  | some (.unwound x, s'), h => simp only [lost, Acct, zero] at *; omega
  | some (.done r, s'), h => exact h

theorem andThen_acc {U A B : Type} {a : Nat} {u : U → Nat} {b : A → Nat} {b' : B → Nat}
    {s : Nat × σ} {x : Option (Ends U A × (Nat × σ))}
    {f : A → Nat × σ → Option (Ends U B × (Nat × σ))} (h : Acct a u b s x)
    (h' : ∀ r s', Acct (b r) u b' s' (f r s')) : Acct a u b' s (andThen x f) := by
  match x, h with
  | none, _ => trivial
  | some (.unwound x, s'), h => exact h
  | some (.done r, s'), h =>
    have h2 := h' r s'
    simp only [andThen]
    revert h2
    generalize f r s' = y
    intro h2
    match y, h2 with
    | none, _ => trivial
    | some (.unwound x, s'), h2 => simp only [Acct] at *; omega
    | some (.done r, s'), h2 => simp only [Acct] at *; omega

theorem andThen_accLe {U A B : Type} {a : Nat} {u : U → Nat} {b : A → Nat} {b' : B → Nat}
    {s : Nat × σ} {x : Option (Ends U A × (Nat × σ))}
    {f : A → Nat × σ → Option (Ends U B × (Nat × σ))} (h : AcctLe a u b s x)
    (h' : ∀ r s', AcctLe (b r) u b' s' (f r s')) : AcctLe a u b' s (andThen x f) := by
  match x, h with
  | none, _ => trivial
  | some (.unwound x, s'), h => exact h
  | some (.done r, s'), h =>
    have h2 := h' r s'
    simp only [andThen]
    revert h2
    generalize f r s' = y
    intro h2
    match y, h2 with
    | none, _ => trivial
    | some (.unwound x, s'), h2 => simp only [AcctLe] at *; omega
    | some (.done r, s'), h2 => simp only [AcctLe] at *; omega

/-- A change of what is counted at the start. -/
theorem _root_.Verif.Unwind.Acct.of_eq {U R : Type} {a a' : Nat} {u : U → Nat} {b : R → Nat}
    {s : Nat × σ} {x : Option (Ends U R × (Nat × σ))} (h : Acct a u b s x) (e : a = a') :
    Acct a' u b s x := e ▸ h

/-- What else there is is kept. -/
theorem _root_.Verif.Unwind.Acct.frame {U R : Type} {a : Nat} {u : U → Nat} {b : R → Nat}
    {s : Nat × σ} {x : Option (Ends U R × (Nat × σ))} (d : Nat) (h : Acct a u b s x) :
    Acct (a + d) u (fun r => b r + d) s x := by
  match x, h with
  | none, _ => trivial
  | some (.unwound x, s'), h => simp only [Acct] at *; omega
  | some (.done r, s'), h => simp only [Acct] at *; omega

theorem _root_.Verif.Unwind.AcctLe.frame {U R : Type} {a : Nat} {u : U → Nat} {b : R → Nat}
    {s : Nat × σ} {x : Option (Ends U R × (Nat × σ))} (d : Nat) (h : AcctLe a u b s x) :
    AcctLe (a + d) u (fun r => b r + d) s x := by
  match x, h with
  | none, _ => trivial
  | some (.unwound x, s'), h => simp only [AcctLe] at *; omega
  | some (.done r, s'), h => simp only [AcctLe] at *; omega

theorem _root_.Verif.Unwind.AcctLe.mono {U R : Type} {a a' : Nat} {u : U → Nat} {b : R → Nat}
    {s : Nat × σ} {x : Option (Ends U R × (Nat × σ))} (h : AcctLe a u b s x) (e : a ≤ a') :
    AcctLe a' u b s x := by
  match x, h with
  | none, _ => trivial
  | some (.unwound x, s'), h => simp only [AcctLe] at *; omega
  | some (.done r, s'), h => simp only [AcctLe] at *; omega

theorem copyIf_acc (a : Nat) (sh : Bool) (k : K) (v : V) (s : Nat × σ) :
    Acct a zero (fun _ => a + oneIf q sh k) s (copyIf (tally q c) sh (k, v) s) := by
  unfold copyIf
  split <;> rename_i h <;> have h1 := cloneIf_tally h <;> clear h
  · acct
  · acct

theorem done_acc {U R : Type} {a : Nat} {u : U → Nat} {b : R → Nat} {s : Nat × σ} {r : R}
    (h : b r = a) : Acct a u b s (some (.done r, s)) := by
  simp only [Acct]; omega

theorem joinRtC_acc (k : K) (v : V) (right : STree K V) :
    ∀ (t : STree K V) (up : Bool) (s : Nat × σ),
    Acct ((t.shareIf up).cnt q + one q k + right.cnt q) zero (cnt q) s
      (joinRtC (tally q c) k v right up t s) := by
  intro t
  induction t with
  | nil => intro up s; trivial
  | node sh lk lv lh rh l x ihl ihx =>
    intro up s
    unfold joinRtC
    split
    · refine andThen_acc (copyIf_acc _ _ _ _ _) fun _ s => ?_
      split
      · split
        · exact done_acc (by acct)
        · refine andThen_acc (((lost_acc (rotRtC_acc _ s)).frame
            ((l.shareIf (sh || up)).cnt q + one q lk)).of_eq (by acct)) fun y s => ?_
          refine andThen_acc ((lost_acc (rotLfC_acc _ s)).of_eq (by acct)) fun z s => ?_
          exact done_acc rfl
      · refine andThen_acc (((ihx (sh || up) s).frame
            ((l.shareIf (sh || up)).cnt q + one q lk)).of_eq (by acct)) fun t1 s => ?_
        split
        · exact done_acc (by acct)
        · refine andThen_acc ((lost_acc (rotLfC_acc _ s)).of_eq (by acct)) fun z s => ?_
          exact done_acc rfl
    · trivial

theorem joinLfC_acc (k : K) (v : V) (left : STree K V) :
    ∀ (t : STree K V) (up : Bool) (s : Nat × σ),
    Acct (left.cnt q + one q k + (t.shareIf up).cnt q) zero (cnt q) s
      (joinLfC (tally q c) k v left up t s) := by
  intro t
  induction t with
  | nil => intro up s; trivial
  | node sh rk rv lh rh x r ihx ihr =>
    intro up s
    unfold joinLfC
    split
    · refine andThen_acc (copyIf_acc _ _ _ _ _) fun _ s => ?_
      split
      · split
        · exact done_acc (by acct)
        · refine andThen_acc (((lost_acc (rotLfC_acc _ s)).frame
            ((r.shareIf (sh || up)).cnt q + one q rk)).of_eq (by acct)) fun y s => ?_
          refine andThen_acc ((lost_acc (rotRtC_acc _ s)).of_eq (by acct)) fun z s => ?_
          split
          · trivial
          · split
            · exact done_acc rfl
            · trivial
      · refine andThen_acc (((ihx (sh || up) s).frame
            ((r.shareIf (sh || up)).cnt q + one q rk)).of_eq (by acct)) fun t1 s => ?_
        split
        · exact done_acc (by acct)
        · refine andThen_acc ((lost_acc (rotRtC_acc _ s)).of_eq (by acct)) fun z s => ?_
          exact done_acc rfl
    · trivial

theorem joinC_acc (l : STree K V) (k : K) (v : V) (r : STree K V) (s : Nat × σ) :
    Acct (l.cnt q + one q k + r.cnt q) zero (cnt q) s (joinC (tally q c) l k v r s) := by
  unfold joinC
  split
  · exact (joinRtC_acc k v r l false s).of_eq (by acct)
  · split
    · exact (joinLfC_acc k v l r false s).of_eq (by acct)
    · exact done_acc (by simp)

theorem cnt_of_isNil {t : STree K V} (h : t.isNil = true) : t.cnt q = 0 := by
  cases t with
  | nil => rfl
  | node => cases h

theorem join2C_acc (l : STree K V) (kv : Option (K × V)) (r : STree K V) (s : Nat × σ) :
    Acct (l.cnt q + (kv.elim 0 fun e => one q e.1) + r.cnt q) zero (cnt q) s
      (join2C (tally q c) l kv r s) := by
  unfold join2C
  split
  · exact joinC_acc _ _ _ _ _
  · split
    · rename_i h
      exact done_acc (by have := cnt_of_isNil (q := q) h; simp [this])
    · split
      · rename_i h
        exact done_acc (by have := cnt_of_isNil (q := q) h; simp [this])
      · refine andThen_acc (((lost_acc (rmLeftmostC_acc r false s)).frame (l.cnt q)).of_eq
          (by simp [Nat.add_comm])) fun x s => ?_
        split
        · trivial
        · rename_i k v h
          exact (joinC_acc _ _ _ _ _).of_eq (by simp only [rt, h, Option.elim]; omega)

theorem splitC_acc (p : K → Ordering) : ∀ (t : STree K V) (up : Bool) (s : Nat × σ),
    Acct ((t.shareIf up).cnt q) zero
      (fun x => x.1.cnt q + (x.2.1.elim 0 fun e => one q e.1) + x.2.2.cnt q) s
      (splitC (tally q c) p up t s) := by
  intro t
  induction t with
  | nil => intro up s; exact done_acc (by simp [shareIf])
  | node sh k v lh rh l r ihl ihr =>
    intro up s
    unfold splitC
    refine andThen_acc (copyIf_acc _ _ _ _ _) fun _ s => ?_
    split
    · exact done_acc (by acct)
    · refine andThen_acc (((ihl (sh || up) s).frame ((r.shareIf (sh || up)).cnt q + one q k)).of_eq
        (by acct)) fun x s => ?_
      refine andThen_acc (((joinC_acc _ _ _ _ s).frame
        (x.1.cnt q + (x.2.1.elim 0 fun e => one q e.1))).of_eq (by omega)) fun t s => ?_
      exact done_acc (by dsimp only; omega)
    · refine andThen_acc (((ihr (sh || up) s).frame ((l.shareIf (sh || up)).cnt q + one q k)).of_eq
        (by acct)) fun x s => ?_
      refine andThen_acc (((joinC_acc _ _ _ _ s).frame
        (x.2.2.cnt q + (x.2.1.elim 0 fun e => one q e.1))).of_eq (by omega)) fun t s => ?_
      exact done_acc (by dsimp only; omega)

theorem mergeC_acc [Ord K] (keepL keepR : Bool) (dec : K × V → K × V → Option (K × V))
    (hdec : ∀ e e' d, dec e e' = some d → d = e ∨ d = e') :
    ∀ (t1 : STree K V) (up : Bool) (t2 : STree K V) (s : Nat × σ),
    AcctLe ((t1.shareIf up).cnt q + t2.cnt q) zero (cnt q) s
      (mergeC (tally q c) keepL keepR dec up t1 t2 s) := by
  intro t1
  induction t1 with
  | nil => intro up t2 s; unfold mergeC; cases keepR <;> simp [AcctLe, shareIf]
  | node sh k v lh rh l r ihl ihr =>
    intro up t2 s
    unfold mergeC
    split
    · cases keepL
      · simp [AcctLe]
      · simp only [AcctLe, if_true]; omega
    · refine andThen_accLe (copyIf_acc _ _ _ _ _).le fun _ s => ?_
      refine andThen_accLe ((((splitC_acc (compare k) t2 false s).frame
        ((l.shareIf (sh || up)).cnt q + one q k + (r.shareIf (sh || up)).cnt q)).of_eq
        (by acct)).le) fun x s => ?_
      refine andThen_accLe (((ihl (sh || up) x.1 s).frame
        ((x.2.1.elim 0 fun e => one q e.1) + x.2.2.cnt q + one q k +
          (r.shareIf (sh || up)).cnt q)).mono (by omega)) fun l' s => ?_
      refine andThen_accLe (((ihr (sh || up) x.2.2 s).frame
        ((x.2.1.elim 0 fun e => one q e.1) + one q k + l'.cnt q)).mono (by omega)) fun r' s => ?_
      refine ((join2C_acc _ _ _ _).le).mono ?_
      split
      · cases keepL <;> simp <;> omega
      · rename_i e2 h
        rw [h]
        cases hd : dec (k, v) e2 with
        | none => simp; omega
        | some d => rcases hdec _ _ _ hd with rfl | rfl <;> simp <;> omega

theorem retainC_acc {τ : Type} (f : τ → K → V → τ × V × Bool) :
    ∀ (t : STree K V) (a : τ) (s : Nat × σ),
    AcctLe 0 zero (fun x => x.2.1.cnt q) s (retainC (tally q c) f t a s) := by
  intro t
  induction t with
  | nil => intro a s; simp [retainC, AcctLe]
  | node sh k v lh rh l r ihl ihr =>
    intro a s
    unfold retainC
    refine andThen_accLe (ihl a s) fun x s => ?_
    refine andThen_accLe (((ihr x.1 s).frame (x.2.1.cnt q)).mono (by omega)) fun y s => ?_
    refine andThen_accLe (copyIf_acc _ _ _ _ _).le fun _ s => ?_
    split
    · refine andThen_accLe (copyIf_acc _ _ _ _ _).le fun _ s => ?_
      refine andThen_accLe (((joinC_acc _ _ _ _ s).le).mono
        (by simp only [oneIf, if_true]; omega)) fun z s => ?_
      exact Nat.le_refl _
    · refine andThen_accLe (((join2C_acc _ _ _ s).le).mono
        (by simp only [oneIf, if_true, Option.elim]; omega)) fun z s => ?_
      exact Nat.le_refl _

end STree

namespace SMap

variable {q : K → Bool} {c : Cl σ K V}

/-- The keys of the entries that nothing else reaches. -/
def own (m : SMap K V) : List K := m.root.own

theorem insertC_acc [Ord K] (k : K) (v : V) (m : SMap K V) (s : Nat × σ) :
    match m.insertC (tally q c) k v s with
    | none => True
    | some (.unwound m', s') => m'.own.countP q + s.1 ≤ m.own.countP q + one q k + s'.1
    | some (.done (m', old), s') =>
      m'.own.countP q + s.1 ≤ m.own.countP q + one q k + s'.1 ∧
      m.own.countP q + one q k + s'.1 ≤
        m'.own.countP q + s.1 + (if old.isSome then 1 else 0) := by
  have h := STree.insC_acc (q := q) (c := c) k v m.root false s
  unfold insertC
  revert h
  generalize STree.insC (tally q c) k v false m.root s = x
  intro h
  rw [STree.cnt_shareIf] at h
  match x, h with
  | none, _ => trivial
  | some (.unwound _, _), h => exact h
  | some (.done _, _), h => exact h

theorem getMutC_acc (p : K → Ordering) (g : V → V) (m : SMap K V) (s : Nat × σ) :
    Acct (m.own.countP q) (fun m' => m'.own.countP q) (fun x => x.1.own.countP q) s
      (m.getMutC (tally q c) p g s) := by
  have h := STree.getMutC_acc (q := q) (c := c) p g m.root false s
  unfold getMutC
  revert h
  generalize STree.getMutC (tally q c) p g false m.root s = x
  intro h
  rw [STree.cnt_shareIf] at h
  match x, h with
  | (.unwound _, _), h => exact h
  | (.done _, _), h => exact h

theorem popWithC_acc (len a : Nat) (s : Nat × σ)
    (x : Option (Ends (STree K V) (STree K V × Option (K × V) × Bool) × (Nat × σ)))
    (h : Acct a (STree.cnt q) (STree.rt q) s x) :
    Acct a (fun m' => m'.own.countP q)
      (fun y => y.1.own.countP q + (y.2.elim 0 fun e => one q e.1)) s (popWithC len x) := by
  match x, h with
  | none, _ => trivial
  | some (.unwound _, _), h => exact h
  | some (.done (_, none, _), _), h => exact h
  | some (.done (_, some _, _), _), h =>
    simp only [popWithC]
    split
    · trivial
    · exact h

theorem takeC_acc (w : Which K) (m : SMap K V) (s : Nat × σ) :
    Acct (m.own.countP q) (fun m' => m'.own.countP q)
      (fun y => y.1.own.countP q + (y.2.elim 0 fun e => one q e.1)) s
      (m.takeC (tally q c) w s) := by
  unfold takeC
  refine popWithC_acc _ _ _ _ ?_
  have e : (m.root.shareIf false).cnt q = m.own.countP q := by rw [STree.cnt_shareIf]; rfl
  cases w with
  | key p => exact (STree.rmC_acc p m.root false s).of_eq e
  | first => exact (STree.rmLeftmostC_acc m.root false s).of_eq e
  | last => exact (STree.rmRightmostC_acc m.root false s).of_eq e

theorem appendC_acc [Ord K] (m other : SMap K V) (s : Nat × σ) :
    AcctLe (m.own.countP q + other.own.countP q)
      (fun x => x.1.own.countP q + x.2.own.countP q)
      (fun x => x.1.own.countP q + x.2.own.countP q) s (m.appendC (tally q c) other s) := by
  have h := STree.mergeC_acc (q := q) (c := c) true true (fun _ r => some r)
    (fun e e' d hd => .inr (by cases hd; rfl)) m.root false other.root s
  unfold appendC STree.unionC
  revert h
  generalize STree.mergeC (tally q c) true true (fun _ r => some r) false m.root other.root s = x
  intro h
  rw [STree.cnt_shareIf] at h
  match x, h with
  | none, _ => trivial
  | some (.unwound _, _), h => simpa [AcctLe, own, STree.own, STree.cnt] using h
  | some (.done _, _), h => simpa [AcctLe, own, STree.own, STree.cnt] using h

theorem retainC_acc {τ : Type} (m : SMap K V) (f : τ → K → V → τ × V × Bool) (a : τ) (s : Nat × σ) :
    AcctLe 0 (fun m' => m'.own.countP q) (fun x => x.2.own.countP q) s
      (m.retainC (tally q c) f a s) := by
  have h := STree.retainC_acc (q := q) (c := c) f m.root a s
  unfold retainC
  revert h
  generalize STree.retainC (tally q c) f m.root a s = x
  intro h
  match x, h with
  | none, _ => trivial
  | some (.unwound _, _), h => simpa [AcctLe, own, STree.own, STree.cnt] using h
  | some (.done _, _), h => simpa [AcctLe, own, STree.own, STree.cnt] using h

theorem splitOffC_acc [Ord K] (m : SMap K V) (p : K → Ordering) (s : Nat × σ) :
    AcctLe (m.own.countP q) (fun m' => m'.own.countP q)
      (fun x => x.1.own.countP q + x.2.own.countP q) s (m.splitOffC (tally q c) p s) := by
  have h := STree.splitC_acc (q := q) (c := c) p m.root false s
  unfold splitOffC
  revert h
  generalize STree.splitC (tally q c) p false m.root s = x
  intro h
  rw [STree.cnt_shareIf] at h
  match x, h with
  | none, _ => trivial
  | some (.unwound _, _), h => simpa [AcctLe, Acct, own, STree.own, STree.cnt] using h
  | some (.done (lhs, kv, rhs), s1), h =>
    dsimp only
    split
    · trivial
    · cases kv with
      | none =>
        simp only [AcctLe, Acct, own, STree.cnt, Option.elim, Bool.false_eq_true, if_false] at *
        omega
      | some e =>
        obtain ⟨k, v⟩ := e
        dsimp only
        have h2 := STree.insC_acc (q := q) (c := c) k v rhs false s1
        revert h2
        generalize STree.insC (tally q c) k v false rhs s1 = y
        intro h2
        rw [STree.cnt_shareIf] at h2
        match y, h2 with
        | none, _ => trivial
        | some (.unwound _, _), h2 =>
          simp only [AcctLe, Acct, STree.InsAcct, own, STree.cnt, Option.elim, Bool.false_eq_true,
            if_false] at *
          omega
        | some (.done _, _), h2 =>
          simp only [AcctLe, Acct, STree.InsAcct, STree.bt, own, STree.cnt, Option.elim,
            Bool.false_eq_true, if_false] at *
          omega

end SMap
end Verif.Avl
