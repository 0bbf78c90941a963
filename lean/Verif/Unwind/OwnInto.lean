import Verif.Unwind.Own
import Verif.Unwind.IntoSpec
/-!
# What the consuming iterators own

The entries that `into_iter` yields were owned by the map, or have been cloned.
-/
set_option linter.unusedVariables false
namespace Verif.Unwind
open Verif.Wild
universe w
variable {σ : Type w} {K V : Type}

/-- Nothing is lost, whether there is a panic or not. -/
def AcctEq {U R : Type} (a : Nat) (u : U → Nat) (b : R → Nat) (s : Nat × σ) :
    Option (Ends U R × (Nat × σ)) → Prop
  | none => True
  | some (.unwound x, s') => u x + s.1 = a + s'.1
  | some (.done r, s') => b r + s.1 = a + s'.1

/-- The iterator and the state of `Clone` after a schedule, unless it crashes. -/
def finish {I α : Type} (step : Bool → I → σ → Option (Ends I (Option α × I) × σ)) :
    List Bool → I → σ → Option (I × σ)
  | [], it, s => some (it, s)
  | d :: ds, it, s =>
    match step d it s with
    | none => none
    | some (.unwound it, s) => finish step ds it s
    | some (.done (_, it), s) => finish step ds it s

/-- What a call has yielded. -/
def Ev.item {α : Type} : Ev α → Option α
  | .got r _ => r
  | _ => none

theorem evs_acc {I : Type} {q : K → Bool} {len : I → Nat} {own : I → Nat}
    {step : Bool → I → Nat × σ → Option (Ends I (Option (K × V) × I) × (Nat × σ))}
    (h : ∀ d it s, AcctEq (own it) own
      (fun x => own x.2 + (x.1.elim 0 fun e => one q e.1)) s (step d it s)) :
    ∀ ds it s it' s', finish step ds it s = some (it', s') →
      ((evs len step ds it s).filterMap Ev.item).countP (fun e => q e.1) + own it' + s.1 =
        own it + s'.1 := by
  intro ds
  induction ds with
  | nil => intro it s it' s' e; cases e; simp [evs]
  | cons d ds ih =>
    intro it s it' s' e
    have h1 := h d it s
    unfold finish at e
    unfold evs
    cases hx : step d it s with
    | none => rw [hx] at e; cases e
    | some x =>
      rw [hx] at e h1
      obtain ⟨x | ⟨r, x⟩, s1⟩ := x
      · have h2 := ih _ _ _ _ e
        simp only [AcctEq] at h1
        simp only [List.filterMap_cons, Ev.item]
        omega
      · have h2 := ih _ _ _ _ e
        simp only [AcctEq] at h1
        cases r with
        | none =>
          simp only [List.filterMap_cons, Ev.item, Option.elim] at *
          omega
        | some e =>
          simp only [List.filterMap_cons, Ev.item, Option.elim, List.countP_cons, one] at *
          omega

namespace AvlInto
open Verif.Avl

/-- What the work list owns. -/
def own (q : K → Bool) : List (CAct K V) → Nat
  | [] => 0
  | .ret e :: w => one q e.1 + own q w
  | .desc _ .nil :: w => own q w
  | .desc arc (.node _ k _ _ _ l r) :: w =>
    (if arc then 0 else l.cnt q + one q k + r.cnt q) + own q w

theorem own_pushC (q : K → Bool) (arc : Bool) (t : STree K V) (w : List (CAct K V)) :
    own q (pushC arc t w) = (if arc then 0 else t.cnt q) + own q w := by
  cases t with
  | nil => simp [pushC]
  | node sh k v lh rh l r => cases arc <;> cases sh <;> simp [pushC, own]

theorem own_append (q : K → Bool) : ∀ a b : List (CAct K V), own q (a ++ b) = own q a + own q b
  | [], b => by simp [own]
  | .ret e :: a, b => by simp only [List.cons_append, own, own_append q a b]; omega
  | .desc _ .nil :: a, b => by simp only [List.cons_append, own, own_append q a b]
  | .desc arc (.node _ k _ _ _ l r) :: a, b => by
    simp only [List.cons_append, own, own_append q a b]; omega

theorem own_reverse (q : K → Bool) : ∀ a : List (CAct K V), own q a.reverse = own q a
  | [] => rfl
  | x :: a => by
    rw [List.reverse_cons, own_append, own_reverse q a, Nat.add_comm, ← own_append]; rfl

theorem nextC_acc (q : K → Bool) (c : Cl σ K V) (front : Bool) (w : List (CAct K V)) (s : Nat × σ) :
    AcctEq (own q w) (own q) (fun x => own q x.2 + (x.1.elim 0 fun e => one q e.1)) s
      (some (nextC (tally q c) front w s)) := by
  fun_induction nextC (tally q c) front w s with
  | case1 s => simp [AcctEq, own]
  | case2 s x w => simp [AcctEq, own, Nat.add_comm]
  | case3 s arc w ih => simpa [own] using ih
  | case4 arc sh k v lh rh l r w s s' h =>
    have h1 := cloneIf_tally h
    cases arc with
    | false => cases h
    | true => simp [AcctEq, own] at *; omega
  | case5 arc sh k v lh rh l r w s s' h ih =>
    have h1 := cloneIf_tally h
    simp only [dite_eq_ite] at ih
    have e : own q (if front then pushC arc l (.ret (k, v) :: pushC arc r w)
        else pushC arc r (.ret (k, v) :: pushC arc l w)) =
        (if arc then 0 else l.cnt q) + one q k + (if arc then 0 else r.cnt q) + own q w := by
      split <;> simp only [own_pushC, own] <;> omega
    rw [e] at ih
    revert ih
    generalize nextC (tally q c) front _ s' = y
    intro ih
    match y, ih with
    | (.unwound _, _), ih => simp only [AcctEq, own] at *; grind
    | (.done _, _), ih => simp only [AcctEq, own] at *; grind

theorem step_acc (q : K → Bool) (c : Cl σ K V) (d : Bool) (it : It K V) (s : Nat × σ) :
    AcctEq (own q it.work) (fun x => own q x.work)
      (fun x => own q x.2.work + (x.1.elim 0 fun e => one q e.1)) s (step (tally q c) d it s) := by
  have e : ∀ w : List (CAct K V), own q (if d then w else w.reverse) = own q w := by
    intro w; cases d
    · exact own_reverse q w
    · rfl
  have h := nextC_acc q c d (if d then it.work else it.work.reverse) s
  rw [e] at h
  unfold step
  dsimp only
  revert h
  generalize nextC (tally q c) d (if d = true then it.work else it.work.reverse) s = x
  intro h
  match x, h with
  | (.unwound _, _), h => simpa only [AcctEq, e] using h
  | (.done (none, _), _), h => simpa only [AcctEq, e] using h
  | (.done (some _, _), _), h =>
    dsimp only
    split
    · trivial
    · simpa only [AcctEq, e] using h

theorem own_start (q : K → Bool) (m : SMap K V) : own q (start m).work = m.own.countP q := by
  simp only [start, own_pushC, own]
  rfl

end AvlInto

namespace BTreeInto
open Verif.BTree

mutual
/-- The keys of the entries that nothing else reaches. -/
def ownN : ANode K V → List K
  | .mk own es ks => if own then es.map (·.1) ++ ownL ks else []
/-- Likewise, of the children. -/
def ownL : List (ANode K V) → List K
  | [] => []
  | n :: ks => ownN n ++ ownL ks
end

/-- What a node iterator owns. -/
def ownE (q : K → Bool) : IntoErg K V → Nat
  | .arcked .. => 0
  | .owned e => (e.elems.map (·.1)).countP q + (ownL e.kids).countP q

/-- What the work list owns. -/
def ownW (q : K → Bool) (w : List (IntoErg K V)) : Nat := (w.map (ownE q)).sum

theorem ownL_append : ∀ a b : List (ANode K V), ownL (a ++ b) = ownL a ++ ownL b
  | [], b => by simp [ownL]
  | n :: a, b => by simp [ownL, ownL_append a b]

theorem ownE_make (q : K → Bool) (n : ANode K V) :
    ownE q (intoOps.make (n.own, n)) = (ownN n).countP q := by
  obtain ⟨own, es, ks⟩ := n
  cases own <;> simp [intoOps, ANode.own, ANode.elems, ANode.kids, ownE, ownN]

/-- What `next` needs of the operations, and `next_back` of their mirror image. -/
structure Owns {C : Type} (q : K → Bool) (o : NodeIterOps (IntoErg K V) (K × V) C) : Prop where
  elem : ∀ {e e' x}, o.nextElem e = some (e', some x) →
    ownE q e' + (if cloned e then 0 else one q x.1) = ownE q e
  kid : ∀ {e e' n}, o.nextKid e = some (e', some n) → ownE q e' + ownE q (o.make n) = ownE q e
  nokid : ∀ {e e'}, o.nextKid e = some (e', none) → ownE q e' = ownE q e
  empty : ∀ {e}, o.isEmpty e = true → ownE q e = 0

theorem empty_own (q : K → Bool) {e : IntoErg K V} (h : intoOps.isEmpty e = true) :
    ownE q e = 0 := by
  cases e with
  | arcked => rfl
  | owned e =>
    simp only [intoOps, Bool.and_eq_true, List.isEmpty_iff] at h
    simp [ownE, h.1, h.2, ownL]

theorem owns (q : K → Bool) : Owns q (intoOps (K := K) (V := V)) where
  elem {e e' x} h := by
    cases e with
    | arcked n lbE ubE lbK ubK lf rt =>
      simp only [intoOps] at h
      split at h
      · cases h
      · split at h
        · simp only [Option.map_eq_some_iff] at h
          obtain ⟨y, -, h⟩ := h
          cases h
          rfl
        · cases h
    | owned e =>
      obtain ⟨es, ks, lf, rt⟩ := e
      simp only [intoOps] at h
      split at h
      · cases h
      · cases es with
        | nil => simp at h
        | cons y es =>
          simp only [List.head?_cons, Option.some.injEq, Prod.mk.injEq, List.tail_cons] at h
          obtain ⟨rfl, rfl⟩ := h
          simp only [ownE, cloned, List.map_cons, List.countP_cons, one, Bool.false_eq_true,
            if_false]
          omega
  kid {e e' n} h := by
    cases e with
    | arcked n lbE ubE lbK ubK lf rt =>
      simp only [intoOps] at h
      split at h
      · split at h
        · simp only [Option.map_eq_some_iff] at h
          obtain ⟨y, -, h⟩ := h
          cases h
          rfl
        · cases h
      · cases h
    | owned e =>
      obtain ⟨es, ks, lf, rt⟩ := e
      cases ks with
      | nil => simp [intoOps] at h
      | cons c ks =>
        simp only [intoOps] at h
        split at h
        · simp only [List.head?_cons, Option.map_some, Option.some.injEq, Prod.mk.injEq,
            List.tail_cons] at h
          obtain ⟨rfl, rfl⟩ := h
          rw [ownE_make]
          simp only [ownE, ownL, List.countP_append]
          omega
        · cases h
  nokid {e e'} h := by
    cases e with
    | arcked n lbE ubE lbK ubK lf rt =>
      simp only [intoOps] at h
      split at h
      · split at h
        · simp only [Option.map_eq_some_iff] at h
          obtain ⟨y, -, h⟩ := h
          cases h
        · cases h; rfl
      · cases h
    | owned e =>
      obtain ⟨es, ks, lf, rt⟩ := e
      cases ks with
      | nil => simp [intoOps] at h; subst h; rfl
      | cons c ks =>
        simp only [intoOps] at h
        split at h
        · simp at h
        · cases h
  empty h := empty_own q h

theorem getLast_split {α : Type} {l : List α} {a : α} (h : l.getLast? = some a) :
    l = l.dropLast ++ [a] := by
  rw [List.getLast?_eq_some_iff] at h
  obtain ⟨l', rfl⟩ := h
  simp

theorem owns_back (q : K → Bool) : Owns q (intoOps (K := K) (V := V)).mirror where
  elem {e e' x} h := by
    cases e with
    | arcked n lbE ubE lbK ubK lf rt =>
      simp only [NodeIterOps.mirror, intoOps] at h
      split at h
      · cases h
      · split at h
        · simp only [Option.map_eq_some_iff] at h
          obtain ⟨y, -, h⟩ := h
          cases h
          rfl
        · cases h
    | owned e =>
      obtain ⟨es, ks, lf, rt⟩ := e
      simp only [NodeIterOps.mirror, intoOps] at h
      split at h
      · cases h
      · simp only [Option.some.injEq, Prod.mk.injEq] at h
        obtain ⟨rfl, h⟩ := h
        have h2 := congrArg (fun l => (l.map (·.1)).countP q) (getLast_split h)
        simp only [List.map_append, List.countP_append, List.map_cons, List.map_nil,
          List.countP_cons, List.countP_nil] at h2
        simp only [ownE, cloned, one, Bool.false_eq_true, if_false]
        omega
  kid {e e' n} h := by
    cases e with
    | arcked n lbE ubE lbK ubK lf rt =>
      simp only [NodeIterOps.mirror, intoOps] at h
      split at h
      · split at h
        · simp only [Option.map_eq_some_iff] at h
          obtain ⟨y, -, h⟩ := h
          cases h
          rfl
        · cases h
      · cases h
    | owned e =>
      obtain ⟨es, ks, lf, rt⟩ := e
      simp only [NodeIterOps.mirror, intoOps] at h
      split at h
      · simp only [Option.some.injEq, Prod.mk.injEq, Option.map_eq_some_iff] at h
        obtain ⟨rfl, c, hc, rfl⟩ := h
        have h2 := congrArg (fun l => (ownL l).countP q) (getLast_split hc)
        simp only [ownL_append, ownL, List.append_nil, List.countP_append] at h2
        rw [show (intoOps (K := K) (V := V)).mirror.make (c.own, c) = intoOps.make (c.own, c) from
          rfl, ownE_make]
        simp only [ownE]
        omega
      · cases h
  nokid {e e'} h := by
    cases e with
    | arcked n lbE ubE lbK ubK lf rt =>
      simp only [NodeIterOps.mirror, intoOps] at h
      split at h
      · split at h
        · simp only [Option.map_eq_some_iff] at h
          obtain ⟨y, -, h⟩ := h
          cases h
        · cases h; rfl
      · cases h
    | owned e =>
      obtain ⟨es, ks, lf, rt⟩ := e
      simp only [NodeIterOps.mirror, intoOps] at h
      split at h
      · simp only [Option.some.injEq, Prod.mk.injEq, Option.map_eq_none_iff,
          List.getLast?_eq_none_iff] at h
        obtain ⟨rfl, rfl⟩ := h
        rfl
      · cases h
  empty h := empty_own q h

variable {C : Type} {q : K → Bool} {o : NodeIterOps (IntoErg K V) (K × V) C}

theorem keep_own (h : Owns q o) (e : IntoErg K V) (rest : List (IntoErg K V)) :
    ownW q (o.keep e rest) = ownE q e + ownW q rest := by
  unfold NodeIterOps.keep
  split
  · rename_i he; rw [h.empty he, Nat.zero_add]
  · simp [ownW]

theorem descend_own (h : Owns q o) : ∀ (f : Nat) (e : IntoErg K V) (rest : List (IntoErg K V)) {x},
    o.descend f e rest = some x → ownE q x.1 + ownW q x.2 = ownE q e + ownW q rest := by
  intro f
  induction f with
  | zero => intro e rest x hx; cases hx
  | succ f ih =>
    intro e rest x hx
    unfold NodeIterOps.descend at hx
    split at hx
    · cases hx
    · rename_i e' hk; cases hx; dsimp only; rw [h.nokid hk]
    · rename_i e' n hk
      rw [ih _ _ hx, keep_own h, ← h.kid hk]
      omega

theorem yieldC_acc (h : Owns q o) (c : Cl σ K V) (len : Nat) (e : IntoErg K V)
    (rest : List (IntoErg K V)) (s : Nat × σ) :
    AcctEq (ownE q e + ownW q rest) (fun it => ownW q it.work)
      (fun x => ownW q x.2.work + (x.1.elim 0 fun e => one q e.1)) s
      (yieldC o (tally q c) len e rest s) := by
  unfold yieldC
  split
  · trivial
  · trivial
  · rename_i e' x hx
    have h1 := h.elem hx
    split <;> rename_i hc <;> have h2 := cloneIf_tally hc
    · cases hb : cloned e with
      | false => rw [hb] at hc; cases hc
      | true =>
        rw [hb] at h1 h2
        simp only [AcctEq, ownW, List.map_cons, List.sum_cons] at *
        simp at h1 h2
        omega
    · split
      · trivial
      · simp only [AcctEq, keep_own h, Option.elim] at *
        cases hb : cloned e <;> rw [hb] at h1 h2 <;> simp at h1 h2 <;> omega

theorem nextC_acc (h : Owns q o) (c : Cl σ K V) (it : InnerIter (IntoErg K V)) (s : Nat × σ) :
    AcctEq (ownW q it.work) (fun it => ownW q it.work)
      (fun x => ownW q x.2.work + (x.1.elim 0 fun e => one q e.1)) s
      (nextC o (tally q c) it s) := by
  unfold nextC
  split
  · rename_i hw; simp [AcctEq, hw]
  · rename_i e rest hw
    have e0 : ownW q it.work = ownE q e + ownW q rest := by rw [hw]; simp [ownW]
    rw [e0]
    split
    · split
      · trivial
      · rename_i e' rest' hd
        rw [← descend_own h _ _ _ hd]
        exact yieldC_acc h c _ _ _ s
    · exact yieldC_acc h c _ _ _ s

theorem ownW_reverse (q : K → Bool) (w : List (IntoErg K V)) : ownW q w.reverse = ownW q w := by
  simp [ownW, List.map_reverse, List.sum_reverse]

theorem step_acc (q : K → Bool) (c : Cl σ K V) (d : Bool) (it : InnerIter (IntoErg K V))
    (s : Nat × σ) :
    AcctEq (ownW q it.work) (fun it => ownW q it.work)
      (fun x => ownW q x.2.work + (x.1.elim 0 fun e => one q e.1)) s
      (step (tally q c) d it s) := by
  unfold step
  split
  · exact nextC_acc (owns q) c it s
  · have h := nextC_acc (owns_back q) c it.rev s
    rw [show it.rev.work = it.work.reverse from rfl, ownW_reverse] at h
    revert h
    generalize nextC intoOps.mirror (tally q c) it.rev s = x
    intro h
    match x, h with
    | none, _ => trivial
    | some (.unwound y, _), h =>
      simpa only [Option.map_some, flip, AcctEq, InnerIter.rev, ownW_reverse] using h
    | some (.done y, _), h =>
      simpa only [Option.map_some, flip, AcctEq, InnerIter.rev, ownW_reverse] using h

end BTreeInto
end Verif.Unwind
