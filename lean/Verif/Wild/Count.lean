import Verif.Wild.AvlMachine
import Verif.Wild.BTreeMachine
import Verif.Avl.Depth
import Verif.BTree.Depth
/-!
# How many comparisons the operations make

`Cmp` runs on an arbitrary state, so a comparison can count the calls of itself: `Ticks c μ` says
that a call raises the measure `μ` of the state by at most one.  The bounds hold whatever the answers are.
-/
set_option linter.unusedVariables false
namespace Verif.Wild
open Std
universe w
variable {σ : Type w} {K V R : Type}

/-- A call raises `μ` by at most one. -/
def Ticks (c : Cmp σ K) (μ : σ → Nat) : Prop := ∀ k s, μ (c k s).2 ≤ μ s + 1

/-- The same comparison, with a counter of calls. -/
def counted (c : Cmp σ K) : Cmp (σ × Nat) K :=
  fun k s => ((c k s.1).1, ((c k s.1).2, s.2 + 1))

theorem counted_ticks (c : Cmp σ K) : Ticks (counted c) (·.2) := fun _ _ => Nat.le_refl _

theorem Ticks.le {c : Cmp σ K} {μ : σ → Nat} (h : Ticks c μ) {k : K} {s s' : σ} {o : Option Ordering}
    (e : c k s = (o, s')) : μ s' ≤ μ s + 1 := by
  have := h k s
  rw [e] at this; exact this

/-- If it returns, it has raised `μ` by at most `β`. -/
def Upto (μ : σ → Nat) (β : Nat) (s : σ) (o : Option (R × σ)) : Prop :=
  ∀ r s', o = some (r, s') → μ s' ≤ μ s + β

theorem Upto.none {μ : σ → Nat} {β : Nat} {s : σ} : Upto μ β s (none : Option (R × σ)) := by
  intro r s' h; cases h

theorem Upto.some {μ : σ → Nat} {β : Nat} {s s' : σ} {r : R} (h : μ s' ≤ μ s + β) :
    Upto μ β s (some (r, s')) := by
  intro r s' h'; cases h'; exact h

theorem Upto.map {R' α : Type} {μ : σ → Nat} {β : Nat} {s s' : σ} {o : Option α} {f : α → R'}
    (h : μ s' ≤ μ s + β) : Upto μ β s (o.map (fun a => (f a, s'))) := by
  cases o with
  | none => exact .none
  | some a => exact .some h

theorem Upto.mono {μ : σ → Nat} {β β' : Nat} {s : σ} {o : Option (R × σ)} (h : Upto μ β s o)
    (hb : β ≤ β') : Upto μ β' s o := by
  intro r s' e
  have := h r s' e
  omega

/-- What a measure says of a loop of insertions. -/
theorem extendW_count {M : Type} {ins : M → K → V → σ → Option (Ends M (M × Option V) × σ)}
    {P : Nat → M → Prop} {μ : σ → Nat} {β : Nat} {n : Nat}
    (hins : ∀ j m, j < n → P j m → ∀ k v s, Upto μ β s (ins m k v s) ∧
      ∀ m' o s', ins m k v s = some (.done (m', o), s') → P (j + 1) m') :
    ∀ (es : List (K × V)) (j : Nat) (m : M), P j m → j + es.length = n → ∀ s,
      Upto μ (es.length * β) s (extendW ins m es s)
  | [], j, m, hm, hj, s => by rw [extendW]; exact .some (by simp)
  | (k, v) :: es, j, m, hm, hj, s => by
    simp only [List.length_cons] at hj
    obtain ⟨h1, h2⟩ := hins j m (by omega) hm k v s
    have hb : (es.length + 1) * β = β + es.length * β := by
      rw [Nat.add_mul, Nat.one_mul, Nat.add_comm]
    rw [extendW, List.length_cons, hb]
    rcases e : ins m k v s with _ | ⟨m' | ⟨m', o⟩, s'⟩
    · exact .none
    · have := h1 _ _ e
      exact .some (by omega)
    · have a := h1 _ _ e
      intro r s'' e2
      have b := extendW_count hins es (j + 1) m' (h2 _ _ _ e) (by omega) s' r s'' e2
      omega

theorem locateW_count {c : Cmp σ K} {μ : σ → Nat} (hc : Ticks c μ) : ∀ (es : List (K × V)) (s : σ),
    μ (locateW c es s).2 ≤ μ s + es.length
  | [], s => by simp [locateW]
  | e :: es, s => by
    rw [locateW]
    rcases h : c e.1 s with ⟨_ | _ | _ | _, s'⟩ <;> have h1 := hc.le h <;>
      simp only [List.length_cons]
    · omega
    · omega
    · omega
    · have := locateW_count hc es s'
      omega

theorem locateW_le {c : Cmp σ K} {μ : σ → Nat} (hc : Ticks c μ) {es : List (K × V)} {s s' : σ}
    {o : Option (Nat × Bool)} (h : locateW c es s = (o, s')) : μ s' ≤ μ s + es.length := by
  have := locateW_count hc es s
  rw [h] at this; exact this

/-- Halvings of `n`, rounded up, until 1 is reached. -/
def halvings (n : Nat) : Nat := if h : 1 < n then halvings (n - n / 2) + 1 else 0
termination_by n
decreasing_by omega

theorem bsLoopW_count {c : Cmp σ K} {μ : σ → Nat} (hc : Ticks c μ) (es : List (K × V)) :
    ∀ (fuel base size : Nat) (s : σ), Upto μ (halvings size) s (bsLoopW c es fuel base size s)
  | 0, _, _, _ => by rw [bsLoopW]; exact .none
  | fuel + 1, base, size, s => by
    rw [bsLoopW, halvings]
    by_cases h : 1 < size
    · rw [if_pos h, dif_pos h]
      cases es[base + size / 2]? with
      | none => exact .none
      | some e =>
        simp only
        rcases h1 : c e.1 s with ⟨_ | o, s'⟩
        · have := hc.le h1
          exact .some (by omega)
        · have a := hc.le h1
          intro r s'' e2
          have b := bsLoopW_count hc es fuel _ _ s' r s'' e2
          omega
    · rw [if_neg h, dif_neg h]; exact .some (Nat.le_refl _)

theorem halvings_mono : ∀ {n m : Nat}, n ≤ m → halvings n ≤ halvings m := by
  intro n
  induction n using Nat.strongRecOn with
  | ind n ih =>
    intro m h
    by_cases hn : 1 < n
    · have e1 : halvings n = halvings (n - n / 2) + 1 := by rw [halvings, dif_pos hn]
      have e2 : halvings m = halvings (m - m / 2) + 1 := by rw [halvings, dif_pos (by omega)]
      have := @ih (n - n / 2) (by omega) (m - m / 2) (by omega)
      omega
    · have e1 : halvings n = 0 := by rw [halvings, dif_neg hn]
      omega

/-- Comparisons in one node of at most `n` keys. -/
def perNode (lin : Bool) (n : Nat) : Nat := if lin then n else halvings n + 1

theorem searchW_count {c : Cmp σ K} {μ : σ → Nat} (hc : Ticks c μ) (lin : Bool) {es : List (K × V)}
    {n : Nat} (hn : es.length ≤ n) (s : σ) : Upto μ (perNode lin n) s (searchW lin c es s) := by
  rw [searchW, perNode]
  by_cases he : es.isEmpty
  · rw [if_pos he]; exact .none
  · rw [if_neg he]
    cases lin with
    | true =>
      simp only [if_true]
      exact .some (by have := locateW_count hc es s; omega)
    | false =>
      simp only [Bool.false_eq_true, if_false]
      rw [bsearchW]
      have hm := halvings_mono hn
      rcases e : bsLoopW c es (es.length + 1) 0 es.length s with _ | ⟨_ | base, s1⟩
      · exact .none
      · have a := bsLoopW_count hc es _ _ _ _ _ _ e
        exact .some (by omega)
      · have a := bsLoopW_count hc es _ _ _ _ _ _ e
        simp only
        rcases hx : es[base]? with _ | x
        · exact .none
        · simp only
          rcases h1 : c x.1 s1 with ⟨_ | _ | _ | _, s'⟩ <;> have b := hc.le h1 <;>
            exact .some (by omega)

end Verif.Wild

/-! ### `AvlMap` -/

namespace Verif.Avl
open Verif.Wild
universe w
variable {σ : Type w} {K V : Type}

namespace Tree
variable {c : Cmp σ K} {μ : σ → Nat}

theorem getW_count (hc : Ticks c μ) : ∀ (t : Tree K V) (s : σ),
    μ (t.getW c s).2 ≤ μ s + t.depth
  | nil, s => by simp [getW]
  | node k v lh rh l r, s => by
    rw [getW, depth]
    rcases h : c k s with ⟨_ | _ | _ | _, s'⟩ <;> have h1 := hc.le h <;> simp only
    · omega
    · have := getW_count hc l s'
      omega
    · omega
    · have := getW_count hc r s'
      omega

theorem getMutW_count (hc : Ticks c μ) (g : V → V) : ∀ (t : Tree K V) (s : σ),
    μ (t.getMutW c g s).2 ≤ μ s + t.depth
  | nil, s => by simp [getMutW]
  | node k v lh rh l r, s => by
    rw [getMutW, depth]
    rcases h : c k s with ⟨_ | _ | _ | _, s'⟩ <;> have h1 := hc.le h <;> simp only
    · omega
    · have := getMutW_count hc g l s'
      rcases e : getMutW c g l s' with ⟨_ | ⟨_, _⟩, s''⟩ <;> rw [e] at this <;> simp only at this ⊢ <;>
        omega
    · omega
    · have := getMutW_count hc g r s'
      rcases e : getMutW c g r s' with ⟨_ | ⟨_, _⟩, s''⟩ <;> rw [e] at this <;> simp only at this ⊢ <;>
        omega

theorem insW_count (hc : Ticks c μ) (k : K) (v : V) : ∀ (t : Tree K V) (s : σ),
    Upto μ t.depth s (insW c k v t s)
  | nil, s => by rw [insW]; exact .some (Nat.le_add_right _ _)
  | node nk nv lh rh l r, s => by
    rw [insW, depth]
    rcases h : c nk s with ⟨_ | _ | _ | _, s'⟩ <;> have h1 := hc.le h <;> simp only
    · exact .some (by omega)
    · have := insW_count hc k v l s'
      rcases e : insW c k v l s' with _ | ⟨_ | ⟨_, _, _⟩, s''⟩
      · exact .none
      · have := this _ _ e; exact .some (by omega)
      · have := this _ _ e; exact .map (by omega)
    · exact .some (by omega)
    · have := insW_count hc k v r s'
      rcases e : insW c k v r s' with _ | ⟨_ | ⟨_, _, _⟩, s''⟩
      · exact .none
      · have := this _ _ e; exact .some (by omega)
      · have := this _ _ e; exact .map (by omega)

theorem rmW_count (hc : Ticks c μ) : ∀ (t : Tree K V) (s : σ), Upto μ t.depth s (rmW c t s)
  | nil, s => by rw [rmW]; exact .some (Nat.le_add_right _ _)
  | node k v lh rh l r, s => by
    rw [rmW, depth]
    rcases h : c k s with ⟨_ | _ | _ | _, s'⟩ <;> have h1 := hc.le h <;> simp only
    · exact .some (by omega)
    · have := rmW_count hc l s'
      rcases e : rmW c l s' with _ | ⟨_ | ⟨_, _, _⟩, s''⟩
      · exact .none
      · have := this _ _ e; exact .some (by omega)
      · have := this _ _ e; exact .map (by omega)
    · exact .map (by omega)
    · have := rmW_count hc r s'
      rcases e : rmW c r s' with _ | ⟨_ | ⟨_, _, _⟩, s''⟩
      · exact .none
      · have := this _ _ e; exact .some (by omega)
      · have := this _ _ e; exact .map (by omega)

theorem splitW_count (hc : Ticks c μ) : ∀ (t : Tree K V) (s : σ), Upto μ t.depth s (splitW c t s)
  | nil, s => by rw [splitW]; exact .some (Nat.le_add_right _ _)
  | node k v lh rh l r, s => by
    rw [splitW, depth]
    rcases h : c k s with ⟨_ | _ | _ | _, s'⟩ <;> have h1 := hc.le h <;> simp only
    · exact .some (by omega)
    · have := splitW_count hc l s'
      rcases e : splitW c l s' with _ | ⟨_ | ⟨_, _, _⟩, s''⟩
      · exact .none
      · have := this _ _ e; exact .some (by omega)
      · have := this _ _ e; exact .map (by omega)
    · exact .some (by omega)
    · have := splitW_count hc r s'
      rcases e : splitW c r s' with _ | ⟨_ | ⟨_, _, _⟩, s''⟩
      · exact .none
      · have := this _ _ e; exact .some (by omega)
      · have := this _ _ e; exact .map (by omega)

/-- A balanced tree of at most `n` entries is at most `d` deep, if `n + 1 < fib (d + 3)`. -/
theorem depth_le {t : Tree K V} (h : Bal t) {n d : Nat} (ht : t.toList.length ≤ n)
    (hd : n + 1 < Nat.fib (d + 3)) : t.depth ≤ d := by
  have f := fib_le (bal_isAvl h).1
  rw [Tree.size_eq] at f
  refine Decidable.byContradiction fun hne => ?_
  have := Nat.fib_mono (show d + 3 ≤ t.depth + 2 by omega)
  omega

/-- `merge` splits the second tree, or a part of it, once for each node of the first that meets
something. -/
theorem mergeW_count {c : K → Cmp σ K} (hc : ∀ k, Ticks (c k) μ) (kl kr : Bool)
    (dec : K × V → K × V → Option (K × V)) {n d : Nat} (hd : n + 1 < Nat.fib (d + 3)) :
    ∀ (t1 t2 : Tree K V), Bal t2 → t2.toList.length ≤ n → ∀ s,
      Upto μ (min t1.size (t1.depth * t2.toList.length) * d) s (mergeW kl kr dec c t1 t2 s)
  | nil, t2, hb, hn, s => by rw [mergeW]; exact .some (Nat.le_add_right _ _)
  | node k v lh rh l r, nil, hb, hn, s => by rw [mergeW]; exact .some (Nat.le_add_right _ _)
  | node k v lh rh l r, node k2 v2 lh2 rh2 l2 r2, hb, hn, s => by
    rw [mergeW]
    generalize ht2 : node k2 v2 lh2 rh2 l2 r2 = t2 at hb hn
    have hpos : 1 ≤ t2.toList.length := by rw [← ht2]; simp [toList]; omega
    have hsp := splitW_count (hc k) t2 s
    have hdep := depth_le hb hn hd
    obtain ⟨q, s1, e1, h1⟩ := splitW_spec (c := c k) t2 hb s
    simp only [e1]
    have a := hsp _ _ e1
    rw [size, depth]
    have hone : d ≤ min (l.size + 1 + r.size) ((max l.depth r.depth + 1) * t2.toList.length) * d := by
      have : 1 ≤ min (l.size + 1 + r.size) ((max l.depth r.depth + 1) * t2.toList.length) := by
        have : 1 ≤ (max l.depth r.depth + 1) * t2.toList.length :=
          Nat.mul_pos (Nat.succ_pos _) hpos
        omega
      calc d = 1 * d := (Nat.one_mul d).symm
        _ ≤ _ := Nat.mul_le_mul_right d this
    rcases q with _ | ⟨lt, kv2, gt⟩
    · exact .some (by omega)
    · obtain ⟨hbl, hbr, hlst, -⟩ := h1
      have hlen : t2.toList.length = lt.toList.length + (kv2.toList.length + gt.toList.length) := by
        rw [hlst]; simp
      have ihl := mergeW_count hc kl kr dec hd l lt hbl (by omega) s1
      have hsum : d + (min l.size (l.depth * lt.toList.length) * d +
          min r.size (r.depth * gt.toList.length) * d) ≤
          min (l.size + 1 + r.size) ((max l.depth r.depth + 1) * t2.toList.length) * d := by
        rw [← Nat.add_mul]
        have : 1 + (min l.size (l.depth * lt.toList.length) +
            min r.size (r.depth * gt.toList.length)) ≤
            min (l.size + 1 + r.size) ((max l.depth r.depth + 1) * t2.toList.length) := by
          have b1 : l.depth * lt.toList.length ≤ max l.depth r.depth * lt.toList.length :=
            Nat.mul_le_mul_right _ (Nat.le_max_left _ _)
          have b2 : r.depth * gt.toList.length ≤ max l.depth r.depth * gt.toList.length :=
            Nat.mul_le_mul_right _ (Nat.le_max_right _ _)
          have b3 : max l.depth r.depth * (lt.toList.length + gt.toList.length) ≤
            max l.depth r.depth * t2.toList.length := Nat.mul_le_mul_left _ (by omega)
          rw [Nat.mul_add] at b3
          rw [Nat.add_mul, Nat.one_mul]
          omega
        calc _ = (1 + (min l.size (l.depth * lt.toList.length) +
              min r.size (r.depth * gt.toList.length))) * d := by rw [Nat.add_mul 1, Nat.one_mul]
          _ ≤ _ := Nat.mul_le_mul_right d this
      simp only
      rcases e2 : mergeW kl kr dec c l lt s1 with _ | ⟨_ | l', s2⟩
      · exact .none
      · have := ihl _ _ e2
        exact .some (by omega)
      · have b := ihl _ _ e2
        have ihr := mergeW_count hc kl kr dec hd r gt hbr (by omega) s2
        simp only
        rcases e3 : mergeW kl kr dec c r gt s2 with _ | ⟨_ | r', s3⟩
        · exact .none
        · have := ihr _ _ e3
          exact .some (by omega)
        · have := ihr _ _ e3
          exact .map (by omega)

end Tree

namespace AvlMap
variable {c : Cmp σ K} {μ : σ → Nat}

theorem Inv.fib {m : AvlMap K V} (h : m.Inv) : Nat.fib (m.root.depth + 2) ≤ m.len + 1 := by
  have f := fib_le (bal_isAvl h.bal).1
  rw [Tree.size_eq] at f
  rw [h.len_eq]; exact f

theorem getMutW_count (hc : Ticks c μ) (g : V → V) (m : AvlMap K V) (s : σ) :
    μ (m.getMutW c g s).2 ≤ μ s + m.root.depth := by
  have := Tree.getMutW_count hc g m.root s
  rw [getMutW]
  rcases e : m.root.getMutW c g s with ⟨_ | ⟨_, _⟩, s'⟩ <;> rw [e] at this <;> exact this

theorem insertW_count (hc : Ticks c μ) (k : K) (v : V) (m : AvlMap K V) (s : σ) :
    Upto μ m.root.depth s (m.insertW c k v s) := by
  have := Tree.insW_count hc k v m.root s
  rw [insertW]
  rcases e : Tree.insW c k v m.root s with _ | ⟨_ | ⟨_, _, _⟩, s'⟩
  · exact .none
  · exact .some (this _ _ e)
  · exact .some (this _ _ e)

theorem removeW_count (hc : Ticks c μ) (m : AvlMap K V) (s : σ) :
    Upto μ m.root.depth s (m.removeW c s) := by
  have := Tree.rmW_count hc m.root s
  rw [removeW]
  rcases e : Tree.rmW c m.root s with _ | ⟨_ | r, s'⟩
  · exact .none
  · exact .some (this _ _ e)
  · exact .map (this _ _ e)

theorem appendW_count {c : K → Cmp σ K} (hc : ∀ k, Ticks (c k) μ) {m other : AvlMap K V}
    (ho : other.Inv) {d : Nat} (hd : other.len + 1 < Nat.fib (d + 3)) (s : σ) :
    Upto μ (min m.root.size (m.root.depth * other.len) * d) s (m.appendW other c s) := by
  have := Tree.mergeW_count hc true true (fun _ r => some r) hd m.root other.root ho.bal
    (Nat.le_of_eq ho.len_eq.symm) s
  rw [← show other.len = other.root.toList.length from ho.len_eq] at this
  rw [appendW]
  rcases e : Tree.mergeW true true (fun _ r => some r) c m.root other.root s with
    _ | ⟨_ | r, s'⟩
  · exact .none
  · exact .some (this _ _ e)
  · exact .some (this _ _ e)

theorem newMergeW_count {c : K → Cmp σ K} (hc : ∀ k, Ticks (c k) μ) (kl kr : Bool)
    (dec : K × V → K × V → Option (K × V)) {l r : AvlMap K V}
    (hr : r.Inv) {d : Nat} (hd : r.len + 1 < Nat.fib (d + 3)) (s : σ) :
    Upto μ (min l.root.size (l.root.depth * r.len) * d) s (newMergeW kl kr dec l r c s) := by
  have := Tree.mergeW_count hc kl kr dec hd l.root r.root hr.bal (Nat.le_of_eq hr.len_eq.symm) s
  rw [← show r.len = r.root.toList.length from hr.len_eq] at this
  rw [newMergeW]
  rcases e : Tree.mergeW kl kr dec c l.root r.root s with _ | ⟨_ | r, s'⟩
  · exact .none
  · exact .some (this _ _ e)
  · exact .some (this _ _ e)

theorem splitOffW_count (hc : Ticks c μ) {ck : K → Cmp σ K} (hck : ∀ k, Ticks (ck k) μ)
    {m : AvlMap K V} (hm : m.Inv) {d : Nat} (hd : m.len + 1 < Nat.fib (d + 3)) (s : σ) :
    Upto μ (2 * d) s (m.splitOffW c ck s) := by
  have h1 := Tree.splitW_count hc m.root s
  have hdep := Tree.depth_le hm.bal (Nat.le_of_eq hm.len_eq.symm) hd
  obtain ⟨q, s1, e1, h2⟩ := Tree.splitW_spec (c := c) m.root hm.bal s
  have a := h1 _ _ e1
  simp only [splitOffW, e1]
  rcases q with _ | ⟨lhs, kv, rhs⟩
  · exact .some (by omega)
  · obtain ⟨hbl, hbr, hlst, -⟩ := h2
    simp only
    by_cases hlt : m.len < lhs.size
    · rw [if_pos hlt]; exact .none
    · rw [if_neg hlt]
      rcases kv with _ | ⟨k, v⟩
      · exact .some (by omega)
      · have hl : rhs.toList.length ≤ m.len := by
          rw [hm.len_eq, show m.abs = _ from hlst]; simp; omega
        have hdr := Tree.depth_le hbr hl hd
        have b := Tree.insW_count (hck k) k v rhs s1
        simp only
        rcases e : Tree.insW (ck k) k v rhs s1 with _ | ⟨_ | x, s'⟩
        · exact .none
        · have := b _ _ e; exact .some (by omega)
        · have := b _ _ e; exact .some (by omega)

theorem extendW_count {c : K → Cmp σ K} (hc : ∀ k, Ticks (c k) μ) {m : AvlMap K V} (hm : m.Inv)
    (es : List (K × V)) {d : Nat} (hd : m.len + es.length < Nat.fib (d + 3)) (s : σ) :
    Upto μ (es.length * d) s (m.extendW c es s) := by
  refine Wild.extendW_count (n := es.length)
    (P := fun j m' => m'.Inv ∧ m'.len ≤ m.len + j) ?_ es 0 m ⟨hm, Nat.le_refl _⟩ (by omega) s
  rintro j m' hj ⟨hi, hle⟩ k v s
  constructor
  · exact (insertW_count (hc k) k v m' s).mono
      (Tree.depth_le hi.bal (Nat.le_of_eq hi.len_eq.symm) (by omega))
  · intro m2 o s' e
    obtain ⟨r, s1, e1, h1⟩ := insertW_spec (c k) hi k v s
    rw [e1] at e
    cases e
    refine ⟨h1.1, ?_⟩
    have hl := h1.1.len_eq
    have := hi.len_eq
    rcases o with _ | x
    · obtain ⟨l1, l2, ha, hb⟩ := h1.2
      rw [hl, hb]; rw [ha] at this; simp at this ⊢; omega
    · obtain ⟨l1, kx, l2, ha, hb, -⟩ := h1.2
      rw [hl, hb]; rw [ha] at this; simp at this ⊢; omega

end AvlMap
end Verif.Avl

/-! ### `BTreeMap` -/

namespace Verif.BTree
open Verif.Wild
universe w
variable {σ : Type w} {K V : Type}

namespace Node
variable {c : Cmp σ K} {μ : σ → Nat}

theorem getW_step (hc : Ticks c μ) {es : List (K × V)} {ks : List (Node K V)} {β : Nat}
    (hk : ∀ n ∈ ks, ∀ s, Upto μ β s (getW c n s)) (s : σ) :
    Upto μ (es.length + β) s (getW c (mk es ks) s) := by
  rw [getW]
  rcases e : locateW c es s with ⟨_ | ⟨i, _ | _⟩, s1⟩ <;> have a := locateW_le hc e <;> simp only
  · exact .some (by omega)
  · rw [getAtW_eq]
    rcases e2 : ks[descIdx i es ks.length]? with _ | n
    · exact .some (by omega)
    · intro r s' e3
      have := hk n (List.mem_of_getElem? e2) s1 r s' e3
      omega
  · exact .map (by omega)

theorem containsW_step (hc : Ticks c μ) {es : List (K × V)} {ks : List (Node K V)} {β : Nat}
    (hk : ∀ n ∈ ks, ∀ s, μ (containsW c n s).2 ≤ μ s + β) (s : σ) :
    μ (containsW c (mk es ks) s).2 ≤ μ s + (es.length + β) := by
  rw [containsW]
  rcases e : locateW c es s with ⟨_ | ⟨i, _ | _⟩, s1⟩ <;> have a := locateW_le hc e <;> simp only
  · omega
  · rw [containsAtW_eq]
    rcases e2 : ks[i]? with _ | n
    · simp only; omega
    · have := hk n (List.mem_of_getElem? e2) s1
      simp only; omega
  · omega

theorem getMutW_step (hc : Ticks c μ) (g : V → V) {es : List (K × V)} {ks : List (Node K V)} {β : Nat}
    (hk : ∀ n ∈ ks, ∀ s, Upto μ β s (getMutW c g n s)) (s : σ) :
    Upto μ (es.length + β) s (getMutW c g (mk es ks) s) := by
  rw [getMutW]
  rcases e : locateW c es s with ⟨_ | ⟨i, _ | _⟩, s1⟩ <;> have a := locateW_le hc e <;> simp only
  · exact .some (by omega)
  · rw [getMutAtW_eq]
    rcases e2 : ks[descIdx i es ks.length]? with _ | n
    · exact .some (by omega)
    · have := hk n (List.mem_of_getElem? e2) s1
      simp only [Option.map_some]
      rcases e3 : getMutW c g n s1 with _ | ⟨_ | ⟨_, _⟩, s'⟩
      · exact .none
      · have := this _ _ e3; exact .some (by omega)
      · have := this _ _ e3; exact .some (by omega)
  · exact .map (by omega)

theorem insW_step (N : Nat) (hc : Ticks c μ) (k : K) (v : V) {es : List (K × V)}
    {ks : List (Node K V)} {β : Nat}
    (hk : ∀ n ∈ ks, ∀ s, Upto μ β s (insW N c k v n s)) (s : σ) :
    Upto μ (es.length + β) s (insW N c k v (mk es ks) s) := by
  rw [insW]
  rcases e : locateW c es s with ⟨_ | ⟨i, _ | _⟩, s1⟩ <;> have a := locateW_le hc e <;> simp only
  · exact .some (by omega)
  · rw [insAtW_eq]
    rcases e2 : ks[i]? with _ | n
    · exact .map (by omega)
    · have := hk n (List.mem_of_getElem? e2) s1
      simp only [Option.map_some]
      rcases e3 : insW N c k v n s1 with _ | ⟨_ | ⟨_ | _ | _⟩, s'⟩
      · exact .none
      · have := this _ _ e3; exact .some (by omega)
      all_goals
        have := this _ _ e3
        first
        | exact .some (by omega)
        | exact .map (by omega)
  · rcases es[i]? with _ | x
    · exact .none
    · exact .some (by omega)

theorem removeW_step (N : Nat) (hc : Ticks c μ) {es : List (K × V)}
    {ks : List (Node K V)} {β : Nat}
    (hk : ∀ n ∈ ks, ∀ s, Upto μ β s (removeW N c n s)) (s : σ) :
    Upto μ (es.length + β) s (removeW N c (mk es ks) s) := by
  rw [removeW]
  rcases e : locateW c es s with ⟨_ | ⟨i, _ | _⟩, s1⟩ <;> have a := locateW_le hc e <;> simp only
  · exact .some (by omega)
  · rw [removeAtW_eq]
    rcases e2 : ks[descIdx i es ks.length]? with _ | n
    · exact .some (by omega)
    · have := hk n (List.mem_of_getElem? e2) s1
      simp only [Option.map_some]
      rcases e3 : removeW N c n s1 with _ | ⟨_ | ⟨_ | ⟨_, _, _⟩⟩, s'⟩
      · exact .none
      · have := this _ _ e3; exact .some (by omega)
      · have := this _ _ e3; exact .some (by omega)
      · have := this _ _ e3; exact .map (by omega)
  · by_cases he : ks.isEmpty
    · rw [if_pos he]
      rcases vRemove i es with _ | ⟨_, _⟩
      · exact .none
      · exact .some (by omega)
    · rw [if_neg he]
      rcases popLastKid N i ks with _ | _ | ⟨_, _, _⟩
      · exact .none
      · exact .none
      · rcases es[i]? with _ | x
        · exact .none
        · exact .map (by omega)

/-- From one node to the tree below it. -/
theorem count_of_step {P : Nat → Node K V → Prop} {N : Nat} {B : Nat}
    (hB : ∀ (es : List (K × V)) (ks : List (Node K V)) (β : Nat), es.length ≤ 2 * N + 1 →
      (∀ n ∈ ks, P β n) → P (B + β) (mk es ks)) :
    ∀ {h lo : Nat} {n : Node K V}, Ok N lo h n → P (B * (h + 1)) n := by
  intro h
  induction h with
  | zero =>
    intro lo n hn
    obtain ⟨es, ks⟩ := n
    obtain ⟨rfl, -, hhi⟩ := hn
    have := hB es [] 0 hhi (fun n hn => by cases hn)
    simpa using this
  | succ h ih =>
    intro lo n hn
    obtain ⟨es, ks⟩ := n
    obtain ⟨-, -, hhi, hk⟩ := hn
    have := hB es ks (B * (h + 1)) hhi (fun n hn => ih (hk n hn))
    have e : B * (h + 1 + 1) = B + B * (h + 1) := by rw [Nat.mul_add, Nat.mul_one, Nat.add_comm]
    rw [e]; exact this

end Node

namespace BTreeMap
variable {c : Cmp σ K} {μ : σ → Nat} {N : Nat}
open Node

/-- `h` bounds the height. -/
def Low (N : Nat) (m : BTreeMap K V) (h : Nat) : Prop :=
  ∀ n, m.root = some n → ∃ h' ≤ h, Node.Ok N 1 h' n

theorem Inv.low {m : BTreeMap K V} (hm : m.Inv N) {h : Nat} (hh : m.len + 1 < 2 * (N + 1) ^ (h + 1)) :
    Low N m h := by
  intro n hn
  obtain ⟨h', ho⟩ := hm.shape n hn
  refine ⟨h', ?_, ho⟩
  have h1 := ok_size_root ho
  have h2 : m.abs = n.toList := by rw [abs, hn]
  rw [← h2, ← hm.len] at h1
  refine Decidable.byContradiction fun hne => ?_
  have : (N + 1) ^ (h + 1) ≤ (N + 1) ^ h' := Nat.pow_le_pow_right (by omega) (by omega)
  omega

theorem getW_count (hc : Ticks c μ) {m : BTreeMap K V} {h : Nat} (hm : Low N m h) (s : σ) :
    Upto μ ((2 * N + 1) * (h + 1)) s (m.getW c s) := by
  rw [getW]
  rcases e : m.root with _ | n
  · exact .some (by omega)
  · obtain ⟨h', hh, ho⟩ := hm n e
    refine (count_of_step (P := fun β n => ∀ s, Upto μ β s (Node.getW c n s)) ?_ ho s).mono
      (Nat.mul_le_mul_left _ (by omega))
    intro es ks β hl hk s
    exact (getW_step hc hk s).mono (by omega)

theorem containsW_count (hc : Ticks c μ) {m : BTreeMap K V} {h : Nat} (hm : Low N m h) (s : σ) :
    μ (m.containsW c s).2 ≤ μ s + (2 * N + 1) * (h + 1) := by
  rw [containsW]
  rcases e : m.root with _ | n
  · simp
  · obtain ⟨h', hh, ho⟩ := hm n e
    have := count_of_step (P := fun β n => ∀ s, μ (Node.containsW c n s).2 ≤ μ s + β)
      (B := 2 * N + 1) (by
        intro es ks β hl hk s
        have := containsW_step (es := es) hc hk s
        omega) ho s
    have h2 : (2 * N + 1) * (h' + 1) ≤ (2 * N + 1) * (h + 1) := Nat.mul_le_mul_left _ (by omega)
    simp only
    omega

theorem getMutW_count (hc : Ticks c μ) (g : V → V) {m : BTreeMap K V} {h : Nat} (hm : Low N m h)
    (s : σ) : Upto μ ((2 * N + 1) * (h + 1)) s (m.getMutW c g s) := by
  rw [getMutW]
  rcases e : m.root with _ | n
  · exact .some (by omega)
  · obtain ⟨h', hh, ho⟩ := hm n e
    have := (count_of_step (P := fun β n => ∀ s, Upto μ β s (Node.getMutW c g n s)) (by
      intro es ks β hl hk s
      exact (getMutW_step hc g hk s).mono (Nat.add_le_add_right hl _)) ho s).mono
      (Nat.mul_le_mul_left _ (show h' + 1 ≤ h + 1 by omega))
    simp only
    rcases e2 : Node.getMutW c g n s with _ | ⟨_ | ⟨_, _⟩, s'⟩
    · exact .none
    · exact .some (this _ _ e2)
    · exact .some (this _ _ e2)

theorem insertW_count (hc : Ticks c μ) (k : K) (v : V) {m : BTreeMap K V} {h : Nat} (hm : Low N m h)
    (s : σ) : Upto μ ((2 * N + 1) * (h + 1)) s (m.insertW N c k v s) := by
  rw [insertW]
  rcases e : m.root with _ | n
  · exact .some (by omega)
  · obtain ⟨h', hh, ho⟩ := hm n e
    have := (count_of_step (P := fun β n => ∀ s, Upto μ β s (Node.insW N c k v n s)) (by
      intro es ks β hl hk s
      exact (insW_step N hc k v hk s).mono (Nat.add_le_add_right hl _)) ho s).mono
      (Nat.mul_le_mul_left _ (show h' + 1 ≤ h + 1 by omega))
    simp only
    rcases e2 : Node.insW N c k v n s with _ | ⟨_ | ⟨_ | _ | _⟩, s'⟩
    · exact .none
    all_goals exact .some (this _ _ e2)

theorem takeW_count (hc : Ticks c μ) {m : BTreeMap K V} {h : Nat} (hm : Low N m h)
    (s : σ) : Upto μ ((2 * N + 1) * (h + 1)) s (m.takeW N c s) := by
  rw [takeW]
  rcases e : m.root with _ | n
  · exact .some (by omega)
  · obtain ⟨h', hh, ho⟩ := hm n e
    have := (count_of_step (P := fun β n => ∀ s, Upto μ β s (Node.removeW N c n s)) (by
      intro es ks β hl hk s
      exact (removeW_step N hc hk s).mono (Nat.add_le_add_right hl _)) ho s).mono
      (Nat.mul_le_mul_left _ (show h' + 1 ≤ h + 1 by omega))
    simp only
    rcases e2 : Node.removeW N c n s with _ | ⟨_ | r, s'⟩
    · exact .none
    · exact .some (this _ _ e2)
    · exact .map (this _ _ e2)

theorem removeW_count (hc : Ticks c μ) {m : BTreeMap K V} {h : Nat} (hm : Low N m h)
    (s : σ) : Upto μ (2 * ((2 * N + 1) * (h + 1))) s (m.removeW N c s) := by
  rw [removeW]
  have a := containsW_count hc hm s
  rcases e : m.containsW c s with ⟨_ | _ | _, s1⟩ <;> rw [e] at a <;> simp only at a ⊢
  · exact .some (by omega)
  · exact .some (by omega)
  · intro r s' e2
    have b := takeW_count hc hm s1 r s' e2
    omega

theorem put_len {m m' : BTreeMap K V} (hi : m.Inv N) (hi' : m'.Inv N) {c : Cmp σ K} {k : K} {v : V}
    {o : Option V} (h : Put c k v m.abs o m'.abs) : m'.len ≤ m.len + 1 := by
  have hl := hi'.len
  have := hi.len
  rcases o with _ | x
  · obtain ⟨l1, l2, ha, hb⟩ := h
    rw [hl, hb]; rw [ha] at this; simp at this ⊢; omega
  · obtain ⟨l1, kx, l2, ha, hb, -⟩ := h
    rw [hl, hb]; rw [ha] at this; simp at this ⊢; omega

theorem extendW_count {c : K → Cmp σ K} (hc : ∀ k, Ticks (c k) μ) {m : BTreeMap K V} (hm : m.Inv N)
    (es : List (K × V)) {h : Nat} (hh : m.len + es.length < 2 * (N + 1) ^ (h + 1)) (s : σ) :
    Upto μ (es.length * ((2 * N + 1) * (h + 1))) s (m.extendW N c es s) := by
  refine Wild.extendW_count (n := es.length)
    (P := fun j m' => m'.Inv N ∧ m'.len ≤ m.len + j) ?_ es 0 m ⟨hm, Nat.le_refl _⟩ (by omega) s
  rintro j m' hj ⟨hi, hle⟩ k v s
  constructor
  · exact insertW_count (hc k) k v (hi.low (by omega)) s
  · intro m2 o s' e
    obtain ⟨r, s1, e1, h1⟩ := insertW_spec N (c k) hi k v s
    rw [e1] at e
    cases e
    have := put_len hi h1.1 h1.2
    exact ⟨h1.1, by omega⟩

theorem appendW_count (hN : 1 ≤ N) (o : Sharing K V) {c : K → Cmp σ K} (hc : ∀ k, Ticks (c k) μ)
    {m other : BTreeMap K V} (hm : m.Inv N) (ho : other.Inv N) {h : Nat}
    (hh : m.len + other.len < 2 * (N + 1) ^ (h + 1)) (s : σ) :
    Upto μ (other.len * ((2 * N + 1) * (h + 1))) s (m.appendW N o other c s) := by
  have := extendW_count hc hm other.abs (h := h) (by rw [← ho.len]; exact hh) s
  rw [← ho.len] at this
  simp only [appendW, intoList_inv hN ho]
  rcases e : m.extendW N c other.abs s with _ | ⟨_ | _, s'⟩
  · exact .none
  · exact .some (this _ _ e)
  · exact .some (this _ _ e)

end BTreeMap
end Verif.BTree

/-! ### `fixed::BTreeMap` -/

namespace Verif.Fixed
open Verif.BTree Verif.BTree.Node Verif.Wild
universe w
variable {σ : Type w} {K V : Type} {c : Cmp σ K} {μ : σ → Nat} {lin : Bool}

theorem getW_step (hc : Ticks c μ) {es : List (K × V)} {ks : List (Node K V)} {β : Nat}
    (hes : es.length ≤ MAX) (hk : ∀ n ∈ ks, ∀ s, Upto μ β s (getW lin c n s)) (s : σ) :
    Upto μ (perNode lin MAX + β) s (getW lin c (Node.mk es ks) s) := by
  rw [getW]
  rcases e : searchW lin c es s with _ | ⟨_ | ⟨i, _ | _⟩, s1⟩
  · exact .none
  all_goals have a := searchW_count hc lin hes s _ _ e
  · exact .some (by omega)
  · simp only
    rw [getAtW_eq]
    rcases e2 : ks[i]? with _ | n
    · exact .some (by omega)
    · intro r s' e3
      have := hk n (List.mem_of_getElem? e2) s1 r s' e3
      omega
  · exact .map (by omega)

theorem getMutW_step (hc : Ticks c μ) (g : V → V) {es : List (K × V)} {ks : List (Node K V)} {β : Nat}
    (hes : es.length ≤ MAX) (hk : ∀ n ∈ ks, ∀ s, Upto μ β s (getMutW lin c g n s)) (s : σ) :
    Upto μ (perNode lin MAX + β) s (getMutW lin c g (Node.mk es ks) s) := by
  rw [getMutW]
  rcases e : searchW lin c es s with _ | ⟨_ | ⟨i, _ | _⟩, s1⟩
  · exact .none
  all_goals have a := searchW_count hc lin hes s _ _ e
  · exact .some (by omega)
  · simp only
    rw [getMutAtW_eq]
    rcases e2 : ks[i]? with _ | n
    · exact .some (by omega)
    · have := hk n (List.mem_of_getElem? e2) s1
      simp only [Option.map_some]
      rcases e3 : getMutW lin c g n s1 with _ | ⟨_ | ⟨_, _⟩, s'⟩
      · exact .none
      · have := this _ _ e3; exact .some (by omega)
      · have := this _ _ e3; exact .some (by omega)
  · exact .map (by omega)

theorem insW_step (hc : Ticks c μ) (k : K) (v : V) {es : List (K × V)}
    {ks : List (Node K V)} {β : Nat}
    (hes : es.length ≤ MAX) (hk : ∀ n ∈ ks, ∀ s, Upto μ β s (insW lin c k v n s)) (s : σ) :
    Upto μ (perNode lin MAX + β) s (insW lin c k v (Node.mk es ks) s) := by
  rw [insW]
  rcases e : searchW lin c es s with _ | ⟨_ | ⟨i, _ | _⟩, s1⟩
  · exact .none
  all_goals have a := searchW_count hc lin hes s _ _ e
  · exact .some (by omega)
  · simp only
    rw [insAtW_eq]
    rcases e2 : ks[i]? with _ | n
    · exact .map (by omega)
    · have := hk n (List.mem_of_getElem? e2) s1
      simp only [Option.map_some]
      rcases e3 : insW lin c k v n s1 with _ | ⟨_ | ⟨_ | _ | _⟩, s'⟩
      · exact .none
      all_goals
        have := this _ _ e3
        first
        | exact .some (by omega)
        | exact .map (by omega)
  · simp only
    rcases es[i]? with _ | x
    · exact .none
    · exact .some (by omega)

theorem removeW_step (hc : Ticks c μ) {es : List (K × V)}
    {ks : List (Node K V)} {β : Nat}
    (hes : es.length ≤ MAX) (hk : ∀ n ∈ ks, ∀ s, Upto μ β s (removeW lin c n s)) (s : σ) :
    Upto μ (perNode lin MAX + β) s (removeW lin c (Node.mk es ks) s) := by
  rw [removeW]
  rcases e : searchW lin c es s with _ | ⟨_ | ⟨i, _ | _⟩, s1⟩
  · exact .none
  all_goals have a := searchW_count hc lin hes s _ _ e
  · exact .some (by omega)
  · simp only
    rw [removeAtW_eq]
    rcases e2 : ks[i]? with _ | n
    · exact .some (by omega)
    · have := hk n (List.mem_of_getElem? e2) s1
      simp only [Option.map_some]
      rcases e3 : removeW lin c n s1 with _ | ⟨_ | ⟨_ | ⟨_, _, _⟩⟩, s'⟩
      · exact .none
      · have := this _ _ e3; exact .some (by omega)
      · have := this _ _ e3; exact .some (by omega)
      · have := this _ _ e3; exact .map (by omega)
  · simp only
    by_cases he : ks.isEmpty
    · rw [if_pos he]
      rcases ivRemove MAX i es with _ | ⟨_, _⟩
      · exact .none
      · exact .some (by omega)
    · rw [if_neg he]
      rcases popGreatestKid i ks with _ | _ | ⟨_, _, _⟩
      · exact .none
      · exact .none
      · rcases es[i]? with _ | x
        · exact .none
        · exact .map (by omega)

namespace FMap

/-- `h` bounds the height. -/
def Low (m : FMap K V) (h : Nat) : Prop :=
  ∀ n, m.root = some n → ∃ h' ≤ h, Node.Ok MIN 1 h' n

theorem Inv.low {m : FMap K V} (hm : m.Inv) {h : Nat} (hh : m.len + 1 < 2 * (MIN + 1) ^ (h + 1)) :
    Low m h := by
  intro n hn
  obtain ⟨h', ho⟩ := hm.shape n hn
  refine ⟨h', ?_, ho⟩
  have h1 := ok_size_root ho
  have h2 : m.toList = n.toList := by rw [toList, hn]
  rw [← h2, ← hm.len] at h1
  refine Decidable.byContradiction fun hne => ?_
  have : (MIN + 1) ^ (h + 1) ≤ (MIN + 1) ^ h' := Nat.pow_le_pow_right (by omega) (by omega)
  omega

theorem getW_count (hc : Ticks c μ) {m : FMap K V} {h : Nat} (hm : Low m h) (s : σ) :
    Upto μ (perNode lin MAX * (h + 1)) s (m.getW lin c s) := by
  rw [getW]
  rcases e : m.root with _ | n
  · exact .some (by omega)
  · obtain ⟨h', hh, ho⟩ := hm n e
    refine (count_of_step (P := fun β n => ∀ s, Upto μ β s (Fixed.getW lin c n s)) ?_ ho s).mono
      (Nat.mul_le_mul_left _ (by omega))
    intro es ks β hl hk s
    exact getW_step hc hl hk s

theorem getMutW_count (hc : Ticks c μ) (g : V → V) {m : FMap K V} {h : Nat} (hm : Low m h)
    (s : σ) : Upto μ (perNode lin MAX * (h + 1)) s (m.getMutW lin c g s) := by
  rw [getMutW]
  rcases e : m.root with _ | n
  · exact .some (by omega)
  · obtain ⟨h', hh, ho⟩ := hm n e
    have := (count_of_step (P := fun β n => ∀ s, Upto μ β s (Fixed.getMutW lin c g n s)) (by
      intro es ks β hl hk s
      exact getMutW_step hc g hl hk s) ho s).mono
      (Nat.mul_le_mul_left _ (show h' + 1 ≤ h + 1 by omega))
    simp only
    rcases e2 : Fixed.getMutW lin c g n s with _ | ⟨_ | ⟨_, _⟩, s'⟩
    · exact .none
    · exact .some (this _ _ e2)
    · exact .some (this _ _ e2)

theorem insertW_count (hc : Ticks c μ) (k : K) (v : V) {m : FMap K V} {h : Nat} (hm : Low m h)
    (s : σ) : Upto μ (perNode lin MAX * (h + 1)) s (m.insertW lin c k v s) := by
  rw [insertW]
  rcases e : m.root with _ | n
  · simp only
    rcases ivPush MAX (k, v) [] with _ | _
    · exact .none
    · exact .some (by omega)
  · obtain ⟨h', hh, ho⟩ := hm n e
    have := (count_of_step (P := fun β n => ∀ s, Upto μ β s (Fixed.insW lin c k v n s)) (by
      intro es ks β hl hk s
      exact insW_step hc k v hl hk s) ho s).mono
      (Nat.mul_le_mul_left _ (show h' + 1 ≤ h + 1 by omega))
    simp only
    rcases e2 : Fixed.insW lin c k v n s with _ | ⟨_ | ⟨_ | _ | _⟩, s'⟩
    · exact .none
    · exact .some (this _ _ e2)
    · exact .some (this _ _ e2)
    · have := this _ _ e2
      simp only
      split
      · exact .some (by omega)
      · exact .none
    · exact .some (this _ _ e2)

theorem removeW_count (hc : Ticks c μ) {m : FMap K V} {h : Nat} (hm : Low m h)
    (s : σ) : Upto μ (perNode lin MAX * (h + 1)) s (m.removeW lin c s) := by
  rw [removeW]
  rcases e : m.root with _ | n
  · exact .some (by omega)
  · obtain ⟨h', hh, ho⟩ := hm n e
    have := (count_of_step (P := fun β n => ∀ s, Upto μ β s (Fixed.removeW lin c n s)) (by
      intro es ks β hl hk s
      exact removeW_step hc hl hk s) ho s).mono
      (Nat.mul_le_mul_left _ (show h' + 1 ≤ h + 1 by omega))
    simp only
    rcases e2 : Fixed.removeW lin c n s with _ | ⟨_ | _ | r, s'⟩
    · exact .none
    · exact .some (this _ _ e2)
    · exact .some (this _ _ e2)
    · exact .map (this _ _ e2)

theorem extendW_count {c : K → Cmp σ K} (hc : ∀ k, Ticks (c k) μ) {m : FMap K V} (hm : m.Inv)
    (es : List (K × V)) {h : Nat} (hh : m.len + es.length < 2 * (MIN + 1) ^ (h + 1)) (s : σ) :
    Upto μ (es.length * (perNode lin MAX * (h + 1))) s (m.extendW lin c es s) := by
  refine Wild.extendW_count (n := es.length)
    (P := fun j m' => m'.Inv ∧ m'.len ≤ m.len + j) ?_ es 0 m ⟨hm, Nat.le_refl _⟩ (by omega) s
  rintro j m' hj ⟨hi, hle⟩ k v s
  constructor
  · exact insertW_count (hc k) k v (hi.low (by omega)) s
  · intro m2 o s' e
    obtain ⟨r, s1, e1, h1⟩ := insertW_spec lin (c k) hi k v s
    rw [e1] at e
    cases e
    refine ⟨h1.1, ?_⟩
    have hl := h1.1.len
    have := hi.len
    rcases o with _ | x
    · obtain ⟨l1, l2, ha, hb⟩ := h1.2
      rw [hl, hb]; rw [ha] at this; simp at this ⊢; omega
    · obtain ⟨l1, kx, l2, ha, hb, -⟩ := h1.2
      rw [hl, hb]; rw [ha] at this; simp at this ⊢; omega

end FMap
end Verif.Fixed
