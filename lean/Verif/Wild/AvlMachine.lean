import Verif.Wild.Seq
/-!
# Whole programs that use `AvlMap` with a lawless comparison

A program holds any number of maps and issues any operations on them.  Every operation brings
its own comparison, all of them share one arbitrary state, and a panic is caught, after which
the program goes on with whatever the operation left behind.
-/
set_option linter.unusedVariables false
namespace Verif.Avl
open Verif.Wild
universe w
variable {σ : Type w} {K V : Type}

namespace Tree

/-- avl.rs:697-717 `retain`, with a closure that may panic: inner `none`. -/
def retainW (f : K → V → σ → Option (V × Bool) × σ) :
    Tree K V → σ → Option (Option (Tree K V × Nat) × σ)
  | nil, s => some (some (nil, 0), s)
  | node k v _ _ l r, s =>
    match retainW f l s with
    | none => none
    | some (none, s) => some (none, s)
    | some (some (l', nl), s) =>
      match retainW f r s with
      | none => none
      | some (none, s) => some (none, s)
      | some (some (r', nr), s) =>
        match f k v s with
        | (none, s) => some (none, s)
        | (some (v', true), s) => (join l' k v' r').map (fun t => (some (t, nl + nr + 1), s))
        | (some (_, false), s) => (join2 l' none r').map (fun t => (some (t, nl + nr), s))

theorem retainW_spec (f : K → V → σ → Option (V × Bool) × σ) :
    ∀ (t : Tree K V), Bal t → ∀ s : σ,
      ∃ r s', retainW f t s = some (r, s') ∧
        match r with
        | none => True
        | some (t', n) => Bal t' ∧ n = t'.toList.length ∧
            (t'.toList.map (·.1)).Sublist (t.toList.map (·.1))
  | nil, h, s => ⟨some (nil, 0), s, rfl, h, rfl, by simp⟩
  | node k v lh rh l r, h, s => by
    obtain ⟨h1, h2, h3, h4, hl, hr⟩ := h
    obtain ⟨x, s1, e1, hx⟩ := retainW_spec f l hl s
    rw [retainW]
    simp only [e1]
    rcases x with _ | ⟨l', nl⟩
    · exact ⟨_, _, rfl, trivial⟩
    obtain ⟨y, s2, e2, hy⟩ := retainW_spec f r hr s1
    simp only [e2]
    rcases y with _ | ⟨r', nr⟩
    · exact ⟨_, _, rfl, trivial⟩
    obtain ⟨a1, a2, a3⟩ := hx
    obtain ⟨b1, b2, b3⟩ := hy
    rcases hf : f k v s2 with ⟨_ | ⟨v', _ | _⟩, s3⟩ <;> simp only [hf]
    · exact ⟨_, _, rfl, trivial⟩
    · obtain ⟨t, e3, hB⟩ := join2_shape l' none r' a1 b1
      have ht := join2_toList e3
      simp only [Option.toList_none, List.append_nil] at ht
      simp only [e3, Option.map_some]
      refine ⟨_, _, rfl, hB, by rw [ht, a2, b2]; simp, ?_⟩
      rw [ht]; simp only [toList, List.map_append, List.map_cons]
      exact a3.append (b3.cons _)
    · obtain ⟨t, e3, hB, _⟩ := join_shape l' k v' r' a1 b1
      have ht := join_toList e3
      simp only [e3, Option.map_some]
      refine ⟨_, _, rfl, hB, by rw [ht, a2, b2]; simp; omega, ?_⟩
      rw [ht]; simp only [toList, List.map_append, List.map_cons]
      exact a3.append (b3.cons_cons _)

/-- A closure of the other model, in which a panic loses the state. -/
def wildly (f : σ → K → V → Option (σ × V × Bool)) (k : K) (v : V) (s : σ) :
    Option (V × Bool) × σ :=
  match f s k v with
  | none => (none, s)
  | some (s', v', b) => (some (v', b), s')

/-- With such a closure, this is the function of the other model. -/
theorem retainW_tame (f : σ → K → V → Option (σ × V × Bool)) : ∀ (t : Tree K V) (s : σ),
    match retain f s t with
    | none => ∀ x s', retainW (wildly f) t s ≠ some (some x, s')
    | some (s', x) => retainW (wildly f) t s = some (some x, s')
  | nil, s => rfl
  | node k v _ _ l r, s => by
    have hl := retainW_tame f l s
    rw [retain, retainW]
    cases h1 : retain f s l with
    | none =>
      simp only [h1] at hl ⊢
      intro x s'
      generalize retainW (wildly f) l s = y at hl ⊢
      rcases y with _ | ⟨_ | y, s2⟩
      · simp
      · simp
      · exact absurd rfl (hl y s2)
    | some y =>
      obtain ⟨s1, l', nl⟩ := y
      simp only [h1] at hl ⊢
      simp only [hl]
      have hr := retainW_tame f r s1
      cases h2 : retain f s1 r with
      | none =>
        simp only [h2] at hr ⊢
        intro x s'
        generalize retainW (wildly f) r s1 = y at hr ⊢
        rcases y with _ | ⟨_ | y, s2⟩
        · simp
        · simp
        · exact absurd rfl (hr y s2)
      | some y =>
        obtain ⟨s2, r', nr⟩ := y
        simp only [h2] at hr ⊢
        simp only [hr, wildly]
        rcases h3 : f s2 k v with _ | ⟨s3, v', _ | _⟩
        · simp
        · cases hj : join2 l' none r' <;> simp [hj]
        · cases hj : join l' k v' r' <;> simp [hj]

end Tree

namespace AvlMap
open Tree

/-- avl.rs:1759-1768 `retain`. -/
def retainW (m : AvlMap K V) (f : K → V → σ → Option (V × Bool) × σ) (s : σ) :
    Option (Ends (AvlMap K V) (AvlMap K V) × σ) :=
  match m.root.retainW f s with
  | none => none
  | some (none, s) => some (.unwound ⟨m.len, .nil⟩, s)
  | some (some (t, n), s) => some (.done ⟨n, t⟩, s)

/-- A sound tree under a length that may be too large: what is left of the invariant when
comparisons are lawless and bulk operations unwind. -/
structure Over (m : AvlMap K V) : Prop where
  bal : m.root.Bal
  le : m.abs.length ≤ m.len

theorem Inv.over {m : AvlMap K V} (h : m.Inv) : m.Over := ⟨h.bal, by rw [h.len_eq]; exact Nat.le_refl _⟩

theorem over_nil (n : Nat) : (⟨n, .nil⟩ : AvlMap K V).Over := ⟨trivial, Nat.zero_le _⟩

/-- Iteration still shows every entry. -/
theorem Over.iterList {m : AvlMap K V} (h : m.Over) : m.iterList = some m.abs := by
  have hi : items m.iter.work = m.abs := items_iterOf _ _
  rw [AvlMap.iterList, drain_spec, hi]
  · rw [hi]; exact h.le
  · rw [hi]; have := h.le; omega

/-! ### Commands -/

/-- One operation on numbered maps.  `merge l r d` stores in `d` one of `new_union`,
`new_intersect`, `new_diff`, `new_sym_diff` of (clones of) the maps `l` and `r`. -/
inductive WCmd (σ : Type w) (K V : Type) where
  | get (i : Nat) (c : Cmp σ K)
  | getMut (i : Nat) (c : Cmp σ K) (g : V → V)
  | insert (i : Nat) (c : Cmp σ K) (k : K) (v : V)
  | remove (i : Nat) (c : Cmp σ K)
  | popFirst (i : Nat)
  | popLast (i : Nat)
  | clear (i : Nat)
  | clone (i j : Nat)
  | extend (i : Nat) (c : K → Cmp σ K) (es : List (K × V))
  | merge (l r d : Nat) (keepL keepR : Bool) (dec : K × V → K × V → Option (K × V))
      (c : K → Cmp σ K)
  | append (i j : Nat) (c : K → Cmp σ K)
  | splitOff (i j : Nat) (c : Cmp σ K) (ck : K → Cmp σ K)
  | retain (i : Nat) (f : K → V → σ → Option (V × Bool) × σ)

/-- The three operations that take the tree out of the map while they call foreign code. -/
def WCmd.takes : WCmd σ K V → Bool
  | append .. => true
  | splitOff .. => true
  | retain .. => true
  | _ => false

/-- The numbered maps of a program. -/
abbrev Maps (K V : Type) := Nat → AvlMap K V

/-- `upd st i m`: map `i` becomes `m`. -/
def upd (st : Maps K V) (i : Nat) (m : AvlMap K V) : Maps K V := fun j => if j = i then m else st j

/-- One operation, its panic (if any) caught.  `append` of a map to itself is not Rust. -/
def wstep (st : Maps K V) (s : σ) : WCmd σ K V → Option (Maps K V × σ)
  | .get i c => some (st, ((st i).getW c s).2)
  | .getMut i c g =>
    match (st i).getMutW c g s with
    | (.unwound m, s) => some (upd st i m, s)
    | (.done (m, _), s) => some (upd st i m, s)
  | .insert i c k v =>
    match (st i).insertW c k v s with
    | none => none
    | some (.unwound m, s) => some (upd st i m, s)
    | some (.done (m, _), s) => some (upd st i m, s)
  | .remove i c =>
    match (st i).removeW c s with
    | none => none
    | some (.unwound m, s) => some (upd st i m, s)
    | some (.done (m, _), s) => some (upd st i m, s)
  | .popFirst i => (st i).popFirst.map (fun x => (upd st i x.1, s))
  | .popLast i => (st i).popLast.map (fun x => (upd st i x.1, s))
  | .clear i => some (upd st i new, s)
  | .clone i j => some (upd st j (st i), s)
  | .extend i c es =>
    match (st i).extendW c es s with
    | none => none
    | some (.unwound m, s) => some (upd st i m, s)
    | some (.done m, s) => some (upd st i m, s)
  | .merge l r d keepL keepR dec c =>
    match newMergeW keepL keepR dec (st l) (st r) c s with
    | none => none
    | some (.unwound _, s) => some (st, s)
    | some (.done m, s) => some (upd st d m, s)
  | .append i j c =>
    if i = j then some (st, s)
    else
      match (st i).appendW (st j) c s with
      | none => none
      | some (.unwound (m, o), s) => some (upd (upd st i m) j o, s)
      | some (.done (m, o), s) => some (upd (upd st i m) j o, s)
  | .splitOff i j c ck =>
    match (st i).splitOffW c ck s with
    | none => none
    | some (.unwound m, s) => some (upd st i m, s)
    | some (.done (a, b), s) => some (upd (upd st i a) j b, s)
  | .retain i f =>
    match (st i).retainW f s with
    | none => none
    | some (.unwound m, s) => some (upd st i m, s)
    | some (.done m, s) => some (upd st i m, s)

/-- A program. -/
def wrun : Maps K V → σ → List (WCmd σ K V) → Option (Maps K V × σ)
  | st, s, [] => some (st, s)
  | st, s, c :: cs =>
    match wstep st s c with
    | none => none
    | some (st, s) => wrun st s cs

theorem upd_all {P : AvlMap K V → Prop} {st : Maps K V} (h : ∀ i, P (st i)) (i : Nat)
    {m : AvlMap K V} (hm : P m) : ∀ j, P (upd st i m j) := by
  intro j
  rw [upd]
  split
  · exact hm
  · exact h j

/-! ### The exact invariant, under the other operations -/

theorem wstep_inv {st : Maps K V} (h : ∀ i, (st i).Inv) (s : σ) (cmd : WCmd σ K V)
    (hc : cmd.takes = false) : ∃ st' s', wstep st s cmd = some (st', s') ∧ ∀ i, (st' i).Inv := by
  cases cmd with
  | get i c => exact ⟨_, _, rfl, h⟩
  | getMut i c g =>
    have hs := getMutW_spec c (h i) g s
    rw [wstep]
    generalize (st i).getMutW c g s = x at hs ⊢
    rcases x with ⟨m | ⟨m, b⟩, s'⟩
    · exact ⟨_, _, rfl, upd_all h i (hs.1 ▸ h i)⟩
    · exact ⟨_, _, rfl, upd_all h i hs.1⟩
  | insert i c k v =>
    obtain ⟨r, s', e, hr⟩ := insertW_spec c (h i) k v s
    simp only [wstep, e]
    rcases r with m | ⟨m, o⟩
    · exact ⟨_, _, rfl, upd_all h i (hr.1 ▸ h i)⟩
    · exact ⟨_, _, rfl, upd_all h i hr.1⟩
  | remove i c =>
    obtain ⟨r, s', e, hr⟩ := removeW_spec c (h i) s
    simp only [wstep, e]
    rcases r with m | ⟨m, o⟩
    · exact ⟨_, _, rfl, upd_all h i (hr.1 ▸ h i)⟩
    · exact ⟨_, _, rfl, upd_all h i hr.1⟩
  | popFirst i =>
    obtain ⟨m, e, hm, -⟩ := popFirst_inv (h i)
    simp only [wstep, e]
    exact ⟨_, _, rfl, upd_all h i hm⟩
  | popLast i =>
    obtain ⟨m, e, hm, -⟩ := popLast_inv (h i)
    simp only [wstep, e]
    exact ⟨_, _, rfl, upd_all h i hm⟩
  | clear i => exact ⟨_, _, rfl, upd_all h i inv_new⟩
  | clone i j => exact ⟨_, _, rfl, upd_all h j (h i)⟩
  | extend i c es =>
    obtain ⟨r, s', e, hr⟩ := extendW_spec (h i) c es s
    simp only [wstep, e]
    rcases r with m | m
    · exact ⟨_, _, rfl, upd_all h i hr.1⟩
    · exact ⟨_, _, rfl, upd_all h i hr.1⟩
  | merge l r d keepL keepR dec c =>
    obtain ⟨x, s', e, hx⟩ := newMergeW_spec (h l) (h r) keepL keepR dec c s
    simp only [wstep, e]
    rcases x with _ | m
    · exact ⟨_, _, rfl, h⟩
    · exact ⟨_, _, rfl, upd_all h d hx.1⟩
  | append i j c => cases hc
  | splitOff i j c ck => cases hc
  | retain i f => cases hc

theorem wrun_inv : ∀ (cs : List (WCmd σ K V)) {st : Maps K V} (s : σ), (∀ i, (st i).Inv) →
    (∀ c ∈ cs, c.takes = false) → ∃ st' s', wrun st s cs = some (st', s') ∧ ∀ i, (st' i).Inv
  | [], st, s, h, _ => ⟨_, _, rfl, h⟩
  | c :: cs, st, s, h, hc => by
    obtain ⟨st1, s1, e, h1⟩ := wstep_inv h s c (hc c (by simp))
    rw [wrun]
    simp only [e]
    exact wrun_inv cs s1 h1 (fun c hc' => hc c (by simp [hc']))

/-! ### The weak invariant, under all of them -/

theorem insertW_over (c : Cmp σ K) {m : AvlMap K V} (hm : m.Over) (k : K) (v : V) (s : σ) :
    ∃ r s', m.insertW c k v s = some (r, s') ∧
      match r with
      | .unwound m' => m' = m ∧ Panics c m.abs
      | .done (m', o) => m'.Over ∧ Put c k v m.abs o m'.abs := by
  obtain ⟨r, s', e, hr⟩ := Tree.insW_spec c k v m.root hm.bal s
  simp only [insertW, e]
  rcases r with t | ⟨t, o, b⟩
  · obtain ⟨rfl, hp⟩ := hr
    exact ⟨_, _, rfl, rfl, hp⟩
  · obtain ⟨h1, h2, h3, h4⟩ := hr
    refine ⟨_, _, rfl, ⟨h1, ?_⟩, h4⟩
    show t.toList.length ≤ m.len + _
    rw [h4.length]
    exact Nat.add_le_add_right hm.le _

theorem popWith_over {m : AvlMap K V} (hm : m.Over) {t : Tree K V} {kv : Option (K × V)} (sh : Bool)
    (hB : t.Bal) (hlen : t.toList.length + kv.toList.length = m.abs.length) :
    ∃ m', popWith m.len (some (t, kv, sh)) = some (m', kv) ∧ m'.Over ∧ m'.abs = t.toList := by
  have h := hm.le
  cases kv with
  | none => exact ⟨⟨m.len, t⟩, rfl, ⟨hB, by simp at hlen; show t.toList.length ≤ m.len; omega⟩, rfl⟩
  | some e =>
    simp at hlen
    have h0 : m.len ≠ 0 := by omega
    refine ⟨⟨m.len - 1, t⟩, by simp [popWith, h0], ⟨hB, ?_⟩, rfl⟩
    show t.toList.length ≤ m.len - 1
    omega

theorem wstep_over {st : Maps K V} (h : ∀ i, (st i).Over) (s : σ) (cmd : WCmd σ K V) :
    ∃ st' s', wstep st s cmd = some (st', s') ∧ ∀ i, (st' i).Over := by
  cases cmd with
  | get i c => exact ⟨_, _, rfl, h⟩
  | getMut i c g =>
    have hs := Tree.getMutW_spec c g (st i).root (h i).bal s
    rw [wstep, getMutW]
    generalize Tree.getMutW c g (st i).root s = x at hs ⊢
    rcases x with ⟨t | ⟨t, b⟩, s'⟩
    · obtain ⟨rfl, hp⟩ := hs
      exact ⟨_, _, rfl, upd_all h i (h i)⟩
    · obtain ⟨h1, h2, h3, h4⟩ := hs
      exact ⟨_, _, rfl, upd_all h i ⟨h1, Nat.le_trans (Nat.le_of_eq h3.length) (h i).le⟩⟩
  | insert i c k v =>
    obtain ⟨r, s', e, hr⟩ := insertW_over c (h i) k v s
    simp only [wstep, e]
    rcases r with m | ⟨m, o⟩
    · exact ⟨_, _, rfl, upd_all h i (hr.1 ▸ h i)⟩
    · exact ⟨_, _, rfl, upd_all h i hr.1⟩
  | remove i c =>
    obtain ⟨r, s', e, hr⟩ := Tree.rmW_spec c (st i).root (h i).bal s
    rw [wstep, removeW]
    simp only [e]
    rcases r with t | ⟨t, kv, b⟩
    · obtain ⟨rfl, hp⟩ := hr
      exact ⟨_, _, rfl, upd_all h i (h i)⟩
    · obtain ⟨h1, h2, h3⟩ := hr
      have hl := h3.length
      obtain ⟨m, e, hm, -⟩ := popWith_over (h i) b h1 (kv := kv) (by
        show _ = (st i).root.toList.length
        rw [← hl]; cases kv <;> rfl)
      simp only [e]
      exact ⟨_, _, rfl, upd_all h i hm⟩
  | popFirst i =>
    obtain ⟨t, kv, sh, e, hB, -⟩ := Tree.rmLeftmost_shape (st i).root (h i).bal
    obtain ⟨h1, h2⟩ := Tree.rmLeftmost_toList e
    obtain ⟨m, e', hm, -⟩ := popWith_over (h i) sh hB (kv := kv) (by
      rw [h1, h2]; simp only [abs]; cases (st i).root.toList <;> simp)
    simp only [wstep, popFirst, e, e']
    exact ⟨_, _, rfl, upd_all h i hm⟩
  | popLast i =>
    obtain ⟨t, kv, sh, e, hB, -⟩ := Tree.rmRightmost_shape (st i).root (h i).bal
    obtain ⟨h1, h2⟩ := Tree.rmRightmost_toList e
    obtain ⟨m, e', hm, -⟩ := popWith_over (h i) sh hB (kv := kv) (by
      rw [h1, h2]; simp only [abs]
      cases (st i).root.toList with
      | nil => simp
      | cons a l => rw [List.getLast?_cons]; simp)
    simp only [wstep, popLast, e, e']
    exact ⟨_, _, rfl, upd_all h i hm⟩
  | clear i => exact ⟨_, _, rfl, upd_all h i inv_new.over⟩
  | clone i j => exact ⟨_, _, rfl, upd_all h j (h i)⟩
  | extend i c es =>
    obtain ⟨r, s', e, hr⟩ := Wild.extendW_spec (P := Over) (abs := abs) (c := c)
      (ins := fun m k v s => m.insertW (c k) k v s)
      (fun m hm k v s => by
        obtain ⟨r, s', e, hr⟩ := insertW_over (c k) hm k v s
        exact ⟨r, s', e, by rcases r with _ | ⟨_, _⟩ <;> exact hr⟩) es (h i) s
    simp only [wstep, extendW, e]
    rcases r with m | m
    · exact ⟨_, _, rfl, upd_all h i hr.1⟩
    · exact ⟨_, _, rfl, upd_all h i hr.1⟩
  | merge l r d keepL keepR dec c =>
    obtain ⟨x, s', e, hx⟩ := mergeW_spec keepL keepR dec c (st l).root (st r).root (h l).bal (h r).bal s
    simp only [wstep, newMergeW, e]
    rcases x with _ | m
    · exact ⟨_, _, rfl, h⟩
    · exact ⟨_, _, rfl, upd_all h d (inv_size hx.1).over⟩
  | append i j c =>
    rw [wstep]
    split
    · exact ⟨_, _, rfl, h⟩
    · obtain ⟨x, s', e, hx⟩ := mergeW_spec true true (fun _ r => some r) c (st i).root (st j).root
        (h i).bal (h j).bal s
      simp only [appendW, e]
      rcases x with _ | m
      · exact ⟨_, _, rfl, upd_all (upd_all h i (over_nil _)) j (over_nil _)⟩
      · exact ⟨_, _, rfl, upd_all (upd_all h i (inv_size hx.1).over) j (over_nil _)⟩
  | splitOff i j c ck =>
    obtain ⟨x, s', e, hx⟩ := splitW_spec c (st i).root (h i).bal s
    have hle : (st i).root.toList.length ≤ (st i).len := (h i).le
    simp only [wstep, splitOffW, e]
    rcases x with _ | ⟨lhs, kv, rhs⟩
    · exact ⟨_, _, rfl, upd_all h i (over_nil _)⟩
    · obtain ⟨b1, b2, b3, b4⟩ := hx
      have hsz := size_eq lhs
      have hlen := congrArg List.length b3
      simp only [List.length_append] at hlen
      have hlt : ¬ (st i).len < lhs.size := by omega
      simp only [if_neg hlt]
      rcases kv with _ | ⟨k, v⟩
      · refine ⟨_, _, rfl, upd_all (upd_all h i (inv_size b1).over) j ⟨b2, ?_⟩⟩
        show rhs.toList.length ≤ (st i).len - lhs.size
        omega
      · obtain ⟨y, s'', e', hy⟩ := insW_spec (ck k) k v rhs b2 s'
        simp only [e']
        rcases y with t | ⟨t, o, tl⟩
        · exact ⟨_, _, rfl, upd_all h i (inv_size b1).over⟩
        · refine ⟨_, _, rfl, upd_all (upd_all h i (inv_size b1).over) j ⟨hy.1, ?_⟩⟩
          have h4 := hy.2.2.2.length
          simp only [Option.toList_some, List.length_singleton] at hlen
          show t.toList.length ≤ (st i).len - lhs.size
          split at h4 <;> omega
  | retain i f =>
    obtain ⟨x, s', e, hx⟩ := retainW_spec f (st i).root (h i).bal s
    simp only [wstep, retainW, e]
    rcases x with _ | ⟨t, n⟩
    · exact ⟨_, _, rfl, upd_all h i (over_nil _)⟩
    · refine ⟨_, _, rfl, upd_all h i ⟨hx.1, ?_⟩⟩
      show t.toList.length ≤ n
      exact Nat.le_of_eq hx.2.1.symm

theorem wrun_over : ∀ (cs : List (WCmd σ K V)) {st : Maps K V} (s : σ), (∀ i, (st i).Over) →
    ∃ st' s', wrun st s cs = some (st', s') ∧ ∀ i, (st' i).Over
  | [], st, s, h => ⟨_, _, rfl, h⟩
  | c :: cs, st, s, h => by
    obtain ⟨st1, s1, e, h1⟩ := wstep_over h s c
    rw [wrun]
    simp only [e]
    exact wrun_over cs s1 h1

end AvlMap
end Verif.Avl
