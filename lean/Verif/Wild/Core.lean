import Verif.Fixed.Model
/-!
# Comparisons that obey no law

`Ord` is a safe trait: `cmp` may contradict itself, answer differently when asked again, and
panic.  The models of `Verif.Avl`, `Verif.BTree` and `Verif.Fixed` compare with a function of
the key; here a comparison is an arbitrary computation on a state, which may also panic.

An operation then ends in one of three ways:

* the outer `none` is a panic of the crate's own, or undefined behaviour;
* `unwound n`: a comparison panicked; `n` is what the unwinding leaves behind the `&mut`;
* `done r`: the operation returned.

Every function that descends below a `&mut` puts back whatever the unwinding callee left.
Clones made before the panic (`Arc::make_mut` on the way down) have equal contents.
-/
namespace Verif.Wild
open Verif.BTree Verif.BTree.Node
universe w
variable {σ : Type w} {K V : Type}

/-- Comparison of the search key with a stored key (`key.cmp(k.borrow())`): `σ` is everything
the implementation can depend on, `none` is a panic. -/
abbrev Cmp (σ : Type w) (K : Type) := K → σ → Option Ordering × σ

/-- A comparison that depends on nothing but the key. -/
def tame (p : K → Ordering) : Cmp σ K := fun k s => (some (p k), s)

/-- How an operation ends. -/
inductive Ends (N R : Type _) where
  | unwound (n : N)
  | done (r : R)
  deriving DecidableEq, Repr

/-- The comparison may panic on a key of the list. -/
def Panics (c : Cmp σ K) (es : List (K × V)) : Prop := ∃ e ∈ es, ∃ s, (c e.1 s).1 = none

/-- The comparison may call `k` equal to the search key. -/
def Equals (c : Cmp σ K) (k : K) : Prop := ∃ s, (c k s).1 = some .eq

/-- The scans of btree.rs:96-102, 113-123, 139-151, 499-531, 576-583 and core.rs:74-82. -/
def locateW (c : Cmp σ K) : List (K × V) → σ → Option (Nat × Bool) × σ
  | [], s => (some (0, false), s)
  | e :: es, s =>
    match c e.1 s with
    | (none, s) => (none, s)
    | (some .eq, s) => (some (0, true), s)
    | (some .lt, s) => (some (0, false), s)
    | (some .gt, s) => ((locateW c es s).1.map (fun r => (r.1 + 1, r.2)), (locateW c es s).2)

/-- `slice::binary_search_by` (std), the loop, as `Verif.Fixed.bsLoop`.  The code asks
`k.cmp(key)` here (core.rs:85); the answer is taken to be the reverse, which for an arbitrary
comparison makes no difference. -/
def bsLoopW (c : Cmp σ K) (es : List (K × V)) : Nat → Nat → Nat → σ → Option (Option Nat × σ)
  | 0, _, _, _ => none
  | fuel + 1, base, size, s =>
    if 1 < size then
      match es[base + size / 2]? with
      | none => none
      | some e =>
        match c e.1 s with
        | (none, s) => some (none, s)
        | (some o, s) =>
          bsLoopW c es fuel (if o = .lt then base else base + size / 2) (size - size / 2) s
    else some (some base, s)

/-- `slice::binary_search_by` on a slice that is not empty. -/
def bsearchW (c : Cmp σ K) (es : List (K × V)) (s : σ) : Option (Option (Nat × Bool) × σ) :=
  match bsLoopW c es (es.length + 1) 0 es.length s with
  | none => none
  | some (none, s) => some (none, s)
  | some (some base, s) =>
    match es[base]? with
    | none => none
    | some e =>
      match c e.1 s with
      | (none, s) => some (none, s)
      | (some .eq, s) => some (some (base, true), s)
      | (some .gt, s) => some (some (base + 1, false), s)
      | (some .lt, s) => some (some (base, false), s)

/-- core.rs:66-87 `search_keys`, as `Verif.Fixed.searchKeys`. -/
def searchW (lin : Bool) (c : Cmp σ K) (es : List (K × V)) (s : σ) :
    Option (Option (Nat × Bool) × σ) :=
  if es.isEmpty then none
  else if lin then some (locateW c es s)
  else bsearchW c es s

/-! ### With a function of the key, the scans are those of the other models -/

theorem locateW_tame (p : K → Ordering) : ∀ (es : List (K × V)) (s : σ),
    locateW (tame p) es s = (some (BTree.Node.locate p es), s)
  | [], s => rfl
  | e :: es, s => by
    have ih := locateW_tame p es s
    rw [locateW, BTree.Node.locate]
    have h : tame p e.1 s = (some (p e.1), s) := rfl
    rw [h]
    cases p e.1 with
    | lt => rfl
    | eq => rfl
    | gt => simp only [ih]; rfl

theorem bsLoopW_tame (p : K → Ordering) (es : List (K × V)) : ∀ (fuel base size : Nat) (s : σ),
    bsLoopW (tame p) es fuel base size s =
      (Fixed.bsLoop (fun i => (es[i]?).map (fun e => p e.1)) fuel base size).map
        (fun b => (some b, s))
  | 0, _, _, _ => rfl
  | fuel + 1, base, size, s => by
    rw [bsLoopW, Fixed.bsLoop]
    by_cases h : 1 < size
    · rw [if_pos h, if_pos h]
      cases he : es[base + size / 2]? with
      | none => simp
      | some e => simp only [Option.map_some, tame]; exact bsLoopW_tame p es fuel _ _ s
    · rw [if_neg h, if_neg h]; rfl

theorem bsearchW_tame (p : K → Ordering) (es : List (K × V)) (s : σ) :
    bsearchW (tame p) es s =
      (Fixed.bsearch (fun i => (es[i]?).map (fun e => p e.1)) es.length).map
        (fun r => (some r, s)) := by
  rw [bsearchW, Fixed.bsearch, bsLoopW_tame]
  cases Fixed.bsLoop (fun i => (es[i]?).map (fun e => p e.1)) (es.length + 1) 0 es.length with
  | none => rfl
  | some b =>
    simp only [Option.map_some]
    cases es[b]? with
    | none => rfl
    | some e => simp only [Option.map_some, tame]; cases p e.1 <;> rfl

theorem searchW_tame (lin : Bool) (p : K → Ordering) (es : List (K × V)) (s : σ) :
    searchW lin (tame p) es s = (Fixed.searchKeys lin p es).map (fun r => (some r, s)) := by
  rw [searchW, Fixed.searchKeys]
  split
  · rfl
  · split
    · rw [locateW_tame]; rfl
    · exact bsearchW_tame p es s

/-! ### Whatever the comparison does, a scan stays inside the slice -/

/-- What a scan may return: it unwinds only if a comparison panicked, its index is at most the
length, and an index reported as found is that of an element that compared equal. -/
def Scan (c : Cmp σ K) (es : List (K × V)) : Option (Nat × Bool) → Prop
  | none => Panics c es
  | some (i, false) => i ≤ es.length
  | some (i, true) => ∃ e, es[i]? = some e ∧ Equals c e.1

theorem Panics.mono {c : Cmp σ K} {es es' : List (K × V)} (h : Panics c es)
    (hs : ∀ e ∈ es, e ∈ es') : Panics c es' := by
  obtain ⟨e, he, x⟩ := h
  exact ⟨e, hs e he, x⟩

theorem locateW_scan (c : Cmp σ K) : ∀ (es : List (K × V)) (s : σ), Scan c es (locateW c es s).1
  | [], s => by simp [locateW, Scan]
  | e :: es, s => by
    rw [locateW]
    rcases h : c e.1 s with ⟨_ | o, s'⟩
    · exact ⟨e, by simp, s, by rw [h]⟩
    · cases o with
      | lt => simp [Scan]
      | eq => exact ⟨e, rfl, s, by rw [h]⟩
      | gt =>
        have ih := locateW_scan c es s'
        dsimp only
        rcases hr : (locateW c es s').1 with _ | ⟨i, _ | _⟩
        · rw [hr] at ih
          exact Panics.mono ih (by simp +contextual)
        · rw [hr] at ih
          simp only [Scan, Option.map_some, List.length_cons] at ih ⊢
          omega
        · rw [hr] at ih
          simpa [Scan] using ih

theorem bsLoopW_scan (c : Cmp σ K) (es : List (K × V)) :
    ∀ (fuel base size : Nat) (s : σ), size ≤ fuel → 0 < size → base + size ≤ es.length →
      ∃ r s', bsLoopW c es fuel base size s = some (r, s') ∧
        match r with
        | none => Panics c es
        | some b => b < es.length
  | 0, _, _, _ => by intro h1 h2; omega
  | fuel + 1, base, size, s => by
    intro h1 h2 h3
    rw [bsLoopW]
    by_cases hs : 1 < size
    · rw [if_pos hs]
      have hlt : base + size / 2 < es.length := by omega
      rw [List.getElem?_eq_getElem hlt]
      dsimp only
      rcases hc : c es[base + size / 2].1 s with ⟨_ | o, s'⟩
      · exact ⟨none, s', rfl, _, List.getElem_mem hlt, s, by rw [hc]⟩
      · refine bsLoopW_scan c es fuel _ _ s' (by omega) (by omega) ?_
        split <;> omega
    · rw [if_neg hs]
      exact ⟨some base, s, rfl, by show base < es.length; omega⟩

theorem searchW_scan (lin : Bool) (c : Cmp σ K) {es : List (K × V)} (hne : 0 < es.length) (s : σ) :
    ∃ r s', searchW lin c es s = some (r, s') ∧ Scan c es r := by
  have he : es.isEmpty = false := by cases es <;> simp_all
  rw [searchW, he]
  simp only [Bool.false_eq_true, if_false]
  split
  · exact ⟨_, _, rfl, locateW_scan c es s⟩
  · rw [bsearchW]
    obtain ⟨r, s', e, h⟩ := bsLoopW_scan c es (es.length + 1) 0 es.length s (by omega) hne (by omega)
    rw [e]
    rcases r with _ | b
    · exact ⟨none, s', rfl, h⟩
    · have hb : b < es.length := h
      dsimp only
      rw [List.getElem?_eq_getElem hb]
      dsimp only
      rcases hc : c es[b].1 s' with ⟨_ | o, s''⟩
      · exact ⟨none, s'', rfl, _, List.getElem_mem hb, s', by rw [hc]⟩
      · cases o with
        | lt => exact ⟨_, _, rfl, by show b ≤ es.length; omega⟩
        | eq => exact ⟨_, _, rfl, _, List.getElem?_eq_getElem hb, s', by rw [hc]⟩
        | gt => exact ⟨_, _, rfl, by show b + 1 ≤ es.length; omega⟩

/-! ### What the operations may do to the entries -/

/-- `L'` is `L` with one entry more, or, if `o` is a value, with an entry of that value, which
compared equal, replaced. -/
def Put (c : Cmp σ K) (k : K) (v : V) (L : List (K × V)) (o : Option V) (L' : List (K × V)) :
    Prop :=
  match o with
  | none => ∃ l1 l2, L = l1 ++ l2 ∧ L' = l1 ++ (k, v) :: l2
  | some x => ∃ l1 kx l2, L = l1 ++ (kx, x) :: l2 ∧ L' = l1 ++ (k, v) :: l2 ∧ Equals c kx

/-- `L'` is `L`, or `L` without the entry `e`, which compared equal. -/
def Cut (c : Cmp σ K) (L : List (K × V)) (e : Option (K × V)) (L' : List (K × V)) : Prop :=
  match e with
  | none => L' = L
  | some e => ∃ l1 l2, L = l1 ++ e :: l2 ∧ L' = l1 ++ l2 ∧ Equals c e.1

/-- `L'` is `L`, or `L` with the value of one entry, which compared equal, rewritten. -/
def Wrote (c : Cmp σ K) (g : V → V) (L : List (K × V)) (b : Bool) (L' : List (K × V)) : Prop :=
  match b with
  | false => L' = L
  | true => ∃ l1 e l2, L = l1 ++ e :: l2 ∧ L' = l1 ++ (e.1, g e.2) :: l2 ∧ Equals c e.1

/-- An entry found is one of the map's, and compared equal. -/
def Found (c : Cmp σ K) (L : List (K × V)) (e : Option (K × V)) : Prop :=
  ∀ x, e = some x → x ∈ L ∧ Equals c x.1

variable {c : Cmp σ K} {L L' : List (K × V)}

theorem Put.ctx {k : K} {v : V} {o : Option V} (h : Put c k v L o L') (a b : List (K × V)) :
    Put c k v (a ++ L ++ b) o (a ++ L' ++ b) := by
  cases o with
  | none =>
    obtain ⟨l1, l2, rfl, rfl⟩ := h
    exact ⟨a ++ l1, l2 ++ b, by simp, by simp⟩
  | some x =>
    obtain ⟨l1, kx, l2, rfl, rfl, e⟩ := h
    exact ⟨a ++ l1, kx, l2 ++ b, by simp, by simp, e⟩

theorem Cut.ctx {e : Option (K × V)} (h : Cut c L e L') (a b : List (K × V)) :
    Cut c (a ++ L ++ b) e (a ++ L' ++ b) := by
  cases e with
  | none => have e : L' = L := h; subst e; rfl
  | some e =>
    obtain ⟨l1, l2, rfl, rfl, e⟩ := h
    exact ⟨a ++ l1, l2 ++ b, by simp, by simp, e⟩

theorem Wrote.ctx {g : V → V} {x : Bool} (h : Wrote c g L x L') (a b : List (K × V)) :
    Wrote c g (a ++ L ++ b) x (a ++ L' ++ b) := by
  cases x with
  | false => have e : L' = L := h; subst e; rfl
  | true =>
    obtain ⟨l1, y, l2, rfl, rfl, e⟩ := h
    exact ⟨a ++ l1, y, l2 ++ b, by simp, by simp, e⟩

theorem Put.length {k : K} {v : V} {o : Option V} (h : Put c k v L o L') :
    L'.length = L.length + (if o.isNone then 1 else 0) := by
  cases o with
  | none => obtain ⟨l1, l2, rfl, rfl⟩ := h; simp; omega
  | some x => obtain ⟨l1, kx, l2, rfl, rfl, -⟩ := h; simp

theorem Cut.length {e : Option (K × V)} (h : Cut c L e L') :
    L'.length + (if e.isSome then 1 else 0) = L.length := by
  cases e with
  | none => have e : L' = L := h; simp [e]
  | some e => obtain ⟨l1, l2, rfl, rfl, -⟩ := h; simp; omega

theorem Wrote.length {g : V → V} {x : Bool} (h : Wrote c g L x L') : L'.length = L.length := by
  cases x with
  | false => have e : L' = L := h; rw [e]
  | true => obtain ⟨l1, y, l2, rfl, rfl, -⟩ := h; simp

end Verif.Wild
