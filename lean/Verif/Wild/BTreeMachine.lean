import Verif.Wild.Seq
/-!
# Whole programs that use `BTreeMap` or `fixed::BTreeMap` with a lawless comparison

As in `Verif.Wild.AvlMachine`: any number of maps, any operations, comparisons that share one
arbitrary state, and every panic caught.
-/
set_option linter.unusedVariables false
namespace Verif.BTree.BTreeMap
open Verif.Wild
universe w
variable {σ : Type w} {K V : Type}

/-- One operation on numbered maps.  A `Sharing` says which nodes are shared when a map is
consumed. -/
inductive WCmd (σ : Type w) (K V : Type) where
  | get (i : Nat) (c : Cmp σ K)
  | contains (i : Nat) (c : Cmp σ K)
  | getMut (i : Nat) (c : Cmp σ K) (g : V → V)
  | insert (i : Nat) (c : Cmp σ K) (k : K) (v : V)
  | remove (i : Nat) (c : Cmp σ K)
  | popFirst (i : Nat)
  | popLast (i : Nat)
  | clear (i : Nat)
  | clone (i j : Nat)
  | extend (i : Nat) (c : K → Cmp σ K) (es : List (K × V))
  | append (i j : Nat) (o : Sharing K V) (c : K → Cmp σ K)
  | splitOff (i j : Nat) (o : Sharing K V) (c : K → Cmp σ K) (g : K → σ → Option Bool × σ)
  | retain (i : Nat) (o : Sharing K V) (c : K → Cmp σ K) (f : K → V → σ → Option (V × Bool) × σ)

/-- The numbered maps of a program. -/
abbrev Maps (K V : Type) := Nat → BTreeMap K V

/-- `upd st i m`: map `i` becomes `m`. -/
def upd (st : Maps K V) (i : Nat) (m : BTreeMap K V) : Maps K V := fun j => if j = i then m else st j

/-- One operation, its panic (if any) caught.  `append` of a map to itself is not Rust. -/
def wstep (N : Nat) (st : Maps K V) (s : σ) : WCmd σ K V → Option (Maps K V × σ)
  | .get i c => ((st i).getW c s).map (fun r => (st, r.2))
  | .contains i c => some (st, ((st i).containsW c s).2)
  | .getMut i c g =>
    match (st i).getMutW c g s with
    | none => none
    | some (.unwound m, s) => some (upd st i m, s)
    | some (.done (m, _), s) => some (upd st i m, s)
  | .insert i c k v =>
    match (st i).insertW N c k v s with
    | none => none
    | some (.unwound m, s) => some (upd st i m, s)
    | some (.done (m, _), s) => some (upd st i m, s)
  | .remove i c =>
    match (st i).removeW N c s with
    | none => none
    | some (.unwound m, s) => some (upd st i m, s)
    | some (.done (m, _), s) => some (upd st i m, s)
  | .popFirst i => ((st i).popFirst N).map (fun x => (upd st i x.1, s))
  | .popLast i => ((st i).popLast N).map (fun x => (upd st i x.1, s))
  | .clear i => some (upd st i (st i).clear, s)
  | .clone i j => some (upd st j (st i), s)
  | .extend i c es =>
    match (st i).extendW N c es s with
    | none => none
    | some (.unwound m, s) => some (upd st i m, s)
    | some (.done m, s) => some (upd st i m, s)
  | .append i j o c =>
    if i = j then some (st, s)
    else
      match (st i).appendW N o (st j) c s with
      | none => none
      | some (.unwound (m, x), s) => some (upd (upd st i m) j x, s)
      | some (.done (m, x), s) => some (upd (upd st i m) j x, s)
  | .splitOff i j o c g =>
    match (st i).splitOffW N o c g s with
    | none => none
    | some (.unwound m, s) => some (upd st i m, s)
    | some (.done (a, b), s) => some (upd (upd st i a) j b, s)
  | .retain i o c f =>
    match (st i).retainW N o c f s with
    | none => none
    | some (.unwound m, s) => some (upd st i m, s)
    | some (.done m, s) => some (upd st i m, s)

/-- A program. -/
def wrun (N : Nat) : Maps K V → σ → List (WCmd σ K V) → Option (Maps K V × σ)
  | st, s, [] => some (st, s)
  | st, s, c :: cs =>
    match wstep N st s c with
    | none => none
    | some (st, s) => wrun N st s cs

theorem upd_all {P : BTreeMap K V → Prop} {st : Maps K V} (h : ∀ i, P (st i)) (i : Nat)
    {m : BTreeMap K V} (hm : P m) : ∀ j, P (upd st i m j) := by
  intro j
  rw [upd]
  split
  · exact hm
  · exact h j

theorem wstep_inv {N : Nat} (hN : 1 ≤ N) {st : Maps K V} (h : ∀ i, (st i).Inv N) (s : σ)
    (cmd : WCmd σ K V) : ∃ st' s', wstep N st s cmd = some (st', s') ∧ ∀ i, (st' i).Inv N := by
  cases cmd with
  | get i c =>
    obtain ⟨r, s', e, -⟩ := getW_spec N c (h i) s
    simp only [wstep, e]
    exact ⟨_, _, rfl, h⟩
  | contains i c => exact ⟨_, _, rfl, h⟩
  | getMut i c g =>
    obtain ⟨r, s', e, hr⟩ := getMutW_spec N c (h i) g s
    simp only [wstep, e]
    rcases r with m | ⟨m, o⟩
    · exact ⟨_, _, rfl, upd_all h i (hr.1 ▸ h i)⟩
    · exact ⟨_, _, rfl, upd_all h i hr.1⟩
  | insert i c k v =>
    obtain ⟨r, s', e, hr⟩ := insertW_spec N c (h i) k v s
    simp only [wstep, e]
    rcases r with m | ⟨m, o⟩
    · exact ⟨_, _, rfl, upd_all h i (hr.1 ▸ h i)⟩
    · exact ⟨_, _, rfl, upd_all h i hr.1⟩
  | remove i c =>
    obtain ⟨r, s', e, hr⟩ := removeW_spec N c hN (h i) s
    simp only [wstep, e]
    rcases r with m | ⟨m, o⟩
    · exact ⟨_, _, rfl, upd_all h i (hr.1 ▸ h i)⟩
    · exact ⟨_, _, rfl, upd_all h i hr.1⟩
  | popFirst i =>
    obtain ⟨m, e, hm, -⟩ := popFirst_inv hN (h i)
    simp only [wstep, e]
    exact ⟨_, _, rfl, upd_all h i hm⟩
  | popLast i =>
    obtain ⟨m, e, hm, -⟩ := popLast_inv hN (h i)
    simp only [wstep, e]
    exact ⟨_, _, rfl, upd_all h i hm⟩
  | clear i => exact ⟨_, _, rfl, upd_all h i (inv_new N)⟩
  | clone i j => exact ⟨_, _, rfl, upd_all h j (h i)⟩
  | extend i c es =>
    obtain ⟨r, s', e, hr⟩ := extendW_spec N (h i) c es s
    simp only [wstep, e]
    rcases r with m | m
    · exact ⟨_, _, rfl, upd_all h i hr.1⟩
    · exact ⟨_, _, rfl, upd_all h i hr.1⟩
  | append i j o c =>
    rw [wstep]
    split
    · exact ⟨_, _, rfl, h⟩
    · obtain ⟨r, s', e, hr⟩ := appendW_spec hN o (h i) (h j) c s
      simp only [e]
      rcases r with ⟨m, x⟩ | ⟨m, x⟩
      · exact ⟨_, _, rfl, upd_all (upd_all h i hr.1) j (hr.2.1 ▸ inv_new N)⟩
      · exact ⟨_, _, rfl, upd_all (upd_all h i hr.1) j (hr.2.1 ▸ inv_new N)⟩
  | splitOff i j o c g =>
    obtain ⟨r, s', e, hr⟩ := splitOffW_spec hN o (h i) c g s
    simp only [wstep, e]
    rcases r with m | ⟨a, b⟩
    · have hr : m = new := hr
      exact ⟨_, _, rfl, upd_all h i (hr ▸ inv_new N)⟩
    · exact ⟨_, _, rfl, upd_all (upd_all h i hr.1) j hr.2.1⟩
  | retain i o c f =>
    obtain ⟨r, s', e, hr⟩ := retainW_spec hN o (h i) c f s
    simp only [wstep, e]
    rcases r with m | m
    · have hr : m = new := hr
      exact ⟨_, _, rfl, upd_all h i (hr ▸ inv_new N)⟩
    · exact ⟨_, _, rfl, upd_all h i hr.1⟩

theorem wrun_inv {N : Nat} (hN : 1 ≤ N) : ∀ (cs : List (WCmd σ K V)) {st : Maps K V} (s : σ),
    (∀ i, (st i).Inv N) → ∃ st' s', wrun N st s cs = some (st', s') ∧ ∀ i, (st' i).Inv N
  | [], st, s, h => ⟨_, _, rfl, h⟩
  | c :: cs, st, s, h => by
    obtain ⟨st1, s1, e, h1⟩ := wstep_inv hN h s c
    rw [wrun]
    simp only [e]
    exact wrun_inv hN cs s1 h1

end Verif.BTree.BTreeMap

namespace Verif.Fixed.FMap
open Verif.Wild
universe w
variable {σ : Type w} {K V : Type}

/-- One operation on numbered maps. -/
inductive WCmd (σ : Type w) (K V : Type) where
  | get (i : Nat) (c : Cmp σ K)
  | getMut (i : Nat) (c : Cmp σ K) (g : V → V)
  | insert (i : Nat) (c : Cmp σ K) (k : K) (v : V)
  | remove (i : Nat) (c : Cmp σ K)
  | clear (i : Nat)
  | clone (i j : Nat)
  | extend (i : Nat) (c : K → Cmp σ K) (es : List (K × V))

/-- The numbered maps of a program. -/
abbrev Maps (K V : Type) := Nat → FMap K V

/-- `upd st i m`: map `i` becomes `m`. -/
def upd (st : Maps K V) (i : Nat) (m : FMap K V) : Maps K V := fun j => if j = i then m else st j

/-- One operation, its panic (if any) caught. -/
def wstep (lin : Bool) (st : Maps K V) (s : σ) : WCmd σ K V → Option (Maps K V × σ)
  | .get i c => ((st i).getW lin c s).map (fun r => (st, r.2))
  | .getMut i c g =>
    match (st i).getMutW lin c g s with
    | none => none
    | some (.unwound m, s) => some (upd st i m, s)
    | some (.done (m, _), s) => some (upd st i m, s)
  | .insert i c k v =>
    match (st i).insertW lin c k v s with
    | none => none
    | some (.unwound m, s) => some (upd st i m, s)
    | some (.done (m, _), s) => some (upd st i m, s)
  | .remove i c =>
    match (st i).removeW lin c s with
    | none => none
    | some (.unwound m, s) => some (upd st i m, s)
    | some (.done (m, _), s) => some (upd st i m, s)
  | .clear i => some (upd st i (st i).clear, s)
  | .clone i j => some (upd st j (st i), s)
  | .extend i c es =>
    match (st i).extendW lin c es s with
    | none => none
    | some (.unwound m, s) => some (upd st i m, s)
    | some (.done m, s) => some (upd st i m, s)

/-- A program. -/
def wrun (lin : Bool) : Maps K V → σ → List (WCmd σ K V) → Option (Maps K V × σ)
  | st, s, [] => some (st, s)
  | st, s, c :: cs =>
    match wstep lin st s c with
    | none => none
    | some (st, s) => wrun lin st s cs

theorem upd_all {P : FMap K V → Prop} {st : Maps K V} (h : ∀ i, P (st i)) (i : Nat)
    {m : FMap K V} (hm : P m) : ∀ j, P (upd st i m j) := by
  intro j
  rw [upd]
  split
  · exact hm
  · exact h j

theorem wstep_inv (lin : Bool) {st : Maps K V} (h : ∀ i, (st i).Inv) (s : σ)
    (cmd : WCmd σ K V) : ∃ st' s', wstep lin st s cmd = some (st', s') ∧ ∀ i, (st' i).Inv := by
  cases cmd with
  | get i c =>
    obtain ⟨r, s', e, -⟩ := getW_spec lin c (h i) s
    simp only [wstep, e]
    exact ⟨_, _, rfl, h⟩
  | getMut i c g =>
    obtain ⟨r, s', e, hr⟩ := getMutW_spec lin c (h i) g s
    simp only [wstep, e]
    rcases r with m | ⟨m, o⟩
    · exact ⟨_, _, rfl, upd_all h i (hr.1 ▸ h i)⟩
    · exact ⟨_, _, rfl, upd_all h i hr.1⟩
  | insert i c k v =>
    obtain ⟨r, s', e, hr⟩ := insertW_spec lin c (h i) k v s
    simp only [wstep, e]
    rcases r with m | ⟨m, o⟩
    · exact ⟨_, _, rfl, upd_all h i (hr.1 ▸ h i)⟩
    · exact ⟨_, _, rfl, upd_all h i hr.1⟩
  | remove i c =>
    obtain ⟨r, s', e, hr⟩ := removeW_spec lin c (h i) s
    simp only [wstep, e]
    rcases r with m | ⟨m, o⟩
    · exact ⟨_, _, rfl, upd_all h i (hr.1 ▸ h i)⟩
    · exact ⟨_, _, rfl, upd_all h i hr.1⟩
  | clear i => exact ⟨_, _, rfl, upd_all h i inv_new⟩
  | clone i j => exact ⟨_, _, rfl, upd_all h j (h i)⟩
  | extend i c es =>
    obtain ⟨r, s', e, hr⟩ := extendW_spec lin (h i) c es s
    simp only [wstep, e]
    rcases r with m | m
    · exact ⟨_, _, rfl, upd_all h i hr.1⟩
    · exact ⟨_, _, rfl, upd_all h i hr.1⟩

theorem wrun_inv (lin : Bool) : ∀ (cs : List (WCmd σ K V)) {st : Maps K V} (s : σ),
    (∀ i, (st i).Inv) → ∃ st' s', wrun lin st s cs = some (st', s') ∧ ∀ i, (st' i).Inv
  | [], st, s, h => ⟨_, _, rfl, h⟩
  | c :: cs, st, s, h => by
    obtain ⟨st1, s1, e, h1⟩ := wstep_inv lin h s c
    rw [wrun]
    simp only [e]
    exact wrun_inv lin cs s1 h1

end Verif.Fixed.FMap
