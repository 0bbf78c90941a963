import Verif.Wild.Seq
/-!
# When `Clone` panics

`Arc::make_mut` copies a node that is shared, calling `Clone` of its keys and values, which may
panic.  `Clone` is an arbitrary computation on a state that may panic whenever it likes.

An operation ends as in `Verif.Wild.Core`: the outer `none` is a panic of the crate's own, or
undefined behaviour; `unwound m` means that `Clone` panicked, leaving `m` behind the `&mut`;
`done r` that it returned.

The locals of a function that is unwound are dropped: what was moved out of its place and not yet
put back is gone.

Simplifications: comparisons do not panic (`Verif.Wild` has those); `Drop` does not panic.
-/
set_option linter.unusedVariables false
namespace Verif.Unwind
open Verif.Wild Std
universe w
variable {σ : Type w} {K V M W : Type}

/-- Cloning of the entries of a node: `true` is a panic.  `σ` is all that `Clone` depends on. -/
abbrev Cl (σ : Type w) (K V : Type) := List (K × V) → σ → Bool × σ

/-- `Arc::make_mut` clones the contents of a node if it is shared. -/
def cloneIf (c : Cl σ K V) (sh : Bool) (es : List (K × V)) (s : σ) : Bool × σ :=
  if sh then c es s else (false, s)

/-- `Clone` panics at some time. -/
def Bad (c : Cl σ K V) : Prop := ∃ es s, (c es s).1 = true

theorem bad_of_eq {c : Cl σ K V} {es : List (K × V)} {s s' : σ} (h : c es s = (true, s')) : Bad c :=
  ⟨es, s, by rw [h]⟩

theorem bad_of_cloneIf {c : Cl σ K V} {sh : Bool} {es : List (K × V)} {s s' : σ}
    (h : cloneIf c sh es s = (true, s')) : Bad c := by
  cases sh with
  | false => cases h
  | true => exact bad_of_eq h

/-! ### Programs -/

/-- The operations of a map `M` whose removals are named by `W`. -/
structure Kit (σ : Type w) (K V M W : Type) where
  new : M
  /-- `Clone::clone` of the map: what it makes of the map and of the clone. -/
  share : M → M
  insert : Cl σ K V → K → V → M → σ → Option (Ends M (M × Option V) × σ)
  getMut : Cl σ K V → (K → Ordering) → (V → V) → M → σ → Option (Ends M (M × Bool) × σ)
  take : Cl σ K V → W → M → σ → Option (Ends M (M × Option (K × V)) × σ)

namespace Kit

/-- `extend`: a loop of insertions. -/
def extend (k : Kit σ K V M W) (c : Cl σ K V) (m : M) (es : List (K × V)) (s : σ) :
    Option (Ends M M × σ) :=
  extendW (fun m a b s => k.insert c a b m s) m es s

/-- One call; each may be given a `Clone` of its own. -/
inductive Cmd (σ : Type w) (K V W : Type) where
  | insert (i : Nat) (c : Cl σ K V) (k : K) (v : V)
  | getMut (i : Nat) (c : Cl σ K V) (p : K → Ordering) (g : V → V)
  | extend (i : Nat) (c : Cl σ K V) (es : List (K × V))
  | take (i : Nat) (c : Cl σ K V) (w : W)
  /-- `maps[j] = maps[i].clone()` -/
  | clone (i j : Nat)
  | clear (i : Nat)

/-- The maps of a program. -/
abbrev Maps (M : Type) := Nat → M

def upd (st : Maps M) (i : Nat) (m : M) : Maps M := fun j => if j = i then m else st j

/-- What an operation leaves in its variable; a panic of `Clone` is caught. -/
def after (st : Maps M) (i : Nat) : Option (Ends M M × σ) → Option (Maps M × σ)
  | none => none
  | some (.unwound m, s) => some (upd st i m, s)
  | some (.done m, s) => some (upd st i m, s)

/-- Drops the result of an operation. -/
def res {R : Type} : Option (Ends M (M × R) × σ) → Option (Ends M M × σ)
  | none => none
  | some (.unwound m, s) => some (.unwound m, s)
  | some (.done x, s) => some (.done x.1, s)

/-- One call, every panic of `Clone` being caught; `none` is a panic of the crate's own. -/
def step (k : Kit σ K V M W) (st : Maps M) (s : σ) : Cmd σ K V W → Option (Maps M × σ)
  | .insert i c a b => after st i (res (k.insert c a b (st i) s))
  | .getMut i c p g => after st i (res (k.getMut c p g (st i) s))
  | .extend i c es => after st i (k.extend c (st i) es s)
  | .take i c w => after st i (res (k.take c w (st i) s))
  | .clone i j => some (upd (upd st i (k.share (st i))) j (k.share (st i)), s)
  | .clear i => some (upd st i k.new, s)

def run (k : Kit σ K V M W) : Maps M → σ → List (Cmd σ K V W) → Option (Maps M × σ)
  | st, s, [] => some (st, s)
  | st, s, cmd :: cs =>
    match k.step st s cmd with
    | none => none
    | some (st, s) => k.run st s cs

/-- Probes are lawful, and `Clone` does not panic during a removal. -/
def Cmd.Fair (okW : W → Prop) [Ord K] : Cmd σ K V W → Prop
  | .getMut _ _ p _ => IsProbe p
  | .take _ c w => okW w ∧ ¬ Bad c
  | _ => True

/-- An operation ends, leaving a good map. -/
def Ends' {R : Type} (Good : M → Prop) (x : Option (Ends M (M × R) × σ)) : Prop :=
  ∃ q s', x = some (q, s') ∧ match q with
    | .unwound m => Good m
    | .done y => Good y.1

/-- The operations keep `Good`. -/
structure Keeps [Ord K] (k : Kit σ K V M W) (okW : W → Prop) (Good : M → Prop) : Prop where
  new : Good k.new
  share : ∀ {m}, Good m → Good (k.share m)
  insert : ∀ c a b {m} s, Good m → Ends' Good (k.insert c a b m s)
  getMut : ∀ c {p} g {m} s, IsProbe p → Good m → Ends' Good (k.getMut c p g m s)
  take : ∀ {c w m} s, ¬ Bad c → okW w → Good m → Ends' Good (k.take c w m s)

variable [Ord K] {k : Kit σ K V M W} {okW : W → Prop} {Good : M → Prop}

theorem upd_good {st : Maps M} (h : ∀ i, Good (st i)) (i : Nat) {m : M} (hm : Good m) :
    ∀ j, Good (upd st i m j) := by
  intro j
  simp only [upd]
  split
  · exact hm
  · exact h j

theorem after_good {R : Type} {st : Maps M} (h : ∀ i, Good (st i)) (i : Nat)
    {x : Option (Ends M (M × R) × σ)} (hx : Ends' Good x) :
    ∃ st' s', after st i (res x) = some (st', s') ∧ ∀ i, Good (st' i) := by
  obtain ⟨q, s', rfl, hq⟩ := hx
  rcases q with m | y
  · exact ⟨_, _, rfl, upd_good h i hq⟩
  · exact ⟨_, _, rfl, upd_good h i hq⟩

theorem extend_good (hk : k.Keeps okW Good) (c : Cl σ K V) : ∀ (es : List (K × V)) (m : M) (s : σ),
    Good m → ∃ q s', k.extend c m es s = some (q, s') ∧ match q with
      | .unwound m => Good m
      | .done m => Good m
  | [], m, s, hm => ⟨_, _, rfl, hm⟩
  | (a, b) :: es, m, s, hm => by
    obtain ⟨q, s', e, hq⟩ := hk.insert c a b s hm
    simp only [extend, extendW, e]
    rcases q with m | y
    · exact ⟨_, _, rfl, hq⟩
    · exact extend_good hk c es y.1 s' hq

/-- A panic during `extend` leaves what the entries before it make.  `α` forgets which nodes are
shared, `plain` is `extend` when nothing panics. -/
theorem extend_prefix {P : Type} {α : M → P} {plain : P → List (K × V) → Option P} {c : Cl σ K V}
    (h0 : ∀ m, plain m [] = some m)
    (hins : ∀ a b m s, Good m → ∃ q s', k.insert c a b m s = some (q, s') ∧ match q with
      | .unwound m' => α m' = α m ∧ Bad c
      | .done y => Good y.1 ∧ ∀ es, plain (α m) ((a, b) :: es) = plain (α y.1) es) :
    ∀ (es : List (K × V)) (m : M) (s : σ), Good m →
      ∃ q s', k.extend c m es s = some (q, s') ∧ match q with
        | .unwound m' => (∃ l1 e l2, es = l1 ++ e :: l2 ∧ plain (α m) l1 = some (α m')) ∧ Bad c
        | .done m' => plain (α m) es = some (α m')
  | [], m, s, hm => ⟨_, _, rfl, h0 _⟩
  | (a, b) :: es, m, s, hm => by
    obtain ⟨q, s', e, hq⟩ := hins a b m s hm
    simp only [extend, extendW, e]
    rcases q with m' | y
    · exact ⟨_, _, rfl, ⟨[], (a, b), es, rfl, by rw [h0, hq.1]⟩, hq.2⟩
    · obtain ⟨q, s2, e2, h2⟩ := extend_prefix h0 hins es y.1 s' hq.1
      refine ⟨q, s2, e2, ?_⟩
      rcases q with m' | m'
      · obtain ⟨⟨l1, x, l2, rfl, h3⟩, hb⟩ := h2
        exact ⟨⟨(a, b) :: l1, x, l2, rfl, by rw [hq.2, h3]⟩, hb⟩
      · dsimp only at h2 ⊢
        rw [hq.2, h2]

/-- A program of fair calls never panics by itself and holds good maps only. -/
theorem run_good (hk : k.Keeps okW Good) : ∀ (cs : List (Cmd σ K V W)) (st : Maps M) (s : σ),
    (∀ cmd ∈ cs, cmd.Fair okW) → (∀ i, Good (st i)) →
    ∃ st' s', k.run st s cs = some (st', s') ∧ ∀ i, Good (st' i)
  | [], st, s, _, h => ⟨_, _, rfl, h⟩
  | cmd :: cs, st, s, hf, h => by
    have h1 : ∃ st' s', k.step st s cmd = some (st', s') ∧ ∀ i, Good (st' i) := by
      have hf := hf cmd (by simp)
      cases cmd with
      | insert i c a b => exact after_good h i (hk.insert c a b s (h i))
      | getMut i c p g => exact after_good h i (hk.getMut c g s hf (h i))
      | extend i c es =>
        obtain ⟨q, s', e, hq⟩ := extend_good hk c es (st i) s (h i)
        simp only [step, e]
        rcases q with m | m
        · exact ⟨_, _, rfl, upd_good h i hq⟩
        · exact ⟨_, _, rfl, upd_good h i hq⟩
      | take i c w => exact after_good h i (hk.take s hf.2 hf.1 (h i))
      | clone i j =>
        exact ⟨_, _, rfl, upd_good (upd_good h i (hk.share (h i))) j (hk.share (h i))⟩
      | clear i => exact ⟨_, _, rfl, upd_good h i hk.new⟩
    obtain ⟨st1, s1, e, h1⟩ := h1
    obtain ⟨st2, s2, e2, h2⟩ := run_good hk cs st1 s1 (fun c hc => hf c (by simp [hc])) h1
    exact ⟨st2, s2, by rw [run, e]; exact e2, h2⟩

end Kit

/-- Removal from an ordered map. -/
inductive Which (K : Type) where
  | key (p : K → Ordering)
  | first
  | last

/-- The search key is compared lawfully. -/
def Which.Ok [Ord K] : Which K → Prop
  | .key p => IsProbe p
  | _ => True

end Verif.Unwind
