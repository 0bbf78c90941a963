import Verif.Unwind.Core
/-!
# When `Drop` of a key or value panics

The maps destroy keys and values in four places: `insert` that finds its key destroys the old key,
`remove` destroys the key of the entry, `extend` destroys the values that its insertions replace,
and `clear` destroys everything that is not shared.  `Drop` is an arbitrary computation on a state
that may panic whenever it likes.

An operation ends as in `Verif.Wild.Core`: the outer `none` is a panic of the crate's own;
`unwound m` means that `Drop` panicked, leaving `m` behind the `&mut`; `done r` that it returned.

An assignment `*p = x` destroys what `*p` held and puts `x` there, also if the destructor panics.

Simplifications: comparisons and `Clone` do not panic (`Verif.Wild` and `Verif.Unwind` have those);
whether some destructor panics during `clear` is an argument, as the map does not depend on which
one; a second panic while unwinding aborts the process and leaves nothing to reason about.
-/
set_option linter.unusedVariables false
namespace Verif.Drop
open Verif.Wild Verif.Unwind Std
universe w
variable {σ : Type w} {K V M W : Type}

/-- `Drop::drop`: `true` is a panic.  `σ` is all that `Drop` depends on. -/
abbrev Dr (σ : Type w) (α : Type) := α → σ → Bool × σ

/-- `Drop` panics at some time. -/
def Rude {α : Type} (d : Dr σ α) : Prop := ∃ a s, (d a s).1 = true

theorem rude_of_eq {α : Type} {d : Dr σ α} {a : α} {s s' : σ} (h : d a s = (true, s')) : Rude d :=
  ⟨a, s, by rw [h]⟩

/-- Destroys what there is. -/
def dropOpt {α : Type} (d : Dr σ α) : Option α → σ → Bool × σ
  | none, s => (false, s)
  | some a, s => d a s

theorem rude_of_dropOpt {α : Type} {d : Dr σ α} {o : Option α} {s s' : σ}
    (h : dropOpt d o s = (true, s')) : Rude d := by
  cases o with
  | none => cases h
  | some a => exact rude_of_eq h

/-- The operations of a map `M` whose removals are named by `W`. -/
structure Kit (σ : Type w) (K V M W : Type) where
  new : M
  insert : Dr σ K → K → V → M → σ → Option (Ends M (M × Option V) × σ)
  getMut : (K → Ordering) → (V → V) → M → Option (M × Bool)
  /-- A removal, up to the point where it has the entry. -/
  take : W → M → Option (M × Option (K × V))
  /-- `clear`; the argument: the destructor of some key or value panics. -/
  clear : Bool → M → Ends M M

namespace Kit

/-- `remove`, and the removals that return the entry to a program that destroys its key:
`.map(|e| e.1)` (avl.rs:1717, btree.rs:899, fixed.rs:133). -/
def remove (k : Kit σ K V M W) (d : Dr σ K) (w : W) (m : M) (s : σ) :
    Option (Ends M (M × Option V) × σ) :=
  match k.take w m with
  | none => none
  | some (m', o) =>
    match dropOpt d (o.map (·.1)) s with
    | (true, s) => some (.unwound m', s)
    | (false, s) => some (.done (m', o.map (·.2)), s)

/-- `extend` (avl.rs:2284-2290, btree.rs:977-987, fixed.rs:157-167): a loop of insertions, each of
which destroys the value that it replaced. -/
def extend (k : Kit σ K V M W) (d : Dr σ K) (dv : Dr σ V) (m : M) (es : List (K × V)) (s : σ) :
    Option (Ends M M × σ) :=
  extendW (fun m a b s =>
    match k.insert d a b m s with
    | none => none
    | some (.unwound m, s) => some (.unwound m, s)
    | some (.done (m, o), s) =>
      match dropOpt dv o s with
      | (true, s) => some (.unwound m, s)
      | (false, s) => some (.done (m, none), s)) m es s

/-- One call; each may be given a `Drop` of its own. -/
inductive Cmd (σ : Type w) (K V W : Type) where
  | insert (i : Nat) (d : Dr σ K) (k : K) (v : V)
  | getMut (i : Nat) (p : K → Ordering) (g : V → V)
  | extend (i : Nat) (d : Dr σ K) (dv : Dr σ V) (es : List (K × V))
  | remove (i : Nat) (d : Dr σ K) (w : W)
  /-- `maps[j] = maps[i].clone()` -/
  | clone (i j : Nat)
  | clear (i : Nat) (p : Bool)

/-- One call, every panic of `Drop` being caught; `none` is a panic of the crate's own. -/
def step (k : Kit σ K V M W) (st : Unwind.Kit.Maps M) (s : σ) :
    Cmd σ K V W → Option (Unwind.Kit.Maps M × σ)
  | .insert i d a b => Unwind.Kit.after st i (Unwind.Kit.res (k.insert d a b (st i) s))
  | .getMut i p g => (k.getMut p g (st i)).map (fun r => (Unwind.Kit.upd st i r.1, s))
  | .extend i d dv es => Unwind.Kit.after st i (k.extend d dv (st i) es s)
  | .remove i d w => Unwind.Kit.after st i (Unwind.Kit.res (k.remove d w (st i) s))
  | .clone i j => some (Unwind.Kit.upd st j (st i), s)
  | .clear i p => Unwind.Kit.after st i (some (k.clear p (st i), s))

def run (k : Kit σ K V M W) : Unwind.Kit.Maps M → σ → List (Cmd σ K V W) →
    Option (Unwind.Kit.Maps M × σ)
  | st, s, [] => some (st, s)
  | st, s, cmd :: cs =>
    match k.step st s cmd with
    | none => none
    | some (st, s) => k.run st s cs

/-- Probes are lawful. -/
def Cmd.Lawful (okW : W → Prop) [Ord K] : Cmd σ K V W → Prop
  | .getMut _ p _ => IsProbe p
  | .remove _ _ w => okW w
  | _ => True

/-- No destructor panics during `clear`. -/
def Cmd.CalmClear : Cmd σ K V W → Prop
  | .clear _ p => p = false
  | _ => True

/-- The operations keep `Good`. -/
structure Keeps [Ord K] (k : Kit σ K V M W) (okW : W → Prop) (okP : Bool → Prop)
    (Good : M → Prop) : Prop where
  insert : ∀ d a b {m} s, Good m → Unwind.Kit.Ends' Good (k.insert d a b m s)
  getMut : ∀ {p} g {m}, IsProbe p → Good m → ∃ m' b, k.getMut p g m = some (m', b) ∧ Good m'
  take : ∀ {w m}, okW w → Good m → ∃ m' o, k.take w m = some (m', o) ∧ Good m'
  clear : ∀ {p m}, okP p → Good m → match k.clear p m with
    | .unwound m' => Good m'
    | .done m' => Good m'

variable [Ord K] {k : Kit σ K V M W} {okW : W → Prop} {okP : Bool → Prop} {Good : M → Prop}

theorem remove_good (hk : k.Keeps okW okP Good) (d : Dr σ K) {w : W} {m : M} (s : σ) (hw : okW w)
    (hm : Good m) : Unwind.Kit.Ends' Good (k.remove d w m s) := by
  obtain ⟨m', o, e, h⟩ := hk.take hw hm
  rcases hd : dropOpt d (o.map (·.1)) s with ⟨_ | _, s1⟩
  · exact ⟨.done (m', o.map (·.2)), s1, by simp only [remove, e, hd], h⟩
  · exact ⟨.unwound m', s1, by simp only [remove, e, hd], h⟩

theorem extend_good (hk : k.Keeps okW okP Good) (d : Dr σ K) (dv : Dr σ V) :
    ∀ (es : List (K × V)) (m : M) (s : σ), Good m →
      ∃ q s', k.extend d dv m es s = some (q, s') ∧ match q with
        | .unwound m => Good m
        | .done m => Good m
  | [], m, s, hm => ⟨_, _, rfl, hm⟩
  | (a, b) :: es, m, s, hm => by
    obtain ⟨q, s', e, hq⟩ := hk.insert d a b s hm
    simp only [extend, extendW, e]
    rcases q with m | ⟨m, o⟩
    · exact ⟨_, _, rfl, hq⟩
    · dsimp only
      rcases dropOpt dv o s' with ⟨_ | _, s2⟩
      · exact extend_good hk d dv es m s2 hq
      · exact ⟨_, _, rfl, hq⟩

/-- A program never panics by itself and holds good maps only. -/
theorem run_good (hk : k.Keeps okW okP Good) : ∀ (cs : List (Cmd σ K V W)) (st : Unwind.Kit.Maps M)
    (s : σ), (∀ cmd ∈ cs, cmd.Lawful okW) → (∀ i p, Cmd.clear i p ∈ cs → okP p) →
    (∀ i, Good (st i)) → ∃ st' s', k.run st s cs = some (st', s') ∧ ∀ i, Good (st' i)
  | [], st, s, _, _, h => ⟨_, _, rfl, h⟩
  | cmd :: cs, st, s, hf, hp, h => by
    have h1 : ∃ st' s', k.step st s cmd = some (st', s') ∧ ∀ i, Good (st' i) := by
      have hf := hf cmd (by simp)
      cases cmd with
      | insert i d a b => exact Unwind.Kit.after_good h i (hk.insert d a b s (h i))
      | getMut i p g =>
        obtain ⟨m', b, e, hm⟩ := hk.getMut g hf (h i)
        simp only [step, e, Option.map_some]
        exact ⟨_, _, rfl, Unwind.Kit.upd_good h i hm⟩
      | extend i d dv es =>
        obtain ⟨q, s', e, hq⟩ := extend_good hk d dv es (st i) s (h i)
        simp only [step, e]
        rcases q with m | m
        · exact ⟨_, _, rfl, Unwind.Kit.upd_good h i hq⟩
        · exact ⟨_, _, rfl, Unwind.Kit.upd_good h i hq⟩
      | remove i d w => exact Unwind.Kit.after_good h i (remove_good hk d s hf (h i))
      | clone i j => exact ⟨_, _, rfl, Unwind.Kit.upd_good h j (h i)⟩
      | clear i p =>
        have := hk.clear (hp i p (by simp)) (h i)
        simp only [step]
        rcases e : k.clear p (st i) with m | m <;> rw [e] at this
        · exact ⟨_, _, rfl, Unwind.Kit.upd_good h i this⟩
        · exact ⟨_, _, rfl, Unwind.Kit.upd_good h i this⟩
    obtain ⟨st1, s1, e, h1⟩ := h1
    obtain ⟨st2, s2, e2, h2⟩ := run_good hk cs st1 s1 (fun c hc => hf c (by simp [hc]))
      (fun i p hc => hp i p (by simp [hc])) h1
    exact ⟨st2, s2, by rw [run, e]; exact e2, h2⟩

end Kit
end Verif.Drop
