import Verif.Avl.Serde
import Verif.Avl.Mut
/-!
# Reachable `AvlMap`s

`Reachable m`: `m` can be produced by some finite history of public operations.  Binary
operations take any two reachable maps (in particular clones of each other), so histories
over any number of maps and clones are covered.  `retain` is included whenever its closure
does not panic (for the other case see C15).
-/
namespace Verif.Avl
open Std
variable {K V : Type}

inductive Reachable [Ord K] : AvlMap K V → Prop
  | new : Reachable AvlMap.new
  | clear {m} : Reachable m → Reachable m.clear
  | insert {m m' k v o} : Reachable m → m.insert k v = some (m', o) → Reachable m'
  | removeEntry {m m' p o} : Reachable m → IsProbe p → m.removeEntry p = some (m', o) →
      Reachable m'
  | remove {m m' p o} : Reachable m → IsProbe p → m.remove p = some (m', o) → Reachable m'
  | popFirst {m m' o} : Reachable m → m.popFirst = some (m', o) → Reachable m'
  | popLast {m m' o} : Reachable m → m.popLast = some (m', o) → Reachable m'
  | getMut {m p g} : Reachable m → IsProbe p → Reachable (m.getMut p g).1
  | appendL {a b a' b'} : Reachable a → Reachable b → a.append b = some (a', b') → Reachable a'
  | appendR {a b a' b'} : Reachable a → Reachable b → a.append b = some (a', b') → Reachable b'
  | union {a b m} : Reachable a → Reachable b → AvlMap.newUnion a b = some m → Reachable m
  | intersect {a b m} : Reachable a → Reachable b → AvlMap.newIntersect a b = some m → Reachable m
  | diff {a b m} : Reachable a → Reachable b → AvlMap.newDiff a b = some m → Reachable m
  | symDiff {a b m} : Reachable a → Reachable b → AvlMap.newSymDiff a b = some m → Reachable m
  /-- `new_join` as checked by its debug assertions -/
  | joinChecked {a b k v m} : Reachable a → Reachable b →
      AvlMap.newJoin true a k v b = some m → Reachable m
  /-- `new_join` in release mode, used as documented -/
  | joinUnchecked {a b k v m} : Reachable a → Reachable b →
      (∀ e ∈ a.abs, compare e.1 k = .lt) → (∀ e ∈ b.abs, compare k e.1 = .lt) →
      AvlMap.newJoin false a k v b = some m → Reachable m
  | splitL {m p a b} : Reachable m → IsProbe p → m.splitOff p = some (a, b) → Reachable a
  | splitR {m p a b} : Reachable m → IsProbe p → m.splitOff p = some (a, b) → Reachable b
  | retain {m m' : AvlMap K V} {σ : Type} {f : σ → K → V → σ × V × Bool} {s s'} : Reachable m →
      m.retain (fun s k v => some (f s k v)) s = .done s' m' → Reachable m'
  | forEachMut {m : AvlMap K V} {σ : Type} {f : σ → K → V → σ × V} {s : σ} :
      Reachable m → Reachable (m.forEachMut f s).2
  | extend {m m' es} : Reachable m → m.extend es = some m' → Reachable m'
  | iterMut {m m' ds w ys sl} : Reachable m → m.iterMutRun ds w = some (ys, sl, m') → Reachable m'
  | rangeMut {m m' lb ub ds w ys sl} : Reachable m → m.rangeMutRun lb ub ds w = some (ys, sl, m') →
      Reachable m'
  | deserialize {debug u hint es err m} : (∀ n, hint = some n → n < u) →
      deserialize debug u hint es err = some (.ok m) → Reachable m

variable [Ord K] [TransOrd K]

/-- Every reachable map satisfies the representation invariant. -/
theorem Reachable.wf {m : AvlMap K V} (h : Reachable m) : m.WF := by
  induction h with
  | new => exact AvlMap.wf_new
  | clear => exact AvlMap.wf_new
  | insert _ e ih =>
    obtain ⟨m1, e1, w, _⟩ := AvlMap.insert_spec ih _ _
    rw [e1] at e; simp only [Option.some.injEq, Prod.mk.injEq] at e; exact e.1 ▸ w
  | removeEntry _ hp e ih =>
    obtain ⟨m1, e1, w, _⟩ := AvlMap.removeEntry_spec ih hp
    rw [e1] at e; simp only [Option.some.injEq, Prod.mk.injEq] at e; exact e.1 ▸ w
  | remove _ hp e ih =>
    obtain ⟨m1, e1, w, _⟩ := AvlMap.removeEntry_spec ih hp
    simp only [AvlMap.remove, e1, Option.map_some, Option.some.injEq, Prod.mk.injEq] at e
    exact e.1 ▸ w
  | popFirst _ e ih =>
    obtain ⟨m1, e1, w, _⟩ := AvlMap.popFirst_spec ih
    rw [e1] at e; simp only [Option.some.injEq, Prod.mk.injEq] at e; exact e.1 ▸ w
  | popLast _ e ih =>
    obtain ⟨m1, e1, w, _⟩ := AvlMap.popLast_spec ih
    rw [e1] at e; simp only [Option.some.injEq, Prod.mk.injEq] at e; exact e.1 ▸ w
  | getMut _ hp ih => exact (AvlMap.getMut_spec ih hp _).1
  | appendL _ _ e iha ihb =>
    obtain ⟨m1, e1, w, _⟩ := AvlMap.append_spec iha ihb
    rw [e1] at e; simp only [Option.some.injEq, Prod.mk.injEq] at e; exact e.1 ▸ w
  | appendR _ _ e iha ihb =>
    obtain ⟨m1, e1, w, _⟩ := AvlMap.append_spec iha ihb
    rw [e1] at e; simp only [Option.some.injEq, Prod.mk.injEq] at e; exact e.2 ▸ AvlMap.wf_new
  | union _ _ e iha ihb =>
    obtain ⟨m1, e1, w, _⟩ := AvlMap.newUnion_spec iha ihb
    rw [e1] at e; simp only [Option.some.injEq] at e; exact e ▸ w
  | intersect _ _ e iha ihb =>
    obtain ⟨m1, e1, w, _⟩ := AvlMap.newIntersect_spec iha ihb
    rw [e1] at e; simp only [Option.some.injEq] at e; exact e ▸ w
  | diff _ _ e iha ihb =>
    obtain ⟨m1, e1, w, _⟩ := AvlMap.newDiff_spec iha ihb
    rw [e1] at e; simp only [Option.some.injEq] at e; exact e ▸ w
  | symDiff _ _ e iha ihb =>
    obtain ⟨m1, e1, w, _⟩ := AvlMap.newSymDiff_spec iha ihb
    rw [e1] at e; simp only [Option.some.injEq] at e; exact e ▸ w
  | joinChecked _ _ e iha ihb =>
    obtain ⟨h1, h2⟩ := AvlMap.newJoin_checked iha ihb e
    obtain ⟨m1, e1, w, _⟩ := AvlMap.newJoin_spec true iha ihb h1 h2
    rw [e1] at e; simp only [Option.some.injEq] at e; exact e ▸ w
  | joinUnchecked _ _ h1 h2 e iha ihb =>
    obtain ⟨m1, e1, w, _⟩ := AvlMap.newJoin_spec false iha ihb h1 h2
    rw [e1] at e; simp only [Option.some.injEq] at e; exact e ▸ w
  | splitL _ hp e ih =>
    obtain ⟨a1, b1, e1, w1, w2, _⟩ := AvlMap.splitOff_spec ih hp
    rw [e1] at e; simp only [Option.some.injEq, Prod.mk.injEq] at e; exact e.1 ▸ w1
  | splitR _ hp e ih =>
    obtain ⟨a1, b1, e1, w1, w2, _⟩ := AvlMap.splitOff_spec ih hp
    rw [e1] at e; simp only [Option.some.injEq, Prod.mk.injEq] at e; exact e.2 ▸ w2
  | @retain m m' σ f s s' _ e ih =>
    obtain ⟨s1, m1, e1, w, _⟩ := AvlMap.retain_spec ih f s
    rw [e1] at e; simp only [AvlMap.RetainEnd.done.injEq] at e; exact e.2 ▸ w
  | forEachMut _ ih => exact (AvlMap.forEachMut_spec ih _ _).1
  | extend _ e ih =>
    obtain ⟨m1, e1, w, _⟩ := AvlMap.extend_spec ih _
    rw [e1] at e; simp only [Option.some.injEq] at e; exact e ▸ w
  | iterMut _ e ih =>
    simp only [AvlMap.iterMutRun, Option.map_eq_some_iff] at e
    obtain ⟨ys, _, e⟩ := e
    simp only [Prod.mk.injEq] at e
    exact e.2.2 ▸ ih.store _ _
  | rangeMut _ e ih =>
    simp only [AvlMap.rangeMutRun, Option.map_eq_some_iff] at e
    obtain ⟨ys, _, e⟩ := e
    simp only [Prod.mk.injEq] at e
    exact e.2.2 ▸ ih.store _ _
  | @deserialize debug u hint es err m hh e =>
    have := Lib.MapTrait.visitMap_ok (avl_sound (K := K) (V := V)) debug hint hh es err
    cases err with
    | true => simp only [if_true] at this; rw [Verif.Avl.deserialize, this] at e; simp at e
    | false =>
      simp only [Bool.false_eq_true, if_false] at this
      obtain ⟨m1, e1, w, _⟩ := this
      rw [Verif.Avl.deserialize, e1] at e; simp only [Option.some.injEq, Except.ok.injEq] at e; exact e ▸ w

end Verif.Avl
