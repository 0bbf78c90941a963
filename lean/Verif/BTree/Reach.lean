import Verif.BTree.Serde
import Verif.BTree.Mut
/-!
# Reachable `BTreeMap`s

`Reachable N m`: `m` (with branching parameter `N`) can be produced by some finite history of
public operations.  Binary operations take any two reachable maps, and operations that consume
a map work for every pattern of sharing of its nodes, so histories over any number of maps and
clones are covered.
-/
namespace Verif.BTree
open Std
variable {K V : Type}

inductive Reachable [Ord K] (N : Nat) : BTreeMap K V → Prop
  | new : Reachable N BTreeMap.new
  | clear {m} : Reachable N m → Reachable N m.clear
  | insert {m m' k v o} : Reachable N m → m.insert N k v = some (m', o) → Reachable N m'
  | remove {m m' p o} : Reachable N m → IsProbe p → m.remove N p = some (m', o) → Reachable N m'
  | popFirst {m m' o} : Reachable N m → m.popFirst N = some (m', o) → Reachable N m'
  | popLast {m m' o} : Reachable N m → m.popLast N = some (m', o) → Reachable N m'
  | getMut {m p g} : Reachable N m → IsProbe p → Reachable N (m.getMut p g).1
  | appendL {a b a' b' o} : Reachable N a → Reachable N b → a.append N o b = some (a', b') →
      Reachable N a'
  | appendR {a b a' b' o} : Reachable N a → Reachable N b → a.append N o b = some (a', b') →
      Reachable N b'
  | splitL {m p a b o} : Reachable N m → IsProbe p → m.splitOff N o p = some (a, b) →
      Reachable N a
  | splitR {m p a b o} : Reachable N m → IsProbe p → m.splitOff N o p = some (a, b) →
      Reachable N b
  | retain {m m' : BTreeMap K V} {σ : Type} {f : σ → K → V → Option (σ × V × Bool)} {s s' o} :
      Reachable N m → m.retain N o f s = .done s' m' → Reachable N m'
  /-- the closure panicked and the panic was caught -/
  | retainPanic {m m' : BTreeMap K V} {σ : Type} {f : σ → K → V → Option (σ × V × Bool)} {s o} :
      Reachable N m → m.retain N o f s = .panicked m' → Reachable N m'
  | extend {m m' es} : Reachable N m → m.extend N es = some m' → Reachable N m'
  | iterMut {m m' ds w ys sl} : Reachable N m → m.iterMutRun ds w = some (ys, sl, m') →
      Reachable N m'
  | rangeMut {m m' : BTreeMap K V} {Q : Type} {instQ : Ord Q} {f : K → Q} {lb ub ds w ys sl} :
      Reachable N m → m.rangeMutRun f lb ub ds w = some (ys, sl, m') → Reachable N m'
  | deserialize {debug u hint es err m} : (∀ n, hint = some n → n < u) →
      deserialize N debug u hint es err = some (.ok m) → Reachable N m

variable [Ord K] [TransOrd K] {N : Nat}

theorem retainLoop_wf {σ : Type} {f : σ → K → V → Option (σ × V × Bool)} :
    ∀ (es : List (K × V)) (s : σ) (m : BTreeMap K V), BTreeMap.WF N m → ∀ {s' m'},
      BTreeMap.retainLoop N f es s m = some (s', m') → BTreeMap.WF N m' := by
  intro es
  induction es with
  | nil =>
    intro s m hm s' m' e
    simp only [BTreeMap.retainLoop, Option.some.injEq, Prod.mk.injEq] at e
    exact e.2 ▸ hm
  | cons x es ih =>
    intro s m hm s' m' e
    simp only [BTreeMap.retainLoop] at e
    split at e
    · simp at e
    · split at e
      · obtain ⟨m1, e1, w1, _⟩ := BTreeMap.insert_spec (N := N) hm x.1 (by assumption)
        rw [e1] at e
        exact ih _ _ w1 e
      · exact ih _ _ hm e

/-- Every reachable map satisfies the representation invariant. -/
theorem Reachable.wf (hN : 1 ≤ N) {m : BTreeMap K V} (h : Reachable N m) : m.WF N := by
  induction h with
  | new => exact BTreeMap.wf_new
  | clear => exact BTreeMap.wf_new
  | insert _ e ih =>
    obtain ⟨m1, e1, w, _⟩ := BTreeMap.insert_spec ih _ _
    rw [e1] at e; simp only [Option.some.injEq, Prod.mk.injEq] at e; exact e.1 ▸ w
  | remove _ hp e ih =>
    obtain ⟨m1, e1, w, _⟩ := BTreeMap.remove_spec hN ih hp
    rw [e1] at e; simp only [Option.some.injEq, Prod.mk.injEq] at e; exact e.1 ▸ w
  | popFirst _ e ih =>
    obtain ⟨m1, e1, w, _⟩ := BTreeMap.popFirst_spec hN ih
    rw [e1] at e; simp only [Option.some.injEq, Prod.mk.injEq] at e; exact e.1 ▸ w
  | popLast _ e ih =>
    obtain ⟨m1, e1, w, _⟩ := BTreeMap.popLast_spec hN ih
    rw [e1] at e; simp only [Option.some.injEq, Prod.mk.injEq] at e; exact e.1 ▸ w
  | getMut _ hp ih => exact (BTreeMap.getMut_spec ih hp _).1
  | appendL _ _ e iha ihb =>
    obtain ⟨m1, e1, w, _⟩ := BTreeMap.append_spec hN iha ihb _
    rw [e1] at e; simp only [Option.some.injEq, Prod.mk.injEq] at e; exact e.1 ▸ w
  | appendR _ _ e iha ihb =>
    obtain ⟨m1, e1, w, _⟩ := BTreeMap.append_spec hN iha ihb _
    rw [e1] at e; simp only [Option.some.injEq, Prod.mk.injEq] at e; exact e.2 ▸ BTreeMap.wf_new
  | splitL _ hp e ih =>
    obtain ⟨a1, b1, e1, w1, w2, _⟩ := BTreeMap.splitOff_spec hN ih _ _
    rw [e1] at e; simp only [Option.some.injEq, Prod.mk.injEq] at e; exact e.1 ▸ w1
  | splitR _ hp e ih =>
    obtain ⟨a1, b1, e1, w1, w2, _⟩ := BTreeMap.splitOff_spec hN ih _ _
    rw [e1] at e; simp only [Option.some.injEq, Prod.mk.injEq] at e; exact e.2 ▸ w2
  | @retain m m' σ f s s' o _ e ih =>
    rw [BTreeMap.retain, BTreeMap.intoList_spec hN ih] at e
    dsimp only at e
    split at e
    · simp at e
    · rename_i h1
      simp only [BTreeMap.RetainEnd.done.injEq] at e
      exact retainLoop_wf _ _ _ BTreeMap.wf_new (e.2 ▸ h1)
  | @retainPanic m m' σ f s o _ e ih =>
    rw [BTreeMap.retain, BTreeMap.intoList_spec hN ih] at e
    dsimp only at e
    split at e
    · simp only [BTreeMap.RetainEnd.panicked.injEq] at e; exact e ▸ BTreeMap.wf_new
    · simp at e
  | extend _ e ih =>
    obtain ⟨m1, e1, w, _⟩ := BTreeMap.extend_spec ih _
    rw [e1] at e; simp only [Option.some.injEq] at e; exact e ▸ w
  | iterMut _ e ih =>
    simp only [BTreeMap.iterMutRun, Option.map_eq_some_iff] at e
    obtain ⟨ys, _, e⟩ := e
    simp only [Prod.mk.injEq] at e
    exact e.2.2 ▸ ih.store _ _
  | rangeMut _ e ih =>
    unfold BTreeMap.rangeMutRun at e
    split at e
    · simp at e
    · simp only [Option.map_eq_some_iff] at e
      obtain ⟨ys, _, e⟩ := e
      simp only [Prod.mk.injEq] at e
      exact e.2.2 ▸ ih.store _ _
  | @deserialize debug u hint es err m hh e =>
    have := Lib.MapTrait.visitMap_ok (btree_sound (K := K) (V := V) hN) debug hint hh es err
    cases err with
    | true => simp only [if_true] at this; rw [Verif.BTree.deserialize, this] at e; simp at e
    | false =>
      simp only [Bool.false_eq_true, if_false] at this
      obtain ⟨m1, e1, w, _⟩ := this
      rw [Verif.BTree.deserialize, e1] at e
      simp only [Option.some.injEq, Except.ok.injEq] at e; exact e ▸ w

end Verif.BTree
