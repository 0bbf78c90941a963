import Verif.Fixed.Iter
/-!
# Reachable maps of the fixed-layout B-tree

`lin` is the choice of search at core.rs:72, which depends on the size of the key type only.
-/
namespace Verif.Fixed
open Std
variable {K V : Type}

/-- `m` is the result of a finite history of the public operations of `btree::fixed::BTreeMap`. -/
inductive Reachable [Ord K] (lin : Bool) : FMap K V → Prop
  | new : Reachable lin FMap.new
  | clear {m} : Reachable lin m → Reachable lin m.clear
  | insert {m m' k v o} : Reachable lin m → m.insert lin k v = some (m', o) → Reachable lin m'
  | remove {m m' p o} : Reachable lin m → IsProbe p → m.remove lin p = some (m', o) →
      Reachable lin m'
  | getMut {m m' p g b} : Reachable lin m → IsProbe p → m.getMut lin p g = some (m', b) →
      Reachable lin m'
  | extend {m m' es} : Reachable lin m → m.extend lin es = some m' → Reachable lin m'
  | iterMut {m m' ds w ys sl} : Reachable lin m → m.iterMutRun ds w = some (ys, sl, m') →
      Reachable lin m'

variable [Ord K] [TransOrd K] {lin : Bool}

theorem Reachable.wf {m : FMap K V} (h : Reachable lin m) : m.WF := by
  induction h with
  | new => exact FMap.wf_new
  | clear => exact FMap.wf_new
  | insert _ e ih =>
    obtain ⟨m2, e2, w, -⟩ := FMap.insert_spec (lin := lin) ih _ _
    rw [e] at e2; cases e2; exact w
  | remove _ hp e ih =>
    obtain ⟨m2, e2, w, -⟩ := FMap.remove_spec (lin := lin) ih hp
    rw [e] at e2; cases e2; exact w
  | getMut _ hp e ih =>
    obtain ⟨m2, e2, w, -⟩ := FMap.getMut_spec (lin := lin) ih hp _
    rw [e] at e2; cases e2; exact w
  | extend _ e ih =>
    obtain ⟨m2, e2, w, -⟩ := FMap.extend_spec (lin := lin) ih _
    rw [e] at e2; cases e2; exact w
  | iterMut _ e ih =>
    obtain ⟨ys, m2, -, -, e2, w, -⟩ := FMap.iterMutRun_spec ih _ _
    rw [e] at e2; cases e2; exact w

end Verif.Fixed
