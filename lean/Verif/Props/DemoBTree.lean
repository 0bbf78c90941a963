import Verif.Props.Demo
import Verif.BTree.Reach
/-!
# Concrete B-trees used by the non-vacuity examples
-/
namespace Verif.Demo
open Std Verif.BTree

theorem getD_of_isSome {α : Type} {o : Option α} (d : α) (h : o.isSome = true) :
    o = some (o.getD d) := by
  cases o with
  | none => simp at h
  | some a => rfl

/-- Twelve insertions, not in order, with a repeated key. -/
def bents : List (CKey × Nat) :=
  [(⟨3, 0⟩, 30), (⟨1, 0⟩, 10), (⟨5, 0⟩, 50), (⟨2, 0⟩, 20), (⟨4, 0⟩, 40), (⟨2, 1⟩, 21),
   (⟨9, 0⟩, 90), (⟨8, 0⟩, 80), (⟨7, 0⟩, 70), (⟨6, 0⟩, 60), (⟨11, 0⟩, 110), (⟨10, 0⟩, 100)]

/-- An eleven-entry map with `N = 1`, of several levels. -/
def bt : BTreeMap CKey Nat := (BTreeMap.fromIter 1 bents).getD BTreeMap.new

theorem bt_eq : BTreeMap.fromIter 1 bents = some bt :=
  getD_of_isSome _ (by decide +kernel)

theorem bt_reachable : Reachable 1 bt := Reachable.extend Reachable.new bt_eq

theorem bt_abs : bt.abs =
    [(⟨1, 0⟩, 10), (⟨2, 1⟩, 21), (⟨3, 0⟩, 30), (⟨4, 0⟩, 40), (⟨5, 0⟩, 50), (⟨6, 0⟩, 60),
     (⟨7, 0⟩, 70), (⟨8, 0⟩, 80), (⟨9, 0⟩, 90), (⟨10, 0⟩, 100), (⟨11, 0⟩, 110)] := by
  decide +kernel

/-- A second map, sharing some keys (up to equality) with `bt`. -/
def bt3 : BTreeMap CKey Nat :=
  (BTreeMap.fromIter 1 [(⟨2, 7⟩, 200), (⟨12, 7⟩, 600), (⟨4, 7⟩, 400)]).getD BTreeMap.new

theorem bt3_reachable : Reachable 1 bt3 :=
  Reachable.extend Reachable.new
    (show BTreeMap.new.extend 1 [(⟨2, 7⟩, 200), (⟨12, 7⟩, 600), (⟨4, 7⟩, 400)] = some bt3
      from getD_of_isSome _ (by decide +kernel))

theorem bt3_abs : bt3.abs = [(⟨2, 7⟩, 200), (⟨4, 7⟩, 400), (⟨12, 7⟩, 600)] := by decide +kernel

/-- The same contents as `bt`, in a tree of another shape (inserted in ascending order). -/
def bt' : BTreeMap CKey Nat := (BTreeMap.fromIter 1 bt.abs).getD BTreeMap.new

theorem bt'_reachable : Reachable 1 bt' :=
  Reachable.extend Reachable.new (show BTreeMap.new.extend 1 bt.abs = some bt'
    from getD_of_isSome _ (by decide +kernel))

end Verif.Demo
