import Verif.Avl.Reach
/-!
# Concrete witnesses used by the non-vacuity examples
-/
namespace Verif.Demo
open Std Verif.Avl

/-- Keys that compare by `id` only: equal but distinguishable keys exist. -/
structure CKey where
  id : Nat
  tag : Nat
  deriving DecidableEq, Repr

instance : Ord CKey := ⟨fun a b => compare a.id b.id⟩

instance : TransOrd CKey where
  eq_swap {a b} := by
    show compare a.id b.id = (compare b.id a.id).swap
    exact OrientedCmp.eq_swap
  isLE_trans {a b c} h1 h2 := by
    have h1' : (compare a.id b.id).isLE = true := h1
    have h2' : (compare b.id c.id).isLE = true := h2
    show (compare a.id c.id).isLE = true
    exact TransCmp.isLE_trans h1' h2'

/-- The entries inserted to build `avl5`, not in order and with a repeated key. -/
def ents : List (CKey × Nat) :=
  [(⟨3, 0⟩, 30), (⟨1, 0⟩, 10), (⟨5, 0⟩, 50), (⟨2, 0⟩, 20), (⟨4, 0⟩, 40), (⟨2, 1⟩, 21)]

/-- A five-entry map built by insertion. -/
def avl5 : AvlMap CKey Nat := (AvlMap.fromIter ents).getD AvlMap.new

theorem avl5_eq : AvlMap.fromIter ents = some avl5 := by decide

theorem avl5_reachable : Reachable avl5 := Reachable.extend Reachable.new avl5_eq

theorem avl5_abs : avl5.abs =
    [(⟨1, 0⟩, 10), (⟨2, 1⟩, 21), (⟨3, 0⟩, 30), (⟨4, 0⟩, 40), (⟨5, 0⟩, 50)] := by decide

/-- A second map, sharing some keys (up to equality) with `avl5`. -/
def avl3 : AvlMap CKey Nat :=
  (AvlMap.fromIter [(⟨2, 7⟩, 200), (⟨6, 7⟩, 600), (⟨4, 7⟩, 400)]).getD AvlMap.new

theorem avl3_reachable : Reachable avl3 :=
  Reachable.extend Reachable.new
    (show AvlMap.new.extend [(⟨2, 7⟩, 200), (⟨6, 7⟩, 600), (⟨4, 7⟩, 400)] = some avl3 by decide)

theorem avl3_abs : avl3.abs = [(⟨2, 7⟩, 200), (⟨4, 7⟩, 400), (⟨6, 7⟩, 600)] := by decide

end Verif.Demo
