import Verif.Props.AvlMap
import Verif.Props.BTreeMap
import Verif.Avl.SetSpec
import Verif.BTree.Set
/-!
# Concrete sets used by the non-vacuity examples
-/
namespace Verif.Demo
open Std

/-- Elements 1 to 5, 2 inserted twice. -/
def sa5 : Avl.AvlSet CKey :=
  (Avl.AvlSet.fromIter [⟨3, 0⟩, ⟨1, 0⟩, ⟨5, 0⟩, ⟨2, 0⟩, ⟨4, 0⟩, ⟨2, 1⟩]).getD .new
theorem sa5_reachable : Avl.SetReachable sa5 :=
  .extend .new (show Avl.AvlSet.extend .new [⟨3, 0⟩, ⟨1, 0⟩, ⟨5, 0⟩, ⟨2, 0⟩, ⟨4, 0⟩, ⟨2, 1⟩] = some sa5
    by decide +kernel)

/-- Partly equal to elements of `sa5`. -/
def sa7 : Avl.AvlSet CKey := (Avl.AvlSet.fromIter [⟨2, 7⟩, ⟨6, 7⟩, ⟨4, 7⟩]).getD .new
theorem sa7_reachable : Avl.SetReachable sa7 :=
  .extend .new (show Avl.AvlSet.extend .new [⟨2, 7⟩, ⟨6, 7⟩, ⟨4, 7⟩] = some sa7 by decide +kernel)

/-- A subset of `sa5`. -/
def sa3 : Avl.AvlSet CKey := (Avl.AvlSet.fromIter [⟨2, 7⟩, ⟨3, 7⟩, ⟨5, 7⟩]).getD .new
theorem sa3_reachable : Avl.SetReachable sa3 :=
  .extend .new (show Avl.AvlSet.extend .new [⟨2, 7⟩, ⟨3, 7⟩, ⟨5, 7⟩] = some sa3 by decide +kernel)

/-- Elements 1 to 11, 2 inserted twice. -/
def sb : BTree.BTreeSet CKey := (BTree.BTreeSet.fromIter 1 (bents.map (·.1))).getD .new
theorem sb_reachable : BTree.SetReachable 1 sb :=
  .extend .new (show BTree.BTreeSet.extend 1 .new (bents.map (·.1)) = some sb
    from getD_of_isSome _ (by decide +kernel))

/-- Partly equal to elements of `sb`. -/
def sb7 : BTree.BTreeSet CKey := (BTree.BTreeSet.fromIter 1 [⟨2, 7⟩, ⟨12, 7⟩, ⟨4, 7⟩]).getD .new
theorem sb7_reachable : BTree.SetReachable 1 sb7 :=
  .extend .new (show BTree.BTreeSet.extend 1 .new [⟨2, 7⟩, ⟨12, 7⟩, ⟨4, 7⟩] = some sb7
    from getD_of_isSome _ (by decide +kernel))

/-- A subset of `sb`. -/
def sb3 : BTree.BTreeSet CKey := (BTree.BTreeSet.fromIter 1 [⟨2, 0⟩, ⟨3, 0⟩, ⟨4, 0⟩]).getD .new
theorem sb3_reachable : BTree.SetReachable 1 sb3 :=
  .extend .new (show BTree.BTreeSet.extend 1 .new [⟨2, 0⟩, ⟨3, 0⟩, ⟨4, 0⟩] = some sb3
    from getD_of_isSome _ (by decide +kernel))

/-- Much smaller than `sb`. -/
def sb1 : BTree.BTreeSet CKey := (BTree.BTreeSet.fromIter 1 [⟨12, 3⟩, ⟨2, 3⟩]).getD .new
theorem sb1_reachable : BTree.SetReachable 1 sb1 :=
  .extend .new (show BTree.BTreeSet.extend 1 .new [⟨12, 3⟩, ⟨2, 3⟩] = some sb1
    from getD_of_isSome _ (by decide +kernel))

end Verif.Demo
