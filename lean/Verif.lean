import Verif.Spec.Basic
import Verif.Spec.Lemmas
import Verif.Avl.Model
import Verif.Avl.Shape
import Verif.Avl.ShapeOps
import Verif.Avl.Contents
import Verif.Avl.Iter
import Verif.Avl.Misc
import Verif.Avl.Map
import Verif.Spec.Lex
import Verif.Lib.Model
import Verif.Lib.Serde
import Verif.Avl.Serde
import Verif.Avl.Mut
import Verif.Avl.Reach
import Verif.Avl.Depth
import Verif.Props.Demo
import Verif.Props.AvlMap
import Verif.BTree.Model
import Verif.BTree.Shape
import Verif.BTree.Insert
import Verif.BTree.Remove
import Verif.BTree.Iter
import Verif.BTree.NodeIter
import Verif.BTree.Map
import Verif.BTree.Range
import Verif.BTree.Mut
import Verif.BTree.Chk
import Verif.BTree.ChkIff
import Verif.BTree.Serde
import Verif.BTree.Reach
import Verif.BTree.Depth
import Verif.BTree.Skel
import Verif.Props.DemoBTree
import Verif.Props.BTreeMap
import Verif.Spec.SetMem
import Verif.Lib.SetOps
import Verif.Avl.Set
import Verif.Avl.Subset
import Verif.Avl.SetSpec
import Verif.BTree.Set
import Verif.Props.DemoSets
import Verif.Props.Sets
import Verif.Heap.Core
import Verif.Heap.Steps
import Verif.Heap.Wp
import Verif.Heap.Tac
import Verif.Heap.Machine
import Verif.Heap.Threads
import Verif.Stack.Model
import Verif.Stack.Spec
import Verif.Stack.Machine
import Verif.Stack.Panic
import Verif.Props.Stack
import Verif.Fixed.InlineVec
import Verif.Fixed.Model
import Verif.Fixed.Spec
import Verif.Fixed.Chk
import Verif.Fixed.NodeBack
import Verif.Fixed.Prov
import Verif.Fixed.ProvSpec
import Verif.Lib.Hint
import Verif.Lib.Debug
import Verif.Fixed.Iter
import Verif.Fixed.Reach
import Verif.Fixed.IterSame
import Verif.Props.Fixed
import Verif.Lib.Api
import Verif.Props.Both
import Verif.AvlHeap.Model
import Verif.AvlHeap.Spec
import Verif.AvlHeap.Ops
import Verif.AvlHeap.Access
import Verif.AvlHeap.IterModel
import Verif.AvlHeap.IterGen
import Verif.AvlHeap.IterSpec
import Verif.AvlHeap.MutSpec
import Verif.AvlHeap.Map
import Verif.AvlHeap.MapSpec
import Verif.Heap.Deep
import Verif.Heap.History
import Verif.Props.AvlHeap
import Verif.BTreeHeap.Model
import Verif.BTreeHeap.Spec
import Verif.BTreeHeap.Ops
import Verif.BTreeHeap.Remove
import Verif.BTreeHeap.Access
import Verif.BTreeHeap.IterModel
import Verif.BTreeHeap.IterGen
import Verif.BTreeHeap.IterSpec
import Verif.BTreeHeap.IntoSpec
import Verif.BTreeHeap.RangeModel
import Verif.BTreeHeap.RangeSpec
import Verif.BTreeHeap.MutTree
import Verif.BTreeHeap.MutSpec
import Verif.BTreeHeap.RangeMutSpec
import Verif.BTreeHeap.Map
import Verif.BTreeHeap.MapSpec
import Verif.Props.BTreeHeap
import Verif.FixedHeap.Slots
import Verif.FixedHeap.Model
import Verif.FixedHeap.Ops
import Verif.FixedHeap.Remove
import Verif.FixedHeap.IterModel
import Verif.FixedHeap.IterGen
import Verif.FixedHeap.IterSpec
import Verif.FixedHeap.MutSpec
import Verif.FixedHeap.Map
import Verif.FixedHeap.MapSpec
import Verif.Props.FixedHeap
import Verif.Heap.SetOps
import Verif.AvlHeap.Set
import Verif.AvlHeap.SubsetSpec
import Verif.AvlHeap.SetSpec
import Verif.Props.AvlSetHeap
import Verif.BTreeHeap.Set
import Verif.BTreeHeap.SetSpec
import Verif.Props.BTreeSetHeap
import Verif.Heap.Cost
import Verif.Heap.MachineCost
import Verif.Heap.Alone
import Verif.AvlHeap.Cost
import Verif.AvlHeap.MapCost
import Verif.Props.AvlCost
import Verif.BTreeHeap.Cost
import Verif.BTreeHeap.MapCost
import Verif.Props.BTreeCost
import Verif.Heap.SetOpsCost
import Verif.AvlHeap.SetCost
import Verif.Props.AvlSetCost
import Verif.BTreeHeap.SetCost
import Verif.Props.BTreeSetCost
import Verif.Heap.Live
import Verif.AvlHeap.Live
import Verif.AvlHeap.LiveSpec
import Verif.Props.AvlLive
import Verif.BTreeHeap.Live
import Verif.BTreeHeap.LiveSpec
import Verif.Props.BTreeLive
import Verif.FixedHeap.Cost
import Verif.FixedHeap.MapCost
import Verif.Props.FixedCost
import Verif.Props.Absent
import Verif.Wild.Core
import Verif.Wild.Focus
import Verif.Wild.Fixed
import Verif.Wild.FixedSpec
import Verif.Wild.BTree
import Verif.Wild.BTreeSpec
import Verif.Wild.Avl
import Verif.Wild.AvlSpec
import Verif.Wild.Seq
import Verif.Wild.AvlMachine
import Verif.Wild.BTreeMachine
import Verif.Props.Wild
import Verif.Wild.Honest
import Verif.Wild.HonestRun
import Verif.Props.WildHonest
import Verif.Wild.Range
import Verif.Wild.RangeSpec
import Verif.Unwind.Core
import Verif.Unwind.Avl
import Verif.Unwind.AvlSpec
import Verif.Unwind.AvlMap
import Verif.Unwind.AvlAlone
import Verif.Unwind.BTree
import Verif.Unwind.BTreeSpec
import Verif.Unwind.Fixed
import Verif.Unwind.FixedSpec
import Verif.Unwind.FixedHole
import Verif.Props.Unwind
import Verif.Drop.Raw
import Verif.Drop.RawSpec
import Verif.Drop.Core
import Verif.Drop.Avl
import Verif.Drop.BTree
import Verif.Drop.Fixed
import Verif.Drop.Facts
import Verif.Props.Drop
import Verif.Unwind.Stack
import Verif.Props.StackPanic
import Verif.Wild.Count
import Verif.Wild.SeqCount
import Verif.Wild.RangeCount
import Verif.Wild.AvlRangeCount
import Verif.Props.WildRange
import Verif.Props.Compare
import Verif.Props.StackMem
import Verif.Props.Check
import Verif.Props.NodeIter
import Verif.Props.Hint
import Verif.Props.Debug
import Verif.Unwind.Into
import Verif.Unwind.IntoSpec
import Verif.Unwind.Bulk
import Verif.Unwind.BulkSpec
import Verif.Unwind.BulkAlone
import Verif.Unwind.Own
import Verif.Unwind.OwnInto
import Verif.Unwind.Mut
import Verif.Unwind.MutSpec
import Verif.Unwind.BMut
import Verif.Unwind.BMutSpec
import Verif.Unwind.BMutOwn
import Verif.Unwind.FMut
import Verif.Unwind.FMutSpec
import Verif.Props.IntoPanic
import Verif.Props.BulkPanic
import Verif.Props.PartialCmp
import Verif.Props.Prov
import Verif.Props.Own
import Verif.Props.MutPanic
import Verif.Props.BMutPanic
import Verif.Props.FMutPanic
