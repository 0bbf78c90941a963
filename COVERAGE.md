# Source functions and the definitions that model them

For every function outside test modules: the Lean definitions (namespace `Verif`) whose comment cites its lines.
`-` marks functions without a definition of their own, with the reason.

## src/lib.rs

| lines | function | model |
|---|---|---|
| 85-90 | `new` (SortedMergeIter<I>) | `Lib.MergeIter.new` |
| 96-110 | `next` (Iterator for SortedMergeIter<I>) | `Heap.SetOps.takeL`, `Heap.SetOps.takeR`, `Heap.SetOps.takeB`, `Heap.SetOps.pick`, `Heap.SetOps.mnext`, `Lib.MergeIter.takeL` |
| 127-129 | `new` (SetOpIter<I, P>) | - constructor; the iterator starts from the two lists (`Lib.SetOps`) |
| 139-151 | `next` (Iterator for SetOpIter<I, P>) | `Heap.SetOps.setOpNext`, `Lib.keep`, `Lib.setOpNext` |
| 166-170 | `new` (impl<'a, T $(, const $N: usize)*> $name<'a, T $(, $N)*>) | - constructor; the iterator starts from the two lists (`Lib.SetOps`) |
| 177-179 | `next` (Iterator) | - macro wrapper of `SetOpIter::next` |
| 208-210 | `check` (pub trait Map) | `Lib.MapTrait` |
| 213-215 | `check_half` (pub trait Map) | `Lib.Chk`, `Lib.MapTrait` |
| 217-220 | `contains_key_` (pub trait Map) | `Lib.MapTrait` |
| 222-226 | `get_mut_` (pub trait Map) | `Lib.MapTrait` |
| 228-235 | `insert_` (pub trait Map) | `Lib.MapTrait` |
| 237-237 | `new_` (pub trait Map) | `Lib.MapTrait` |
| 241-241 | `make_half` (pub trait Map) | `Lib.MapTrait` |
| 244-247 | `make_whole` (pub trait Map) | `Lib.MapTrait` |
| 250-250 | `stitch` (pub trait Map) | `Lib.MapTrait` |
| 260-271 | `and_modify` (Entry<'a, M>) | `AvlH.andModify`, `BTreeH.andModify`, `Lib.andModify` |
| 273-275 | `key` (Entry<'a, M>) | - returns the stored key |
| 277-287 | `or_aux` (Entry<'a, M>) | `AvlH.orInsert`, `BTreeH.orInsert`, `Lib.orInsertWithKey` |
| 289-295 | `or_default` (Entry<'a, M>) | - `or_insert_with(Default::default)`; an instance of `Lib.MapTrait.orInsertWith` |
| 297-303 | `or_insert` (Entry<'a, M>) | `Lib.orInsert` |
| 305-314 | `or_insert_with` (Entry<'a, M>) | - an instance of `or_aux`, modelled in `Lib.Model` |
| 316-329 | `or_insert_with_key` (Entry<'a, M>) | `AvlH.orInsert`, `BTreeH.orInsert`, `Lib.orInsertWithKey` |
| 336-338 | `check` (pub trait Set) | - trait declaration (debug checks) |
| 340-342 | `insert_` (pub trait Set) | - trait declaration |
| 364-366 | `expecting` (Visitor<'de> for MapVisitor<MAP>) | `Lib.visitMap` |
| 368-472 | `visit_map` (Visitor<'de> for MapVisitor<MAP>) | `Lib.leafLoop`, `Lib.combine`, `Lib.buildByHalves`, `Lib.insertLoop`, `Lib.saneChk`, `Lib.visitMap` |
| 372-429 | `build_map_by_halves` (Visitor<'de> for MapVisitor<MAP>) | `Lib.leafLoop`, `Lib.combine`, `Lib.buildByHalves`, `Lib.visitMap` |
| 487-489 | `expecting` (Visitor<'de> for SetVisitor<S>) | - error message text |
| 491-503 | `visit_seq` (Visitor<'de> for SetVisitor<S>) | - never called: the sets derive `Deserialize` |

## src/stack.rs

| lines | function | model |
|---|---|---|
| 64-73 | `next` (Iterator for Iter<'a, T>) | `Stack.iterNext` |
| 90-96 | `next` (Iterator for IterMut<'a, T>) | `Stack.iterMutLoop`, `Stack.iterMutLoopC`, `Unwind.Stk.iterMutLoop` |
| 106-108 | `next` (Iterator for IntoIter<T>) | `Stack.intoIterRun`, `Stack.intoIterRunC` |
| 120-125 | `new` (Stack<T>) | `Stack.new`, `Unwind.Stk.new` |
| 157-159 | `iter` (Stack<T>) | `Stack.iter` |
| 189-193 | `iter_mut` (Stack<T>) | `Stack.iterMut`, `Stack.iterMutC`, `Unwind.Stk.iterMut` |
| 206-212 | `push` (Stack<T>) | `Stack.push`, `Unwind.Stk.push` |
| 227-229 | `top` (Stack<T>) | `Stack.top` |
| 249-254 | `top_mut` (Stack<T>) | `Stack.topMut`, `Stack.topMutC`, `Unwind.Stk.topMut` |
| 257-280 | `pop` (Stack<T>) | `Stack.unlink`, `Stack.pop`, `Stack.unlinkC`, `Stack.popC`, `Unwind.Stk.pop` |
| 291-293 | `len` (Stack<T>) | `Stack.length` |
| 306-314 | `clear` (Stack<T>) | `Stack.clearLoop`, `Stack.clear`, `Unwind.Stk.clearLoop`, `Unwind.Stk.Stk.clear` |
| 326-331 | `contains` (Stack<T>) | `Stack.contains` |
| 344-346 | `is_empty` (Stack<T>) | `Stack.isEmpty` |
| 367-403 | `remove` (Stack<T>) | `Stack.unlink`, `Stack.removeLoop`, `Stack.remove`, `Stack.unlinkC`, `Stack.removeLoopC`, `Stack.removeC` |
| 426-473 | `split_off` (Stack<T>) | `Stack.splitLoop`, `Stack.splitOff`, `Stack.splitLoopC`, `Stack.splitOffC`, `Unwind.Stk.openAll`, `Unwind.Stk.splitOff` |
| 488-492 | `fmt` (Debug for Stack<T>) | `Lib.stackFmt` |
| 496-498 | `default` (Default for Stack<T>) | `Stack.new` |
| 503-505 | `drop` (Drop for Stack<T>) | `Stack.clear`, `Unwind.Stk.Stk.clear` |
| 526-528 | `into_iter` (IntoIterator for Stack<T>) | `Stack.intoIterRun`, `Stack.intoIterRunC` |
| 533-535 | `eq` (PartialEq for Stack<T>) | `Stack.eqStack` |
| 542-570 | `partial_cmp` (PartialOrd for Stack<T>) | `Stack.partialCmpLoop`, `Stack.partialCmpStack` |
| 574-576 | `cmp` (Ord for Stack<T>) | `Stack.cmpStack` |
| 596-600 | `extend` (Extend<T> for Stack<T>) | `Stack.extend` |
| 604-606 | `from` (From<Vec<T>> for Stack<T>) | `Stack.fromIter` |
| 610-614 | `from_iter` (FromIterator<T> for Stack<T>) | `Stack.fromIter` |

## src/avl.rs

| lines | function | model |
|---|---|---|
| 74-83 | `new` (Node<K, V>) | `Avl.mk`, `AvlH.optNew`, `Unwind.mk` |
| 85-92 | `opt_new` (Node<K, V>) | `Avl.mk`, `AvlH.optNew`, `Unwind.mk` |
| 95-97 | `bal` (Node<K, V>) | `Avl.bal?`, `AvlH.ND.bal` |
| 100-103 | `is_bal` (Node<K, V>) | `Avl.isBal` |
| 105-107 | `height` (Node<K, V>) | `Avl.height`, `AvlH.ND.height`, `Unwind.height` |
| 109-112 | `set_left` (Node<K, V>) | `Avl.SMap`, `Avl.share` |
| 114-117 | `set_right` (Node<K, V>) | - inlined into the callers: sets the link and the cached height |
| 119-132 | `for_each` (Node<K, V>) | `Avl.forEach`, `AvlH.forEachAt` |
| 134-149 | `for_each_mut` (Node<K, V>) | `Avl.forEachMut`, `AvlH.forEachMut`, `Avl.forEachC` |
| 155-183 | `chk` (Node<K, V>) | `Avl.chk`, `Avl.Tree.chkE` |
| 187-208 | `fmt` (Debug for Node<K, V>) | - not modelled: `Debug` of a private type |
| 246-250 | `fmt` (Debug for AvlMap<K, V>) | `Lib.avlMapFmt` |
| 254-256 | `default` (Default for AvlMap<K, V>) | - same as `new` |
| 264-267 | `eq` (PartialEq for AvlMap<K, V>) | `Avl.eqMap`, `AvlH.eqMap` |
| 277-279 | `partial_cmp` (PartialOrd for AvlMap<K, V>) | `Avl.partialCmpMap` |
| 283-285 | `cmp` (Ord for AvlMap<K, V>) | `Avl.cmpMap` |
| 293-299 | `hash` (std::hash::Hash for AvlMap<K, V>) | `Avl.hashMap` |
| 309-314 | `index` (std::ops::Index<&Q> for AvlMap<K, V>) | `Avl.index` |
| 317-319 | `height` (std::ops::Index<&Q> for AvlMap<K, V>) | `Avl.height`, `AvlH.height`, `Unwind.height` |
| 321-325 | `len` (std::ops::Index<&Q> for AvlMap<K, V>) | `Avl.size`, `AvlH.lenAt`, `AvlH.len` |
| 328-336 | `chk` (std::ops::Index<&Q> for AvlMap<K, V>) | - inlined into `Avl.Tree.chk` |
| 341-347 | `take_node` (std::ops::Index<&Q> for AvlMap<K, V>) | `AvlH.takeNode` |
| 349-377 | `rot_lf` (std::ops::Index<&Q> for AvlMap<K, V>) | `Avl.rotLf`, `AvlH.rotLf`, `Avl.rotLfC` |
| 379-421 | `rot_rt_lf` (std::ops::Index<&Q> for AvlMap<K, V>) | `Avl.rotRtLf`, `AvlH.rotRtLf`, `Avl.rotRtLfC` |
| 423-454 | `rot_rt` (std::ops::Index<&Q> for AvlMap<K, V>) | `Avl.rotRt`, `AvlH.rotRt`, `Avl.rotRtC` |
| 456-493 | `rot_lf_rt` (std::ops::Index<&Q> for AvlMap<K, V>) | `Avl.rotLfRt`, `AvlH.rotLfRt`, `Avl.rotLfRtC` |
| 496-508 | `rebal_lf_to_rt` (std::ops::Index<&Q> for AvlMap<K, V>) | `Avl.bal?`, `Avl.rebalLfToRt`, `AvlH.rebalLfToRt`, `Avl.rebalLfToRtC` |
| 511-523 | `rebal_rt_to_lf` (std::ops::Index<&Q> for AvlMap<K, V>) | `Avl.bal?`, `Avl.rebalRtToLf`, `AvlH.rebalRtToLf`, `Avl.rotLfC`, `Avl.rebalRtToLfC` |
| 527-569 | `ins` (std::ops::Index<&Q> for AvlMap<K, V>) | `Avl.afterInsLf`, `Avl.afterInsRt`, `Avl.ins`, `AvlH.afterInsLf`, `AvlH.afterInsRt`, `AvlH.ins` |
| 573-596 | `rm_leftmost` (std::ops::Index<&Q> for AvlMap<K, V>) | `Avl.afterRmLf`, `Avl.rmLeftmost`, `AvlH.afterRmLf`, `AvlH.rmLeftmost`, `Avl.afterRmLfC`, `Avl.rmLeftmostC` |
| 600-623 | `rm_rightmost` (std::ops::Index<&Q> for AvlMap<K, V>) | `Avl.afterRmRt`, `Avl.rmRightmost`, `AvlH.afterRmRt`, `AvlH.rmRightmost`, `Avl.afterRmRtC`, `Avl.rmRightmostC` |
| 627-695 | `rm` (std::ops::Index<&Q> for AvlMap<K, V>) | `Avl.afterRmLf`, `Avl.afterRmRt`, `Avl.rm`, `AvlH.afterRmLf`, `AvlH.afterRmRt`, `AvlH.rm` |
| 697-717 | `retain` (std::ops::Index<&Q> for AvlMap<K, V>) | `Avl.retain`, `AvlH.retainEnd`, `AvlH.retain`, `Unwind.retainC`, `Avl.retainW` |
| 719-757 | `join_rt` (std::ops::Index<&Q> for AvlMap<K, V>) | `Avl.joinRt`, `AvlH.joinRt`, `Unwind.joinRtC` |
| 759-798 | `join_lf` (std::ops::Index<&Q> for AvlMap<K, V>) | `Avl.joinLf`, `AvlH.joinLf`, `Unwind.joinLfC` |
| 802-816 | `join` (std::ops::Index<&Q> for AvlMap<K, V>) | `Avl.join`, `AvlH.join`, `Unwind.joinC` |
| 818-833 | `join2` (std::ops::Index<&Q> for AvlMap<K, V>) | `Avl.join2`, `AvlH.join2`, `Unwind.join2C` |
| 856-884 | `merge` (Merger<K, V, F>) | `Avl.merge`, `AvlH.unwrapN`, `AvlH.merge`, `Unwind.mergeC`, `Avl.resolve`, `Avl.mergeW` |
| 887-899 | `intersect` (Merger<K, V, F>) | `Avl.intersect`, `AvlH.intersect`, `Wild.SetOp` |
| 901-913 | `diff` (Merger<K, V, F>) | `Avl.diff`, `AvlH.diff`, `Wild.SetOp` |
| 916-928 | `sym_diff` (Merger<K, V, F>) | `Avl.symDiff`, `AvlH.symDiff`, `Wild.SetOp` |
| 930-942 | `union` (Merger<K, V, F>) | `Avl.union`, `AvlH.union`, `Unwind.unionC`, `Wild.SetOp` |
| 945-979 | `split` (Merger<K, V, F>) | `Avl.split`, `AvlH.unwrapN`, `AvlH.split`, `Unwind.splitC`, `Avl.splitW` |
| 998-1006 | `append` (AvlMap<K, V>) | `Avl.append`, `AvlH.mergeWith`, `AvlH.union`, `Unwind.appendC`, `Avl.appendW` |
| 1009-1012 | `clear` (AvlMap<K, V>) | `Avl.clear`, `AvlH.clear`, `Avl.clearD`, `Avl.new` |
| 1015-1021 | `contains_key` (AvlMap<K, V>) | `Avl.containsKey` |
| 1024-1030 | `entry` (AvlMap<K, V>) | - the pair of map and key; the entry API is in `Lib.Model` |
| 1033-1040 | `first_entry` (AvlMap<K, V>) | - `entry` at the first key |
| 1051-1057 | `first_key_value` (AvlMap<K, V>) | `Avl.firstKeyValue`, `Avl.first`, `AvlH.firstAt`, `AvlH.first` |
| 1070-1076 | `get` (AvlMap<K, V>) | `Avl.get` |
| 1087-1102 | `get_key_value` (AvlMap<K, V>) | `Avl.getKeyValue`, `AvlH.getKeyValue`, `AvlH.getAt`, `Avl.getW` |
| 1116-1133 | `get_mut` (AvlMap<K, V>) | `Avl.getMut`, `Avl.getMutWith`, `AvlH.getMut`, `AvlH.getMutWith`, `Avl.getMutC`, `Avl.getMutW` |
| 1145-1153 | `insert` (AvlMap<K, V>) | `Avl.insert`, `AvlH.insert`, `Avl.insertD`, `Avl.insertC`, `Avl.insertW` |
| 1166-1185 | `into_keys` (AvlMap<K, V>) | `Avl.iterOf`, `AvlH.intoRun` |
| 1199-1218 | `into_values` (AvlMap<K, V>) | `Avl.iterOf`, `AvlH.intoRun` |
| 1221-1223 | `is_empty` (AvlMap<K, V>) | `Avl.isEmpty` |
| 1243-1255 | `iter` (AvlMap<K, V>) | `Avl.iterOf`, `Avl.iter`, `AvlH.iterRun`, `AvlH.iterNew`, `AvlH.iter` |
| 1281-1298 | `iter_mut` (AvlMap<K, V>) | `Avl.iterOf`, `Avl.AvlMap.iterMutRun`, `AvlH.iterMutRun`, `AvlH.iterMutNew`, `AvlH.iterMut`, `Avl.iterMutC` |
| 1311-1316 | `keys` (AvlMap<K, V>) | - projection of `iter` |
| 1319-1326 | `last_entry` (AvlMap<K, V>) | - `entry` at the last key |
| 1337-1345 | `last_key_value` (AvlMap<K, V>) | `Avl.lastKeyValue`, `Avl.last`, `AvlH.lastAt`, `AvlH.last` |
| 1348-1350 | `len` (AvlMap<K, V>) | - the field `len` |
| 1359-1361 | `new` (AvlMap<K, V>) | `Avl.new` |
| 1376-1384 | `new_diff` (AvlMap<K, V>) | `Avl.newDiff`, `AvlH.mergeWith`, `AvlH.diff`, `Avl.newMergeW` |
| 1399-1407 | `new_intersect` (AvlMap<K, V>) | `Avl.newIntersect`, `AvlH.mergeWith`, `AvlH.intersect`, `Avl.newMergeW` |
| 1431-1443 | `new_join` (AvlMap<K, V>) | `Avl.newJoin`, `AvlH.newJoin` |
| 1459-1467 | `new_sym_diff` (AvlMap<K, V>) | `Avl.newSymDiff`, `AvlH.mergeWith`, `AvlH.symDiff`, `Avl.newMergeW` |
| 1483-1491 | `new_union` (AvlMap<K, V>) | `Avl.newUnion`, `AvlH.mergeWith`, `AvlH.union`, `Avl.newMergeW` |
| 1503-1511 | `pop_first` (AvlMap<K, V>) | `Avl.popFirst`, `AvlH.popFirst`, `Avl.takeC` |
| 1523-1531 | `pop_last` (AvlMap<K, V>) | `Avl.popLast`, `AvlH.popLast`, `Avl.takeC` |
| 1534-1613 | `range` (AvlMap<K, V>) | `Avl.ubLe`, `Avl.lbGe`, `Avl.pruneStepL`, `Avl.pruneL`, `Avl.pruneStepR`, `Avl.pruneRrev` |
| 1616-1697 | `range_mut` (AvlMap<K, V>) | `Avl.rangeOf`, `Avl.AvlMap.rangeMutRun`, `AvlH.pruneG`, `AvlH.pruneBackG`, `AvlH.rangeMutRun`, `AvlH.rangeMutNew` |
| 1711-1718 | `remove` (AvlMap<K, V>) | `Avl.removeEntry`, `Avl.remove`, `Drop.remove` |
| 1732-1742 | `remove_entry` (AvlMap<K, V>) | `Avl.removeEntry`, `AvlH.removeEntry`, `Avl.takeC`, `Avl.removeW` |
| 1759-1768 | `retain` (AvlMap<K, V>) | `Avl.retain`, `AvlH.retain`, `Unwind.retainC`, `Avl.retainW` |
| 1784-1806 | `split_off` (AvlMap<K, V>) | `Avl.splitOff`, `AvlH.reinsert`, `AvlH.splitOff`, `Unwind.splitOffC`, `Avl.splitOffW` |
| 1820-1825 | `values` (AvlMap<K, V>) | - projection of `iter` |
| 1843-1851 | `values_mut` (AvlMap<K, V>) | `Avl.iterMutC` |
| 1864-1868 | `for_each` (AvlMap<K, V>) | `Avl.forEach`, `AvlH.forEach`, `AvlH.forEachAt` |
| 1885-1893 | `for_each_mut` (AvlMap<K, V>) | `Avl.forEachMut`, `AvlH.forEachMut`, `Avl.forEachC`, `Avl.forEachMutC` |
| 1897-1911 | `chk` (AvlMap<K, V>) | `Avl.chk` |
| 1924-1926 | `destruct` (trait IterNode) | - inlined into `Iter::next` (`Avl.Iter`, `AvlHeap.IterModel`) |
| 1937-1963 | `next` (Iterator for InnerIter<Node>) | `Avl.pushDesc`, `Avl.nextW`, `Avl.Iter.step`, `AvlH.nextG`, `AvlH.liveM`, `Unwind.pushC` |
| 1967-1993 | `next_back` (DoubleEndedIterator for InnerIter<Node>) | `Avl.nextBackRev`, `Avl.Iter.step`, `AvlH.nextBackG`, `AvlH.liveM`, `Unwind.nextC`, `Avl.digC` |
| 1997-1999 | `len` (ExactSizeIterator for InnerIter<Node>) | `Avl.Iter.run` |
| 2012-2016 | `destruct` (IterNode for NormIterNode<'a, K, V>) | `AvlH.desN` |
| 2026-2028 | `next` (Iterator for Iter<'a, K, V>) | `Lib.avlHint` |
| 2032-2034 | `next_back` (DoubleEndedIterator for Iter<'a, K, V>) | `AvlH.desM`, `Lib.avlHint` |
| 2038-2040 | `len` (ExactSizeIterator for Iter<'a, K, V>) | `AvlH.desM`, `Lib.avlHint` |
| 2054-2062 | `destruct` (IterNode for IterMutNode<'a, K, V>) | `Avl.MAct`, `Avl.digC` |
| 2072-2074 | `next` (Iterator for IterMut<'a, K, V>) | `Lib.avlHint` |
| 2078-2080 | `next_back` (DoubleEndedIterator for IterMut<'a, K, V>) | `Lib.avlHint` |
| 2084-2086 | `len` (ExactSizeIterator for IterMut<'a, K, V>) | `Lib.avlHint` |
| 2098-2100 | `next` (Iterator for Range<'a, K, V>) | - wrapper of the inner iterator (see the module comments of the iterator files) |
| 2102-2104 | `size_hint` (Iterator for Range<'a, K, V>) | `Avl.Iter.run`, `Lib.avlRangeHint` |
| 2108-2110 | `next_back` (DoubleEndedIterator for Range<'a, K, V>) | - wrapper of the inner iterator (see the module comments of the iterator files) |
| 2118-2118 | `from_arc` (trait IntoItem<K, V>) | - projection of the entry, cloned |
| 2119-2119 | `from_own` (trait IntoItem<K, V>) | - projection of the entry, moved |
| 2129-2131 | `from_arc` (IntoItem<K, V> for IntoKey) | - projection of the entry, cloned |
| 2133-2135 | `from_own` (IntoItem<K, V> for IntoKey) | - projection of the entry, moved |
| 2141-2143 | `from_arc` (IntoItem<K, V> for IntoValue) | - projection of the entry, cloned |
| 2145-2147 | `from_own` (IntoItem<K, V> for IntoValue) | - projection of the entry, moved |
| 2153-2155 | `from_arc` (IntoItem<K, V> for IntoKeyValue) | `AvlH.OwnN` |
| 2157-2159 | `from_own` (IntoItem<K, V> for IntoKeyValue) | `AvlH.optToIterNode`, `Unwind.CAct` |
| 2169-2177 | `opt_to_iter_node` (IntoItem<K, V> for IntoKeyValue) | `AvlH.desI`, `AvlH.unwrapN`, `Unwind.pushC` |
| 2185-2207 | `destruct` (IterNode) | `AvlH.desI`, `Unwind.pushC`, `Unwind.nextC` |
| 2217-2219 | `next` (Iterator for IntoIter<K, V>) | `Lib.avlHint` |
| 2223-2225 | `next_back` (DoubleEndedIterator for IntoIter<K, V>) | `Lib.avlHint` |
| 2229-2231 | `len` (ExactSizeIterator for IntoIter<K, V>) | `Lib.avlHint` |
| 2240-2255 | `into_iter` (IntoIterator for AvlMap<K, V>) | `Avl.iterOf`, `Avl.iter`, `AvlH.intoRun`, `AvlH.intoNew`, `AvlH.intoIter`, `Unwind.start` |
| 2262-2264 | `into_iter` (IntoIterator for &'a AvlMap<K, V>) | - wrapper of `iter`, `iter_mut` or the map's `into_iter` |
| 2271-2273 | `into_iter` (IntoIterator for &'a mut AvlMap<K, V>) | - wrapper of `iter`, `iter_mut` or the map's `into_iter` |
| 2277-2281 | `extend` (Extend<(&'a K, &'a V)> for AvlMap<K, V>) | `Avl.drain`, `Avl.extend`, `AvlH.extend`, `Wild.extendW` |
| 2285-2289 | `extend` (Extend<(K, V)> for AvlMap<K, V>) | `Avl.extend`, `AvlH.extend`, `Drop.extend`, `Wild.extendW` |
| 2297-2299 | `from` (From<[(K, V); N]> for AvlMap<K, V>) | `Avl.fromIter`, `Wild.extendW` |
| 2303-2307 | `from_iter` (FromIterator<(K, V)> for AvlMap<K, V>) | `Avl.fromIter`, `Wild.extendW` |
| 2320-2328 | `check` (Map for AvlMap<K, V>) | `Avl.avlTrait` |
| 2330-2347 | `check_half` (Map for AvlMap<K, V>) | `Avl.checkHalf`, `Avl.avlTrait` |
| 2349-2355 | `contains_key_` (Map for AvlMap<K, V>) | `Avl.avlTrait` |
| 2357-2364 | `get_mut_` (Map for AvlMap<K, V>) | `Avl.avlTrait` |
| 2366-2372 | `insert_` (Map for AvlMap<K, V>) | `Avl.avlTrait` |
| 2374-2376 | `new_` (Map for AvlMap<K, V>) | `Avl.avlTrait` |
| 2378-2392 | `make_half` (Map for AvlMap<K, V>) | `Avl.makeHalf`, `Avl.avlTrait` |
| 2394-2422 | `make_whole` (Map for AvlMap<K, V>) | `Avl.drain`, `Avl.makeWhole`, `Avl.avlTrait` |
| 2424-2433 | `stitch` (Map for AvlMap<K, V>) | `Avl.stitch`, `Avl.avlTrait` |
| 2442-2452 | `serialize` (serde::ser::Serialize for AvlMap<K, V>) | `Avl.AvlMap.serialize` |
| 2461-2470 | `deserialize` (serde::de::Deserialize<'de> for AvlMap<K, V>) | `Avl.deserialize` |

## src/avl/avl_set.rs

| lines | function | model |
|---|---|---|
| 26-31 | `append` (AvlSet<T>) | `Avl.append` |
| 34-36 | `clear` (AvlSet<T>) | `Avl.clear` |
| 39-45 | `contains` (AvlSet<T>) | `Avl.contains` |
| 48-53 | `difference` (AvlSet<T>) | `Avl.setOp`, `Avl.difference`, `AvlH.setOp` |
| 58-60 | `first` (AvlSet<T>) | `Avl.first` |
| 63-69 | `get` (AvlSet<T>) | `Avl.get` |
| 73-78 | `insert` (AvlSet<T>) | `Avl.insert` |
| 81-86 | `intersection` (AvlSet<T>) | `Avl.setOp`, `Avl.intersection`, `AvlH.setOp` |
| 89-94 | `is_disjoint` (AvlSet<T>) | `Avl.isDisjoint`, `AvlH.isDisjoint` |
| 97-99 | `is_empty` (AvlSet<T>) | `Avl.isEmpty` |
| 102-186 | `is_subset` (AvlSet<T>) | `Avl.seek`, `Avl.hasAll`, `Avl.isSubset`, `AvlH.noLeftAt`, `AvlH.pushRtAt`, `AvlH.seekAt` |
| 112-181 | `has_all` (AvlSet<T>) | `Avl.seek`, `Avl.hasAll`, `Avl.isSubset`, `AvlH.noLeftAt`, `AvlH.pushRtAt`, `AvlH.seekAt` |
| 189-194 | `is_superset` (AvlSet<T>) | `Avl.isSuperset` |
| 197-201 | `iter` (AvlSet<T>) | `Avl.iterNext`, `AvlH.setIter` |
| 204-206 | `last` (AvlSet<T>) | `Avl.last` |
| 209-211 | `len` (AvlSet<T>) | `Avl.len` |
| 214-216 | `new` (AvlSet<T>) | `Avl.new` |
| 219-230 | `new_diff` (AvlSet<T>) | `Avl.ofRoot`, `Avl.newDiff` |
| 233-244 | `new_intersection` (AvlSet<T>) | `Avl.ofRoot`, `Avl.newIntersection` |
| 247-258 | `new_union` (AvlSet<T>) | `Avl.ofRoot`, `Avl.newUnion` |
| 261-272 | `new_sym_diff` (AvlSet<T>) | `Avl.ofRoot`, `Avl.newSymDiff` |
| 275-280 | `pop_first` (AvlSet<T>) | `Avl.popFirst` |
| 283-288 | `pop_last` (AvlSet<T>) | `Avl.popLast` |
| 291-301 | `range` (AvlSet<T>) | - wrapper of the map's `range` |
| 305-311 | `remove` (AvlSet<T>) | `Avl.remove` |
| 314-322 | `replace` (AvlSet<T>) | `Avl.replace`, `AvlH.replace` |
| 325-360 | `retain` (AvlSet<T>) | `Avl.dfs`, `Avl.retain`, `AvlH.dfsKid`, `AvlH.dfsKeep`, `AvlH.dfs`, `AvlH.retainSet` |
| 330-352 | `dfs` (AvlSet<T>) | `Avl.dfs`, `Avl.retain`, `AvlH.dfsKid`, `AvlH.dfsKeep`, `AvlH.dfs`, `AvlH.retainSet` |
| 363-371 | `split_off` (AvlSet<T>) | `Avl.splitOff` |
| 374-379 | `symmetric_difference` (AvlSet<T>) | `Avl.setOp`, `Avl.symmetricDifference`, `AvlH.setOp` |
| 393-404 | `take` (AvlSet<T>) | `Avl.take`, `AvlH.take` |
| 409-411 | `union` (AvlSet<T>) | `Avl.setOp`, `Avl.union`, `AvlH.setOp` |
| 417-423 | `check` (crate::Set for AvlSet<T>) | - debug check, tests only |
| 425-430 | `insert_` (crate::Set for AvlSet<T>) | - wrapper of `insert` |
| 438-440 | `len` (ExactSizeIterator for Iter<'a, T>) | - the field `len` |
| 448-450 | `next` (Iterator for Iter<'a, T>) | `Avl.iterNext`, `AvlH.setNext` |
| 463-465 | `len` (ExactSizeIterator for IntoIter<T>) | - the field `len` |
| 473-475 | `next` (Iterator for IntoIter<T>) | `Avl.iterNext` |
| 481-483 | `bitand` (std::ops::BitAnd for &AvlSet<K>) | `Avl.newIntersection` |
| 489-491 | `bitor` (std::ops::BitOr for &AvlSet<K>) | `Avl.newUnion` |
| 497-499 | `bitxor` (std::ops::BitXor for &AvlSet<K>) | `Avl.newSymDiff` |
| 503-507 | `fmt` (std::fmt::Debug for AvlSet<T>) | `Lib.avlSetFmt` |
| 511-513 | `default` (Default for AvlSet<T>) | - same as `new` |
| 517-521 | `extend` (Extend<&'a T> for AvlSet<T>) | `Avl.extend` |
| 525-529 | `extend` (Extend<T> for AvlSet<T>) | `Avl.extend` |
| 533-535 | `from` (From<[T; N]> for AvlSet<T>) | `Avl.fromIter` |
| 539-543 | `from_iter` (FromIterator<T> for AvlSet<T>) | `Avl.fromIter` |
| 547-552 | `hash` (std::hash::Hash for AvlSet<T>) | `Avl.hashSet` |
| 559-561 | `into_iter` (IntoIterator for &'a AvlSet<T>) | - wrapper of `iter`, `iter_mut` or the map's `into_iter` |
| 568-572 | `into_iter` (IntoIterator for AvlSet<T>) | - wrapper of `iter`, `iter_mut` or the map's `into_iter` |
| 576-578 | `cmp` (Ord for AvlSet<T>) | `Avl.cmpSet` |
| 582-584 | `eq` (PartialEq for AvlSet<T>) | `Avl.eqSet` |
| 588-590 | `partial_cmp` (PartialOrd for AvlSet<T>) | `Avl.partialCmpSet` |
| 596-598 | `sub` (std::ops::Sub for &AvlSet<K>) | `Avl.newDiff` |

## src/btree.rs

| lines | function | model |
|---|---|---|
| 37-43 | `fmt` (std::fmt::Debug for Node<K, V, N>) | `Lib.btreeNodeFmt` |
| 54-56 | `max_occupancy` (std::fmt::Debug for Node<K, V, N>) | - `2 * N`, inlined |
| 63-65 | `child` (Node<K, V, N>) | - list access, inlined |
| 67-69 | `child_mut` (Node<K, V, N>) | - list access, inlined |
| 71-73 | `key` (Node<K, V, N>) | - list access, inlined |
| 75-77 | `key_mut` (Node<K, V, N>) | - list access, inlined |
| 79-81 | `val` (Node<K, V, N>) | - list access, inlined |
| 83-85 | `val_mut` (Node<K, V, N>) | - list access, inlined |
| 87-89 | `len` (Node<K, V, N>) | - the field `len` |
| 91-105 | `get_key_value` (Node<K, V, N>) | `BTree.locate`, `BTree.descIdx`, `BTree.get`, `BTreeH.getAt`, `BTree.getW`, `Wild.locateW` |
| 107-129 | `get_mut` (Node<K, V, N>) | `BTree.locate`, `BTree.getMut`, `BTreeH.getMut`, `BTree.getMutC`, `BTree.getMutW`, `Wild.locateW` |
| 131-178 | `insert` (Node<K, V, N>) | `BTree.locate`, `BTree.InsRes`, `BTree.absorb`, `BTree.ins`, `BTreeH.absorb`, `BTreeH.afterIns` |
| 181-206 | `split` (Node<K, V, N>) | `BTree.split`, `BTreeH.splitKids`, `BTreeH.split` |
| 208-210 | `is_branch` (Node<K, V, N>) | - list access, inlined |
| 212-214 | `is_leaf` (Node<K, V, N>) | - list access, inlined |
| 216-321 | `stitch` (Node<K, V, N>) | `BTree.growRoot`, `BTree.stitch` |
| 323-363 | `rot_lf` (Node<K, V, N>) | `BTree.rotLf`, `BTreeH.kidLen`, `BTreeH.takeFirst`, `BTreeH.pushBack`, `BTreeH.rotLf`, `BTree.rotLfC` |
| 365-395 | `rot_rt` (Node<K, V, N>) | `BTree.rotRt`, `BTreeH.kidLen`, `BTreeH.takeLast`, `BTreeH.pushFront`, `BTreeH.rotRt`, `BTree.rotRtC` |
| 398-425 | `merge_kids` (Node<K, V, N>) | `BTree.mergeKids`, `BTreeH.prepend`, `BTreeH.mergeKids`, `BTree.mergeKidsC` |
| 428-449 | `rebal` (Node<K, V, N>) | `BTree.kidLen`, `BTree.rebal`, `BTreeH.kidLen`, `BTreeH.rebal`, `BTree.rebalC` |
| 451-470 | `pop_first` (Node<K, V, N>) | `BTree.afterKid`, `BTree.popFirst`, `BTreeH.afterKid`, `BTreeH.popFirst`, `BTree.afterKidC`, `BTree.popFirstC` |
| 472-491 | `pop_last` (Node<K, V, N>) | `BTree.afterKid`, `BTree.popLast`, `BTreeH.afterKid`, `BTreeH.popLast`, `BTree.afterKidC`, `BTree.popLastC` |
| 493-543 | `remove` (Node<K, V, N>) | `BTree.locate`, `BTree.afterKid`, `BTree.remove`, `BTreeH.afterKid`, `BTreeH.afterRm`, `BTreeH.afterPop` |
| 553-559 | `append` (BTreeMap<K, V, N>) | `BTree.append`, `BTreeH.append`, `Unwind.appendC`, `Wild.appendW` |
| 561-564 | `clear` (BTreeMap<K, V, N>) | `BTree.clear`, `BTreeH.clear`, `BTree.clearD` |
| 566-591 | `contains_key` (BTreeMap<K, V, N>) | `BTree.locate`, `BTree.contains`, `BTree.containsKey`, `BTreeH.containsKey`, `BTreeH.containsAt`, `BTree.containsW` |
| 594-600 | `entry` (BTreeMap<K, V, N>) | - the pair of map and key; the entry API is in `Lib.Model` |
| 603-610 | `first_entry` (BTreeMap<K, V, N>) | - `entry` at the first key |
| 612-618 | `first_key_value` (BTreeMap<K, V, N>) | `BTree.first`, `BTree.firstKeyValue`, `BTreeH.first`, `BTreeH.firstAt` |
| 631-637 | `get` (BTreeMap<K, V, N>) | `BTree.get` |
| 650-659 | `get_key_value` (BTreeMap<K, V, N>) | `BTree.getKeyValue`, `BTreeH.getKeyValue`, `BTree.getW` |
| 661-670 | `get_mut` (BTreeMap<K, V, N>) | `BTree.getMut`, `BTreeH.getMut`, `BTree.getMutC`, `BTree.getMutW` |
| 683-714 | `insert` (BTreeMap<K, V, N>) | `BTree.insert`, `BTreeH.afterRoot`, `BTreeH.insert`, `BTree.insertD`, `BTree.insertC`, `BTree.insertW` |
| 716-725 | `into_keys` (BTreeMap<K, V, N>) | `BTreeH.intoRun` |
| 727-736 | `into_values` (BTreeMap<K, V, N>) | `BTreeH.intoRun` |
| 738-740 | `is_empty` (BTreeMap<K, V, N>) | `BTree.isEmpty` |
| 742-760 | `iter` (BTreeMap<K, V, N>) | `BTree.iter`, `BTree.iterOf`, `BTreeH.iterRun`, `BTreeH.iterNew`, `BTreeH.iter` |
| 762-784 | `iter_mut` (BTreeMap<K, V, N>) | `BTree.iterMutRun`, `BTree.iterOf`, `BTreeH.iterMutRun`, `BTreeH.iterMutNew`, `BTreeH.iterMut`, `Unwind.iterMutC` |
| 786-791 | `keys` (BTreeMap<K, V, N>) | - projection of `iter` |
| 794-801 | `last_entry` (BTreeMap<K, V, N>) | - `entry` at the last key |
| 803-809 | `last_key_value` (BTreeMap<K, V, N>) | `BTree.last`, `BTree.lastKeyValue`, `BTreeH.last`, `BTreeH.lastAt` |
| 811-813 | `len` (BTreeMap<K, V, N>) | - the field `len` |
| 815-817 | `new` (BTreeMap<K, V, N>) | `BTree.new`, `BTreeH.new` |
| 819-837 | `rm_and_rebal` (BTreeMap<K, V, N>) | `BTree.shrink`, `BTree.rmAndRebal`, `BTreeH.shrink`, `BTreeH.rmRoot`, `BTreeH.rmAndRebal`, `BTree.rmAndRebalC` |
| 839-845 | `pop_first` (BTreeMap<K, V, N>) | `BTree.popFirst`, `BTreeH.popFirst`, `BTree.takeC` |
| 847-853 | `pop_last` (BTreeMap<K, V, N>) | `BTree.popLast`, `BTreeH.popLast`, `BTree.takeC` |
| 855-862 | `range` (BTreeMap<K, V, N>) | `BTree.BTreeMap.range`, `BTreeH.rangeNew`, `BTreeH.range`, `BTreeH.rangeRun`, `BTree.BTreeMap.rangeW` |
| 864-872 | `range_mut` (BTreeMap<K, V, N>) | `BTree.rangeMutRun`, `BTreeH.rangeMutNew`, `BTreeH.rangeMut`, `BTreeH.rangeMutRun`, `Unwind.rangeMutC`, `BTree.BTreeMap.rangeW` |
| 888-900 | `remove` (BTreeMap<K, V, N>) | `BTree.remove`, `BTreeH.remove`, `BTree.takeD`, `BTree.takeC`, `BTree.removeW` |
| 902-923 | `retain` (BTreeMap<K, V, N>) | `BTree.retainLoop`, `BTree.retain`, `BTreeH.retainBody`, `BTreeH.retain`, `Unwind.keepC`, `Unwind.retainC` |
| 925-938 | `split_off` (BTreeMap<K, V, N>) | `BTree.splitLoop`, `BTree.splitOff`, `BTreeH.splitOff`, `Unwind.sortC`, `Unwind.splitOffC`, `Wild.splitLoopW` |
| 942-947 | `values` (BTreeMap<K, V, N>) | - projection of `iter` |
| 949-957 | `values_mut` (BTreeMap<K, V, N>) | `BTree.iterMutRun`, `BTreeH.iterMutRun`, `Unwind.iterMutC` |
| 965-967 | `fmt` (std::fmt::Debug for BTreeMap<K, V, N>) | `Lib.btreeMapFmt` |
| 972-974 | `default` (Default for BTreeMap<K, V, N>) | `BTree.append`, `BTree.new`, `BTreeH.new` |
| 982-986 | `extend` (Extend<(K, V)> for BTreeMap<K, V, N>) | `BTree.extend`, `BTreeH.extend`, `BTreeH.append`, `Unwind.appendC`, `Wild.extendW` |
| 997-999 | `from` (From<[(K, V); M]>) | `BTree.fromIter`, `Wild.extendW` |
| 1007-1011 | `from_iter` (FromIterator<(K, V)> for BTreeMap<K, V, N>) | `BTree.fromIter`, `Wild.extendW` |
| 1022-1024 | `into_iter` (IntoIterator for BTreeMap<K, V, N>) | `BTree.intoIter`, `BTreeH.intoRun`, `BTreeH.intoIter` |
| 1031-1033 | `into_iter` (IntoIterator for &'a BTreeMap<K, V, N>) | `BTree.intoIter` |
| 1044-1046 | `into_iter` (IntoIterator for &'a mut BTreeMap<K, V, N>) | - wrapper of `iter`, `iter_mut` or the map's `into_iter` |
| 1062-1070 | `check` (Map for BTreeMap<K, V, N>) | `BTree.btreeTrait` |
| 1072-1094 | `check_half` (Map for BTreeMap<K, V, N>) | `BTree.checkHalf`, `BTree.btreeTrait` |
| 1096-1102 | `contains_key_` (Map for BTreeMap<K, V, N>) | `BTree.btreeTrait` |
| 1104-1111 | `get_mut_` (Map for BTreeMap<K, V, N>) | `BTree.btreeTrait` |
| 1113-1119 | `insert_` (Map for BTreeMap<K, V, N>) | `BTree.btreeTrait` |
| 1121-1123 | `new_` (Map for BTreeMap<K, V, N>) | `BTree.makeHalf`, `BTree.btreeTrait` |
| 1125-1148 | `make_half` (Map for BTreeMap<K, V, N>) | `BTree.makeHalf`, `BTree.btreeTrait` |
| 1150-1179 | `make_whole` (Map for BTreeMap<K, V, N>) | `BTree.makeWhole`, `BTree.btreeTrait` |
| 1181-1185 | `stitch` (Map for BTreeMap<K, V, N>) | `BTree.btreeTrait` |
| 1193-1196 | `eq` (PartialEq for BTreeMap<K, V, N>) | `BTree.eqMap`, `BTreeH.eqMap` |
| 1204-1206 | `partial_cmp` (PartialOrd for BTreeMap<K, V, N>) | `BTree.partialCmpMap` |
| 1214-1216 | `cmp` (Ord for BTreeMap<K, V, N>) | `BTree.cmpMap` |
| 1229-1229 | `is_empty` (trait NodeIter) | `BTree.NodeIterOps`, `BTreeH.HOps` |
| 1231-1231 | `next_elem` (trait NodeIter) | `BTree.NodeIterOps`, `BTreeH.HOps` |
| 1232-1232 | `next_back_elem` (trait NodeIter) | `BTree.NodeIterOps`, `BTreeH.HOps` |
| 1234-1234 | `next_kid` (trait NodeIter) | `BTree.NodeIterOps`, `BTreeH.HOps` |
| 1235-1235 | `next_back_kid` (trait NodeIter) | `BTree.NodeIterOps`, `BTreeH.HOps` |
| 1237-1237 | `needs_lf_des` (trait NodeIter) | `BTree.NodeIterOps`, `BTreeH.HOps` |
| 1238-1238 | `needs_rt_des` (trait NodeIter) | `BTree.NodeIterOps`, `BTreeH.HOps` |
| 1261-1263 | `is_empty` (NodeIter for BorrowedNodeIter<I, J>) | `BTree.borrowedOps`, `BTreeH.sharedOps`, `BTreeH.mutOps` |
| 1265-1273 | `next_elem` (NodeIter for BorrowedNodeIter<I, J>) | `BTree.borrowedOps`, `BTreeH.sharedOps`, `BTreeH.mutOps` |
| 1275-1283 | `next_back_elem` (NodeIter for BorrowedNodeIter<I, J>) | `BTree.borrowedOps`, `BTreeH.sharedOps`, `BTreeH.mutOps` |
| 1285-1292 | `next_kid` (NodeIter for BorrowedNodeIter<I, J>) | `BTree.borrowedOps`, `BTreeH.sharedOps`, `BTreeH.mutOps` |
| 1294-1301 | `next_back_kid` (NodeIter for BorrowedNodeIter<I, J>) | `BTree.borrowedOps`, `BTreeH.sharedOps`, `BTreeH.mutOps` |
| 1303-1305 | `needs_lf_des` (NodeIter for BorrowedNodeIter<I, J>) | `BTree.borrowedOps`, `BTreeH.sharedOps`, `BTreeH.mutOps` |
| 1307-1309 | `needs_rt_des` (NodeIter for BorrowedNodeIter<I, J>) | `BTree.borrowedOps`, `BTreeH.sharedOps`, `BTreeH.mutOps` |
| 1313-1324 | `new` (BorrowedNodeIter<I, J>) | `BTree.borrowedOps` |
| 1341-1365 | `next` (Iterator for InnerIter<I>) | `BTree.NodeIterOps.keep`, `BTree.NodeIterOps.descend`, `BTree.NodeIterOps.yieldElem`, `BTree.NodeIterOps.next`, `BTreeH.HOps.keep`, `BTreeH.HOps.kidStep` |
| 1369-1392 | `next_back` (DoubleEndedIterator for InnerIter<I>) | `BTree.NodeIterOps.nextBack`, `BTreeH.HOps.step`, `BTreeH.liveM`, `Unwind.stepC`, `Unwind.step` |
| 1405-1409 | `make_node_iter` (DoubleEndedIterator for InnerIter<I>) | `BTree.nodeOps`, `BTreeH.sharedOps` |
| 1412-1414 | `len` (ExactSizeIterator for Iter<'a, K, V, N>) | `Lib.btreeHint` |
| 1422-1424 | `next` (Iterator for Iter<'a, K, V, N>) | `Lib.btreeHint` |
| 1428-1430 | `next_back` (DoubleEndedIterator for Iter<'a, K, V, N>) | `Lib.btreeHint` |
| 1455-1464 | `make_node_iter_mut` (DoubleEndedIterator for Iter<'a, K, V, N>) | `BTree.nodeOps`, `BTreeH.mutOps`, `Unwind.descendC`, `Unwind.mutOps`, `Unwind.mkC` |
| 1471-1473 | `len` (ExactSizeIterator for IterMut<'a, K, V, N>) | `Lib.btreeHint` |
| 1490-1492 | `next` (Iterator for IterMut<'a, K, V, N>) | `Lib.btreeHint` |
| 1500-1502 | `next_back` (DoubleEndedIterator for IterMut<'a, K, V, N>) | `Lib.btreeHint` |
| 1547-1555 | `is_empty` (NodeIter for IntoNodeIter<K, V, N>) | `BTree.intoOps`, `BTreeH.ownOps` |
| 1557-1562 | `needs_lf_des` (NodeIter for IntoNodeIter<K, V, N>) | `BTree.intoOps`, `BTreeH.ownOps` |
| 1564-1569 | `needs_rt_des` (NodeIter for IntoNodeIter<K, V, N>) | `BTree.intoOps`, `BTreeH.ownOps`, `Unwind.yieldC` |
| 1571-1590 | `next_elem` (NodeIter for IntoNodeIter<K, V, N>) | `BTree.intoOps`, `BTreeH.ownOps`, `Unwind.cloned`, `Unwind.yieldC` |
| 1592-1611 | `next_back_elem` (NodeIter for IntoNodeIter<K, V, N>) | `BTree.intoOps`, `BTreeH.ownOps`, `Unwind.cloned` |
| 1613-1632 | `next_kid` (NodeIter for IntoNodeIter<K, V, N>) | `BTree.intoOps`, `BTreeH.ownOps` |
| 1634-1653 | `next_back_kid` (NodeIter for IntoNodeIter<K, V, N>) | `BTree.intoOps`, `BTreeH.ownOps` |
| 1665-1698 | `make_into_node_iter` (NodeIter for IntoNodeIter<K, V, N>) | `BTree.intoOps`, `BTreeH.ownOps` |
| 1705-1725 | `new` (IntoIter<K, V, N>) | `BTree.intoIterOf`, `BTreeH.intoNew`, `Unwind.run` |
| 1733-1735 | `len` (ExactSizeIterator for IntoIter<K, V, N>) | `Lib.btreeHint` |
| 1752-1754 | `next` (Iterator for IntoIter<K, V, N>) | `Lib.btreeHint` |
| 1762-1764 | `next_back` (DoubleEndedIterator for IntoIter<K, V, N>) | `Lib.btreeHint` |
| 1777-1791 | `cmp_bd` (DoubleEndedIterator for IntoIter<K, V, N>) | `BTree.cmpBd`, `BTree.cmpBdW` |
| 1803-1882 | `find_range_edges` (DoubleEndedIterator for IntoIter<K, V, N>) | `BTree.findL`, `BTree.findR`, `BTree.findRangeEdges`, `BTree.findLW`, `BTree.findRW`, `BTree.edgesW` |
| 1884-1938 | `make_worklist` (DoubleEndedIterator for IntoIter<K, V, N>) | `BTree.getSlice`, `BTree.mkWork`, `BTreeH.kidSlice`, `BTreeH.ergOf`, `BTreeH.workLeft`, `BTreeH.workRight` |
| 1940-1996 | `make_mut_worklist` (DoubleEndedIterator for IntoIter<K, V, N>) | `BTree.mkWork`, `BTreeH.kidSlice`, `BTreeH.ergOf`, `BTreeH.workLeft`, `BTreeH.workRight`, `BTreeH.workStep` |
| 2003-2035 | `new` (Range<'a, K, V, N>) | `BTree.QBnd.bad`, `BTree.BTreeMap.range`, `BTreeH.rangeNew`, `BTreeH.range`, `BTreeH.rangeRun`, `BTree.BTreeMap.rangeW` |
| 2043-2050 | `fmt` (std::fmt::Debug for Range<'a, K, V, N>) | `Lib.btreeWorkFmt` |
| 2058-2060 | `next` (Iterator for Range<'a, K, V, N>) | - wrapper of the inner iterator (see the module comments of the iterator files) |
| 2062-2070 | `size_hint` (Iterator for Range<'a, K, V, N>) | `BTree.sizeHint`, `Lib.btreeRangeHint` |
| 2074-2076 | `next_back` (DoubleEndedIterator for Range<'a, K, V, N>) | - wrapper of the inner iterator (see the module comments of the iterator files) |
| 2084-2118 | `new` (RangeMut<'a, K, V, N>) | `BTree.BTreeMap.range`, `BTreeH.rangeMutNew`, `BTreeH.rangeMut`, `BTreeH.rangeMutRun`, `Unwind.rangeMutC`, `BTree.BTreeMap.rangeW` |
| 2126-2133 | `fmt` (std::fmt::Debug for RangeMut<'a, K, V, N>) | `Lib.btreeWorkFmt` |
| 2141-2143 | `next` (Iterator for RangeMut<'a, K, V, N>) | - wrapper of the inner iterator (see the module comments of the iterator files) |
| 2145-2153 | `size_hint` (Iterator for RangeMut<'a, K, V, N>) | `BTree.sizeHint`, `Lib.btreeRangeHint` |
| 2157-2159 | `next_back` (DoubleEndedIterator for RangeMut<'a, K, V, N>) | - wrapper of the inner iterator (see the module comments of the iterator files) |
| 2168-2182 | `chk_node_ptr` (DoubleEndedIterator for RangeMut<'a, K, V, N>) | `BTree.chkPtr` |
| 2185-2244 | `chk` (Node<K, V, N>) | `BTree.chkLoop`, `BTree.chkBody`, `BTree.Node.chk` |
| 2248-2255 | `chk` (BTreeMap<K, V, N>) | `BTree.BTreeMap.chk` |
| 2264-2274 | `serialize` (serde::ser::Serialize for BTreeMap<K, V, N>) | `BTree.BTreeMap.serialize` |
| 2284-2293 | `deserialize` (serde::de::Deserialize<'de>) | `BTree.deserialize` |
| 2299-2305 | `from` (From<BTreeMap<K, V, N>>) | `BTree.intoList`, `BTreeH.intoVec` |

## src/btree/btree_set.rs

| lines | function | model |
|---|---|---|
| 29-34 | `append` (BTreeSet<T, N>) | `BTree.append` |
| 37-39 | `clear` (BTreeSet<T, N>) | `BTree.clear` |
| 42-48 | `contains` (BTreeSet<T, N>) | `BTree.contains` |
| 51-56 | `difference` (BTreeSet<T, N>) | `BTree.setOp`, `BTree.difference`, `BTreeH.withSetOp` |
| 69-71 | `first` (BTreeSet<T, N>) | `BTree.first` |
| 74-80 | `get` (BTreeSet<T, N>) | `BTree.get` |
| 84-89 | `insert` (BTreeSet<T, N>) | `BTree.insert` |
| 92-97 | `intersection` (BTreeSet<T, N>) | `BTree.setOp`, `BTree.intersection`, `BTreeH.withSetOp` |
| 110-115 | `is_disjoint` (BTreeSet<T, N>) | `BTree.isDisjoint` |
| 118-120 | `is_empty` (BTreeSet<T, N>) | `BTree.isEmpty` |
| 123-130 | `is_subset` (BTreeSet<T, N>) | `BTree.isSubset`, `BTreeH.isSubset` |
| 133-138 | `is_superset` (BTreeSet<T, N>) | `BTree.isSuperset` |
| 141-145 | `iter` (BTreeSet<T, N>) | `BTreeH.setIter` |
| 148-150 | `last` (BTreeSet<T, N>) | `BTree.last` |
| 153-155 | `len` (BTreeSet<T, N>) | `BTree.len` |
| 158-162 | `new` (BTreeSet<T, N>) | `BTree.new` |
| 165-177 | `new_diff` (BTreeSet<T, N>) | `BTree.removeLoop`, `BTree.newDiff`, `BTreeH.newDiff` |
| 180-189 | `new_intersection` (BTreeSet<T, N>) | `BTree.newIntersection`, `BTreeH.newIntersection` |
| 192-206 | `new_union` (BTreeSet<T, N>) | `BTree.entryLoop`, `BTree.newUnion`, `BTreeH.newUnion` |
| 209-226 | `new_sym_diff` (BTreeSet<T, N>) | `BTree.toggleLoop`, `BTree.newSymDiff`, `BTreeH.toggleAll`, `BTreeH.newSymDiff` |
| 229-234 | `pop_first` (BTreeSet<T, N>) | `BTree.popFirst` |
| 237-242 | `pop_last` (BTreeSet<T, N>) | `BTree.popLast` |
| 244-254 | `range` (BTreeSet<T, N>) | - wrapper of the map's `range` |
| 258-264 | `remove` (BTreeSet<T, N>) | `BTree.remove` |
| 267-276 | `replace` (BTreeSet<T, N>) | `BTree.replace`, `BTreeH.replaceElem` |
| 279-286 | `retain` (BTreeSet<T, N>) | `BTree.retainLoop`, `BTree.retain`, `BTreeH.retainElem`, `BTreeH.retainElems` |
| 289-297 | `split_off` (BTreeSet<T, N>) | `BTree.splitOff` |
| 300-305 | `symmetric_difference` (BTreeSet<T, N>) | `BTree.setOp`, `BTree.symmetricDifference`, `BTreeH.withSetOp` |
| 319-330 | `take` (BTreeSet<T, N>) | `BTree.take`, `BTreeH.takeElem` |
| 335-337 | `union` (BTreeSet<T, N>) | `BTree.setOp`, `BTree.union`, `BTreeH.withSetOp` |
| 343-348 | `check` (crate::Set for BTreeSet<T, N>) | - debug check, tests only |
| 350-355 | `insert_` (crate::Set for BTreeSet<T, N>) | - wrapper of `insert` |
| 363-365 | `len` (ExactSizeIterator for Iter<'a, T, N>) | `BTree.iterNext` |
| 373-375 | `next` (Iterator for Iter<'a, T, N>) | `BTree.iterNext`, `BTreeH.setNext` |
| 379-381 | `next_back` (DoubleEndedIterator for Iter<'a, T, N>) | - wrapper of the inner iterator (see the module comments of the iterator files) |
| 397-399 | `len` (ExactSizeIterator for IntoIter<T, N>) | - the field `len` |
| 407-409 | `next` (Iterator for IntoIter<T, N>) | - wrapper of the inner iterator (see the module comments of the iterator files) |
| 413-415 | `next_back` (DoubleEndedIterator for IntoIter<T, N>) | - wrapper of the inner iterator (see the module comments of the iterator files) |
| 421-423 | `bitand` (std::ops::BitAnd for &BTreeSet<K, N>) | `BTree.newIntersection` |
| 429-431 | `bitor` (std::ops::BitOr for &BTreeSet<K, N>) | `BTree.newUnion` |
| 437-439 | `bitxor` (std::ops::BitXor for &BTreeSet<K, N>) | `BTree.newSymDiff` |
| 443-447 | `fmt` (std::fmt::Debug for BTreeSet<T, N>) | `Lib.btreeSetFmt` |
| 451-453 | `default` (Default for BTreeSet<T, N>) | `BTree.new` |
| 457-461 | `extend` (Extend<&'a T> for BTreeSet<T, N>) | `BTree.extend`, `BTreeH.extendElems` |
| 465-469 | `extend` (Extend<T> for BTreeSet<T, N>) | `BTree.extend`, `BTreeH.extendElems` |
| 475-477 | `from` (From<[T; M]>) | `BTree.fromIter` |
| 481-485 | `from_iter` (FromIterator<T> for BTreeSet<T, N>) | `BTree.fromIter`, `BTreeH.extendElems` |
| 489-494 | `hash` (std::hash::Hash for BTreeSet<T, N>) | `BTree.hashSet` |
| 501-503 | `into_iter` (IntoIterator for &'a BTreeSet<T, N>) | - wrapper of `iter`, `iter_mut` or the map's `into_iter` |
| 510-514 | `into_iter` (IntoIterator for BTreeSet<T, N>) | - wrapper of `iter`, `iter_mut` or the map's `into_iter` |
| 518-520 | `cmp` (Ord for BTreeSet<T, N>) | `BTree.cmpSet` |
| 524-526 | `eq` (PartialEq for BTreeSet<T, N>) | `BTree.eqSet` |
| 530-532 | `partial_cmp` (PartialOrd for BTreeSet<T, N>) | `BTree.partialCmpSet` |
| 538-540 | `sub` (std::ops::Sub for &BTreeSet<K, N>) | `BTree.newDiff` |

## src/btree/core.rs

| lines | function | model |
|---|---|---|
| 13-15 | `max_occupancy` () | `Fixed.Slots` |
| 58-64 | `new` (InlineVec<K, V, N>) | `Fixed.new` |
| 66-87 | `search_keys` (InlineVec<K, V, N>) | `Fixed.searchKeys`, `Fixed.searchKeysP`, `Wild.bsLoopW`, `Wild.searchW` |
| 89-97 | `clear` (InlineVec<K, V, N>) | `Fixed.Raw.dropElems`, `Fixed.Raw.dropRefs` |
| 99-112 | `insert` (InlineVec<K, V, N>) | `Fixed.insert` |
| 115-120 | `keys` (InlineVec<K, V, N>) | `Fixed.IVec.unload`, `Fixed.searchKeys`, `Fixed.elemPtr`, `Fixed.IVec.keysPtr` |
| 123-128 | `keys_mut` (InlineVec<K, V, N>) | `Fixed.elemPtr`, `Fixed.IVec.keysPtr` |
| 131-142 | `elems_mut` (InlineVec<K, V, N>) | `Fixed.elemPtr` |
| 144-146 | `len` (InlineVec<K, V, N>) | - the field `len` |
| 148-153 | `push` (InlineVec<K, V, N>) | `Fixed.push` |
| 155-162 | `pop` (InlineVec<K, V, N>) | `Fixed.pop` |
| 165-189 | `remove` (InlineVec<K, V, N>) | `Fixed.remove` |
| 191-196 | `vals` (InlineVec<K, V, N>) | `Fixed.IVec.unload`, `Fixed.elemPtr`, `Fixed.IVec.valsPtr` |
| 198-203 | `vals_mut` (InlineVec<K, V, N>) | `Fixed.elemPtr`, `Fixed.IVec.valsPtr` |
| 211-222 | `clone` (Clone for InlineVec<K, V, N>) | - equal slots; see `Fixed.InlineVec` |
| 226-228 | `default` (Default for InlineVec<K, V, N>) | - same as `new` |
| 236-243 | `fmt` (std::fmt::Debug for Elems<K, V>) | - not modelled: `Debug` of a private type |
| 251-256 | `fmt` (std::fmt::Debug for Kids<K, V>) | `Fixed.dropNode` |
| 260-262 | `drop` (Drop for InlineVec<K, V, N>) | `Fixed.Raw.dropRef`, `Fixed.dropNode` |
| 291-296 | `new` (Node<K, V>) | - access to the lists of a node (slot level: `Fixed.InlineVec`) |
| 298-302 | `new_leaf` (Node<K, V>) | - access to the lists of a node (slot level: `Fixed.InlineVec`) |
| 304-315 | `new_branch` (Node<K, V>) | - access to the lists of a node (slot level: `Fixed.InlineVec`) |
| 317-319 | `child` (Node<K, V>) | - access to the lists of a node (slot level: `Fixed.InlineVec`) |
| 321-323 | `child_mut` (Node<K, V>) | - access to the lists of a node (slot level: `Fixed.InlineVec`) |
| 325-333 | `last_child_mut` (Node<K, V>) | `Fixed.popGreatestP` |
| 335-337 | `pop_child` (Node<K, V>) | - access to the lists of a node (slot level: `Fixed.InlineVec`) |
| 339-341 | `key` (Node<K, V>) | - access to the lists of a node (slot level: `Fixed.InlineVec`) |
| 343-345 | `key_mut` (Node<K, V>) | - access to the lists of a node (slot level: `Fixed.InlineVec`) |
| 347-349 | `kids` (Node<K, V>) | `Fixed.kidsOk` |
| 351-353 | `kids_mut` (Node<K, V>) | `Fixed.kidsOk` |
| 355-357 | `val` (Node<K, V>) | - access to the lists of a node (slot level: `Fixed.InlineVec`) |
| 359-361 | `val_mut` (Node<K, V>) | - access to the lists of a node (slot level: `Fixed.InlineVec`) |
| 363-365 | `is_empty` (Node<K, V>) | - access to the lists of a node (slot level: `Fixed.InlineVec`) |
| 367-377 | `get` (Node<K, V>) | `Fixed.get`, `Fixed.getP`, `FixedH.getAt`, `Fixed.getW` |
| 379-389 | `get_mut` (Node<K, V>) | `Fixed.getMut`, `Fixed.getMutP`, `FixedH.getMut`, `Fixed.getMutC`, `Fixed.getMutW` |
| 391-424 | `insert` (Node<K, V>) | `Fixed.FMap.oldKey`, `Fixed.absorb`, `Fixed.ins`, `Fixed.insP`, `FixedH.absorb`, `FixedH.afterIns` |
| 426-442 | `ins_no_split` (Node<K, V>) | `Fixed.insNoSplit`, `FixedH.insNoSplit` |
| 450-516 | `ins_split` (Node<K, V>) | `Fixed.splitLoop`, `Fixed.insSplit`, `FixedH.insSplitH` |
| 518-551 | `rot_lf` (Node<K, V>) | `Fixed.takeFirst`, `Fixed.pushKid`, `Fixed.rotLf`, `Fixed.rotLfP`, `FixedH.takeFirst`, `FixedH.pushBack` |
| 553-583 | `rot_rt` (Node<K, V>) | `Fixed.takeLast`, `Fixed.insKid0`, `Fixed.rotRt`, `Fixed.rotRtP`, `FixedH.takeLast`, `FixedH.pushFront` |
| 586-641 | `merge_kids` (Node<K, V>) | `Fixed.append`, `Fixed.joinKids`, `Fixed.mergeKids`, `Fixed.IVec.appendP`, `Fixed.mergeKidsP`, `FixedH.append` |
| 644-672 | `rebal` (Node<K, V>) | `Fixed.rebal`, `Fixed.rebalP`, `FixedH.rebal`, `Fixed.rebalC` |
| 674-693 | `pop_greatest` (Node<K, V>) | `Fixed.afterKid`, `Fixed.popGreatest`, `Fixed.afterKidP`, `Fixed.popGreatestP`, `FixedH.afterKid`, `FixedH.popGreatest` |
| 695-732 | `remove` (Node<K, V>) | `Fixed.afterKid`, `Fixed.remove`, `Fixed.afterKidP`, `Fixed.removeP`, `FixedH.afterKid`, `FixedH.afterRm` |
| 734-739 | `chk` (Node<K, V>) | `Fixed.nodeChk` |
| 741-784 | `chk_aux` (Node<K, V>) | `Fixed.chkLoop`, `Fixed.chkBody`, `Fixed.chkAux` |
| 792-801 | `fmt` (std::fmt::Debug for Node<K, V>) | - not modelled: `Debug` of a private type |
| 832-850 | `new` (Splitter<'a, K, V>) | `Fixed.new` |
| 852-887 | `xfer` (Splitter<'a, K, V>) | `Fixed.xfer` |
| 889-902 | `push_back_dst` (Splitter<'a, K, V>) | `Fixed.push` |
| 904-915 | `push_back_kid_dst` (Splitter<'a, K, V>) | `Fixed.pushKid` |
| 917-927 | `pop_front_src` (Splitter<'a, K, V>) | `Fixed.popSrc` |
| 929-955 | `finalize_src` (Splitter<'a, K, V>) | `Fixed.finalize` |
| 957-959 | `dst_len` (Splitter<'a, K, V>) | - inlined into the split |
| 970-970 | `new` (pub trait NodeIterator<E, N>:) | `Fixed.NOps`, `FixedH.GOps` |
| 990-1000 | `next` (Iterator for NodeIter<KI, VI, NI>) | `Fixed.niOps`, `Fixed.NB.next`, `FixedH.HNI.next`, `Unwind.miOps` |
| 1009-1019 | `next_back` (DoubleEndedIterator for NodeIter<KI, VI, NI>) | `Fixed.NB.nextBack` |
| 1037-1052 | `new` (NodeIterator<(&'a K, &'a V), &'a NodePtr<K, V>>) | `Fixed.niOps`, `Fixed.NB.new`, `Fixed.niOpsP`, `FixedH.sharedOps` |
| 1061-1080 | `new` (NodeIterator<(&'a K, &'a mut V), &'a mut NodePtr<K, V>>) | `Fixed.niOps`, `Fixed.NB.new`, `Fixed.niOpsP`, `FixedH.mutOps`, `Unwind.miOps`, `Unwind.loopC` |
| 1103-1143 | `next` (Iterator for NodeIntoIter<K, V>) | `Fixed.Raw.next`, `Fixed.iiOps`, `FixedH.ownOps`, `Unwind.nextC` |
| 1151-1189 | `next_back` (DoubleEndedIterator for NodeIntoIter<K, V>) | `Fixed.II.nextBack` |
| 1197-1211 | `new` (NodeIterator<(K, V), OwnedOrLeased<K, V>> for NodeIntoIter<K, V>) | `Fixed.Raw.new`, `Fixed.iiOps`, `Fixed.iiOpsP`, `FixedH.ownOps` |
| 1217-1236 | `drop` (Drop for NodeIntoIter<K, V>) | `Fixed.Raw.dropElems`, `Fixed.Raw.dropRefs`, `Fixed.Raw.drop`, `Fixed.II.drop`, `FixedH.ownOps` |
| 1246-1257 | `new` (InnerIter<E, N, NI>) | `Fixed.Raw.new`, `Fixed.start` |
| 1263-1281 | `next` (Iterator for InnerIter<E, N, NI>) | `Fixed.Raw.next`, `Fixed.Raw.front`, `Fixed.loop`, `Fixed.step`, `FixedH.loop`, `FixedH.step` |
| 1285-1303 | `next_back` (DoubleEndedIterator for InnerIter<E, N, NI>) | `Fixed.Raw.back`, `Lib.fixedHint` |
| 1307-1309 | `len` (ExactSizeIterator for InnerIter<E, N, NI>) | `FixedH.run`, `Lib.fixedHint` |
| 1323-1333 | `new_into_iter` (FusedIterator for InnerIter<E, N, NI> {}) | `Fixed.intoIter`, `Fixed.intoRunP`, `FixedH.intoNew`, `Unwind.run` |

## src/btree/fixed.rs

| lines | function | model |
|---|---|---|
| 13-15 | `new` (BTreeMap<K, V>) | `Fixed.new` |
| 17-20 | `clear` (BTreeMap<K, V>) | `Fixed.FMap.clearD`, `Fixed.clear`, `FixedH.clear` |
| 22-29 | `get` (BTreeMap<K, V>) | `Fixed.get`, `Fixed.getP`, `FixedH.get`, `Fixed.getW` |
| 31-40 | `get_mut` (BTreeMap<K, V>) | `Fixed.getMut`, `Fixed.getMutP`, `FixedH.getMut`, `Fixed.getMutC`, `Fixed.getMutW` |
| 42-73 | `insert` (BTreeMap<K, V>) | `Fixed.FMap.insertD`, `Fixed.insert`, `Fixed.insertP`, `FixedH.afterRoot`, `FixedH.insert`, `Fixed.insertC` |
| 75-77 | `is_empty` (BTreeMap<K, V>) | `Fixed.isEmpty` |
| 79-84 | `iter` (BTreeMap<K, V>) | `Fixed.iter`, `Fixed.iterRunP`, `FixedH.iterRun`, `FixedH.iter` |
| 86-96 | `iter_mut` (BTreeMap<K, V>) | `Fixed.iterMutRun`, `FixedH.iterMutRun`, `FixedH.iterMut`, `Unwind.iterMutC` |
| 98-100 | `len` (BTreeMap<K, V>) | - the field `len` |
| 102-119 | `rm_and_rebal` (BTreeMap<K, V>) | `Fixed.rmAndRebal`, `FixedH.shrink`, `FixedH.rmRoot`, `FixedH.rmAndRebal`, `Fixed.takeC` |
| 121-133 | `remove` (BTreeMap<K, V>) | `Fixed.FMap.takeD`, `Fixed.remove`, `Fixed.removeP`, `FixedH.remove`, `Fixed.takeC`, `Fixed.removeW` |
| 136-145 | `chk` (BTreeMap<K, V>) | `Fixed.FMap.chk` |
| 152-154 | `into_iter` (IntoIterator for BTreeMap<K, V>) | `FixedH.intoRun`, `FixedH.intoIter` |
| 162-166 | `extend` (Extend<(K, V)> for BTreeMap<K, V>) | `Fixed.extend`, `FixedH.extend`, `Wild.extendW` |
| 174-178 | `from_iter` (FromIterator<(K, V)> for BTreeMap<K, V>) | `Fixed.fromIter`, `Wild.extendW` |
