{"claims": [
  {"property": "C01", "status": "proved", "theorems": ["Verif.Props.C01_avl_insert"], "note": ""},
  {"property": "C02", "status": "proved", "theorems": ["Verif.Props.C02_avl_remove", "Verif.Props.C02_avl_pop"], "note": ""},
  {"property": "C03", "status": "proved", "theorems": ["Verif.Props.C03_avl_depth", "Verif.Props.C03_avl_i8"], "note": ""},
  {"property": "C04", "status": "proved", "theorems": ["Verif.Props.C04_avl_no_panic"], "note": ""},
  {"property": "C05", "status": "proved", "theorems": ["Verif.Props.C05_avl_splitOff"], "note": ""},
  {"property": "C06", "status": "proved", "theorems": ["Verif.Props.C06_avl_append"], "note": ""},
  {"property": "C07", "status": "proved", "theorems": ["Verif.Props.C07_avl_set_ops"], "note": ""},
  {"property": "C08", "status": "proved", "theorems": ["Verif.Props.C08_avl_join"], "note": ""},
  {"property": "C09", "status": "proved", "theorems": ["Verif.Props.C09_avl_retain", "Verif.Props.C09_avl_retain_pure"], "note": ""},
  {"property": "C10", "status": "partial", "theorems": ["Verif.Props.C10_avl_retain_order_fails", "Verif.Props.C10_avl_retain_order_partial"], "note": "The property is false for AvlMap (post-order visits); a counterexample is proved, and that every entry is visited exactly once."},
  {"property": "C11", "status": "proved", "theorems": ["Verif.Props.C11_avl_iter"], "note": ""},
  {"property": "C12", "status": "proved", "theorems": ["Verif.Props.C12_avl_range"], "note": ""},
  {"property": "C13", "status": "proved", "theorems": ["Verif.Props.C13_avl_getMut", "Verif.Props.C13_avl_iterMut", "Verif.Props.C13_avl_rangeMut", "Verif.Props.C13_avl_forEachMut", "Verif.Props.C13_btree_getMut", "Verif.Props.C13_btree_iterMut", "Verif.Props.C13_btree_rangeMut"], "note": ""},
  {"property": "C14", "status": "proved", "theorems": ["Verif.Props.C14_avl_len", "Verif.Props.C14_btree_len", "Verif.Props.C14_avlset_len", "Verif.Props.C14_btreeset_len"], "note": ""},
  {"property": "C15", "status": "partial", "theorems": ["Verif.Props.C15_avl_retain_panic_fails", "Verif.Props.C15_avl_retain_panic_partial", "Verif.Props.C15_btree_retain_panic", "Verif.Props.C15_avlset_retain_panic_fails", "Verif.Props.C15_avlset_retain_panic_partial", "Verif.Props.C15_btreeset_retain_panic"], "note": "False for AvlMap: counterexample proved, with the exact state left behind; true and proved for BTreeMap."},
  {"property": "C16", "status": "proved", "theorems": ["Verif.Props.C16_avl_eq", "Verif.Props.C16_avl_cmp", "Verif.Props.C16_avl_hash", "Verif.Props.C16_btree_eq", "Verif.Props.C16_btree_cmp", "Verif.Props.C16_avlset_eq", "Verif.Props.C16_avlset_cmp", "Verif.Props.C16_avlset_hash", "Verif.Props.C16_btreeset_eq", "Verif.Props.C16_btreeset_cmp", "Verif.Props.C16_btreeset_hash", "Verif.Props.C16_avl_partialCmp", "Verif.Props.C16_btree_partialCmp", "Verif.Props.C16_avlset_partialCmp", "Verif.Props.C16_btreeset_partialCmp"], "note": "Equality, order and (AvlMap; BTreeMap has no Hash) hashing of maps; sets wrap maps."},
  {"property": "C17", "status": "proved", "theorems": ["Verif.Props.C17_btree_insert"], "note": ""},
  {"property": "C18", "status": "proved", "theorems": ["Verif.Props.C18_btree_remove", "Verif.Props.C18_btree_pop"], "note": ""},
  {"property": "C19", "status": "proved", "theorems": ["Verif.Props.C19_btree_depth"], "note": ""},
  {"property": "C20", "status": "proved", "theorems": ["Verif.Props.C20_btree_no_panic"], "note": ""},
  {"property": "C21", "status": "partial", "theorems": ["Verif.Props.C21_btree_N0_fails", "Verif.Props.C21_btree_any_N_partial"], "note": "False for N = 0 (iteration, first_key_value and pop_first panic with two entries): counterexample proved; insertion and lookup proved for every N."},
  {"property": "C22", "status": "proved", "theorems": ["Verif.Props.C22_btree_iter"], "note": ""},
  {"property": "C23", "status": "proved", "theorems": ["Verif.Props.C23_btree_range"], "note": ""},
  {"property": "C24", "status": "partial", "theorems": ["Verif.Props.C24_btree_excluded_fails", "Verif.Props.C24_btree_excluded_partial"], "note": "False: counterexample proved; exact panic condition proved."},
  {"property": "C25", "status": "proved", "theorems": ["Verif.Props.C25_btree_append", "Verif.Props.C25_btree_retain", "Verif.Props.C25_btree_splitOff", "Verif.Props.C26_btree_bulk"], "note": ""},
  {"property": "C26", "status": "proved", "theorems": ["Verif.Props.C26_avl_bulk", "Verif.Props.C26_btree_bulk"], "note": ""},
  {"property": "C27", "status": "proved", "theorems": ["Verif.Props.C27_avl_entry", "Verif.Props.C27_avl_and_modify", "Verif.Props.C27_btree_entry", "Verif.Props.C27_btree_and_modify"], "note": ""},
  {"property": "C28", "status": "proved", "theorems": ["Verif.Props.C28_avl_lookup", "Verif.Props.C28_borrow", "Verif.Props.C28_btree_lookup"], "note": ""},
  {"property": "C29", "status": "partial", "theorems": ["Verif.Props.C29_map_interchangeable_partial", "Verif.Props.C29_range_fails", "Verif.Props.C29_retain_order_fails"], "note": "The claim as stated is false. BTreeMap::range panics on bounds out of order where AvlMap::range yields nothing, and retain calls its closure in different orders; both are witnessed. For all other programs over any number of maps and clones, any N >= 1, results and contents agree at every step. The len of range iterators is not compared."},
  {"property": "C30", "status": "proved", "theorems": ["Verif.Props.C30_avl_deserialize"], "note": ""},
  {"property": "C31", "status": "proved", "theorems": ["Verif.Props.C31_btree_deserialize"], "note": ""},
  {"property": "C32", "status": "partial", "theorems": ["Verif.Props.C32_avl_hint_max_panics", "Verif.Props.C32_avl_hint_partial", "Verif.Props.C32_btree_hint_max_panics", "Verif.Props.C32_btree_hint_partial"], "note": "False at usize::MAX for both maps: counterexamples proved; no panic for any other hint."},
  {"property": "C33", "status": "proved", "theorems": ["Verif.Props.C33_avl_round_trip", "Verif.Props.C33_btree_round_trip", "Verif.Props.C33_avlset_round_trip", "Verif.Props.C33_btreeset_round_trip"], "note": ""},
  {"property": "C34", "status": "proved", "theorems": ["Verif.Props.C34_avlset_lazy", "Verif.Props.C34_btreeset_lazy"], "note": ""},
  {"property": "C35", "status": "proved", "theorems": ["Verif.Props.C35_avlset_subset", "Verif.Props.C35_avlset_disjoint"], "note": "C35_btreeset_disjoint does the same for BTreeSet."},
  {"property": "C36", "status": "partial", "theorems": ["Verif.Props.C36_btreeset_subset_fails", "Verif.Props.C36_btreeset_subset_partial"], "note": "False: a non-empty set is not reported a subset of itself. Counterexample proved; exact characterization of the answer proved for all pairs."},
  {"property": "C37", "status": "proved", "theorems": ["Verif.Props.C37_btreeset_union", "Verif.Props.C37_btreeset_intersection", "Verif.Props.C37_btreeset_difference", "Verif.Props.C37_btreeset_symDiff"], "note": ""},
  {"property": "C38", "status": "proved", "theorems": ["Verif.Props.C38_avlset_union", "Verif.Props.C38_avlset_intersection", "Verif.Props.C38_avlset_difference", "Verif.Props.C38_avlset_symDiff"], "note": ""},
  {"property": "C39", "status": "proved", "theorems": ["Verif.Props.C39_avl_insert", "Verif.Props.C39_btree_insert", "Verif.Props.C39_avlset_insert", "Verif.Props.C39_avlset_replace", "Verif.Props.C39_avlset_take", "Verif.Props.C39_avlset_ends", "Verif.Props.C39_btreeset_insert", "Verif.Props.C39_btreeset_replace", "Verif.Props.C39_btreeset_take", "Verif.Props.C39_btreeset_ends"], "note": ""},
  {"property": "C40", "status": "proved", "theorems": ["Verif.Props.C40_avlset_retain", "Verif.Props.C40_btreeset_retain"], "note": ""},
  {"property": "C41", "status": "proved", "theorems": ["Verif.Props.C41_stack_list", "Verif.Props.C41_stack_new", "Verif.Props.C44_stack_isolated"], "note": "Stated through what iter() and len() show after any history; Debug formatting of stacks is not modelled."},
  {"property": "C42", "status": "proved", "theorems": ["Verif.Props.C42_stack_remove", "Verif.Props.C42_stack_split_off"], "note": ""},
  {"property": "C43", "status": "proved", "theorems": ["Verif.Props.C43_stack_eq", "Verif.Props.C43_stack_eq_elementwise", "Verif.Props.C43_stack_cmp", "Verif.Props.C43_stack_partial_cmp", "Verif.Props.C43_stack_partial_cmp_any"], "note": ""},
  {"property": "C44", "status": "proved", "theorems": ["Verif.Props.C44_stack_isolated", "Verif.Props.C44_stack_clone"], "note": "On a memory model with addresses and reference counts."},
  {"property": "C45", "status": "proved", "theorems": ["Verif.Props.C45_avl_isolated", "Verif.Props.C45_avl_values", "Verif.Props.C45_avl_clone", "Verif.Props.C45_avl_others", "Verif.Props.C45_avl_threads", "Verif.Props.C45_avl_threads_progress", "Verif.Props.C45_btree_isolated", "Verif.Props.C45_btree_values", "Verif.Props.C45_btree_clone", "Verif.Props.C45_btree_others", "Verif.Props.C45_btree_threads", "Verif.Props.C45_btree_threads_progress", "Verif.Props.C45_avlset_isolated", "Verif.Props.C45_avlset_values", "Verif.Props.C45_avlset_clone", "Verif.Props.C45_avlset_others", "Verif.Props.C45_avlset_threads", "Verif.Props.C45_avlset_threads_progress", "Verif.Props.C45_btreeset_isolated", "Verif.Props.C45_btreeset_values", "Verif.Props.C45_btreeset_clone", "Verif.Props.C45_btreeset_others", "Verif.Props.C45_btreeset_threads", "Verif.Props.C45_btreeset_threads_progress", "Verif.Props.C45_fixed_isolated", "Verif.Props.C45_fixed_values", "Verif.Props.C45_fixed_clone", "Verif.Props.C45_fixed_others", "Verif.Props.C45_fixed_threads", "Verif.Props.C45_fixed_threads_progress"], "note": "For AvlMap, BTreeMap, AvlSet, BTreeSet and btree::fixed::BTreeMap, over programs of any length and threads in any schedule. BTreeMap and both sets need a lawful element order."},
  {"property": "C46", "status": "proved", "theorems": ["Verif.Props.C46_stack_counts", "Verif.Props.C46_stack_no_leak", "Verif.Props.C46_avl_counts", "Verif.Props.C46_avl_no_leak", "Verif.Props.C46_btree_counts", "Verif.Props.C46_btree_no_leak", "Verif.Props.C46_avlset_counts", "Verif.Props.C46_avlset_no_leak", "Verif.Props.C46_btreeset_counts", "Verif.Props.C46_btreeset_no_leak", "Verif.Props.C46_fixed_counts", "Verif.Props.C46_fixed_no_leak"], "note": "For stacks, AvlMap, BTreeMap, AvlSet, BTreeSet and btree::fixed::BTreeMap."},
  {"property": "C49", "status": "proved", "theorems": ["Verif.Props.C49_stack_clear_shallow"], "note": ""},
  {"property": "C47", "status": "proved", "theorems": ["Verif.Props.C47_fixed_insert", "Verif.Props.C47_fixed_remove", "Verif.Props.C47_fixed_get", "Verif.Props.C47_fixed_iter", "Verif.Props.C47_fixed_extend"], "note": "iter and into_iter as driven by next; next_back is C48."},
  {"property": "C48", "status": "partial", "theorems": ["Verif.Props.C48_fixed_false", "Verif.Props.C48_fixed_back_ascends", "Verif.Props.C48_fixed_partial", "Verif.Props.C48_fixed_same"], "note": "False of the code: next_back yields ascending entries (negation proved for every map). The partial theorem: every schedule yields each entry once, with an exact len; missing is the order from next_back."},
  {"property": "C50", "status": "proved", "theorems": ["Verif.Props.C50_fixed_into_iter_once", "Verif.Props.C50_fixed_into_iter_extremes"], "note": ""},
  {"property": "C51", "status": "proved", "theorems": ["Verif.Props.C51_avl_allocs", "Verif.Props.C51_avl_total", "Verif.Props.C51_btree_allocs", "Verif.Props.C51_btree_total", "Verif.Props.C51_avlset_allocs", "Verif.Props.C51_avlset_total", "Verif.Props.C51_btreeset_allocs", "Verif.Props.C51_btreeset_total", "Verif.Props.C51_fixed_allocs", "Verif.Props.C51_fixed_total"], "note": ""},
  {"property": "C52", "status": "proved", "theorems": ["Verif.Props.C52_avl_in_place", "Verif.Props.C52_avl_insert", "Verif.Props.C52_avl_no_copies", "Verif.Props.C52_avl_retain_copies", "Verif.Props.C52_btree_in_place", "Verif.Props.C52_btree_insert", "Verif.Props.C52_btree_no_copies", "Verif.Props.C52_btree_retain_copies", "Verif.Props.C52_avlset_in_place", "Verif.Props.C52_avlset_insert", "Verif.Props.C52_avlset_no_copies", "Verif.Props.C52_btreeset_in_place", "Verif.Props.C52_btreeset_insert", "Verif.Props.C52_btreeset_no_copies", "Verif.Props.C52_fixed_in_place", "Verif.Props.C52_fixed_insert", "Verif.Props.C52_fixed_no_copies"], "note": ""},
  {"property": "C53", "status": "proved", "theorems": ["Verif.Props.C53_avl_shared_reads", "Verif.Props.C53_btree_shared_reads", "Verif.Props.C53_avlset_shared_reads", "Verif.Props.C53_btreeset_shared_reads", "Verif.Props.C53_fixed_shared_reads"], "note": ""},
  {"property": "C54", "status": "proved", "theorems": ["Verif.Props.C54_avl_values", "Verif.Props.C54_avl_snapshot", "Verif.Props.C54_avl_snapshot_range", "Verif.Props.C54_avl_others", "Verif.Props.C54_avl_threads", "Verif.Props.C54_avl_no_leak", "Verif.Props.C54_avl_written", "Verif.Props.C54_avl_written_range", "Verif.Props.C54_btree_values", "Verif.Props.C54_btree_snapshot", "Verif.Props.C54_btree_snapshot_range", "Verif.Props.C54_btree_written", "Verif.Props.C54_btree_written_range", "Verif.Props.C54_btree_others", "Verif.Props.C54_btree_threads", "Verif.Props.C54_btree_no_leak"], "note": ""},
  {"property": "C55", "status": "proved", "theorems": ["Verif.Props.C55_btree_remove", "Verif.Props.C55_btreeset_remove", "Verif.Props.C55_btreeset_take", "Verif.Props.C55_avl_copies", "Verif.Props.C55_btree_getMut_copies", "Verif.Props.C55_fixed_copies"], "note": ""},
  {"property": "C56", "status": "proved", "theorems": ["Verif.Props.C56_btree_programs", "Verif.Props.C56_btree_insert", "Verif.Props.C56_btree_remove", "Verif.Props.C56_btree_get", "Verif.Props.C56_fixed_programs", "Verif.Props.C56_fixed_insert", "Verif.Props.C56_fixed_remove", "Verif.Props.C56_fixed_get", "Verif.Props.C56_avl_programs", "Verif.Props.C56_avl_insert", "Verif.Props.C56_avl_remove", "Verif.Props.C56_avl_get", "Verif.Props.C56_avl_merge", "Verif.Props.C56_btree_honest_programs", "Verif.Props.C56_btree_honest", "Verif.Props.C56_fixed_honest_programs", "Verif.Props.C56_fixed_honest", "Verif.Props.C56_avl_honest_programs", "Verif.Props.C56_avl_honest"], "note": ""},
  {"property": "C57", "status": "partial", "theorems": ["Verif.Props.C57_btree_extend", "Verif.Props.C57_fixed_extend", "Verif.Props.C57_avl_extend", "Verif.Props.C57_btree_append", "Verif.Props.C57_btree_splitOff", "Verif.Props.C57_btree_retain", "Verif.Props.C57_avl_append_partial", "Verif.Props.C57_avl_splitOff_partial", "Verif.Props.C57_avl_append_false", "Verif.Props.C57_avl_splitOff_false", "Verif.Props.C57_avl_splitOff_len_false", "Verif.Props.C57_btree_extend_honest", "Verif.Props.C57_fixed_extend_honest", "Verif.Props.C57_avl_extend_honest", "Verif.Props.C57_btree_append_honest", "Verif.Props.C57_avl_append_honest_partial", "Verif.Props.C57_avl_splitOff_honest_partial"], "note": "False of AvlMap: append and split_off interrupted by a panic of the comparison leave an empty tree that keeps its old length (witnesses), and split_off miscounts if the comparison is no order. Proved for BTreeMap and for extend of all maps; the partial theorems: AvlMap append and split_off when they return, and what is left when they do not."},
  {"property": "C58", "status": "proved", "theorems": ["Verif.Props.C58_avl_programs", "Verif.Props.C58_avl", "Verif.Props.C58_btree_programs", "Verif.Props.C58_btree", "Verif.Props.C58_fixed_programs", "Verif.Props.C58_fixed"], "note": ""},
  {"property": "C59", "status": "partial", "theorems": ["Verif.Props.C59_avl_partial", "Verif.Props.C59_avl_alone", "Verif.Props.C59_avl_false", "Verif.Props.C59_btree_partial", "Verif.Props.C59_btree_false", "Verif.Props.C59_fixed_partial", "Verif.Props.C59_fixed_false", "Verif.Props.C59_fixed_unsafe"], "note": "False as stated, with witnesses: a removal interrupted by a panic of Clone loses entries and keeps len, and later operations panic; in fixed::BTreeMap ins_split then counts an empty slot as a child. Proved: the removal returns as usual, or what is left is some of the entries (in order except for fixed) with the old len; an AvlMap that shares nothing never calls Clone."},
  {"property": "C60", "status": "partial", "theorems": ["Verif.Props.C60_drop", "Verif.Props.C60_into_iter_partial", "Verif.Props.C60_into_iter_panic", "Verif.Props.C60_into_iter_false"], "note": "False of into_iter, with a witness: whenever a panic leaves the drop of the iterator, something was given away or destroyed twice. Proved: dropping a map destroys everything at most once; the iterator does so too if its drop ends well, in particular if no destructor panics."},
  {"property": "C61", "status": "partial", "theorems": ["Verif.Props.C61_avl", "Verif.Props.C61_btree", "Verif.Props.C61_fixed_partial", "Verif.Props.C61_fixed_false"], "note": "Proved for AvlMap and BTreeMap. False of fixed::BTreeMap (witness): clear interrupted by a panic leaves an empty map with its old len. The partial theorem: maps are reachable, or empty with a wrong len that the next insertion puts right; reachable if no destructor panics in clear."},
  {"property": "C62", "status": "partial", "theorems": ["Verif.Props.C62_avl_partial", "Verif.Props.C62_avl_equal_keys", "Verif.Props.C62_avl_false", "Verif.Props.C62_btree_partial", "Verif.Props.C62_btree_equal_keys", "Verif.Props.C62_btree_false", "Verif.Props.C62_fixed", "Verif.Props.C62_avl_extend", "Verif.Props.C62_btree_extend", "Verif.Props.C62_fixed_extend"], "note": "Proved for fixed::BTreeMap and for all removals. False of insert of AvlMap and BTreeMap (witnesses): the new key is left with the old value. The partial theorems say that this is the only difference, and that there is none if equal keys are identical."},
  {"property": "C63", "status": "proved", "theorems": ["Verif.Props.C63_pop", "Verif.Props.C63_top_mut", "Verif.Props.C63_remove", "Verif.Props.C63_split_off", "Verif.Props.C63_iter_mut", "Verif.Props.C63_programs", "Verif.Props.C63_others"], "note": "Elements with marks for shared nodes; a program is stopped only by an abort in clear (two panicking destructors)."},
  {"property": "C64", "status": "partial", "theorems": ["Verif.Props.C64_clear", "Verif.Props.C64_clear_partial", "Verif.Props.C64_clear_bound", "Verif.Props.C64_clear_false"], "note": "Proved: the stack is left empty and nothing is destroyed twice or left out. The bound on nesting is false if a destructor panics (for every n, nesting n deep with n + 1 elements); it holds as long as none does."},
  {"property": "C65", "status": "proved", "theorems": ["Verif.Props.C65_avl", "Verif.Props.C65_avl_merge", "Verif.Props.C65_avl_split_extend", "Verif.Props.C65_btree", "Verif.Props.C65_btree_extend", "Verif.Props.C65_btree_retain", "Verif.Props.C65_btree_retain_calls", "Verif.Props.C65_fixed", "Verif.Props.C65_fixed_extend", "Verif.Props.C65_btree_range", "Verif.Props.C65_avl_range"], "note": "A counter in the state of an arbitrary comparison. The bounds are upper bounds."},
  {"property": "C66", "status": "proved", "theorems": ["Verif.Props.C66_stack_runs", "Verif.Props.C66_stack_step", "Verif.Props.C66_stack_enough", "Verif.Props.C66_stack_counts", "Verif.Props.C66_stack_no_leak"], "note": "On reference-counted memory with exact counts.  Which element remove has lost depends on where Clone panics; the theorem allows either."},
  {"property": "C67", "status": "partial", "theorems": ["Verif.Props.C67_avl", "Verif.Props.C67_avl_reachable", "Verif.Props.C67_btree_partial", "Verif.Props.C67_btree_false", "Verif.Props.C67_btree_reachable", "Verif.Props.C67_fixed", "Verif.Props.C67_fixed_reachable"], "note": "Full for AvlMap and fixed.  False for BTreeMap (witness): Node::chk looks at the children 0..len and the last only.  Proved for trees without excess children."},
  {"property": "C68", "status": "partial", "theorems": ["Verif.Props.C68_node_iter", "Verif.Props.C68_into_partial", "Verif.Props.C68_into_back_partial", "Verif.Props.C68_into_back_false"], "note": "Full for NodeIter.  False for NodeIntoIter::next_back: proved never to yield an entry, right for the first call on an inner node; its next is proved.  The bug is not reachable through the public API, since InnerIter::next_back calls next (C48)."},
  {"property": "C69", "status": "partial", "theorems": ["Verif.Props.C69_exact_false", "Verif.Props.C69_avl_partial", "Verif.Props.C69_avl_range", "Verif.Props.C69_btree_partial", "Verif.Props.C69_btree_range_mut"], "note": "False for the ExactSizeIterators: size_hint is (0, None), and len of take, skip, peekable and zip panics (proved).  len itself is exact, and the hints of the ranges are correct after every schedule (range of BTreeMap: C23_btree_range)."},
  {"property": "C70", "status": "proved", "theorems": ["Verif.Props.C70_avl", "Verif.Props.C70_btree", "Verif.Props.C70_avlset", "Verif.Props.C70_btreeset", "Verif.Props.C70_stack", "Verif.Props.C70_btree_iter", "Verif.Props.C70_btree_range"], "note": "Exact text for the collections, with and without #; for the iterators, that the parts that could panic do not.  N >= 1 for BTreeMap."},
  {"property": "C71", "status": "partial", "theorems": ["Verif.Props.C71_false", "Verif.Props.C71_avl_partial", "Verif.Props.C71_btree_partial", "Verif.Props.C71_fixed", "Verif.Props.C71_fixed_front"], "note": "False for AvlMap (the whole subtree is lost and len is too high) and for BTreeMap (the assertion of next fails ever after if the entry was the last of its node, and len is too high); both proved with witnesses, with what remains.  Holds for fixed::BTreeMap, in the order of C48."},
  {"property": "C72", "status": "partial", "theorems": ["Verif.Props.C72_avl_false", "Verif.Props.C72_avl_partial", "Verif.Props.C72_avl_alone", "Verif.Props.C72_btree"], "note": "False for AvlMap: the roots are taken first, so a panic leaves maps without entries whose len() is what it was (C72_avl_false). Proved for AvlMap: the operations do not panic by themselves and otherwise have their effect. Proved in full for BTreeMap (N >= 1)."},
  {"property": "C73", "status": "partial", "theorems": ["Verif.Props.C73_stacked_false", "Verif.Props.C73_merge_false", "Verif.Props.C73_partial", "Verif.Props.C73_small_partial"], "note": "False under Stacked Borrows, for every map of two entries or more (C73_stacked_false); with repaired accessors still false for merge_kids (C73_merge_false).  Holds where a reference to a slot reaches the whole array, and under every rule for maps of at most one entry.  Keys and values are taken to occupy memory."},
  {"property": "C74", "status": "proved", "theorems": ["Verif.Props.C74_own", "Verif.Props.C74_insert", "Verif.Props.C74_get_mut", "Verif.Props.C74_take", "Verif.Props.C74_append", "Verif.Props.C74_split_off", "Verif.Props.C74_retain", "Verif.Props.C74_avl_into", "Verif.Props.C74_btree_into"], "note": "For AvlMap and for the consuming iterators of AvlMap and BTreeMap (that of fixed is in C71_fixed).  Where the crate itself would panic nothing is said here; C58 and C72 say where it does not.  insert and remove of the B-trees are not included: their models under a panicking Clone leave open which nodes are shared."},
  {"property": "C75", "status": "proved", "theorems": ["Verif.Props.C75_avl_iter_mut", "Verif.Props.C75_avl_skips", "Verif.Props.C75_avl_range_mut", "Verif.Props.C75_avl_for_each_mut", "Verif.Props.C75_avl_own", "Verif.Props.C75_btree_iter_mut", "Verif.Props.C75_btree_skips", "Verif.Props.C75_btree_range_mut", "Verif.Props.C75_btree_range_mut_panics", "Verif.Props.C75_btree_own", "Verif.Props.C75_fixed_iter_mut", "Verif.Props.C75_fixed_iter_mut_order", "Verif.Props.C75_fixed_skips", "Verif.Props.C75_fixed_own"], "note": "For AvlMap, BTreeMap and fixed::BTreeMap (the sets have no mutable iteration).  The three _skips theorems are concrete cases of entries skipped and len() too large."},
  {"property": "C76", "status": "proved", "theorems": ["Verif.Props.C76_btree_range", "Verif.Props.C76_btree_range_may_panic", "Verif.Props.C76_btree_range_honest", "Verif.Props.C76_avl_range", "Verif.Props.C76_avl_range_honest"], "note": "C76_btree_range_may_panic is a concrete case of the crate's own panic with an exclusive lower bound and contradictory answers."}
]}
