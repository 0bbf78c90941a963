{"id": "C01", "title": "AvlMap::insert behaves like a map update", "statement": "On any AvlMap, insert(k,v) returns the value previously stored under a key equal to k (or None), afterwards every lookup of a key equal to k finds exactly the pair (k,v), every lookup of another key gives what it gave before, iteration order stays strictly ascending, and len() grows by one exactly when None was returned.", "quantifier": "every map reachable through the public API, every key and value, every total preorder on keys", "why_tests_cant": "The tree shapes reachable by insertion are unbounded; a test samples a few insertion orders and key types.", "anchors": ["src/avl.rs: AvlMap::insert, ins, rebal_lf_to_rt, rebal_rt_to_lf, rot_lf, rot_rt, rot_lf_rt, rot_rt_lf"]}
{"id": "C02", "title": "AvlMap removal behaves like map removal", "statement": "remove/remove_entry return the entry stored under a key equal to the probe (or None) and afterwards the map holds exactly the other entries in the same order; pop_first/pop_last remove and return the least/greatest entry; len() drops by one exactly when something was returned.", "quantifier": "every reachable map, every borrowed probe whose order is consistent with the key order", "why_tests_cant": "Deletion has many rebalancing cases whose combinations depend on the whole tree; tests sample them.", "anchors": ["src/avl.rs: AvlMap::remove, remove_entry, pop_first, pop_last, rm, rm_leftmost, rm_rightmost"]}
{"id": "C03", "title": "AvlMap stays logarithmically shallow and its height counters never overflow", "statement": "After any history of operations every node's two subtrees differ in height by at most one, the cached heights equal the true heights, a map with n entries has depth at most about 1.45 log2(n+1), so with fewer than 2^64 entries no 8-bit height counter overflows.", "quantifier": "every history of public operations on AvlMap", "why_tests_cant": "Depth bounds concern trees of every size; no test can build a map of 2^60 entries.", "anchors": ["src/avl.rs: Node::bal, Node::is_bal, Node::height, height, ins, rm, join, split"]}
{"id": "C04", "title": "No AvlMap operation panics internally", "statement": "None of the internal unwraps and asserts of AvlMap (rotations of absent children, join height assertions, taking a missing node, length underflow) is reachable from any map built through the public API.", "quantifier": "every history of public operations; every argument", "why_tests_cant": "Absence of a panic over all histories is a universal claim.", "anchors": ["src/avl.rs: rot_lf, rot_rt, rot_lf_rt, rot_rt_lf, rebal_lf_to_rt, rebal_rt_to_lf, join_rt, join_lf, join2, take_node, AvlMap::split_off"]}
{"id": "C05", "title": "AvlMap::split_off partitions the map at the key", "statement": "split_off(q) leaves in self exactly the entries with key < q and returns a map with exactly the entries with key >= q (including the entry equal to q); both keep correct len() and remain balanced search trees.", "quantifier": "every reachable map, every probe (present or absent)", "why_tests_cant": "Every split point of every tree shape exercises a different chain of joins.", "anchors": ["src/avl.rs: AvlMap::split_off, split, join, join_rt, join_lf"]}
{"id": "C06", "title": "AvlMap::append and new_union merge with right-hand precedence", "statement": "append(a,b) / new_union(a,b) contain exactly the keys of a and b; a key in both carries b's key and value; append leaves b empty; len() is the number of distinct keys.", "quantifier": "every pair of reachable maps", "why_tests_cant": "Pairs of tree shapes are unbounded and precedence is only visible with equal but distinguishable keys.", "anchors": ["src/avl.rs: AvlMap::append, AvlMap::new_union, union, Merger::merge"]}
{"id": "C07", "title": "AvlMap intersection, difference and symmetric difference are exact", "statement": "new_intersect keeps exactly the left entries whose key is in the right map; new_diff keeps exactly the left entries whose key is not in the right map; new_sym_diff keeps exactly the entries whose key is in one map only. Results are ordered, balanced and have the correct len().", "quantifier": "every pair of reachable maps", "why_tests_cant": "Same: unbounded pairs of shapes and key overlaps.", "anchors": ["src/avl.rs: new_intersect, new_diff, new_sym_diff, intersect, diff, sym_diff, Merger::merge, split, join2"]}
{"id": "C08", "title": "AvlMap::new_join concatenates", "statement": "When every key of lhs is less than key and every key of rhs is greater, new_join(lhs,key,val,rhs) holds the entries of lhs, then (key,val), then those of rhs, with len() the sum plus one, balanced, and without panicking whatever the two sizes.", "quantifier": "every pair of reachable maps with the separating key, every size difference", "why_tests_cant": "The height difference between the two trees is unbounded and each value takes another path in join.", "anchors": ["src/avl.rs: AvlMap::new_join, join, join_rt, join_lf"]}
{"id": "C09", "title": "AvlMap::retain keeps exactly the accepted entries", "statement": "After retain(f) the map holds exactly the entries for which f returned true, with the value f left in the entry, in ascending order, with the right len(); f is called exactly once per entry.", "quantifier": "every reachable map, every (stateful) closure", "why_tests_cant": "Closures are arbitrary functions; the result tree is rebuilt by joins whose shapes depend on the kept subset (2^n subsets).", "anchors": ["src/avl.rs: AvlMap::retain, retain, join, join2"]}
{"id": "C10", "title": "AvlMap::retain visits entries in ascending key order", "statement": "As with the standard map that AvlMap advertises to match, a stateful closure passed to retain observes the entries in ascending key order.", "quantifier": "every reachable map, every stateful closure", "why_tests_cant": "The order is observable only through the closure's side effects; a test with a pure predicate can never see it.", "anchors": ["src/avl.rs: retain"]}
{"id": "C11", "title": "AvlMap iteration is double-ended, exact and fused under every schedule", "statement": "For iter, iter_mut, into_iter, keys, values, into_keys, into_values: under any interleaving of next() and next_back(), next() yields the least and next_back() the greatest entry not yet yielded, every entry is yielded exactly once, len() is always the exact number left, and after exhaustion both keep returning None.", "quantifier": "every reachable map and every finite schedule of next/next_back calls", "why_tests_cant": "There are 2^n schedules for n entries.", "anchors": ["src/avl.rs: InnerIter::next, InnerIter::next_back, InnerIter::len, AvlMap::iter, iter_mut, into_iter, into_keys, into_values, NormIterNode::destruct, IterMutNode::destruct, IntoIterNode::destruct"]}
{"id": "C12", "title": "AvlMap::range yields exactly the entries within the bounds", "statement": "range(lo..hi) (any mix of included, excluded and unbounded ends) yields, under any schedule of next/next_back, exactly the entries whose key satisfies both bounds, in order; size_hint's upper bound is never too small; inverted bounds give an empty range rather than a panic.", "quantifier": "every reachable map, every pair of bounds, every schedule", "why_tests_cant": "Bounds and shapes are unbounded; pruning is done on a deque with both ends interacting.", "anchors": ["src/avl.rs: AvlMap::range, AvlMap::range_mut, Range::size_hint"]}
{"id": "C13", "title": "In-place mutation touches exactly the targeted values", "statement": "Writing through get_mut, iter_mut, values_mut, range_mut or for_each_mut changes exactly the values addressed, each to what was written, and changes no key, no other value, not len() and not the shape.", "quantifier": "every reachable map, every function applied to the values", "why_tests_cant": "The written functions and maps are arbitrary.", "anchors": ["src/avl.rs: AvlMap::get_mut, iter_mut, range_mut, for_each_mut", "src/btree.rs: BTreeMap::get_mut, iter_mut, range_mut"]}
{"id": "C14", "title": "len() and is_empty() always agree with the contents", "statement": "After any history of operations on an AvlMap or BTreeMap, len() is the number of entries iteration yields and is_empty() holds exactly when there are none.", "quantifier": "every history of public operations (not interrupted by a panicking closure)", "why_tests_cant": "Histories are unbounded; len is cached and updated separately from the tree.", "anchors": ["src/avl.rs: AvlMap::len, is_empty", "src/btree.rs: BTreeMap::len, is_empty, rm_and_rebal"]}
{"id": "C15", "title": "A panicking retain closure leaves the collection consistent", "statement": "If the closure given to retain panics at any call and the panic is caught, the collection left behind still satisfies len() == number of entries.", "quantifier": "every collection and every call at which the closure panics (crash points)", "why_tests_cant": "Crash points are one per closure call on every possible tree.", "anchors": ["src/avl.rs: AvlMap::retain", "src/avl/avl_set.rs: AvlSet::retain", "src/btree.rs: BTreeMap::retain", "src/btree/btree_set.rs: BTreeSet::retain"]}
{"id": "C16", "title": "Equality, ordering and hashing depend only on the entries", "statement": "Two AvlMaps (or BTreeMaps, or sets) compare equal exactly when their entry sequences are equal, compare in lexicographic order of those sequences, and feed identical data to a hasher when equal - however differently their trees were built.", "quantifier": "every pair of reachable collections", "why_tests_cant": "The same contents has many tree shapes; tests compare a handful.", "anchors": ["src/avl.rs: PartialEq, PartialOrd, Ord, Hash for AvlMap", "src/btree.rs: PartialEq, Ord for BTreeMap", "src/btree/btree_set.rs: Hash for BTreeSet"]}
{"id": "C17", "title": "BTreeMap::insert behaves like a map update", "statement": "On any BTreeMap with branching parameter N >= 1: insert(k,v) returns the previously stored value (or None); afterwards lookups of keys equal to k find (k,v), other lookups are unchanged, iteration stays strictly ascending, len() grows by one exactly when None was returned.", "quantifier": "every N >= 1, every reachable map, every key and value", "why_tests_cant": "Splits propagate through an unbounded number of levels.", "anchors": ["src/btree.rs: BTreeMap::insert, Node::insert, Node::split"]}
{"id": "C18", "title": "BTreeMap removal behaves like map removal", "statement": "remove, pop_first and pop_last on a BTreeMap with N >= 1 return the right entry (or None) and leave exactly the others; len() is adjusted exactly when something was returned.", "quantifier": "every N >= 1, every reachable map, every probe", "why_tests_cant": "Merges and rotations cascade to any depth.", "anchors": ["src/btree.rs: BTreeMap::remove, pop_first, pop_last, rm_and_rebal, Node::remove, Node::pop_first, Node::pop_last, Node::rebal, rot_lf, rot_rt, merge_kids"]}
{"id": "C19", "title": "BTreeMap stays a valid B-tree of logarithmic depth", "statement": "After any history, all leaves are at the same depth, every non-root node holds between N and 2N+1 entries, and so a map with n entries has depth at most log_{N+1}((n+1)/2)+1.", "quantifier": "every N >= 1 and every history", "why_tests_cant": "Depth and occupancy over all histories is a universal claim.", "anchors": ["src/btree.rs: Node::insert, split, rebal, rot_lf, rot_rt, merge_kids, BTreeMap::rm_and_rebal"]}
{"id": "C20", "title": "No BTreeMap operation panics internally", "statement": "None of the internal unwraps/asserts/index operations (rotating from a poor child, rebalancing a leaf, popping from an empty node, iterator assertions, length underflow) is reachable from a BTreeMap with N >= 1 built through the public API.", "quantifier": "every N >= 1, every history, every iterator schedule", "why_tests_cant": "Universal absence of a panic.", "anchors": ["src/btree.rs: Node::split, rot_lf, rot_rt, merge_kids, rebal, rm_and_rebal, InnerIter::next, InnerIter::next_back"]}
{"id": "C21", "title": "Every branching parameter accepted by the type works", "statement": "btree::BTreeMap<K,V,N> is public for every constant N; insert and iteration work for every N a caller can write, including N = 0.", "quantifier": "every constant N", "why_tests_cant": "Tests instantiate a fixed handful of N.", "anchors": ["src/btree.rs: BTreeMap, Node::split, max_occupancy, InnerIter::next"]}
{"id": "C22", "title": "BTreeMap iteration is double-ended, exact and fused under every schedule", "statement": "For iter, iter_mut, into_iter, keys, values: under any interleaving of next() and next_back(), the least/greatest remaining entry is yielded, each entry exactly once, len() is exact, no internal assertion fails, and exhaustion is permanent.", "quantifier": "every N >= 1, every reachable map, every finite schedule", "why_tests_cant": "2^n schedules; the two ends share partially consumed nodes.", "anchors": ["src/btree.rs: InnerIter::next, InnerIter::next_back, BorrowedNodeIter, IntoNodeIter, make_node_iter, make_into_node_iter"]}
{"id": "C23", "title": "BTreeMap::range yields exactly the entries within the bounds and panics only on bad bounds", "statement": "range(lo..hi) with lo <= hi yields under any schedule exactly the entries satisfying both bounds in order; size_hint's lower bound is never too large and its upper bound never too small; it panics when hi < lo, and otherwise only for two excluded bounds at the same key.", "quantifier": "every N >= 1, every reachable map, every pair of bounds, every schedule", "why_tests_cant": "Unbounded bounds, shapes and schedules.", "anchors": ["src/btree.rs: BTreeMap::range, Range::new, make_worklist, find_range_edges, cmp_bd, Range::size_hint, RangeMut::new, make_mut_worklist"]}
{"id": "C24", "title": "BTreeMap range rejects (Excluded k, Excluded k) independently of the contents", "statement": "Like the standard map, whether range panics for two equal excluded bounds depends only on the bounds, not on which keys happen to be stored.", "quantifier": "every map and every key", "why_tests_cant": "Whether a key is present at the bound, and in an inner node, is data dependent.", "anchors": ["src/btree.rs: Range::new, find_range_edges, make_worklist"]}
{"id": "C25", "title": "BTreeMap bulk operations: append, extend, retain, split_off", "statement": "append moves all entries of other into self with other's entries winning and leaves other empty; extend is successive insertion; retain keeps exactly the accepted entries and calls the closure once per entry in ascending order; split_off(q) leaves the entries < q and returns those >= q.", "quantifier": "every N >= 1, every pair of reachable maps, every closure, every probe", "why_tests_cant": "Unbounded inputs and closures.", "anchors": ["src/btree.rs: BTreeMap::append, extend, retain, split_off, FromIterator"]}
{"id": "C26", "title": "Bulk construction: the last write wins", "statement": "Collecting a sequence of pairs into an AvlMap/BTreeMap, From<[_;M]> and extend give exactly one entry per distinct key, carrying the last key and value of the sequence for it.", "quantifier": "every finite sequence of pairs, with arbitrary repeats", "why_tests_cant": "Sequences are unbounded.", "anchors": ["src/avl.rs: Extend, FromIterator, From for AvlMap", "src/btree.rs: Extend, FromIterator, From for BTreeMap"]}
{"id": "C27", "title": "Entry API", "statement": "entry(k).or_insert(v) (and or_default, or_insert_with, or_insert_with_key) inserts only if k is absent, never runs the default closure when k is present, and returns a reference to the value now stored under k; and_modify applies f exactly when k is present; first_entry/last_entry address the least/greatest key.", "quantifier": "every reachable AvlMap or BTreeMap, every key, every default and closure", "why_tests_cant": "Universal over maps and closures.", "anchors": ["src/lib.rs: Entry::and_modify, or_aux, or_default, or_insert, or_insert_with, or_insert_with_key", "src/avl.rs: AvlMap::entry, first_entry, last_entry", "src/btree.rs: BTreeMap::entry, first_entry, last_entry"]}
{"id": "C28", "title": "Lookup through any borrowed form agrees", "statement": "get, get_key_value, contains_key, get_mut, first_key_value and last_key_value agree with iteration: a probe finds the unique entry comparing equal to it, if any.", "quantifier": "every reachable map, every probe type whose ordering is consistent with the key ordering", "why_tests_cant": "Universal over maps and probes.", "anchors": ["src/avl.rs: AvlMap::get, get_key_value, contains_key, first_key_value, last_key_value", "src/btree.rs: BTreeMap::get, get_key_value, contains_key, first_key_value, last_key_value, Node::get_key_value"]}
{"id": "C29", "title": "AvlMap and BTreeMap are interchangeable", "statement": "Any sequence of map operations issued to an AvlMap and to a BTreeMap<_,_,N> (any N >= 1) yields the same results and the same contents at every step.", "quantifier": "every history of the common operations, every N >= 1", "why_tests_cant": "Histories are unbounded.", "anchors": ["src/avl.rs: AvlMap", "src/btree.rs: BTreeMap"]}
{"id": "C30", "title": "AvlMap deserialization is insensitive to the size hint and input order", "statement": "Deserializing a sequence of entries into an AvlMap gives the same map as inserting them one after another, for every size hint (absent, exact, too small, too large), every order and any duplicates; an error of the deserializer is reported as an error; no internal assertion fails.", "quantifier": "every finite entry sequence, every size hint below usize::MAX", "why_tests_cant": "Hint and sequence vary independently without bound; unsorted or truncated inputs take rarely exercised rebuild paths.", "anchors": ["src/lib.rs: MapVisitor::visit_map, build_map_by_halves", "src/avl.rs: Map for AvlMap (make_half, make_whole, stitch, check_half), Node::chk"]}
{"id": "C31", "title": "BTreeMap deserialization is insensitive to the size hint and input order", "statement": "The same for BTreeMap with every N >= 1.", "quantifier": "every finite entry sequence, every size hint below usize::MAX, every N >= 1", "why_tests_cant": "The bottom-up stitching has many shape cases that depend on the length; truncated inputs create malformed intermediate trees.", "anchors": ["src/lib.rs: MapVisitor::visit_map, build_map_by_halves", "src/btree.rs: Map for BTreeMap (make_half, make_whole, stitch, check_half), Node::stitch, Node::chk"]}
{"id": "C32", "title": "Deserialization never panics whatever length prefix the input claims", "statement": "A hostile length prefix (size hint) can make deserialization fail or be ignored but not panic.", "quantifier": "every size hint representable in usize", "why_tests_cant": "The failing value is one out of 2^64.", "anchors": ["src/lib.rs: build_map_by_halves"]}
{"id": "C33", "title": "Serialization round trip", "statement": "Serializing a map or set and deserializing the result yields an equal collection.", "quantifier": "every reachable map or set", "why_tests_cant": "Universal over collections.", "anchors": ["src/avl.rs: Serialize, Deserialize for AvlMap", "src/btree.rs: Serialize, Deserialize for BTreeMap", "src/lib.rs: MapVisitor::visit_map"]}
{"id": "C34", "title": "Lazy set operation iterators", "statement": "difference, intersection, union and symmetric_difference of two sets yield in strictly ascending order exactly the elements they name, each once; for elements in both sets the one yielded is the element stored in the right operand.", "quantifier": "every pair of reachable sets (AvlSet or BTreeSet)", "why_tests_cant": "Pairs of sets are unbounded; which of two equal elements is yielded is invisible with plain integers.", "anchors": ["src/lib.rs: SortedMergeIter::next, SetOpIter::next, make_set_op_iter", "src/avl/avl_set.rs: difference, intersection, union, symmetric_difference", "src/btree/btree_set.rs: difference, intersection, union, symmetric_difference"]}
{"id": "C35", "title": "AvlSet subset, superset and disjointness tests", "statement": "is_subset(a,b) holds exactly when every element of a is in b, is_superset is its converse, is_disjoint holds exactly when there is no common element - regardless of how much structure the two sets share.", "quantifier": "every pair of reachable sets, every pattern of internal sharing between them", "why_tests_cant": "The pointer-equality shortcut makes the result depend on sharing history, which tests sample thinly.", "anchors": ["src/avl/avl_set.rs: AvlSet::is_subset, has_all, is_superset, is_disjoint"]}
{"id": "C36", "title": "BTreeSet subset and superset tests", "statement": "BTreeSet::is_subset(a,b) holds exactly when every element of a is in b, and is_superset is its converse.", "quantifier": "every pair of reachable sets", "why_tests_cant": "Universal over pairs; random pairs are almost never equal, the case that matters.", "anchors": ["src/btree/btree_set.rs: BTreeSet::is_subset, is_superset"]}
{"id": "C37", "title": "BTreeSet union, intersection, difference, symmetric difference", "statement": "new_union, new_intersection, new_diff, new_sym_diff (and | & - ^) contain exactly the elements they name whichever internal strategy the relative sizes select; on union the right operand's element is kept.", "quantifier": "every pair of reachable sets of any relative size", "why_tests_cant": "The strategy switches on size ratios; all pairs of sizes matter.", "anchors": ["src/btree/btree_set.rs: new_union, new_intersection, new_diff, new_sym_diff, BitAnd, BitOr, BitXor, Sub"]}
{"id": "C38", "title": "AvlSet union, intersection, difference, symmetric difference", "statement": "new_union, new_intersection, new_diff, new_sym_diff (and | & - ^) on AvlSet contain exactly the elements they name; union keeps the right operand's element, intersection the left's.", "quantifier": "every pair of reachable sets", "why_tests_cant": "Universal over pairs.", "anchors": ["src/avl/avl_set.rs: new_union, new_intersection, new_diff, new_sym_diff, BitAnd, BitOr, BitXor, Sub"]}
{"id": "C39", "title": "Which of two equal keys is stored", "statement": "insert on a map or set that already holds an equal key stores the newly supplied key (unlike the standard collections, which keep the old one); set.insert then returns false; set.replace returns the old element; take removes and returns the stored element; get returns the stored element.", "quantifier": "every reachable collection and every pair of equal but distinguishable keys", "why_tests_cant": "Needs key types with equal but distinguishable values, over all tree positions.", "anchors": ["src/avl.rs: ins", "src/btree.rs: Node::insert", "src/avl/avl_set.rs: insert, replace, take, get", "src/btree/btree_set.rs: insert, replace, take, get"]}
{"id": "C40", "title": "Set retain keeps exactly the accepted elements in ascending order of visits", "statement": "AvlSet::retain and BTreeSet::retain call the closure once per element in ascending order and keep exactly the accepted elements.", "quantifier": "every reachable set, every stateful closure", "why_tests_cant": "Closures are arbitrary; 2^n kept subsets.", "anchors": ["src/avl/avl_set.rs: AvlSet::retain", "src/btree/btree_set.rs: BTreeSet::retain"]}
{"id": "C41", "title": "Stack is a LIFO list", "statement": "Any sequence of push, pop, top, top_mut, clear, len, is_empty, contains, extend, iteration on a Stack behaves as on a list with the top first; len() equals the number of elements.", "quantifier": "every history of stack operations", "why_tests_cant": "Histories are unbounded.", "anchors": ["src/stack.rs: Stack::push, pop, top, top_mut, clear, contains, len, is_empty, iter, iter_mut, into_iter, extend, from"]}
{"id": "C42", "title": "Stack::remove and Stack::split_off count from the bottom", "statement": "remove(i) removes and returns the i-th element from the bottom and panics exactly when i >= len(); split_off(i) leaves the bottom i elements and returns the others as a stack in the same order, and panics exactly when i > len(); lengths stay right.", "quantifier": "every stack and every index", "why_tests_cant": "Universal over stacks and indices.", "anchors": ["src/stack.rs: Stack::remove, Stack::split_off"]}
{"id": "C43", "title": "Stack comparison", "statement": "Stacks are equal exactly when their element sequences are equal and are ordered lexicographically from the top; partial_cmp agrees with cmp for totally ordered elements.", "quantifier": "every pair of stacks", "why_tests_cant": "Universal over pairs.", "anchors": ["src/stack.rs: PartialEq, PartialOrd, Ord for Stack"]}
{"id": "C44", "title": "Clones are isolated: stacks", "statement": "After cloning a Stack, any interleaving of operations on the original and on the clones is observed by each exactly as if each had its own deep copy, although they share memory.", "quantifier": "every history of operations over any number of clones, every sharing pattern", "why_tests_cant": "Sharing patterns and interleavings are unbounded; each mutation picks copy or in-place by reference count.", "anchors": ["src/stack.rs: Stack::clone, push, pop, top_mut, IterMut::next, remove, split_off, clear, Drop"]}
{"id": "C45", "title": "Clones are isolated: maps and sets", "statement": "After cloning a map or set, any interleaving of operations on the original and on the clones (also from several threads) is observed by each exactly as if each had its own deep copy.", "quantifier": "every history over any number of clones, every sharing pattern, every interleaving of atomic node operations", "why_tests_cant": "Sharing patterns, histories and schedules are unbounded.", "anchors": ["src/avl.rs: Arc::make_mut / Arc::try_unwrap / Arc::get_mut uses in ins, rm, rot_*, split, merge, retain, get_mut, iter_mut", "src/btree.rs: Arc::make_mut / try_unwrap uses in Node::insert, get_mut, rot_lf, rot_rt, merge_kids, remove", "src/btree/fixed.rs, src/btree/core.rs: Arc::make_mut / try_unwrap uses in insert, get_mut, rm_and_rebal, rot_lf, rot_rt, merge_kids, IterMut, NodeIntoIter"]}
{"id": "C46", "title": "Reference counts are exact: no leak, no premature free", "statement": "After any history, each internal node's reference count equals the number of links and handles to it; a node is freed exactly when the last one disappears; dropping all handles frees all nodes.", "quantifier": "every history over any number of handles", "why_tests_cant": "Requires tracking every reference in every sharing pattern.", "anchors": ["src/stack.rs: Stack::clear, Drop, pop, remove, split_off", "src/avl.rs: take_node, split, merge"]}
{"id": "C47", "title": "The fixed-layout BTreeMap behaves like a map", "statement": "btree::fixed::BTreeMap insert, get, get_mut, remove, iter and len behave as on a sorted association list.", "quantifier": "every history of its operations", "why_tests_cant": "Array-shifting splits and merges at every index of every level.", "anchors": ["src/btree/fixed.rs: BTreeMap", "src/btree/core.rs: Node::insert, ins_no_split, ins_split, Splitter, rot_lf, rot_rt, merge_kids, rebal, pop_greatest, remove"]}
{"id": "C48", "title": "The fixed-layout BTreeMap iterates correctly from both ends", "statement": "btree::fixed::BTreeMap's iterators yield entries in ascending order from next and in descending order from next_back.", "quantifier": "every reachable map and every schedule", "why_tests_cant": "Schedules are unbounded.", "anchors": ["src/btree/core.rs: InnerIter::next_back, NodeIntoIter::next_back", "src/btree/fixed.rs: iter, iter_mut, into_iter"]}
{"id": "C49", "title": "Clearing or dropping a Stack never recurses deeply", "statement": "Stack::clear and Stack's Drop free a stack of any length, shared with others in any way, with at most one level of recursion in dropping nodes, and their loop ends within len() + 1 rounds.", "quantifier": "every stack after every history, every sharing pattern", "why_tests_cant": "Lengths and sharing patterns are unbounded; a test only shows that some length did not overflow the call stack.", "anchors": ["src/stack.rs: Stack::clear, Drop for Stack"]}
{"id": "C50", "title": "Consuming a fixed-layout BTreeMap moves out or destroys each entry once", "statement": "btree::fixed::BTreeMap::into_iter, driven by any calls of next/next_back and dropped at any time, never reads a slot that was moved out, and each entry owned by the map is either moved to the caller or destroyed by the drop, exactly once; entries of shared nodes are cloned and not destroyed.", "quantifier": "every reachable map, every schedule, every point of dropping, every pattern of sharing of nodes", "why_tests_cant": "Schedules, drop points and sharing patterns are unbounded; a double drop of plain data is not visible to a test.", "anchors": ["src/btree/core.rs: NodeIntoIter::next, Drop for NodeIntoIter, InnerIter, new_into_iter", "src/btree/fixed.rs: into_iter"]}
{"id": "C51", "title": "Clones are free and updates of shared collections copy few nodes", "statement": "Cloning an AvlMap, BTreeMap, AvlSet, BTreeSet or fixed::BTreeMap allocates no node. insert, remove, remove_entry, pop_first, pop_last, get_mut and the entry API, and take and replace of sets, on a collection of n entries allocate O(log n) nodes (at most 3*1.45*(log2(n+1)+1) for removals from an AvlMap or AvlSet, at most 3*(log_{N+1}((n+1)/2)+1) for removals from a BTreeMap, BTreeSet or (with N = 5) fixed::BTreeMap whose nodes have at least N entries, for instance), even if all nodes are shared with clones; into_iter, conversion to a Vec, clear, drop and all reads allocate none. So a program of t such operations, with any number of clones, allocates O(t log t) nodes.", "quantifier": "every state reachable by any history of operations and threads, every sharing pattern, every operation and argument", "why_tests_cant": "The bound is over all tree shapes and sharing patterns; allocations are not visible to a test of results.", "anchors": ["README.md lines 3-8", "src/lib.rs lines 3-9", "src/avl.rs: AvlMap::clone, insert, remove, rot_lf, rot_rt, Arc::make_mut in get_mut", "src/btree.rs: BTreeMap::clone 546, insert 683-714, rm_and_rebal 819-837, Node::insert, split, rebal_kid, rot_lf, rot_rt", "src/avl/avl_set.rs: insert, remove, replace, take, pop_first, pop_last", "src/btree/btree_set.rs: insert, remove, replace, take, pop_first, pop_last", "src/btree/fixed.rs: clone, insert 82-119, remove 121-133, get_mut; src/btree/core.rs: Node::insert, rebal, rotate, merge, pop_greatest"]}
{"id": "C52", "title": "Nodes that are not shared are updated in place", "statement": "If no node of an AvlMap, BTreeMap, AvlSet, BTreeSet or fixed::BTreeMap is shared, its updating operations that add no entry allocate nothing. insert allocates nothing if the key is there already; for a new entry it allocates one node in an AvlMap or AvlSet, and in a BTreeMap, BTreeSet or fixed::BTreeMap at most a node for each level (those it splits) and a new root. In a program without clones nothing is copied: only insertions allocate. retain, extend, append, split_off and the consuming set operations are excluded: retain is shown to allocate as many nodes again although nothing is shared.", "quantifier": "every reachable state in which the map's own nodes have one owner each (others may share), every operation; every program without clones", "why_tests_cant": "A needless copy is invisible to tests of results; whether the count is one at each make_mut depends on all temporary handles on all paths.", "anchors": ["src/lib.rs lines 20-23: destructively update nodes with a reference count of one", "README.md line 10: clones its internal state as necessary, namely when that state is shared", "src/avl.rs: Arc::make_mut in insert, rm, rot_lf, rot_rt, get_mut, iter_mut; retain 697-717", "src/btree.rs: Arc::make_mut in insert, get_mut, rm_and_rebal, rot_lf, rot_rt, make_node_iter_mut; retain 902-923", "src/avl/avl_set.rs: insert, remove, take, pop_first", "src/btree/btree_set.rs: insert, remove, take, pop_first", "src/btree/fixed.rs, src/btree/core.rs: Arc::make_mut in insert, remove, get_mut, iter_mut"]}
{"id": "C53", "title": "Operations by shared reference leave memory untouched", "statement": "Lookups, iteration, ranges, for_each, comparisons, hashing and serialization of AvlMap, BTreeMap, AvlSet, BTreeSet and fixed::BTreeMap, and is_subset, is_disjoint, union, intersection, difference and symmetric_difference of sets (all by &self) write to no node, allocate and free none, and touch no reference count, at any step.", "quantifier": "every state reachable by any history of operations and threads, every argument, every schedule of an iterator", "why_tests_cant": "A spurious reference count change or copy does not alter results; all states and schedules are unbounded.", "anchors": ["src/avl.rs: get_key_value, first_key_value, iter, range, for_each, PartialEq, Hash, Serialize", "src/btree.rs: contains_key, get_key_value, first_key_value, iter, range, PartialEq, Serialize", "src/avl/avl_set.rs: contains, get, first, iter, range, is_subset, is_disjoint, union, intersection, difference", "src/btree/btree_set.rs: contains, get, first, iter, range, is_subset, is_disjoint", "src/lib.rs: the set operation iterators", "src/btree/fixed.rs: get, len, is_empty, iter"]}
{"id": "C54", "title": "Iterators yield the entries their map had when they were made", "statement": "An iterator of AvlMap or BTreeMap (iter, range, into_iter, iter_mut, range_mut) that is kept while other maps, clones of the same map among them, are changed, iterated or dropped, and that is called from both ends in any order in between, yields the entries its map had when the iterator was made, each once and with the right remaining length (range iterators count down from the length of the whole map), and the other maps are not affected by it; after a mutable iterator is dropped its map has exactly the written values changed; dropping an iterator at any point leaks no node.", "quantifier": "every program with any number of maps, clones and simultaneous iterators, every interleaving of calls with other operations, every thread schedule", "why_tests_cant": "The tests drive iterators without other operations in between; whether a node is shared at the time of a call depends on the whole history, and interleavings are unbounded.", "anchors": ["src/avl.rs: Iter, IterMut, IntoIter, Range, RangeMut, NodeAction, iter, iter_mut, into_iter, range, range_mut", "src/btree.rs:743-784, 855-873, 1341-1392, 2003-2118: iter, iter_mut, range, range_mut, NodeIter, IterMut, IntoIter"]}
{"id": "C55", "title": "Removing a key that is not there copies nothing", "statement": "remove of BTreeMap and BTreeSet and take of BTreeSet, of a key that is not there, leave memory exactly as it was: no shared node is copied, whatever the collection shares with clones. remove of AvlMap and fixed::BTreeMap, and get_mut of all maps, give no such guarantee: on clones they copy the path to where the key would be.", "quantifier": "every state, every sharing pattern, every key that the collection does not contain; for the exceptions there are witnesses", "why_tests_cant": "A needless copy is invisible to tests of results, and the guarantee is over all sharing patterns.", "anchors": ["src/btree.rs:888-900: BTreeMap::remove, the comment at 894-897", "src/btree/btree_set.rs:319-330: remove, take", "src/btree/fixed.rs:121-133: remove, the TODO at 127-130", "src/avl.rs:627, 1732-1742: rm, remove_entry"]}
{"id": "C56", "title": "No Ord implementation can break the trees", "statement": "Whatever a key type's Ord does (answers that form no order, answers that change from call to call, panics that are caught), the maps never panic on their own account, never reach an unreachable state or read an uninitialised slot, and keep the shape of their trees (balance, node sizes, equal depth of leaves) and, for the one-entry operations, the right length: insert adds one entry or exchanges one, remove takes away the one it reports, get finds an entry of the map, and an operation in which a comparison panics leaves the map as it was. If the comparison is honest but may panic, what returns has done exactly what it does otherwise, and the maps stay such as ordinary programs build (for AvlMap: in programs without append, split_off and retain, see C57).", "quantifier": "every program over any number of maps, every comparison with any state, every pattern of panics", "why_tests_cant": "The tests use well-behaved integer keys; Ord is a safe trait, so a library using unsafe code must be sound for every implementation of it.", "anchors": ["src/avl.rs:527-690, 800-996: ins, rm, diff, intersect, sym_diff, union, split", "src/avl.rs:1070-1160, 1711-1742: get, get_mut, insert, remove_entry", "src/btree.rs:85-180, 493-545, 631-700, 888-900: get, get_mut, insert, remove of nodes and maps", "src/btree/core.rs:66-80, 367-480, 695: search_keys, get, get_mut, insert, remove", "src/btree/fixed.rs:22-60, 121-133"]}
{"id": "C57", "title": "Bulk operations survive a panic of the comparison", "statement": "If a comparison panics in the course of extend, append, split_off or retain and the panic is caught, the maps concerned are sound afterwards: extend and append have inserted the entries before the one at which the panic struck, and the map says the right length; split_off and retain leave an empty map of length 0. (False for AvlMap: append and split_off then leave an empty tree with the old length, and split_off can do so without any panic if the comparison is no order.)", "quantifier": "every map, every comparison with any state, every pattern of panics", "why_tests_cant": "No test lets a comparison panic; which entries are lost depends on the point of the panic.", "anchors": ["src/avl.rs:998-1010, 1759-1800, 2277-2295: append, retain, split_off, extend", "src/btree.rs:553-570, 902-945, 982-990: append, retain, split_off, extend", "src/btree/fixed.rs:162-170: extend"]}
{"id": "C58", "title": "A panicking Clone cannot break insert, get_mut and extend", "statement": "Whatever the Clone of keys and values does when Arc::make_mut copies a shared node (it may panic at any time), insert and get_mut leave the map exactly as it was or do exactly what they do otherwise, and extend leaves the map with the entries before some one of them inserted, or all; no program of such calls, of clones, and of removals during which Clone does not panic ever makes the crate panic on its own account, and all its maps are such as programs without panics build.", "quantifier": "every program over any number of maps, every behaviour of Clone with any state, every pattern of panics", "why_tests_cant": "No test has a Clone that panics; the state left behind depends on the node at which the panic strikes and on which nodes are shared.", "anchors": ["src/avl.rs:349-523, 527-569, 1116-1153: rotations, ins, get_mut, insert", "src/btree.rs:107-322, 661-714, 982-992: get_mut, insert of nodes and maps, extend", "src/btree/core.rs:379-516: get_mut, insert, ins_split", "src/btree/fixed.rs:22-60, 162-170: insert, get_mut, extend"]}
{"id": "C59", "title": "A panicking Clone cannot break removals", "statement": "If Clone panics in the course of a removal (remove, remove_entry, pop_first, pop_last) and the panic is caught, the map is sound afterwards: its length is the number of its entries, the entries are in order, and later operations neither panic on the crate's account nor touch a slot that holds nothing. (False: the rebalancing takes nodes out of their place before it clones, so entries are lost while len stays, the tree loses its shape, later operations panic, and fixed::BTreeMap can be brought to treat a moved-out slot as a child.)", "quantifier": "every map, every behaviour of Clone with any state, every pattern of panics", "why_tests_cant": "No test has a Clone that panics during a removal from a shared map.", "anchors": ["src/avl.rs:349-523, 573-695, 1503-1531, 1732-1742: rotations, rm_leftmost, rm_rightmost, rm, pop_first, pop_last, remove_entry", "src/btree.rs:323-545, 819-900: rot_lf, rot_rt, merge, rebal, pop_first, pop_last, remove", "src/btree/core.rs:450-732: ins_split, rot_lf, rot_rt, merge_kids, rebal, pop_greatest, remove"]}
{"id": "C60", "title": "Nothing in the slots of fixed::BTreeMap is destroyed twice", "statement": "The slots of a node of btree::fixed are MaybeUninit, so that only the code keeps a key, value or child from being destroyed twice. Dropping a map, whatever destructors panic, destroys everything it owns at most once, and exactly once if the drop ends well. For a consuming iterator (into_iter), after any sequence of next and next_back, everything was given to the caller or destroyed at most once when the iterator has been dropped. (The second part is false: Drop for NodeIntoIter sets the lengths to 0 only after the destructors ran, so whenever a panic leaves it, the slots of the node are cleared once more, including those whose contents the caller holds. It is true if no destructor panics.)", "quantifier": "every tree, every sharing of its nodes, every order of calls, every behaviour of Drop with any state", "why_tests_cant": "No test has a destructor that panics, and a double drop is undefined behaviour that a test need not notice.", "anchors": ["src/btree/core.rs:89-97, 259-288: clear, Drop of the slots, Node", "src/btree/core.rs:1092-1303: NodeIntoIter, its Drop, InnerIter"]}
{"id": "C61", "title": "A panicking destructor leaves a well-formed map", "statement": "Whatever the destructors of keys and values do (they may panic at any time), no program of insert, remove, get_mut, extend, clone and clear, in which every such panic is caught, makes the crate panic on its own account, and all its maps are such as programs without panics build; in particular len is the number of entries. (False of fixed::BTreeMap: clear drops the tree before it resets len, so a panic leaves an empty map with the old len, until the next insertion.)", "quantifier": "every program over any number of maps, every behaviour of Drop with any state", "why_tests_cant": "No test has a destructor that panics.", "anchors": ["src/avl.rs:527-569, 1009-1012, 1145-1153, 1711-1742, 2276-2290: ins, clear, insert, remove, extend", "src/btree.rs:131-178, 561-564, 683-714, 819-900, 977-987: insert, clear, remove, extend", "src/btree/fixed.rs:17-20, 42-73, 102-134, 157-167: clear, insert, remove, extend"]}
{"id": "C62", "title": "An insertion or removal interrupted by a destructor is all or nothing", "statement": "If the destructor of the key that an insertion replaces, or of the key that a removal takes out, panics and the panic is caught, the map is as it was before or as it is after an uninterrupted call. (False of insert of AvlMap and BTreeMap, which assign the new key before they store the new value: the map then holds the new key with the old value. True if equal keys are identical, and true of fixed::BTreeMap and of all removals.)", "quantifier": "every map, every key and value, every behaviour of Drop with any state", "why_tests_cant": "No test has a destructor that panics.", "anchors": ["src/avl.rs:541-545: the Equal arm of ins", "src/btree.rs:141-145: the Equal arm of insert", "src/btree/core.rs:398-404, src/btree/fixed.rs:42-73: insert"]}
{"id": "C63", "title": "A panicking Clone never damages a Stack", "statement": "Whatever Clone of the elements does (it may panic at any time), pop, top_mut, remove, split_off and iter_mut panic on no other account than the documented ones, and an interrupted call leaves the stack in order (len is the number of elements) and in a predictable state: top_mut and split_off leave it as it was, pop as after the pop, remove as it was or as after the removal, iter_mut with the writes done so far. Other stacks that share nodes are not affected.", "quantifier": "every stack with any sharing, every program over any number of stacks, every behaviour of Clone with any state", "why_tests_cant": "No test has a Clone that panics, and the number of ways in which sharing and the moment of the panic combine is unbounded.", "anchors": ["src/stack.rs:84-97: IterMut::next", "src/stack.rs:249-279: top_mut, pop", "src/stack.rs:367-404: remove", "src/stack.rs:426-474: split_off"]}
{"id": "C64", "title": "A panicking destructor does not spoil Stack::clear", "statement": "Whatever Drop of the elements does, Stack::clear (and Drop of the stack) leaves the stack empty, destroys each element that no other stack shares exactly once and no other element, unless a second destructor panics, which aborts the process; and it nests destructors at most one deep. (The last is false: if one destructor panics, unwinding drops the remaining list by recursion, so that clearing a stack of n + 1 elements may nest n deep, which is what clear is written to avoid.)", "quantifier": "every stack of any length with any sharing, every behaviour of Drop with any state", "why_tests_cant": "No test has a destructor that panics; the depth of recursion shows only as an overflow of the thread's stack with very long stacks.", "anchors": ["src/stack.rs:306-314: clear", "src/stack.rs:501-506: drop", "src/stack.rs:8-14: List, dropped by glue"]}
{"id": "C65", "title": "Operations make few comparisons", "statement": "On a map of n entries, get, get_mut, insert and remove make at most 1.45 log2 (n+1) comparisons of keys in an AvlMap; at most 2N+1 per level, with at most log_{N+1}((n+1)/2)+1 levels, in a BTreeMap<K,V,N> (remove: twice that); and at most 11 (small keys) or 5 (binary search) per level, with at most log_6((n+1)/2)+1 levels, in a fixed::BTreeMap. range and range_mut of a BTreeMap make at most 4N+3 per level and one more with two bounds, 2N+1 per level with one. Those of an AvlMap make at most 8 per level if every answer agrees with the bounds, and 8 per entry otherwise. extend, append, retain and split_off of BTreeMap make no more than as many insertions (split_off: one more per entry), and retain calls its closure at most once per entry; append and the set operations of AvlMap on n1 and n2 entries at most min(n1, d1*n2)*d2, and split_off 2d, where d, d1, d2 are the greatest depths of trees of such sizes. This holds even if comparisons are inconsistent or panic.", "quantifier": "every map that a program can hold (also one whose comparisons were inconsistent or panicked), every comparison function with any state, every key", "why_tests_cant": "Tests do not count comparisons, and the worst case over all shapes and all answers of the comparison is not found by trying.", "anchors": ["src/avl.rs:541, 638, 964, 1094, 1125: comparisons in ins, rm, split, get_mut, get", "src/btree.rs:97, 114, 140, 500, 579: comparisons in contains, get_mut, insert, remove, get", "src/btree/core.rs:66-88: search in a node", "src/btree.rs:1777-1996: comparisons in find_range_edges, make_worklist"]}
{"id": "C66", "title": "A panicking Clone neither leaks nor breaks nodes that stacks share", "statement": "Whenever Clone of an element panics within an operation on a stack, the operation stops with its own stack as it was, except that pop and into_iter have lost the element they were to return, iter_mut has written the elements before, and remove may have removed its element already; every other stack, also one sharing nodes with it, shows what it showed; the count of each node is the number of stacks and nodes linking to it; later operations work; and when all stacks are dropped, all nodes are freed. With at least as many successful calls of Clone as elements no operation is interrupted.", "quantifier": "every history over any number of stacks, each operation with any number of calls of Clone that succeed before one panics", "why_tests_cant": "No test has a Clone that panics, and counts are not seen by tests; the operations in between sharing and panic are unlimited.", "anchors": ["src/stack.rs:84-112: next of IterMut and IntoIter", "src/stack.rs:249-280: top_mut and pop", "src/stack.rs:367-404: remove", "src/stack.rs:426-474: split_off"]}
{"id": "C67", "title": "The self-checks accept exactly the valid maps", "statement": "chk, on which the tests of the crate rely, accepts a map if and only if its keys ascend strictly, len is the number of entries and the tree is valid: for AvlMap, the cached heights are the true depths and differ by at most one at each node; for the B-trees, all leaves are at one depth and all nodes are populated within the bounds. Every map that programs build passes. (False for BTreeMap: a tree with a node having more children than entries plus one is accepted, the excess child unseen; without such nodes it holds.)", "quantifier": "every map, reachable or not", "why_tests_cant": "The tests are written with chk as the oracle, only ever on maps that the operations have built; whether it would reject a wrong tree is not tested.", "anchors": ["src/avl.rs:155-183: Node::chk", "src/avl.rs:328-336: chk", "src/avl.rs:1897-1911: AvlMap::chk", "src/btree.rs:2162-2256: chk of nodes and maps", "src/btree/core.rs:734-784: chk and chk_aux", "src/btree/fixed.rs:135-146: chk"]}
{"id": "C68", "title": "The node iterators of btree::core alternate between children and entries from both ends", "statement": "NodeIter and NodeIntoIter yield the sequence child, entry, child, ..., child of a node (or its entries, for a leaf), consumed from its two ends by next and next_back, each item once, and None afterwards. (False for NodeIntoIter::next_back, which counts down next_elem_x instead of end_elems: it never yields an entry, but panics or reads a slot that is not initialised.)", "quantifier": "every node with no children or one more than entries; every schedule of next and next_back", "why_tests_cant": "next_back of the node iterators is never called, as InnerIter::next_back calls next.", "anchors": ["src/btree/core.rs:982-1020: NodeIter", "src/btree/core.rs:1034-1082: new", "src/btree/core.rs:1100-1213: NodeIntoIter"]}
{"id": "C69", "title": "size_hint of the iterators", "statement": "The number of entries an iterator will still yield is within its size_hint; for the ExactSizeIterators size_hint is exact, so that len() of take, skip, peekable and zip of them works. (The second half is false: iter, iter_mut and into_iter of the maps and sets are ExactSizeIterator with their own len, but do not define size_hint, so it is (0, None) and the provided len of an adaptor panics.)", "quantifier": "every reachable map; every schedule of next and next_back; every pair of bounds", "why_tests_cant": "The tests call len of the iterators themselves, never of an adaptor, and size_hint of ranges not after every schedule.", "anchors": ["src/avl.rs:2023-2041: Iter", "src/avl.rs:2069-2087: IterMut", "src/avl.rs:2102-2104: size_hint of Range", "src/avl.rs:2214-2232: IntoIter", "src/avl/avl_set.rs:430-482: iterators of AvlSet", "src/btree.rs:1411-1431: Iter", "src/btree.rs:1466-1503: IterMut", "src/btree.rs:1728-1766: IntoIter", "src/btree.rs:2062-2070: size_hint of Range", "src/btree.rs:2145-2153: size_hint of RangeMut", "src/btree/btree_set.rs:362-418: iterators of BTreeSet", "src/btree/core.rs:1258-1312: InnerIter"]}
{"id": "C70", "title": "Debug output shows the contents in order", "statement": "{:?} and {:#?} of a map, set or stack give the documented text: it is determined by the entries in iteration order (for a stack, its length and its elements from the top), whatever the shape and sharing of the nodes. Printing an iterator or range of a BTreeMap at any time does not panic, though printing a node without entries would.", "quantifier": "every reachable collection; every way of printing keys and values; every schedule of next and next_back on the iterator before it is printed", "why_tests_cant": "The doc tests print one small value each; the printing of iterators unwraps the first entry of nodes in the work list.", "anchors": ["src/stack.rs:488-492: fmt", "src/avl.rs:246-250: fmt", "src/avl/avl_set.rs:503-507: fmt", "src/btree.rs:37-43: fmt of Node", "src/btree.rs:965-967: fmt", "src/btree.rs:1245-1251: BorrowedNodeIter", "src/btree.rs:1331-1336: InnerIter", "src/btree.rs:2043-2050: fmt of Range", "src/btree/btree_set.rs:443-447: fmt"]}
{"id": "C71", "title": "A consuming iterator survives a panic of Clone", "statement": "If Clone of an entry panics during next or next_back of into_iter (into_keys, into_values) and the panic is caught, the iterator can be used on: later calls yield the remaining entries in order, at most the entry whose Clone panicked being lost; len() is the number of entries left; and no call panics by itself.", "quantifier": "every reachable map, every sharing of its nodes, every behaviour of Clone, every schedule of next and next_back", "why_tests_cant": "No test has a Clone that panics; whether it is called at all depends on which nodes are shared when the iterator reaches them.", "anchors": ["src/avl.rs:1936-1994: next and next_back", "src/avl.rs:2165-2207: opt_to_iter_node, destruct", "src/btree.rs:1341-1392: next and next_back", "src/btree.rs:1566-1609: next_elem, next_back_elem", "src/btree/core.rs:1108-1148: next", "src/btree/core.rs:1216-1236: drop", "src/btree/core.rs:1263-1303: next and next_back"]}
{"id": "C72", "title": "Bulk operations interrupted by a panicking Clone", "statement": "If Clone of a key or value panics during append, retain or split_off and the panic is caught, every map involved is still valid and its len() is the number of its entries; if Clone does not panic the operation has its ordinary effect. Maps that share nothing are appended and split without calling Clone.", "quantifier": "every reachable map with any nodes shared; every Clone, which may panic whenever it likes; every closure that does not panic; every search key", "why_tests_cant": "No test has a key or value whose Clone panics; which nodes are cloned depends on what is shared.", "anchors": ["src/avl.rs:697-717: retain", "src/avl.rs:719-833: join_rt, join_lf, join, join2", "src/avl.rs:856-942: Merger::merge, union", "src/avl.rs:945-979: split", "src/avl.rs:998-1006: append", "src/avl.rs:1759-1806: retain, split_off", "src/btree.rs:553-559: append", "src/btree.rs:902-938: retain, split_off"]}
{"id": "C73", "title": "Pointers stay within the memory they were derived from", "statement": "Every slice that InlineVec hands out, and every copy through such a slice, stays within the memory that the reference it was derived from may access, and refers to an initialised first slot. (False under Stacked Borrows: keys(), vals() and the like make a slice of len slots out of a reference to slot 0, so nearly every operation on a fixed BTreeMap of two entries or more is undefined; and merge_kids writes behind a slice through the start of the slice. It holds if a reference reaches the whole array.)", "quantifier": "every reachable btree::fixed::BTreeMap; every key; every schedule of the iterators; each of three rules on how far a pointer reaches", "why_tests_cant": "The compiled code does what was meant, so no test fails; only an interpreter that tracks borrows would notice, and only on the inputs it is run on.", "anchors": ["src/btree/core.rs:66-87: search_keys", "src/btree/core.rs:115-143: keys, keys_mut, elems_mut", "src/btree/core.rs:191-204: vals, vals_mut", "src/btree/core.rs:317-361: child, kids, key, val", "src/btree/core.rs:586-641: merge_kids", "src/btree/core.rs:1037-1082: NodeIterRef::new, NodeIterMut::new", "src/btree/core.rs:1197-1211: NodeIntoIter::new"]}
{"id": "C74", "title": "Nothing shared is taken without a clone", "statement": "An entry that something else can still reach becomes the exclusive property of an AvlMap, or is returned or yielded by value, only as a copy made by Clone: counted with multiplicity, the entries owned after an operation, together with those it returned, were owned before, were passed in, or were cloned during the operation. This holds also if Clone panics. If it does not, get_mut, the removals and the consuming iterators clone nothing beyond that, and insert at most the entry it replaces.", "quantifier": "every AvlMap with any pattern of shared nodes, of any shape; every key; every Clone, panicking or not; every closure of retain; for into_iter of AvlMap and BTreeMap, every schedule of next and next_back", "why_tests_cant": "Whether a node is shared depends on which clones are alive; a missing copy shows only if the other holder looks at the entry later.", "anchors": ["src/avl.rs:349-523: rotations and rebalancing", "src/avl.rs:527-569: ins", "src/avl.rs:573-695: rm_leftmost, rm_rightmost, rm", "src/avl.rs:697-717: retain", "src/avl.rs:719-833: join_rt, join_lf, join, join2", "src/avl.rs:856-884: merge", "src/avl.rs:945-979: split", "src/avl.rs:2158-2207: IntoIterNode, destruct", "src/btree.rs:1539-1698: IntoNodeIter"]}
{"id": "C75", "title": "AvlMap, BTreeMap and fixed::BTreeMap: mutable iteration when Clone panics", "statement": "If Clone panics during for_each_mut, iter_mut, values_mut or range_mut of an AvlMap, iter_mut, values_mut or range_mut of a BTreeMap, or iter_mut of a fixed::BTreeMap, or the closure of for_each_mut does, the map keeps all its entries in a valid tree: the values that were handed out are the ones written by the caller, the others are untouched. An iterator may be used again after the panic: it yields distinct entries of the map (within the range), in order from both ends (for fixed::BTreeMap, whose next_back has the order of next, in order if only one end is called), and the crate itself does not panic; but entries at and below the node whose clone panicked may be skipped, and len() stays too large by their number. Whatever is handed out for writing was owned by the map alone or has been cloned. Where range of a BTreeMap panics, so does range_mut, by the crate or by Clone.", "quantifier": "every reachable AvlMap, BTreeMap (every N >= 1) or fixed::BTreeMap with any pattern of shared nodes; every Clone, panicking or not; every closure; every schedule of next and next_back with panics caught in between; every pair of bounds", "why_tests_cant": "Which clone panics depends on which nodes are shared; resuming an iterator after a caught panic is rarely tried.", "anchors": ["src/avl.rs:134-149: Node::for_each_mut", "src/avl.rs:1281-1299: iter_mut", "src/avl.rs:1616-1697: range_mut", "src/avl.rs:1843-1893: values_mut, for_each_mut", "src/avl.rs:1925-2045: InnerIter", "src/avl.rs:2046-2089: IterMutNode, IterMut", "src/btree.rs:762-784: iter_mut", "src/btree.rs:864-873: range_mut", "src/btree.rs:1332-1393: InnerIter", "src/btree.rs:1455-1464: make_node_iter_mut", "src/btree.rs:1940-1996: make_mut_worklist", "src/btree/fixed.rs:86-96: iter_mut", "src/btree/core.rs:1055-1082: IterMut of a node", "src/btree/core.rs:1245-1303: the loop of the iterators"]}
{"id": "C76", "title": "AvlMap and BTreeMap: range queries with a lawless or panicking Ord", "statement": "range and range_mut, on a map built and queried with comparisons that contradict themselves, change their answers or panic, return an iterator or unwind because a comparison panicked. The iterator yields entries of the map, each at most once, in the map's order from either end. AvlMap's never panics by itself; BTreeMap's does so only if k2 < k1 was answered yes or the lower bound is exclusive. If the comparisons keep to an order whenever they answer, an iterator that is returned yields exactly the entries within the bounds, and BTreeMap's range panics by itself only for inverted bounds or two bounds excluding one stored key, for which it never returns an iterator.", "quantifier": "every AvlMap and BTreeMap (every N >= 1) that any program with any comparisons holds; every pair of bounds; every comparison as a function of the key and a changing state; every schedule of next and next_back", "why_tests_cant": "The slices, assertions and flags of the range search rest on answers about different keys being consistent; tests compare with a lawful Ord that never panics.", "anchors": ["src/avl.rs:1534-1613: range", "src/avl.rs:1616-1697: range_mut", "src/btree.rs:855-873: range, range_mut", "src/btree.rs:1777-1882: cmp_bd, find_range_edges", "src/btree.rs:1884-1996: make_worklist, make_mut_worklist", "src/btree.rs:2003-2036: Range::new", "src/btree.rs:2084-2118: RangeMut::new"]}
