# Design of the formal model

Target: `dgmelski/lazy-clone-collections` (Rust, read as text in /repo).
Model and proofs: Lean 4.33.0, `/verif/lean`, built with `lake build`.

## Shape of the development

1. **Specification layer** (`Verif/Spec/*`).  A map is a list of `(key, value)`
   pairs strictly ascending by key; operations are declarative list expressions
   (`filter`, `find?`, `++`).  No tree, no helper of the model appears here.
2. **Model layer** (`Verif/*/Model.lean`).  One Lean function per Rust function,
   same case analysis, same order of effects.  Each definition cites file and
   lines.  `&mut` becomes "returns the new value".  A panic (failed `assert!`,
   `unwrap` of `None`, out-of-range index, `usize` underflow) is an explicit
   result: functions that contain such a point return `Option`, `none = panic`.
3. **Proof layer** (`Verif/*/Lemmas.lean` etc.): invariants, refinement of the
   model to the specification.
4. **Property layer** (`Verif/Props/*.lean`): one theorem (or a few) per property
   id, stated through the specification only, with `example`s showing that the
   hypotheses are met by a concrete non-trivial value.

### Modelling decisions

* **Keys**: `[Ord K] [Std.TransOrd K]` - a total preorder, *not* a linear order.
  Keys may compare equal and still be different values, so "which of two equal
  keys is stored" is observable.
* **Borrowed probes** (`K: Borrow<Q>`): a lookup with `q : Q` only uses
  `q.cmp(k.borrow())`, so a probe is modelled as a function `p : K → Ordering`
  with the law `IsProbe p` (consistent with the key order).  `compare q` is proved
  to be a probe, as is `fun k => compare q (f k)` for order-preserving `f`.
* **Integers**: `usize` as `Nat`, with subtraction guarded (underflow = panic);
  AVL heights (`i8`) as `Int`, with a separate theorem that they stay within
  -128..127 for maps of fewer than 2^64 entries.  The `usize::MAX + 1` overflow in
  the deserializer is modelled explicitly because a property is about it.
* **Sharing**: in the value-level model an `Arc<Node>` is the tree it points to;
  `make_mut`, `try_unwrap`+clone, `get_mut` on a just-made-unique node are the
  identity.  That sharing is invisible is *not* assumed to be free: it is the
  subject of C44/C45/C46, proved on a separate heap model with explicit addresses
  and reference counts.
* `Clone` of keys and values is assumed to return an equal value; `Ord` is assumed
  to be a lawful total preorder; comparison and clone do not panic
  (except in `Wild/*` and `Unwind/*`, see below).
* Allocation never fails; recursion depth (stack overflow) is not modelled.
* Closures are modelled as state transformers `σ → K → V → σ × V × Bool`, so call
  order and call count are observable; a panicking closure is a `none`.

## Per property

| id | modelled / how proved |
|----|----|
| C01 | AVL insert modelled with cached heights and rotations; refinement `toList (ins t k v) = Spec.insert` for ordered balanced trees |
| C02 | `rm`, `rm_leftmost`, `rm_rightmost` likewise |
| C03 | Invariant `Wf` (cached height = true height, balance in -1..1) preserved by every operation; Fibonacci bound by induction |
| C04 | Every model function returns `some`; panics are `none` |
| C05 | `split`/`join` refinement |
| C06, C07 | `Merger.merge` refinement for arbitrary policies and deconflict function, then the four instances |
| C08 | `join` refinement for arbitrary height difference |
| C09 | `retain` with stateful closure; result = filterMap over the list in the visit order |
| C10 | false of the code: visit order is post-order; negation proved by a witness; the true visit order is proved for all maps |
| C11 | Deque-of-actions iterator, induction over the schedule |
| C12 | The two pruning loops modelled on the deque; invariant: concatenated contents filtered by bounds |
| C13 | get_mut / iter_mut modelled as value maps at the addressed positions |
| C14 | Invariant over all operations, lifted to histories |
| C15 | false for AvlMap/AvlSet (negation with witness; exact description of the state left behind), true for BTreeMap/BTreeSet |
| C16 | eq/cmp/hash modelled over the iterators; equal to list equality / lexicographic order / function of the list; `partial_cmp` also for elements that need not be comparable |
| C17-C20 | const-generic B-tree modelled with lists for the two vectors of a node; invariant by height; refinement |
| C21 | N >= 1 by C17-C20; N = 0 false, negation with witness |
| C22 | Deque of partially consumed nodes with descent flags; invariant + induction over schedule |
| C23 | `find_range_edges`/`make_worklist`; refinement to filter |
| C24 | false of the code; negation with witness |
| C25, C26 | built from iteration + insert, refinement |
| C27 | Entry over an abstract map interface instantiated by both maps |
| C28 | lookup refinement |
| C29 | false as stated: `C29_range_fails` (BTreeMap's `range` panics on bounds out of order, AvlMap's does not) and `C29_retain_order_fails`. `C29_map_interchangeable_partial`: a machine over numbered maps (Lib/Api.lean: 24 operations on one map, 5 on two, incl. clone) run on both models; neither panics, results and contents are equal after every step, for every `N ≥ 1` and every assignment of shared nodes. Excluded: such bounds, stateful `retain` closures, hint `usize::MAX`, the `len` of range iterators |
| C30, C31 | `visit_map`/`build_map_by_halves` modelled generically over the Map trait functions, instantiated twice; shape-of-length lemma; chk sound |
| C32 | false at hint = usize::MAX; negation with witness; true for all smaller hints by C30/C31 |
| C33 | corollary of C30/C31 + iteration |
| C34 | SortedMergeIter/SetOpIter modelled as step functions on two lists; refinement to filter/merge |
| C35 | `has_all` with its explicit work stack, pointer equality as an arbitrary sound oracle |
| C36 | false of the code (equal non-empty sets); negation + exact characterisation (`_partial`) |
| C37, C38 | from map operations |
| C39 | corollaries with a non-antisymmetric key order |
| C40 | retain in in-order |
| C41-C44, C49 | `stack.rs` modelled on the explicit heap (below); a register machine over any number of stacks is proved to be observed exactly as a machine over independent lists |
| C45 | the operations of `AvlMap`, `BTreeMap`, `AvlSet`, `BTreeSet` and `btree::fixed::BTreeMap` as programs on the explicit heap (`Verif/AvlHeap/*`, `Verif/BTreeHeap/*`, `Verif/FixedHeap/*`), each proved to do what the value-level model does whatever else shares its nodes; then for every program and every history of threads (below): same observations as with deep copies |
| C46 | invariant `Own` of the heap: counts are exact after every atomic step |
| C47 | `btree::core`/`btree::fixed`: the `InlineVec` operations run on arrays of slots (initialised or not) and are proved to act as list operations whatever the spare slots hold; the node operations are proved equal to those of the const-generic B-tree with N = 5 on well-formed nodes, so its refinement applies; both searches (linear, binary) are proved to agree |
| C48 | false (`next_back` calls `next` of the last node iterator): negation for every map and with a witness; `_partial`: every schedule yields every entry once; `into_iter` and `iter` agree under every schedule |
| C50 | `NodeIntoIter` on slots that are emptied when moved out; reading or dropping an emptied slot is undefined; what is dropped and what is lost is computed |
| C51 | nodes allocated so far are counted by memory itself (`Mem.next`); `Spends` (below) bounds them for each operation by the depth of the tree, which balance bounds by 1.45 log2 (AVL) and log_{N+1} (B-tree) |
| C52 | the same proof with cost 0 for `make_mut`, valid while all counts are one; a frame theorem (`Heap/Alone`) carries it to a map whose own nodes are unshared while others share; `retain` copies (witness) |
| C53 | the programs are proved to consist of read steps only (comparing memory before and after would miss a count taken and given back) |
| C54 | iterators are objects of the machine, called one `next` at a time between other commands (`Heap/Live`, below); on values an iterator is the list of entries left; `AvlMap` and `BTreeMap`; the sets' iterators are projections of these |
| C55 | the whole machine state (memory with its counts, and the maps) is shown equal before and after, given that `contains_key`/`contains` says false there; witnesses count the copies made by `AvlMap::remove`, `fixed::BTreeMap::remove` and `get_mut` |
| C56 | comparisons are arbitrary functions on an arbitrary state that answer or panic (`Wild/*`, below); a panic of the crate's own is a separate outcome, proved not to occur; machines over numbered maps that catch every panic |
| C57 | the same for the loops of `extend`, `append`, `split_off`, `retain`; what was moved out of the maps when the panic struck is lost, as in the source; false of `AvlMap::append`/`split_off` (witnesses) |
| C58 | `Clone` of a node's entries is an arbitrary function on an arbitrary state that returns or panics (`Unwind/*`, below), asked by `make_mut` of every node that may be shared; programs that catch every such panic |
| C59 | the same for removals; false (witness programs for all three maps; for `fixed` one in which no assertion fails and a slot that holds nothing counts as a child); proved: what is left, and that an unshared `AvlMap` never calls `Clone` |
| C60 | slots that never become empty, and a ledger of everything given away or destroyed (`Drop/Raw`, below); destructors are arbitrary functions on an arbitrary state that return or panic; false of `into_iter` (every panic is shown to cause a repetition; concrete witness) |
| C61 | programs over numbered maps with such destructors, every panic caught (`Drop/Core`); false of `fixed::BTreeMap::clear` (witness) |
| C62 | the same for one call, compared with the specification; false of `insert` of `AvlMap` and `BTreeMap` (witnesses) |
| C63 | lists of elements with marks "shared"; every call under an arbitrary `Clone` (`Unwind/Stack`) |
| C64 | the same with an arbitrary `Drop`; the nesting of destructors is counted; false of the nesting (a family of witnesses of every length) |
| C65 | any comparison with a counter in its state (`Wild/Count`), run through the functions of the lawless layer; the bounds are those of C51's depths times the comparisons of one node |
| C66 | the programs of `Verif/Stack` on the explicit heap, each with the number of calls of `Clone` that succeed (`Stack/Panic`); proved by the same program logic, so counts are exact |
| C67 | `chk` of all three maps on arbitrary trees, validity stated by true depths; soundness and completeness by induction on the tree; for `BTreeMap` a concrete accepted tree with an excess child, and the equivalence without such |
| C68 | `NodeIter` over lists with both flags, `NodeIntoIter` over slots that are emptied when moved out of; invariant relating the flags to the numbers of entries and children left.  For `NodeIntoIter::next_back`: what is wrong, and that a first call on an inner node is right |
| C69 | `size_hint` of each iterator type as a function of the iterator state, the standard adaptors' hints as documented; bounds from the invariants of C12 and C23 |
| C70 | the `std::fmt` builders as functions on strings (`entry` by `entry`, with the padding of `#`), each `fmt` over what the collection's iterator yields; text compared with `String.intercalate` |
| C71 | `next` and `next_back` of the consuming iterators with an arbitrary `Clone` asked for every entry of a shared node, at the place in the code where it is asked (`Unwind/Into`); what the calls show is related to the list of entries by the inductive relation `Follows`. `fixed`: yields and drops counted |
| C72 | `join`, `split`, `merge` and `retain` of `avl.rs` over trees with marks of shared nodes, each clone a step that may unwind; `append`, `retain`, `split_off` of both maps; `BTreeMap`'s are loops over `into_iter` of C71 and `insert` of C58.  False for `AvlMap` (witness); what is left of it, and `BTreeMap`, proved |
| C73 | false as stated: `Fixed/Prov` repeats the functions of `core.rs` with a *reach* for every pointer derived from a reference, under three rules (Stacked Borrows; the same with repaired accessors; whole array); `ProvSpec` shows where they agree with the plain model |
| C74 | over the marked trees of `Unwind/Avl`, `Bulk` and `Into`: `own` lists the entries with no shared node above them, `tally` is any `Clone` with a count of its copies; an accounting lemma for each function (`Unwind/Own`, `OwnInto`), composed along `andThen`.  Counted by keys, for every set of keys.  Not for `insert`/`remove` of the B-trees, whose models here leave open which nodes are shared (`BTreeHeap` has the copying of those) |
| C75 | over the marked trees of `Unwind/Avl`: references are paths from the root, `make_mut` at a path clears the mark there and sets it on the children; the work list holds pending paths, pairwise apart and each with no mark above it (`Ours`); any schedule of calls, a panic ending one call only.  `for_each_mut` by recursion, with a closure that may panic.  `BTreeMap`: the iterator over the tree whose values carry their slots (`BTree/Mut`), its nodes marked as owned or not; the calls are related to those without panics, the kid whose clone panics being lost; what is handed out is counted against what is owned and cloned.  `fixed::BTreeMap`: likewise, over the iterators of `Fixed/Iter`; for any schedule the entries are taken out of a bag, `next_back` having the order of `next` |
| C76 | `Wild/Range` repeats the range searches with comparisons that read and change a state and may panic; `RangeSpec`: whatever is answered, the work list holds well-shaped pieces of the tree, in order (a sublist of the entries; not always a stretch, as the examples show), and with answers by an order it is the work list of the value models.  The iterators compare nothing, so their theorems for any schedule apply |

## The explicit heap (`Verif/Heap/*`)

* Memory: cells with a reference count and a node (data and links), indexed by
  addresses; allocation takes fresh addresses.  An atomic step (`Op.step`) is one
  operation of `Arc`/`Rc`: allocate, read through a handle, clone a link (`inc`,
  `incAt`), `is_unique`, drop (`dec`: the last one frees the cell and hands out its
  contents), `try_unwrap`, and taking out / putting back the contents of a node
  known to be unshared (`open`, `close`: access through `&mut Node`).  A step on a
  freed cell, or `open` of a shared one, has no result: undefined behaviour.
* Programs (`Prog`) are trees of such steps, so they can be run alone (`exec`) or
  interleaved (`PRun`).
* `Own h L`: `L` is the multiset of all handles held by anybody, with the values they
  stand for; counts are exact, memory is acyclic, handles marked `uniq` are unshared.
* `wp p L Q`: run by steps with *any* other handles present at each step, `p` never
  meets undefined behaviour, never panics, and ends with `Q`.  Since the rest of the
  world is arbitrary at each step, the same proof covers other owners of shared nodes
  and other threads (`Pool.run`, `Pool.progress`, `Pool.done`).
* Recursion in `drop` and loops carry a bound; exceeding it is a panic, so bounds are
  proved to suffice.
* Sequential consistency of the atomic count operations is assumed (the standard
  library's orderings are not modelled).

### Maps on the explicit heap (`Verif/AvlHeap/*`, `Verif/BTreeHeap/*`, `Verif/Heap/Machine, Threads, History, Deep`)

* `AvlHeap/Model`, `IterModel`: the node functions of avl.rs again, now as programs of atomic
  steps, with `Arc::make_mut`, `try_unwrap`, `get_mut().unwrap()` where the source has them.
  A clone made by `make_mut` increments the counts of the children one by one, so another thread
  may drop its share in between.
* `AvlHeap/Ops`, `Access`, `IterSpec`, `MutSpec`: each is proved (`wp`) to give the tree that the
  value-level function gives.
* `AvlHeap/Map`: the operations of `AvlMap` (37 on one map, 6 on two, 3 comparing two) as an
  `Impl` of `Heap/Machine`, on memory (`avlM`) and on values (`avlV`).  Nothing is assumed of the
  key order, probes, bounds and closures; `Ok` (balanced, no more nodes than `len`) suffices.
* `BTreeHeap/*`: the same for btree.rs (`Model`, `IterModel`, `RangeModel` the programs; `Ops`,
  `Remove`, `Access`, `IterSpec`, `IntoSpec`, `RangeSpec`, `MutSpec`, `RangeMutSpec` the proofs;
  `Map`, `MapSpec` the map).  Here the state invariant is `WF` of the value-level model, so the
  theorems need a lawful key order (`TransOrd`), `MIN_OCCUPANCY >= 1` and a `borrow()` that keeps the
  order; keys without a lawful order are not covered for `BTreeMap`.
* `AvlHeap/Set`, `SubsetSpec`, `SetSpec` and `BTreeHeap/Set`, `SetSpec`: the sets (22 operations on
  one set, 5 consuming or joining two, 7 comparing two).  `is_subset` of `AvlSet` compares
  addresses of nodes, an atomic step here (`ptrEq`); what the value-level model leaves to an
  arbitrary sound oracle is proved to be such an oracle.  `Heap/SetOps` holds the lazy set
  operations (`SortedMergeIter`), which run while both sets are borrowed.  The operators on
  references (`&a | &b`, ...) are three commands: two clones and the operation that consumes them.
* `FixedHeap/*`: the same for btree/fixed.rs and btree/core.rs, `Kids` being slot arrays of links
  handled by the `InlineVec` operations of `Fixed/InlineVec`; an uninitialised slot read is a panic.
  The data of a node are one list of entries (two arrays moved in step in the code), as in
  `Fixed/Model`.  `NodeIntoIter` of an unshared node keeps its elements and links in arrays from
  which it moves out (`OI.owned`); of a shared node it clones (`OI.leased`).
* `Heap/Machine`: programs are lists of commands on numbered objects; naming a missing object
  skips the command.  `Heap/Threads`: a history is a list of phases; in a phase the objects are
  dealt out to threads, which interleave by atomic steps in any way.
* `Heap/Deep`: `deepClone` copies every node; it is proved to leave every existing node with its
  count alone.  `avlD` is `avlM` with `deepClone` for `clone`.
* Simplifications: the iterators are driven by a schedule within one command (see below for
  iterators kept across commands); `eq` and `cmp` read both maps before comparing; a thread owns its maps
  (several threads reading one map through `&` are not covered); of panicking closures only
  `retain`'s is covered.

### Iterators kept alive (`Verif/Heap/Live`, `Verif/AvlHeap/Live, LiveSpec`, `Verif/BTreeHeap/Live, LiveSpec`)

* `Impl.live` extends a machine: an object is idle, or in use by iterators.  `start` makes an
  iterator, `use` calls one, `stop` drops them.  While a map is borrowed shared it can still be read,
  cloned and iterated by more iterators; while it is borrowed mutably only its iterator can be used;
  an owning iterator has replaced its map.  Commands that the borrow checker would refuse are skipped.
* A shared iterator holds references into nodes but no counts (the borrow keeps the nodes alive), so
  it is part of its map's object; its drop does nothing.
* An owning iterator takes nodes apart or copies them, by their counts at the time of the call.
* Simplification: what is written to the items of a mutable iterator is written when they are
  yielded, by a function of call number, key and value given when the iterator is made (the source
  lets the caller keep all `&mut V` until the borrow ends).

### Counting allocations (`Verif/Heap/Cost, MachineCost, Alone, SetOpsCost`, `Verif/AvlHeap/Cost, MapCost, SetCost`, `Verif/BTreeHeap/Cost, MapCost, SetCost`, `Verif/FixedHeap/Cost, MapCost`)

* `Mem.next` counts the cells ever allocated (addresses are not reused), so what an operation
  allocates is the difference of `next`.
* `Cost I p n`: run from memory with invariant `I`, `p` allocates at most `n` and keeps `I`.  The
  cost `c` of `make_mut` is a parameter (`Frugal I c`): 1 in any memory, 0 if all counts are one.
* `Spends I p L Q n` combines `wp` and `Cost`, so the bound may depend on the result (an insertion
  that replaces a value allocates less).
* `Heap/Alone`: what a program does depends only on the cells reachable from its handles, so a bound
  for memory with all counts one holds for a map whose own nodes have count one.
* Counted are `Arc`s of nodes; `Vec` buffers inside nodes, and the entries that
  `Arc::unwrap_or_clone` clones out of a shared node when two nodes merge, are not.
* `ReadOnly`, `NoAlloc`: programs made of read steps, or of steps other than allocation.

### Lawless comparisons (`Verif/Wild/*`)

* `Cmp σ K := K → σ → Option Ordering × σ`: the comparison of some key with the keys of a tree; `none`
  is a panic; `σ` is anything that the comparison reads or changes.  `tame p` is the comparison
  that always answers by `p`; for it each function is proved equal to the one of the value models.
* `Ends N R`: a function returned (`done`) or was left by a panic of the comparison (`unwound`, with
  what it leaves behind `&mut` and `self`).  An outer `none` is a panic of the crate's own or
  undefined behaviour.
* `Wild/Core`: the searches of nodes; `Focus`: entries as an order-free list with a place in it;
  `BTree`, `Fixed`, `Avl`: the node functions, with the moves out of `self` in the order of the source, so
  that what is left after a panic is what the source leaves; `*Spec`: shapes and contents;
  `Seq`: the loops of `extend`, `append`, `retain`, `split_off`; `Range`: the searches of `range` and
  `range_mut`, for `AvlMap` with any three tests in place of `k <= key`, `k >= key` and `contains`;
  `*Machine`: programs.
* `Honest c p`: the comparison panics when it likes but answers, if it answers, by `p`.  `Wild/Honest`:
  then a function that returns returns what the value model returns; `HonestRun`: programs with
  such comparisons keep every map `Reachable`, so all theorems about reachable maps hold after
  caught panics (`AvlMap`: programs without `append`, `split_off` and `retain`; see C57).
* Simplifications: values, no heap (a shared node whose path was copied before the panic is equal to
  the original); keys are only compared, `Clone` does not panic.

### Counting comparisons (`Verif/Wild/Count`)

* `counted c` is the comparison `c` on a state with a counter that every call raises by one.  The
  functions are those of the lawless layer, unchanged; they make a comparison where the source calls
  `cmp`.  `Ticks c μ`: a call of `c` raises `μ` by one at most; the lemmas are stated for it.
  `RangeCount`: the range search of `BTreeMap`, which visits two nodes on a level at most.
  `SeqCount`: `retain` and `split_off` of `BTreeMap`; what the closure of `retain` does is not counted.
  `AvlRangeCount`: the range search of `AvlMap`, `range.contains` counted as two comparisons; the bound by
  the depth needs answers that keep to bounds, and an example exceeds it without.
* `perNode lin n`: comparisons of a search among `n` keys: `n` if linear (core.rs:72-83), and one more
  than the halvings of `n` if binary.  The binary search is the standard library's (core.rs:85); the
  model halves the range as its current versions do, and older versions make no more comparisons.
* `BTreeMap::remove` asks `contains` first (a second search), hence the factor two.
* The bounds are not shown to be least.

### Panicking `Clone` (`Verif/Unwind/*`)

* `Cl σ K V := List (K × V) → σ → Bool × σ`: cloning the entries of a node; `true` is a panic.  `Ends`
  and the outer `none` are as above.
* `Unwind/Core`: programs over numbered maps (`Kit`), each call with a `Clone` of its own, every panic
  of `Clone` caught; `extend` as a loop of insertions.
* `Avl`: trees whose nodes carry the mark that they are shared; a copied node shares its children
  from then on; `AvlSpec`, `AvlMap`: what is left; `AvlAlone`: without marks, `Clone` is not called.
* `BTree`, `Fixed`: no marks; `Clone` is asked at every `make_mut` of a node that was not copied in the same
  call, so that every sharing is covered (an unshared node is one whose clone does not panic).
* In all three, what a function has taken out of its place when it is unwound is dropped, as in the
  source.  `FixedHole`: `ins_split` on a full node with a child missing.
* Simplifications: a panic within the cloning of one node is not told from one at its start or end (the
  half-made copy is dropped); comparisons and `Drop` do not panic; `for_each_mut`, `iter_mut`,
  `values_mut` and `range_mut` of `AvlMap` are in `Unwind/Mut`, those of `BTreeMap` in `Unwind/BMut`, that of `fixed::BTreeMap` in `Unwind/FMut`; `into_iter` is in `Unwind/Into`, `append`, `split_off` and `retain` in `Unwind/Bulk`, `Stack` below.
* `Into`: the consuming iterators.  `Clone` is asked for the entries of nodes that are not owned; a panic
  leaves the iterator as it is at that line (`Arc`s taken out are dropped).  `IntoSpec`: proofs.
* `Mut`: mutable iteration over `AvlMap`; a `&mut Node` is the path from the root.  `MutSpec`: proofs.
* `BMut`: mutable iteration over `BTreeMap`; a `&mut V` is the slot of its entry, and what the caller wrote is
  stored at the end; the links are marked as the only ones or not.  `BMutSpec`, `BMutOwn`: proofs.
* `FMut`: the same for `fixed::BTreeMap`, whose iterators share one loop.  `FMutSpec`: proofs.
* `Bulk`: the functions on whole trees of `avl.rs` own what they work on, so a panic leaves nothing
  of it; the maps are what the callers had assigned by then.  `BulkSpec`: what they do; `BulkAlone`: without
  marks, `append` and `split_off` call no `Clone`.  The sets are not modelled here (most delegate to the maps).

### Panicking `Drop` (`Verif/Drop/*`)

* `Drop/Raw`: the nodes of `btree/core.rs` as slots with identities.  Taking something out of a slot or
  destroying it does not empty the slot (`MaybeUninit`), but is written to a ledger; a repetition in the
  ledger is a double drop or a use after a move.  Drop glue goes on with the next field after a panic, a
  loop does not; a second panic aborts.  `NodeIntoIter` with its `Drop`, `InnerIter` from both ends.
* `Drop/Core`: the places where the maps destroy keys and values: the key replaced by `insert`, the key
  in `remove`, the values replaced in `extend`, everything in `clear`.  An assignment whose destructor panics
  still assigns.  Programs as for panicking `Clone`.
* `Drop/Avl, BTree, Fixed`: `insert` and `clear` of the three maps in the order of the source.
* Simplifications: the destructor of a key or value is one event; whether a reference to a node is the last
  one is fixed beforehand; in `clear` only whether some destructor panics matters; for `fixed` the replaced key
  is found by `get`.  Not covered: destructors in `append`, `split_off`, `retain`, the set operations and
  the consuming iterators of the other two maps (which are safe Rust).

### Stacks with panicking `Clone` and `Drop` (`Verif/Unwind/Stack`)

A stack is `len` and the list of its elements, each with a mark that another `Rc` leads to its node.
`Rc::make_mut` of a marked node calls `Clone`, unmarks it and marks the node below; `try_unwrap`
of a marked node fails.  Marks are not cleared when the other stack goes away, so `Clone` is called at
least as often as by the code; as every theorem is about an arbitrary `Clone`, and for `clear` about
arbitrary marks, nothing is lost.  The heap model of `Verif/Stack` has exact counts;
`Stack/Panic` (C66) adds panics of `Clone` to it, but not of `Drop`.  `clear` is modelled with its loop, the assignment that drops the old
node, and the drop glue that runs when unwinding drops the local `hd`; the depth counted is that of
destructors of nodes within each other.

On the heap (`Verif/Stack/Panic`) an operation is given `k`, the number of calls of `Clone` that succeed;
the next one panics.  An operation calls `Clone` no more after that, so this is every behaviour of `Clone` as
far as memory is concerned (elements are copied as they are; C63 has a `Clone` that changes them).
`derive(Clone)` of `List` clones the element before the link, so a panic in `make_mut` changes no count.
A panic is caught by the caller, who goes on with all stacks.

## Trusted base

* Lean's kernel; axioms used by the theorems: at most `propext`,
  `Classical.choice`, `Quot.sound` (listed by `#print axioms`).
* The faithfulness of the hand-written model to the Rust source (each definition
  carries its citation and its simplifications; `COVERAGE.md` lists the functions of the source
  with their models).
* The semantics of the Rust standard library pieces used by the code (`Vec`,
  `VecDeque`, `Option`, `Arc`/`Rc` count operations, `Iterator` adaptors such as
  `zip`, `filter`, `partition`, `peekable`), taken as documented.

Not modelled: `Debug` of the nodes of `avl.rs` and `btree/core.rs` (not reachable from outside) and the layout of printed iterators, benchmarks, memory exhaustion, stack overflow, atomics' memory ordering, and the aliasing rules for references except for how far pointers reach (C73: `InlineVec` and its users; not whether a later borrow invalidates a pointer).
