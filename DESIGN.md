# Design of the formal model of PMem_DS

The properties are in `properties.jsonl`, the state of each one in `MANIFEST.json`.
The Lean 4 project is in `lean/`; one directory per part of the library, and inside it
`Model.lean` (transcription of the C++), `Spec.lean` (independent specification) and
`Thms.lean`/`Props.lean` (property theorems); helper lemmas are in separate files.

## Trusted base

* The Lean 4 kernel (4.33.0) and the Mathlib definitions that occur in statements.
* Axioms: no own axioms. Theorems use at most `propext`, `Classical.choice`, `Quot.sound`
  (checked by `#print axioms`, see the table at the end, which is kept per theorem).
  No `sorry`, `native_decide`, `bv_decide`.
* The transcription of the C++ into the model definitions. Every model definition cites the
  file and lines it transcribes, and states its simplifications.
* For C47 and C58: the behaviour of libpmemobj transactions as written in `Tx/Model.lean` (undo log complete when
  `get_rw`/assignment returns, log applied newest to oldest at the next open, allocations and frees published at
  the commit point). The library is not part of the repository.

## General modelling decisions

* Outcomes. C++ undefined behaviour (out-of-range array access, null dereference, use of freed
  memory, reading an uninitialised slot where the result matters), thrown exceptions and failed
  asserts are distinct outcomes of the type `Res` (`ok`, `ub`, `throws`, `assertFail`), never
  silently identified with a normal result. "No operation touches memory outside a node" is part of
  every refinement theorem because it states that the outcome is `ok`.
* Keys. Trees and lists are generic over a linearly ordered key type. Where the code depends on the
  concrete type (numeric_limits, conversions to size_t, one-byte fingerprints) the model uses
  integers of explicit width.
* Sequential semantics. The library has no internal concurrency; schedules are not modelled.
* Persistent memory. `get_ro`/`get_rw` and `pptr` dereference are plain reads/writes of the current
  value. Crash behaviour is modelled separately (module `Crash`): undo-log transactions, and
  in-order persistence for code that runs without a transaction.
* B+ trees (`BTree/`). A tree of depth d is an element of a type indexed by d: depth 0 is the id of a leaf,
  depth d+1 a branch node `BNode {num, keys, kids}`. The arrays are functions to `Option` (`none` =
  uninitialised) with explicit bounds checks: an access outside the capacity and a read of an
  uninitialised slot are `ub`; stale contents behind `num` are kept. Leaves live in a heap addressed by
  ids, with next/prev pointers; freeing a leaf removes it from the heap and any later access is `ub`. Branch
  nodes are values because the operations create no aliases of branch nodes (freeing them is not
  modelled). A replacement of the root that happens at a level below the root (underflow with the wrong
  depth) is reported as `ub` at once. Branch algorithms shared by several trees are modelled once and
  parametrised by the leaf operations (`LeafOps`); the comments cite each file.
* FPTree (`FPTree/`). Leaves have a bitmap, fingerprints, keys and values; the contents of new leaves are
  arbitrary (`jf`, `jk`, `jv`), and never written back by the model. The tag of the union `LeafOrBranchNode`
  is not modelled. Keys of the `int` instance are converted to `size_t` where the code does so.
* Recovery (`BTree/Recover.lean`). `recover` of FPTree and HPBPTree over the leaf chain in the heap. The loop over
  the chain has fuel = number of allocated ids, which is enough for every acyclic chain.
* Crashes (`FPTree/Crash.lean`). Writes persist in program order, one element or bit at a time; hardware
  reordering of writes to different cache lines is not modelled (it would make more states reachable).
* Crashes in leaf operations (`BTree/Crash.lean`, `BTree/SortedCrash.lean`, `Unsorted/Crash.lean`, `BitTree/Crash.lean`). The
  inserts and erases of the trees run outside of transactions. An operation on a leaf is written out as its list of
  assignments; after a crash a prefix is done (for the Bit trees also: an arbitrary subset). The branch nodes of PBPTree,
  UnsortedPBPTree and BitPBPTree are persistent, so lookups run on the same tree with the damaged leaf. The programs are
  proved to end in the state of the whole operation of the tree model. `newLeafNode`, splits, merges and updates of
  branch nodes under crashes are not covered by C72 to C77. The specification is `CrashSpec.lean`.
* Crashes in leaf splits of the FPTree (`FPTree/SplitCrash.lean`). `splitLeafNode` as a list of assignments to the heap of
  leaves; the allocation of the sibling is a transaction and done. Branch nodes are volatile, so the observer is
  `recover` followed by lookups.
* Crashes in leaf splits of HPBPTree and PBPTree (`BTree/SplitCrash.lean`, `BTree/SortedSplitCrash.lean`). The same for the sorted
  leaves. HPBPTree is observed after `recover`; PBPTree keeps its branch nodes, so lookups run on the old tree.
* Crashes in leaf splits of BitHPBPTree and BitPBPTree (`BitTree/SplitCrash.lean`). The assignments of `splitLeafNode` and of the
  insertion of the new entry, one by one in program order; the allocation of the sibling is one step. For BitHPBPTree the
  lookups are those after `recover`, for BitPBPTree those on the branch nodes of before; crashes between the assignments
  to the branch nodes of BitPBPTree are the next item.
* Crashes anywhere inside an insert into BitPBPTree (`BitTree/InsertCrash.lean`, lines 275-300, 873-992, 1003-1082). A crash point is
  a level (leaf, branch nodes from below, new root) and a number of changes on this level. The tree shows what can be
  reached from the root, so changes of a new branch node before a pointer to it is stored are counted but have no effect;
  the allocation of a node is one step. After the crash the next program goes on with what is there, also with further
  inserts and crashes (`runEv`). A root that does not fit `depth` is an own outcome (`Left.mixed`), every use of it undefined.
* Crashes on the branch levels of an insert into PBPTree and UnsortedPBPTree (`BTree/InsertCrash.lean`, PBPTree.hpp:210-235,
  1020-1050, 1063-1110; UnsortedPBPTree.hpp:218-244, 1027-1117). The leaf level is done, a crash point is a branch level (or the
  new root) and a number of assignments to the node of this level. A new node is reachable once a pointer to it is stored. What
  lookups find is proved for all crash points; further operations on such a tree are not modelled.
* Histories of FPTree inserts with crashes (`FPTree/InsertCrash.lean`, lines 228-254, 492-530, 539-624, 374-405). A crash point is a
  number of assignments of `insertInLeafNode` to persistent memory, in program order; the branch nodes are volatile. After every
  crash `recover` runs, then the history goes on. `prevLeaf` pointers may stay wrong; inserts, lookups and `recover` do not read
  them (proved), erases do (`C120_erase_null_prev`). The specification is `CrashHistSpec.lean`.
* Crashes inside an erase of FPTree (`FPTree/EraseCrash.lean`, lines 288-303, 781-905, 991-1037, 1114-1151, 374-405). The
  assignments to persistent memory one by one in program order: the bit of the erased key, then those of `balanceLeafNodes` or
  `mergeLeafNodes`; the deletion of a leaf is one step. All assignments together give the leaves of `erase` (`C121_complete`).
  A key that is in two leaves after the crash is handled by a simulation: `recover` on these leaves gives the same branch nodes as
  on leaves without the second copy, and lookups do not come to the second copy (`BTree/RecoverShadow.lean`). One crash, then
  inserts; histories with several interrupted erases are not modelled.
* Erases from an FPTree after a restart (`BTree/RecoverFill.lean`, `BTree/RecoverWrong.lean`). No new definitions: `recover` and `erase` are
  those of C41 and C42. The shape of a recovered tree (`Sh`) gives the number of separators of each node on the right spine as a
  digit of the number of leaves minus one; the theorems on erases hold for every minimal fill of branch nodes from 2 on.
* Histories of HPBPTree with restarts (`BTree/RestartHist.lean`). No new functions of the library: `insert`, `erase` and `recover` are those of
  C39 and C43, `runR` calls them in any order. `leafList` is the leaf of the constructor (HPBPTree.hpp:248), no call changes it. A
  restarted tree is described by `GB` (`BTree/RecoverGhost.lean`): a search tree for the keys from the first separator on, with the
  first leaf once more in front.
* Crashes inside an erase of HPBPTree and PBPTree (`BTree/MergeCrash.lean`, PBPTree.hpp:284-297, 385-463, 491-584, 1190-1198;
  HPBPTree.hpp:697-816, 919-958, 1041-1058). All assignments to leaves and links in program order; the deletion of a leaf is one
  step. HPBPTree is observed after `recover`; PBPTree with the branch nodes as before the erase, the model ends with the deletion
  (the update of the parent behind it is the next item). The leaves after the last assignment of a merge, or of a
  move from the right sibling, are those of `erase`.
* Crashes in the update of the branch node after an erase of PBPTree (`BTree/DropCrash.lean`, PBPTree.hpp:284-297, 431-483,
  598-631): the assignments of `underflowAtLeafLevel` to the branch node above the leaves (one separator, or the loop that removes a
  child), and to `rootNode` and `depth` when the root over two leaves is replaced.  The leaves are already done (see the item before).
  Assignments become persistent in program order.  Branch nodes further up are the next item.
* Crashes behind a merge of two branch nodes in an erase of PBPTree (`BTree/JoinCrash.lean`, PBPTree.hpp:284-297, 598-631, 639-724): the
  assignments of `underflowAtBranchLevel` to the branch node above the merged ones, at any level, after the deletion of the empty node.
  They become persistent in program order.  The merge itself and `balanceBranchNodes` are one step here (see the next item); the
  replacement of the root (623-627) is the item after that.
* Crashes while two branch nodes are merged or balanced in an erase of PBPTree (`BTree/BalCrash.lean`, PBPTree.hpp:598-631, 639-711,
  745-808): the assignments of `mergeBranchNodes` and `balanceBranchNodes` to the two nodes and to the separator above them, one by one,
  in program order, at any level; the nodes after the last one are those of the model without crashes (`balAt_all`, `mergeAt_all`).
  `BTree/BalCrashScan.lean` has no model of its own: scans (318-339) of the trees of this and the last item.  `BTree/DropCrashScan.lean`
  does the same for the trees of `BTree/DropCrash.lean` (C129).
* Crashes between the assignments to `rootNode` and `depth` of PBPTree (`BTree/RootCrash.lean`, PBPTree.hpp:224-234, 476-480, 623-627,
  1122-1133): the state between the two assignments of an insert or erase that replaces the root, and searches that go down as many levels
  as `depth` says. To take a node of one kind for the other is undefined; what a program would read there is not modelled.
* Crashes in leaf splits of UnsortedPBPTree (`Unsorted/SplitCrash.lean`, lines 944-979). The assignments of the loop, of the
  counters and of the links, one by one; the values are read from the leaf before the split, which is justified by the equality
  with the split of the model after the last assignment.
* PatriciaUtils (`Utils/`). `reverse` on bit vectors of any width, `toBinaryString` on a list of bytes (negative sizes are not
  modelled), `RNG` in the mode `INCREMENTAL` with digits on a little-endian machine. Not modelled: random modes, `Timer`.
* BaseTrie (`BaseTrie/`). The trie is a value; keys are lists of bytes. Overflow of the `int` node counter is not
  modelled. C54 counts nodes.
* simplePSkiplist (`SkipList/`). Nodes in a heap with forward pointers; the random number of each insert is an
  argument. A null dereference, an index beyond `MAX_LEVEL` and an endless loop are undefined behaviour. Crashes
  (`SkipList/Crash.lean`): the assignments of `insert` one by one in program order, the transaction that allocates the
  node as one step.
* woPSkiplist (`WoSkip/`). The slots of a node are a leaf of the FPTree model without fingerprints; nodes in a heap
  with forward pointers. The proofs need capacity N >= 2 and M >= 2 levels: with N = 1 `splitNode` leaves an empty
  sibling with wrong bounds, with M = 1 the head array is overrun. Crashes (`WoSkip/Crash.lean`): the assignments of
  `insert` one by one in program order, the transaction that allocates a node as one step; `insert_along` proves that
  all of them together are the insert of the model.
* UnsortedPBPTree (`Unsorted/`). The generic tree with unsorted leaves; slots not in use keep their old contents,
  because `erase` compares them. Its `erase` differs from the generic one in the leaf freed after a right merge.
  The range scan assigns to a `const` variable, does not compile, and is not modelled.

* Transactions (`Tx/`). Memory is a map from addresses to contents with an allocation state; a transaction is a
  list of snapshot, store, allocate and free steps. A crash may leave anything in an address stored to, and
  recovery itself may be interrupted. The stores of `PBPTree::insertInLeafNodeAtPosition` are an instance; the
  other functions of the persistent trees are not written out as step lists.
* BaseTrie crashes (`BaseTrie/Crash.lean`). Every transaction of `insert` is one atomic step.

* PTable blocks (`PTable/Bytes.lean` to `Props.lean`). A block is a function from positions to bytes; accesses outside
  the 32768 bytes are `ub`. `initBlock`, `hasEnoughSpace`, `insertTuple`, `PTuple::get` and the SMA reads of
  `getCandidateBlocks` are modelled byte by byte (little endian, `int` 4 bytes, `double` 8 bytes IEEE 754), with explicit
  `uint16_t`/`size_t` wrap-around. Alignment, strict aliasing and the custom block sizes of `TableInfo` are not
  modelled. A string ends at its first NUL byte when read. `PTable/Order.lean` gives the independent meaning of the
  comparisons: the rational number (or ±∞, or NaN) that 64 bits stand for in IEEE 754, and the lexicographic order of
  strings; C21 and C59 are stated with these.
* PTable tables (`PTable/Table.lean` to `TableProps.lean`). A table is a heap of data nodes (block, next, delete marks,
  running sum of BDCC values), a list head, and the key index as a partial map from keys to (node, offsets). `insert`,
  `splitBlock`, `getByKey`, `deleteByKey`, `updateComplete`, `count` and the block iterator are modelled for
  `KeyType = int`; the BDCC value of a record is an arbitrary function of the record. Transactions are not modelled at
  this level. Operations that throw leave the table unchanged and the history continues.
* Crashes inside `insertTuple` (`PTable/Crash.lean`, `CrashRep.lean`, `CrashProps.lean`). The changes of a block are a list of
  stores in program order: `copyToByteArray` byte by byte, an assignment through a reference at once. A crash keeps a prefix
  of the list. `insertBlkW_ok` proves that all stores together are `insertBlk`. Reordering of stores by caches is not
  modelled, nor are torn 2-, 4- and 8-byte assignments.
* Crashes inside `insert`, `deleteByKey` and `updateComplete` of a table (`PTable/CrashUse.lean`, `TableCrash.lean`,
  `TableCrashInv.lean`, `TableCrashProps.lean`). The steps of `insertTuple` are its stores, the insert into the index and the
  BDCC sum, in program order. The insert into the index is one step. A split (inside `transaction::run` when called from
  `insert`) and the changes of `deleteByKey` are one step each: the transactions are taken as atomic. That a table
  stays free of errors after crashes is proved in `TableCrashTotal.lean` (C114) for records that fit into an empty block. A
  measure of the records that are too many for their block bounds the number of splits of one insert. After crashes the
  ranges of blocks may overlap or be empty, because a split then divides by a sum that misses records; C114 proves that they
  still cover all BDCC values. C115 (records lie in the range of their block) is proved for histories without crashes only.
* PTable over its index (`PTable/Index.lean`, `IndexProps.lean`). The same functions with the `PBPTree` model in place of
  the map, `select(pred)` with its iterator, and `rangeScan2`. A simulation shows that both models agree.
* PTable range scans (`PTable/Scan.lean`, `ScanProps.lean`). `getCandidateBlocks` with the SMA tests, the block iterator
  of a range scan and its tuple predicates, on the same heap.
* wBPTree and wHBPTree (`WBTree/`). Leaves and branch nodes with slot array, bitmap, key and value arrays; nodes live in
  two heaps. `insert`, `lookup` and the erase of a tree whose root is a leaf are modelled, the content of unwritten
  slots is a parameter. `scan(func)` of both trees, the iterators and the `nextLeaf` links are modelled
  (`WBTree/Scan.lean`). Crashes between the single assignments of an insert into or an erase from a leaf are modelled for
  trees that are one leaf (`WBTree/Crash.lean`). `wHBPTree::scan(min, max)` is in `WBTree/Range.lean` (that of `wBPTree` does not compile).
  `erase` with all cases of underflow at leaves and branch nodes is in `WBTree/Erase.lean`, which adds the `prevLeaf`
  links and the set of freed nodes (touching one is `ub`); `EraseNode`, `EraseInv`, `EraseInsert` hold the invariant
  `EInv`; `BalanceNode`, `BalanceTree`, `BalanceErase` show that a balance of two branch nodes is right up to one bit. `wHBPTree::recover` is in `WBTree/Recover.lean`; `RecoverLaw`, `RecoverTree`, `RecoverLevel` and
  `RecoverLookup` show which tree it builds from a list of leaves. Its assertion computes a logarithm in floating point;
  the model tests for an exact power.
  For trees of any depth the invariant `GInv` (`Branch`, `Shape`, `General`) relates both heaps to a list of sorted
  entries; it holds after every insert that does not split a leaf exactly in the middle (`NoMiddle`). `Level.lean`
  shows that child 0 of every branch node is initialised for `N` >= 4, which the scans need.
* BitHPBPTree and BitPBPTree (`BitTree/`). One model with a switch for the two leaf splits (copy and flip the bitmap /
  move the entries). Leaves live in a heap with `next`/`prev` links; branch nodes are trees whose children are
  `Option`, `none` for an uninitialised pointer. `insert`, `lookup`, `scan(func)` and `scan(min, max, func)` are
  modelled; the leaf content of unwritten slots is a parameter, unwritten branch keys are a default value (no branch
  operation reads them before a bit is set). `erase` is modelled with the leaf-level underflow handling of trees of
  depth 1; deleted leaves are remembered and any later access to one is undefined behaviour. An underflow in a deeper
  tree leaves that model (`none`). `Deep.lean` models erase in trees of any depth, with the merging and balancing of
  branch nodes (`eraseFull`); `C91_same_model` relates the two. `recover` of BitHPBPTree rebuilds the
  branch nodes from the leaf list (`Recover.lean`).
* PatriciaTree (`Patricia/`). Nodes are an inductive tree; the `parent` pointer is the position in the recursion. Keys of nodes
  are byte arrays with their bit length, reads outside them or outside the caller's buffer are `ub`, the caller's
  buffer is the key followed by arbitrary bytes. A switch `bytes` selects the copy loop of `setKey` as written (`keylen` bits
  taken as bytes) or bounded by the allocated bytes. `if (data)` is an arbitrary predicate on values, uninitialised data
  an arbitrary value. `insert`, `lookup`, `remove`, `deleteNode`, `branchNode`, `subNodes` are modelled; printing and the destructors
  are not. `Crash.lean`: every transaction is one atomic step.
* PString and table metadata (`PString/`). A heap of allocated arrays; access to a freed array is `ub`. `set`, `reset`, `data`; the column
  vectors of `VTableInfo`/`PTableInfo` with C-string names. The key column index of `PTableInfo` is never initialised by the code;
  the table model takes it as a parameter.

## Plan per property

| id | modelled | proof |
|----|----------|-------|
| C01-C04 | `Bitmap<NB>` on 64-bit words, all members used by the library | lane-wise arithmetic for popcount, table check for de Bruijn, induction over words; C04 is false for NB % 64 = 0: negation proved + `_partial` for the other sizes |
| C05-C07 | `Random` on 32/64-bit arithmetic | invariant by induction; order of 16807 in ZMod(2^31-1) for C07 |
| C08-C11 | `SearchFunctions.hpp` search loops | loop invariants; C10/C11 bitmap versions are false at the extreme key value: negation + `_partial` |
| C12-C13 | `elementOfRankK`, `findSplitKey` | induction on length; C13 false for negative keys: negation + `_partial` |
| C14-C15 | `serialize.hpp` over a universe of type shapes | structural induction |
| C16-C18 | `BDCCInfo`, `getBDCCFromTuple` | induction over the round-robin loop |
| C19-C24, C59 | `PTable` blocks as byte arrays, block list, delete marks | invariants over histories; C22, C24 and C59 false: negation + `_partial` |
| C25-C26, C54 | `BaseTrie` | induction on key length; C26 false: negation + `_partial` |
| C27-C29, C55 | skip lists as heaps of nodes with forward pointers, random levels as arbitrary input | invariants by induction over the history; C29, C55 false: negation + `_partial` |
| C100-C101 | crashes in `insert` of `woPSkiplist` | invariant along the list of assignments; false: keys of a node that is being split are lost, an entry outside the bounds of its node cannot be repaired; `_partial` for all other crash points |
| C30-C37 | `BPTree` | generic tree refinement; C32, C33 false: negation + `_partial` |
| C53 | scans of `FPTree` | instance of the generic scan theorem |
| C38-C44 | `PBPTree`, `HPBPTree`, `FPTree`, `UnsortedPBPTree` | instances of the generic tree, own leaf layouts; false parts by counterexample |
| C56-C57 | scan of `UnsortedPBPTree`; erase of absent keys | instance of the generic scan theorem; C57 false: negation + `_partial` |
| C46, C61, C62 | `BitHPBPTree`, `BitPBPTree` | C61: refinement of a map by induction over the tree, for all orders not divisible by 64 and keys that convert to `size_t` and back; negation outside (INT_MAX, negative keys, every history of 65 keys at `M` = 64). C46 false for every order: negation + `_partial`. C62 false: negation; exact criterion after every history (`C62_partial`: the scan is exact iff `children[0]…` ends in `leafList`, from an invariant that orders the leaf list) and ascending histories |
| C64 | `BitHPBPTree::recover` | false for every order (`C64_refuted`); exact criterion for every history (`C64_partial`: correct iff the number of leaves minus one has no zero digit in base `N`+1); a recovered tree then behaves as if there had been no restart (`C64_continue_partial`) |
| C63 | erase of the same trees | false (dangling and null pointers, lost keys, overflowing merges): counterexamples + a general lemma about the merge; `_partial` for histories that reach no underflow handling or only merges with the left neighbour and well-ordered balancing with the right one (`UnderflowProps`), and for histories over at most `M` keys |
| C45, C60 | `wBPTree`, `wHBPTree` | false for every order: general negation and counterexample; `_partial` for trees of any depth: no wrong value, exact condition on the descent (`C45_general_partial`); exact for histories within one leaf |
| C46 | `BitHPBPTree`/`BitPBPTree` | negation by counterexample + `_partial` |
| C47-C48 | undo-log transactions; FPTree leaf writes in program order | induction over write sequences |
| C65-C67 | `PatriciaTree` | false as written and with the copy loop repaired: negations; `_partial`: radix-tree invariant on bit strings, lookups characterised for all insert histories, exact map (also with crashes, up to the count) for prefix-free key sets |
| C95 | `PatriciaTree::getSubnodes` | the bit strings of the nodes form a list without duplicates, characterised by the stored keys; bound by induction over the tree; false as written and for prefixes |
| C85 | `PTable` with a `PBPTree` as index, `select`, `rangeScan2` | simulation of the table over a map; `select` false for an empty table: negation + `_partial` |
| C86 | `scan` and iterators of `wBPTree`, `wHBPTree` | false: leaves left of the first split key are missed; proved for one leaf and for ascending inserts; in general a final segment of the entries is listed in order (`C86_general_partial`); negation + `_partial` |
| C96 | range scan of `wHBPTree` | false (stale slots): counterexample and general negation; `_partial` for trees of any depth, with an exact condition on the descent |
| C97 | erase with several leaves in `wBPTree`, `wHBPTree` | false (separators in wrong slots, a freed node as root): counterexamples; `_partial` by an invariant for trees of any depth: merges of leaves, balances with the left neighbour of the last leaf |
| C98 | `wHBPTree::recover` | false: counterexample; for inserts without middle splits an exact criterion (`C98_exact`: a key in leaf `i` is found iff no digit of `i` in base `N`+1 is `N`), no wrong values, complete scans, and when the tree can be used further |
| C99 | branch nodes of `wBPTree`, `wHBPTree` that take separators from a neighbour | false: a position stays marked as used, later inserts write behind the arrays; `_partial`: the erase itself is right at any level of a tree of any depth |
| C87 | crashes in leaf inserts of `wBPTree`, `wHBPTree` | false: the greatest key is not found at some points; lookups characterised at all crash points |
| C88 | inserts after such a crash | false: lost positions (`wBPTree`), overwritten entries (`wHBPTree`); negation + `_partial` |
| C89 | crashes in leaf erases of `wBPTree`, `wHBPTree` | proved for zeroed slots, false for uninitialised ones |
| C90 | inserts after such a crash | false: keys are lost; negation + `_partial` |
| C91 | inserts and erases of BitHPBPTree and BitPBPTree, trees of any depth | false; negation + `_partial` for the histories that use only the correct cases of the underflow handling |
| C92 | underflow handling of branch nodes of the same trees | false; `_partial` for the correct cases, and a theorem for each wrong case saying what happens |
| C68-C69 | `PString`, `PTableInfo` | false (dangling pointer after `reset`, NUL bytes): negation + exact description of every call sequence |
| C70-C71 | iterators of `FPTree` and `UnsortedPBPTree`; iteration over empty trees | generic theorem on loops over a chain of leaves; C71 false: for every history that ends empty the loop is undefined or throws |
| C102 | iterators of `BitHPBPTree`, `BitPBPTree` | the loop over a chain of leaves, carried over from the FPTree; equality with `scan` after every history of inserts |
| C103-C104 | crashes in leaf splits of `BitHPBPTree`, `BitPBPTree` | the state of the two leaves after every prefix of the assignments, carried to lookups on the old branch nodes and to `recover`; false: the upper half is lost in between; `_partial` gives the lookups at every point |
| C105-C107 | crashes anywhere inside inserts of `BitPBPTree`, histories with crashes | invariant of the tree after every prefix of the changes on every level, by induction on the depth; false: `rootNode` and `depth` (C105), full branch nodes (C106), lost half of a leaf (C107); `_partial` excludes exactly these |
| C108-C109 | crashes inside `insertTuple` of `PTable`, one block | weak invariant of a block (used part of every page right, SMA within its page) preserved by every prefix of the stores; C109 false for string columns: negation + `_partial` |
| C110-C113 | crashes inside table operations, histories with crashes | weak invariant of a table (no ranges and sums) preserved by every step; per-key invariant for keys no interrupted call names; C110, C111, C113 false: negation + `_partial` with all states between |
| C114, C115 | calls after crashes come to an end; records lie in the range of their block | weak invariant with coverage of all BDCC values; termination measure over the chain of blocks; C115 from the strong invariant |
| C116-C118 | crashes on the branch levels of inserts into `PBPTree` and `UnsortedPBPTree` | closed form of the node after every prefix of the assignments, searches with a separator held twice, induction on the depth; false: negation + `_partial` with exactly the lost keys |
| C119-C120 | histories of FPTree inserts with crashes and recoveries | invariant over persistent memory up to `prevLeaf`, exact map at every crash point, induction on the history; false: negation + `_partial` without crashes between bit and fingerprint |
| C121-C122 | one interrupted FPTree erase with recovery, then inserts | exact map at every crash point outside a half-copied entry, simulation of leaves with second copies; false: negation + `_partial` |
| C123 | FPTree restart, then inserts and erases | shape invariant of `recover`, relaxed fill in the erase invariant; false: negation for whole classes of trees + `_partial` |
| C124 | HPBPTree histories with restarts | invariant of trees whose first leaf occurs twice, kept by inserts and restarts; false: counterexample, null pointer for all histories with more than `M` keys; `_partial` without small keys and erases after a large restart |
| C125, C126 | crashes inside an erase of HPBPTree (with recovery) and PBPTree | exact lookups at all crash points of the removal and of every merge, simulation of leaves with second copies; false: negation (C126 for every merge) + `_partial` |
| C127, C128 | which interrupted erases of HPBPTree and PBPTree can lose another key | equivalences: bad crash points of every move from the left (HPBPTree) and of every move and merge (PBPTree); all lookups at all crash points of moves from the right |
| C129 | crashes in the update of the branch node after an erase of PBPTree | every lookup after every number of assignments, exactly up to one repeated separator; refutations (lost key, dangling pointer, mixed tree) |
| C130 | crashes behind a merge of two branch nodes in an erase of PBPTree | every lookup after every number of assignments at every level, exactly up to one repeated separator; which subtrees are lost; refutations (lost keys, dangling pointer) |
| C131, C132 | crashes while two branch nodes are balanced or merged in an erase of PBPTree | all slots in use stay filled, so every lookup gives the right value or nothing at every crash point of every level; refutations (keys not found) in both directions; lookups away from the two nodes are right; merges: all lookups right at every crash point |
| C133 | crashes between the assignments to `rootNode` and `depth` of PBPTree | every lookup after every history is undefined, in either order of the assignments; all lookups right after both |
| C134 | scans after crashes in the branch nodes of an erase of PBPTree | no assignment changes child 0 of the left one of two nodes; the leaves are linked; induction over the levels |
| C72-C77 | crashes in leaf operations of Bit trees, UnsortedPBPTree, PBPTree | write lists and prefixes; C72, C73 proved, C74 to C77 false with the lookups at all crash points characterised |
| C78 | crashes in leaf splits of `FPTree` | false: the moved keys are lost until the sibling is linked; lookups after recovery characterised at all crash points |
| C82-C83 | crashes in leaf splits of `HPBPTree` and `PBPTree` | false: the upper half is lost between two assignments (C82) or for good (C83); lookups characterised at all crash points |
| C84 | crashes in leaf splits of `UnsortedPBPTree` | false: keys are lost and one can have a wrong value; lookups characterised at all crash points |
| C93-C94 | crashes in inserts of `simplePSkiplist` | proved for all histories with crashes; needs the program order (`C93_needs_order`) |
| C79-C81 | `PatriciaUtils` | induction over the loops; C79 false for negative values, C81 false for short buffers and `CHARACTERS` |
| C58 | `BaseTrie::insert` interrupted between its transactions | induction over the key |

Not modelled: printing, allocation-class tuning, PAPI/emulation counters, benchmark code, Python bindings,
hardware cache-line eviction order.

## Axioms per theorem

Output of `#print axioms` for each theorem named in `MANIFEST.json`: P = `propext`, C = `Classical.choice`,
Q = `Quot.sound`, – = none. No other axiom occurs.

| Property | Theorem | Axioms |
| --- | --- | --- |
| C01 | `Verif.BitmapProps.C01_point_updates` | P C Q |
| C01 | `Verif.BitmapProps.C01_out_of_range` | P Q |
| C02 | `Verif.BitmapProps.C02_count` | P C Q |
| C02 | `Verif.BitmapProps.C02_all` | P C Q |
| C03 | `Verif.BitmapProps.C03_getFirstSet` | P C Q |
| C03 | `Verif.BitmapProps.C03_getFreeZero` | P C Q |
| C04 | `Verif.BitmapProps.C04_partial` | P C Q |
| C04 | `Verif.BitmapProps.C04_refuted` | P C Q |
| C05 | `Verif.Rand.C05_cycle` | P C Q |
| C06 | `Verif.Rand.C06_uniform` | P Q |
| C06 | `Verif.Rand.C06_oneIn` | P Q |
| C06 | `Verif.Rand.C06_skewed` | P C Q |
| C07 | `Verif.Rand.C07_full_period` | P C Q |
| C08 | `Verif.SearchProps.C08_binarySearch_leaf` | P C Q |
| C09 | `Verif.SearchProps.C09_binarySearch_branch` | P C Q |
| C10 | `Verif.SearchProps.C10_node` | P Q |
| C10 | `Verif.SearchProps.C10_bits_partial` | P C Q |
| C10 | `Verif.SearchProps.C10_refuted` | P C Q |
| C100 | `Verif.WoSkipProps.C100_insert_partial` | P C Q |
| C100 | `Verif.WoSkipProps.C100_insert_gen` | P C Q |
| C100 | `Verif.WoSkipProps.C100_lost` | P C Q |
| C100 | `Verif.WoSkipProps.C100_refuted` | P C Q |
| C101 | `Verif.WoSkipProps.C101_usable_partial` | P C Q |
| C101 | `Verif.WoSkipProps.C101_usable_gen` | P C Q |
| C101 | `Verif.WoSkipProps.C101_stuck` | P C Q |
| C101 | `Verif.WoSkipProps.C101_refuted` | P C Q |
| C101 | `Verif.WoSkipProps.staleRun_eq` | P Q |
| C102 | `Verif.BitTree.C102_iterate` | P C Q |
| C102 | `Verif.BitTree.C102_int` | P C Q |
| C102 | `Verif.BitTree.C102_ascending` | P C Q |
| C102 | `Verif.BitTree.C102_empty` | P C Q |
| C103 | `Verif.BitTree.C103_split_crash_partial` | P C Q |
| C103 | `Verif.BitTree.C103_always_loses` | P C Q |
| C103 | `Verif.BitTree.C103_refuted` | P C Q |
| C104 | `Verif.BitTree.C104_split_crash_partial` | P C Q |
| C104 | `Verif.BitTree.C104_always_loses` | P C Q |
| C104 | `Verif.BitTree.C104_refuted` | P Q |
| C105 | `Verif.BitTree.C105_usable_partial` | P C Q |
| C105 | `Verif.BitTree.C105_root` | P C Q |
| C105 | `Verif.BitTree.C105_refuted` | P Q |
| C106 | `Verif.BitTree.C106_local_partial` | P C Q |
| C106 | `Verif.BitTree.C106_refuted` | P Q |
| C107 | `Verif.BitTree.C107_branch_partial` | P C Q |
| C107 | `Verif.BitTree.C107_refuted` | P Q |
| C108 | `Verif.PTable.C108_block` | P C Q |
| C108 | `Verif.PTable.C108_crash` | P C Q |
| C109 | `Verif.PTable.C109_sma_partial` | P C Q |
| C109 | `Verif.PTable.C109_skip_partial` | P C Q |
| C109 | `Verif.PTable.C109_refuted` | P C Q |
| C11 | `Verif.SearchProps.C11_partial` | P C Q |
| C11 | `Verif.SearchProps.C11_refuted` | P C Q |
| C110 | `Verif.PTable.C110_insert_partial` | P C Q |
| C110 | `Verif.PTable.C110_refuted` | P C Q |
| C110 | `Verif.PTable.exTblCrash_ok` | P Q |
| C111 | `Verif.PTable.C111_other_keys_partial` | P C Q |
| C111 | `Verif.PTable.C111_total_partial` | P C Q |
| C111 | `Verif.PTable.C111_refuted` | P C Q |
| C111 | `Verif.PTable.exGhost_run` | P C Q |
| C111 | `Verif.PTable.exGhost_other` | P C Q |
| C112 | `Verif.PTable.C112_records` | P C Q |
| C112 | `Verif.PTable.C112_records_keyed` | P C Q |
| C113 | `Verif.PTable.C113_update_partial` | P C Q |
| C113 | `Verif.PTable.C113_refuted` | P C Q |
| C113 | `Verif.PTable.exTblUpdate_ok` | P Q |
| C114 | `Verif.PTable.C114_total` | P C Q |
| C114 | `Verif.PTable.C114_cover` | P C Q |
| C114 | `Verif.PTable.exGhost_total` | P C Q |
| C115 | `Verif.PTable.C115_clustered` | P C Q |
| C116 | `Verif.BTreeProps.C116_branch_crash_partial` | P C Q |
| C116 | `Verif.BTreeProps.C116_refuted` | P Q |
| C116 | `Verif.BTreeProps.C116_refuted_mixed` | P Q |
| C117 | `Verif.BTreeProps.C117_lost_keys_partial` | P C Q |
| C117 | `Verif.BTreeProps.C117_last_child` | P C Q |
| C117 | `Verif.BTreeProps.C117_refuted` | P C Q |
| C117 | `Verif.BTreeProps.threeLeaves_last` | P Q |
| C118 | `Verif.UnsortedProps.C118_branch_crash_partial` | P C Q |
| C118 | `Verif.UnsortedProps.C118_after_erases_partial` | P C Q |
| C118 | `Verif.UnsortedProps.C118_last_child` | P C Q |
| C118 | `Verif.UnsortedProps.C118_refuted` | P C Q |
| C118 | `Verif.UnsortedProps.C118_refuted_mixed` | P Q |
| C119 | `Verif.FPTreeProps.C119_values_partial` | P C Q |
| C119 | `Verif.FPTreeProps.C119_calm` | P C Q |
| C119 | `Verif.FPTreeProps.C119_refuted` | P Q |
| C119 | `Verif.FPTreeProps.C119_loss` | P Q |
| C12 | `Verif.SearchProps.C12_elementOfRankK` | P C Q |
| C120 | `Verif.FPTreeProps.C120_usable_partial` | P C Q |
| C120 | `Verif.FPTreeProps.C120_refuted` | P Q |
| C120 | `Verif.FPTreeProps.C120_erase_null_prev` | P Q |
| C121 | `Verif.FPTreeProps.C121_erase_crash_partial` | P C Q |
| C121 | `Verif.FPTreeProps.C121_no_underflow` | P C Q |
| C121 | `Verif.FPTreeProps.C121_complete` | P C Q |
| C121 | `Verif.FPTreeProps.C121_refuted` | P C Q |
| C121 | `Verif.FPTreeProps.C121_undone` | P Q |
| C122 | `Verif.FPTreeProps.C122_inserts_partial` | P C Q |
| C122 | `Verif.FPTreeProps.C122_refuted` | P C Q |
| C123 | `Verif.FPTreeProps.C123_restart_partial` | P C Q |
| C123 | `Verif.FPTreeProps.C123_few_keys` | P C Q |
| C123 | `Verif.FPTreeProps.C123_zero_digit` | P C Q |
| C123 | `Verif.FPTreeProps.C123_one_digit` | P C Q |
| C123 | `Verif.FPTreeProps.C123_refuted` | P C Q |
| C124 | `Verif.BTreeProps.C124_partial` | P C Q |
| C124 | `Verif.BTreeProps.C124_null` | P C Q |
| C124 | `Verif.BTreeProps.C124_refuted` | P Q |
| C125 | `Verif.BTreeProps.C125_erase_crash_partial` | P C Q |
| C125 | `Verif.BTreeProps.C125_refuted` | P Q |
| C125 | `Verif.BTreeProps.C125_refuted_lost` | P |
| C125 | `Verif.BTreeProps.C127_torn_otherwise` | P C Q |
| C126 | `Verif.BTreeProps.C126_merge_crash_partial` | P C Q |
| C126 | `Verif.BTreeProps.C126_refuted_every` | P C Q |
| C126 | `Verif.BTreeProps.C126_refuted` | P C Q |
| C127 | `Verif.BTreeProps.C127_lost_iff` | P C Q |
| C127 | `Verif.BTreeProps.C127_torn_otherwise` | P C Q |
| C128 | `Verif.BTreeProps.C128_pb_lost_iff` | P C Q |
| C129 | `Verif.BTreeProps.C129_erase_branch_crash_partial` | P C Q |
| C129 | `Verif.BTreeProps.C129_exact` | P C Q |
| C129 | `Verif.BTreeProps.C129_refuted` | P Q |
| C129 | `Verif.BTreeProps.C129_refuted_dangling` | P |
| C129 | `Verif.BTreeProps.C129_refuted_mixed` | P Q |
| C13 | `Verif.SearchProps.C13_partial` | P C Q |
| C13 | `Verif.SearchProps.C13_refuted` | P C Q |
| C130 | `Verif.BTreeProps.C130_exact` | P C Q |
| C130 | `Verif.BTreeProps.C130_join_crash_partial` | P C Q |
| C130 | `Verif.BTreeProps.C130_subtrees_lost` | P C Q |
| C130 | `Verif.BTreeProps.C130_refuted` | P Q |
| C130 | `Verif.BTreeProps.C130_refuted_dangling` | P |
| C131 | `Verif.BTreeProps.C131_balance_crash_partial` | P C Q |
| C131 | `Verif.BTreeProps.C131_elsewhere` | P C Q |
| C131 | `Verif.BTreeProps.C131_refuted` | P Q |
| C131 | `Verif.BTreeProps.C131_refuted_left` | P |
| C132 | `Verif.BTreeProps.C132_merge_crash` | P C Q |
| C133 | `Verif.BTreeProps.C133_root_crash_partial` | P C Q |
| C133 | `Verif.BTreeProps.C133_other_order` | P C Q |
| C133 | `Verif.BTreeProps.C133_refuted` | P Q |
| C134 | `Verif.BTreeProps.C134_scan_crash` | P C Q |
| C134 | `Verif.BTreeProps.C134_leaf_level` | P C Q |
| C14 | `Verif.SerProps.C14_roundtrip` | P C Q |
| C15 | `Verif.SerProps.C15_self_delimiting` | P C Q |
| C15 | `Verif.SerProps.C15_sequence` | P C Q |
| C16 | `Verif.BdccProps.C16_partition` | P C Q |
| C17 | `Verif.BdccProps.C17_round_robin` | P C Q |
| C18 | `Verif.BdccProps.C18_partial` | P C Q |
| C18 | `Verif.BdccProps.C18_refuted` | P C Q |
| C19 | `Verif.PTable.C19_layout` | P C Q |
| C19 | `Verif.PTable.C19_layout_700` | P C Q |
| C19 | `Verif.PTable.C19_needs_size` | P Q |
| C20 | `Verif.PTable.C20_read_back` | P C Q |
| C21 | `Verif.PTable.C21_sma` | P C Q |
| C21 | `Verif.PTable.C21_sma_numbers` | P C Q |
| C21 | `Verif.PTable.C21_skip_sound` | P C Q |
| C22 | `Verif.PTable.C22_inserts_partial` | P C Q |
| C22 | `Verif.PTable.C22_complete_partial` | P C Q |
| C22 | `Verif.PTable.C22_gap` | P C Q |
| C22 | `Verif.PTable.C22_refuted` | P C Q |
| C22 | `Verif.PTable.C22_lenient_refuted` | P C Q |
| C23 | `Verif.PTable.C23_cover` | P C Q |
| C23 | `Verif.PTable.C23_insert_succeeds` | P C Q |
| C23 | `Verif.PTable.C23_oversized` | P C Q |
| C24 | `Verif.PTable.C24_count_partial` | P C Q |
| C24 | `Verif.PTable.C24_refuted` | P C Q |
| C25 | `Verif.BaseTrieProps.C25_insert_lookup` | P C Q |
| C25 | `Verif.BaseTrieProps.C25_insert_new` | P C Q |
| C25 | `Verif.BaseTrieProps.C25_long_keys_missed` | P C Q |
| C26 | `Verif.BaseTrieProps.C26_refuted` | P |
| C26 | `Verif.BaseTrieProps.C26_remove_partial` | P C Q |
| C26 | `Verif.BaseTrieProps.C26_history_partial` | P C Q |
| C26 | `Verif.BaseTrieProps.C26_prefix_free_partial` | P C Q |
| C27 | `Verif.SkipListProps.C27_insert_search` | P C Q |
| C27 | `Verif.SkipListProps.C27_min_key_dropped` | P C Q |
| C27 | `Verif.SkipListProps.C27_one_level` | P Q |
| C28 | `Verif.SkipListProps.C28_levels` | P C Q |
| C29 | `Verif.WoSkipProps.C29_insert_search_partial` | P C Q |
| C29 | `Verif.WoSkipProps.C29_insert_search_gen` | P C Q |
| C29 | `Verif.WoSkipProps.C29_refuted` | P C Q |
| C30 | `Verif.BTreeProps.C30_insert_lookup` | P C Q |
| C31 | `Verif.BTreeProps.C31_insert_erase_lookup` | P C Q |
| C31 | `Verif.BTreeProps.outs_true` | P |
| C32 | `Verif.BTreeProps.C32_refuted` | P Q |
| C32 | `Verif.BTreeProps.C32_refuted_loses_entry` | P |
| C32 | `Verif.BTreeProps.C32_refuted_out_of_bounds` | P |
| C32 | `Verif.BTreeProps.C32_erase_absent_partial` | P C Q |
| C33 | `Verif.BTreeProps.C33_refuted_3` | P Q |
| C33 | `Verif.BTreeProps.C33_refuted_4` | P Q |
| C33 | `Verif.BTreeProps.C33_refuted_5` | P Q |
| C33 | `Verif.BTreeProps.C33_capacities_partial` | P C Q |
| C34 | `Verif.BTreeProps.C34_scan` | P C Q |
| C34 | `Verif.BTreeProps.C34_scan_inserts` | P C Q |
| C35 | `Verif.BTreeProps.C35_range_scan` | P C Q |
| C35 | `Verif.BTreeProps.C35_range_scan_inserts` | P C Q |
| C36 | `Verif.BTreeProps.C36_iterator` | P C Q |
| C37 | `Verif.BTreeProps.C37_shape` | P C Q |
| C38 | `Verif.BTreeProps.C38_map` | P C Q |
| C39 | `Verif.BTreeProps.C39_map` | P C Q |
| C40 | `Verif.FPTreeProps.C40_insert_lookup` | P C Q |
| C40 | `Verif.FPTreeProps.C40_insert_lookup_gen` | P C Q |
| C41 | `Verif.FPTreeProps.C41_refuted` | P C Q |
| C41 | `Verif.FPTreeProps.C41_small_partial` | P C Q |
| C41 | `Verif.FPTreeProps.C41_safe_partial` | P C Q |
| C42 | `Verif.FPTreeProps.C42_recover_inserts` | P C Q |
| C42 | `Verif.FPTreeProps.C42_recover_inserts_small` | P C Q |
| C42 | `Verif.FPTreeProps.C42_recover_partial` | P C Q |
| C42 | `Verif.FPTreeProps.C42_recover_safe_partial` | P C Q |
| C42 | `Verif.FPTreeProps.C42_recover_gen` | P C Q |
| C42 | `Verif.FPTreeProps.C42_refuted` | P C Q |
| C43 | `Verif.BTreeProps.C43_refuted` | P |
| C43 | `Verif.BTreeProps.C43_lookup_partial` | P C Q |
| C44 | `Verif.UnsortedProps.C44_partial` | P C Q |
| C44 | `Verif.UnsortedProps.C44_inserts_partial` | P C Q |
| C44 | `Verif.UnsortedProps.C44_refuted` | P Q |
| C45 | `Verif.WBTree.C45_general_partial` | P C Q |
| C45 | `Verif.WBTree.C45_ends_partial` | P C Q |
| C45 | `Verif.WBTree.C45_leaf_partial` | P C Q |
| C45 | `Verif.WBTree.C45_split_loses` | P C Q |
| C45 | `Verif.WBTree.C45_single` | P C Q |
| C45 | `Verif.WBTree.C45_refuted` | P C Q |
| C45 | `Verif.WBTree.C45_lost_key` | P Q |
| C46 | `Verif.BitTree.C46_partial` | P C Q |
| C46 | `Verif.BitTree.C46_full_leaf` | P C Q |
| C46 | `Verif.BitTree.C46_refuted` | P C Q |
| C47 | `Verif.Tx.C47_crash_before_commit` | P Q |
| C47 | `Verif.Tx.C47_crash_after_commit` | P |
| C47 | `Verif.Tx.C47_needs_snapshot` | P |
| C47 | `Verif.Tx.C47_leaf_insert` | P C Q |
| C48 | `Verif.FPTreeProps.C48_refuted` | P C Q |
| C48 | `Verif.FPTreeProps.C48_refuted_duplicate` | P Q |
| C48 | `Verif.FPTreeProps.C48_crash_partial` | P C Q |
| C49 | `Verif.BitmapProps.C49_copyToString` | P C Q |
| C50 | `Verif.SearchProps.C50_binarySearch_slots` | P C Q |
| C51 | `Verif.SerProps.C51_truncated` | P C Q |
| C52 | `Verif.BdccProps.C52_same_bins` | P C Q |
| C53 | `Verif.FPTreeProps.C53_scans` | P C Q |
| C53 | `Verif.FPTreeProps.C53_scans_gen` | P C Q |
| C54 | `Verif.BaseTrieProps.C54_subNodes` | P C Q |
| C55 | `Verif.WoSkipProps.C55_levels_partial` | P C Q |
| C55 | `Verif.WoSkipProps.C55_levels_gen` | P C Q |
| C55 | `Verif.WoSkipProps.C55_refuted` | P C Q |
| C56 | `Verif.UnsortedProps.C56_scan` | P C Q |
| C56 | `Verif.UnsortedProps.C56_scan_after_erases` | P C Q |
| C57 | `Verif.UnsortedProps.C57_partial` | P C Q |
| C57 | `Verif.UnsortedProps.C57_refuted` | P Q |
| C57 | `Verif.UnsortedProps.C57_refuted_full_leaf` | P Q |
| C58 | `Verif.BaseTrie.C58_crash_insert` | P Q |
| C59 | `Verif.PTable.C59_get_partial` | P C Q |
| C59 | `Verif.PTable.C59_refuted` | P C Q |
| C60 | `Verif.WBTree.C60_partial` | P C Q |
| C60 | `Verif.WBTree.C60_full` | P C Q |
| C60 | `Verif.WBTree.C60_absent` | P C Q |
| C60 | `Verif.WBTree.C60_refuted` | P C Q |
| C61 | `Verif.BitTree.C61_partial` | P C Q |
| C61 | `Verif.BitTree.C61_int` | P C Q |
| C61 | `Verif.BitTree.C61_refuted` | P Q |
| C61 | `Verif.BitTree.C61_order64` | P C Q |
| C62 | `Verif.BitTree.C62_partial` | P C Q |
| C62 | `Verif.BitTree.C62_ascending_partial` | P C Q |
| C62 | `Verif.BitTree.C62_leaf_partial` | P C Q |
| C62 | `Verif.BitTree.C62_refuted` | P Q |
| C63 | `Verif.BitTree.C63_partial` | P C Q |
| C63 | `Verif.BitTree.C63_underflow_partial` | P C Q |
| C63 | `Verif.BitTree.C63_leaf_partial` | P C Q |
| C63 | `Verif.BitTree.C63_refuted` | P Q |
| C63 | `Verif.BitTree.C63_dangling` | P Q |
| C63 | `Verif.BitTree.C63_null_prev` | P Q |
| C63 | `Verif.BitTree.C63_stale_slot` | P Q |
| C63 | `Verif.BitTree.C63_left_entries` | P Q |
| C63 | `Verif.BitTree.C63_slot_zero` | P Q |
| C63 | `Verif.BitTree.merge_right_deletes` | P Q |
| C64 | `Verif.BitTree.C64_partial` | P C Q |
| C64 | `Verif.BitTree.C64_continue_partial` | P C Q |
| C64 | `Verif.BitTree.C64_refuted` | P C Q |
| C64 | `Verif.BitTree.C64_example` | P Q |
| C65 | `Verif.Patricia.C65_refuted` | P Q |
| C65 | `Verif.Patricia.C65_overrun` | P Q |
| C65 | `Verif.Patricia.C65_phantom` | P Q |
| C65 | `Verif.Patricia.C65_partial` | P C Q |
| C65 | `Verif.Patricia.C65_results_partial` | P C Q |
| C66 | `Verif.Patricia.C66_refuted` | P Q |
| C66 | `Verif.Patricia.C66_prefix_lost` | P Q |
| C66 | `Verif.Patricia.C66_fork_stays` | P Q |
| C66 | `Verif.Patricia.C66_count` | P Q |
| C66 | `Verif.Patricia.C66_partial` | P C Q |
| C66 | `Verif.Patricia.C66_frame_partial` | P C Q |
| C67 | `Verif.Patricia.C67_refuted` | P C Q |
| C67 | `Verif.Patricia.C67_restricted_refuted` | P C Q |
| C67 | `Verif.Patricia.C67_torn` | P Q |
| C67 | `Verif.Patricia.C67_partial` | P C Q |
| C68 | `Verif.PString.C68_refuted` | P C Q |
| C68 | `Verif.PString.C68_partial` | P C Q |
| C68 | `Verif.PString.C68_reset` | P C Q |
| C68 | `Verif.PString.C68_frame` | P C Q |
| C69 | `Verif.PString.C69_refuted` | P C Q |
| C69 | `Verif.PString.C69_partial` | P C Q |
| C69 | `Verif.PString.C69_no_nul_partial` | P C Q |
| C69 | `Verif.PString.C69_mismatch` | P |
| C69 | `Verif.PString.C69_too_few` | P Q |
| C70 | `Verif.IterProps.C70_fptree` | P C Q |
| C70 | `Verif.IterProps.C70_fptree_erases` | P C Q |
| C70 | `Verif.IterProps.C70_unsorted` | P C Q |
| C70 | `Verif.IterProps.C70_unsorted_erases` | P C Q |
| C71 | `Verif.IterProps.C71_refuted` | P C Q |
| C71 | `Verif.IterProps.C71_sorted_ub` | P C Q |
| C71 | `Verif.IterProps.C71_unsorted_ub` | P C Q |
| C71 | `Verif.IterProps.C71_fptree_throws` | P C Q |
| C71 | `Verif.IterProps.C71_partial` | P C Q |
| C72 | `Verif.BitTree.C72_crash` | P C Q |
| C73 | `Verif.UnsortedProps.C73_insert_crash` | P C Q |
| C73 | `Verif.UnsortedProps.C73_insert_crash_after_erases` | P C Q |
| C74 | `Verif.UnsortedProps.C74_refuted` | P Q |
| C74 | `Verif.UnsortedProps.C74_refuted_wrong_value` | P Q |
| C74 | `Verif.UnsortedProps.C74_partial` | P C Q |
| C75 | `Verif.BTreeProps.C75_refuted` | P Q |
| C75 | `Verif.BTreeProps.C75_refuted_wrong_value` | P |
| C75 | `Verif.BTreeProps.C75_refuted_new_key` | P |
| C75 | `Verif.BTreeProps.C75_partial` | P C Q |
| C76 | `Verif.BTreeProps.C76_refuted` | P Q |
| C76 | `Verif.BTreeProps.C76_refuted_duplicate` | P |
| C76 | `Verif.BTreeProps.C76_partial` | P C Q |
| C76 | `Verif.BTreeProps.C76_even_partial` | P C Q |
| C77 | `Verif.BitTree.C77_refuted` | P Q |
| C77 | `Verif.BitTree.C77_partial` | P C Q |
| C78 | `Verif.FPTreeProps.C78_refuted` | P Q |
| C78 | `Verif.FPTreeProps.C78_always_loses` | P C Q |
| C78 | `Verif.FPTreeProps.C78_split_crash_partial` | P C Q |
| C79 | `Verif.PatriciaUtils.C79_refuted` | P C Q |
| C79 | `Verif.PatriciaUtils.C79_mirror` | P C Q |
| C79 | `Verif.PatriciaUtils.C79_involution_partial` | P C Q |
| C80 | `Verif.PatriciaUtils.C80_binary` | P C Q |
| C80 | `Verif.PatriciaUtils.C80_injective` | P C Q |
| C81 | `Verif.PatriciaUtils.C81_refuted` | P |
| C81 | `Verif.PatriciaUtils.C81_refuted_digits` | P C Q |
| C81 | `Verif.PatriciaUtils.C81_characters` | – |
| C81 | `Verif.PatriciaUtils.C81_overflow` | P Q |
| C81 | `Verif.PatriciaUtils.C81_repeats` | P Q |
| C81 | `Verif.PatriciaUtils.C81_digits_partial` | P C Q |
| C82 | `Verif.BTreeProps.C82_split_crash_partial` | P C Q |
| C82 | `Verif.BTreeProps.C82_refuted` | P C Q |
| C83 | `Verif.BTreeProps.C83_split_crash_partial` | P C Q |
| C83 | `Verif.BTreeProps.C83_refuted` | P C Q |
| C84 | `Verif.UnsortedProps.C84_split_crash_partial` | P C Q |
| C84 | `Verif.UnsortedProps.C84_split_crash_after_erases_partial` | P C Q |
| C84 | `Verif.UnsortedProps.C84_refuted` | P Q |
| C84 | `Verif.UnsortedProps.C84_refuted_wrong_value` | P Q |
| C85 | `Verif.PTable.C85_index_partial` | P C Q |
| C85 | `Verif.PTable.C85_refuted` | P C Q |
| C86 | `Verif.WBTree.C86_general_partial` | P C Q |
| C86 | `Verif.WBTree.C45_ends_partial` | P C Q |
| C86 | `Verif.WBTree.C86_ascending_partial` | P C Q |
| C86 | `Verif.WBTree.C86_leaf_partial` | P C Q |
| C86 | `Verif.WBTree.C86_empty` | P C Q |
| C86 | `Verif.WBTree.C86_missed` | P Q |
| C86 | `Verif.WBTree.C86_refuted` | P Q |
| C87 | `Verif.WBTree.C87_insert_partial` | P C Q |
| C87 | `Verif.WBTree.C87_overwrite` | P C Q |
| C87 | `Verif.WBTree.C87_refuted` | P C Q |
| C88 | `Verif.WBTree.C88_partial` | P C Q |
| C88 | `Verif.WBTree.C87_overwrite` | P C Q |
| C88 | `Verif.WBTree.C88_damage` | P Q |
| C88 | `Verif.WBTree.C88_refuted` | P C Q |
| C89 | `Verif.WBTree.C89_zero_partial` | P C Q |
| C89 | `Verif.WBTree.C89_damage` | P Q |
| C89 | `Verif.WBTree.C89_refuted` | P C Q |
| C90 | `Verif.WBTree.C90_partial` | P C Q |
| C90 | `Verif.WBTree.C89_damage` | P Q |
| C90 | `Verif.WBTree.C90_refuted` | P C Q |
| C91 | `Verif.BitTree.C91_partial` | P C Q |
| C91 | `Verif.BitTree.C91_refuted` | P Q |
| C91 | `Verif.BitTree.C91_same_model` | P Q |
| C91 | `Verif.BitTree.C92_merge_short` | P Q |
| C92 | `Verif.BitTree.C92_partial` | P C Q |
| C92 | `Verif.BitTree.C92_refuted` | P C Q |
| C92 | `Verif.BitTree.under_right` | P C Q |
| C92 | `Verif.BitTree.under_last` | P C Q |
| C92 | `Verif.BitTree.C92_rightmost` | P C Q |
| C92 | `Verif.BitTree.C92_left_merge` | P C Q |
| C92 | `Verif.BitTree.C92_left_entries` | P C Q |
| C92 | `Verif.BitTree.C92_empty_entries` | P C Q |
| C92 | `Verif.BitTree.C92_right_merge` | P C Q |
| C92 | `Verif.BitTree.C92_merge_full` | P C Q |
| C92 | `Verif.BitTree.C92_merge_throws` | P C Q |
| C92 | `Verif.BitTree.C92_merge_short` | P Q |
| C93 | `Verif.SkipListProps.C93_crash_atomic` | P C Q |
| C93 | `Verif.SkipListProps.C93_one_crash` | P C Q |
| C93 | `Verif.SkipListProps.C93_all_assignments` | P C Q |
| C93 | `Verif.SkipListProps.C93_needs_order` | – |
| C94 | `Verif.SkipListProps.C94_levels_after_crashes` | P C Q |
| C94 | `Verif.SkipListProps.C94_count_lost` | – |
| C95 | `Verif.Patricia.C95_inserts_partial` | P C Q |
| C95 | `Verif.Patricia.C95_partial` | P C Q |
| C95 | `Verif.Patricia.C95_bounds_partial` | P C Q |
| C95 | `Verif.Patricia.C95_lost` | P Q |
| C95 | `Verif.Patricia.C95_refuted` | P Q |
| C96 | `Verif.WBTree.C96_partial` | P C Q |
| C96 | `Verif.WBTree.C96_missed` | P Q |
| C96 | `Verif.WBTree.C96_split_loses` | P C Q |
| C96 | `Verif.WBTree.C96_refuted` | P Q |
| C97 | `Verif.WBTree.C97_partial` | P C Q |
| C97 | `Verif.WBTree.C97_balance_next` | P Q |
| C97 | `Verif.WBTree.C97_balance_prev` | P Q |
| C97 | `Verif.WBTree.C97_merge_right` | P Q |
| C97 | `Verif.WBTree.C97_merge_left` | P Q |
| C97 | `Verif.WBTree.C97_shrink` | P C Q |
| C97 | `Verif.WBTree.C97_refuted_each` | P Q |
| C97 | `Verif.WBTree.C97_refuted` | P Q |
| C98 | `Verif.WBTree.C98_asserts` | P C Q |
| C98 | `Verif.WBTree.C98_exact` | P C Q |
| C98 | `Verif.WBTree.C98_lost` | P C Q |
| C98 | `Verif.WBTree.C98_partial` | P C Q |
| C98 | `Verif.WBTree.C98_example` | P Q |
| C98 | `Verif.WBTree.C98_refuted` | P Q |
| C99 | `Verif.WBTree.C99_partial` | P C Q |
| C99 | `Verif.WBTree.C99_leak` | P C Q |
| C99 | `Verif.WBTree.C99_full` | P C Q |
| C99 | `Verif.WBTree.C99_refuted` | P Q |
| C99 | `Verif.WBTree.balOps_ub` | P Q |
