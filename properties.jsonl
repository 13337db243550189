{"id": "C01", "title": "Bitmap point updates are independent cells", "statement": "After any sequence of set(i)/reset(i) calls on a fresh Bitmap<NB>, test(j) (and operator[] on the const bitmap) returns true exactly when the last in-range update of position j was a set; a call with a position >= NB throws and changes nothing.", "quantifier": "every bitmap size NB >= 1, every history of set/reset calls with arbitrary positions, every queried position", "why_tests_cant": "The claim is about all histories and all sizes, including sizes that straddle a word boundary; a test fixes one size and a handful of positions.", "anchors": ["src/utils/Bitmap.hpp: set(pos), reset(pos), test, check"]}
{"id": "C02", "title": "Bitmap count and all agree with the stored positions", "statement": "For every bitmap reachable by any history of set(pos,v), reset(pos), set() and flip() calls, count() is the number of positions p < NB with test(p) = true, and all() is true exactly when test(p) is true for every p < NB.", "quantifier": "every bitmap size, every reachable bitmap content", "why_tests_cant": "count() is a bit-twiddling population count over 2^64 word values; no test suite enumerates them.", "anchors": ["src/utils/Bitmap.hpp: count, all, set, reset, flip"]}
{"id": "C03", "title": "Bitmap free-slot and first-set search", "statement": "getFreeZero() returns the smallest position whose test is false when some position < NB is free and a value >= NB otherwise; getFirstSet() returns the smallest position whose test is true, and a value >= NB when no position is set.", "quantifier": "every bitmap size, every reachable bitmap content", "why_tests_cant": "The implementation goes through a de Bruijn multiplication and a 64-entry table per word; only a proof covers all word values.", "anchors": ["src/utils/Bitmap.hpp: getFreeZero, getFirstSet, bsf-style tab64 lookup"]}
{"id": "C04", "title": "Whole-bitmap set and flip", "statement": "After set() every position < NB tests true; after flip() every position < NB tests to the negation of its previous value; in both cases count() afterwards is NB respectively NB minus the previous count.", "quantifier": "every bitmap size NB >= 1 and every bitmap content", "why_tests_cant": "Depends on the relation between NB and the word size; tests use one or two sizes.", "anchors": ["src/utils/Bitmap.hpp: set(), flip(), sanitize"]}
{"id": "C05", "title": "Random generator never leaves its cycle", "statement": "For every 32-bit seed, every value produced by Next() lies in [1, 2^31-2], equals 16807 times the previous state modulo 2^31-1, and the internal state never becomes 0 or 2^31-1 (so the generator never gets stuck).", "quantifier": "every seed and every number of calls", "why_tests_cant": "2^32 seeds times unbounded call sequences.", "anchors": ["src/utils/Random.hpp: Random::Random, Next"]}
{"id": "C06", "title": "Random helpers stay in range", "statement": "Uniform(n) returns a value in [0, n-1] for every n in 1..2^31-1, OneIn(n) is true exactly when the raw draw is divisible by n, and Skewed(max_log) returns a value in [0, 2^max_log - 1] for max_log in 0..30, for every generator state.", "quantifier": "every seed, every call history, every argument in the documented range", "why_tests_cant": "All generator states cannot be enumerated by a test.", "anchors": ["src/utils/Random.hpp: Uniform, OneIn, Skewed"]}
{"id": "C07", "title": "Random generator has full period", "statement": "Starting from any seed the sequence of Next() values visits every value in [1, 2^31-2] before repeating.", "quantifier": "every seed", "why_tests_cant": "Period 2^31-2 is beyond what a unit test iterates, and it must hold from every start state.", "anchors": ["src/utils/Random.hpp: Next"]}
{"id": "C08", "title": "Binary search position in leaf arrays", "statement": "For an array whose first n keys are strictly increasing, the leaf variant of binary search over [0,n) returns the number of stored keys smaller than the searched key; hence it returns the position of the key when the key is present, and the insertion position otherwise, without reading outside [0,n).", "quantifier": "every key type with a total order, every array capacity, every fill level n (including 0), every key", "why_tests_cant": "All sorted arrays of all lengths; off-by-one errors hide at untested lengths.", "anchors": ["src/utils/SearchFunctions.hpp: binarySearch<false>"]}
{"id": "C09", "title": "Binary search position in branch arrays", "statement": "For an array whose first n keys are strictly increasing, the branch variant of binary search returns the number of stored keys less than or equal to the searched key, i.e. the index of the child whose key interval contains the searched key, and agrees with the linear branch search.", "quantifier": "every key type with a total order, every capacity, every fill level, every key", "why_tests_cant": "As above, over all arrays and keys.", "anchors": ["src/utils/SearchFunctions.hpp: binarySearch<true>", "src/pbptrees/BPTree.hpp: lookupPositionInBranchNode"]}
{"id": "C10", "title": "Extremal key search in unsorted nodes", "statement": "findMinKeyPos/findMaxKeyPos on a node with numKeys >= 1 return a position below numKeys holding a smallest (largest) stored key; on a key array with validity bitmap they return a valid position holding a smallest (largest) valid key whenever at least one key is valid.", "quantifier": "every fill level, every bitmap, every assignment of keys", "why_tests_cant": "All key assignments including the extreme values of the key type.", "anchors": ["src/utils/SearchFunctions.hpp: findMinKeyPos, findMaxKeyPos"]}
{"id": "C11", "title": "Neighbour key search in bitmap nodes", "statement": "findMinKeyPosGreaterThan returns a valid position holding the smallest valid key strictly greater than the given key, and N if there is none; findMaxKeyPosSmallerThan is the mirror image.", "quantifier": "every bitmap, every assignment of keys, every pivot key", "why_tests_cant": "All key assignments including extreme key values.", "anchors": ["src/utils/SearchFunctions.hpp: findMinKeyPosGreaterThan, findMaxKeyPosSmallerThan"]}
{"id": "C12", "title": "k-th smallest element selection", "statement": "elementOfRankK(k, data, start, length) returns the k-th smallest element of data[start..start+length) and only permutes that range, for every 1 <= k <= length.", "quantifier": "every non-empty range of distinct non-negative integer keys and every valid rank", "why_tests_cant": "Median-of-medians recursion over all inputs; termination and correctness need induction.", "anchors": ["src/utils/SearchFunctions.hpp: ElementOfRankK::elementOfRankK, findMedian, partition"]}
{"id": "C13", "title": "Split key of an unsorted full leaf", "statement": "findSplitKey on a full array of M distinct keys returns a position s and a bitmap b such that data[s] is the key of rank (M+1)/2+1 and b marks exactly the keys smaller than data[s]; so exactly (M+1)/2 keys stay left and the rest go right.", "quantifier": "every M >= 2 and every array of M distinct keys", "why_tests_cant": "All arrays; the result depends on a conversion of the key through an unsigned type.", "anchors": ["src/utils/SearchFunctions.hpp: findSplitKey"]}
{"id": "C14", "title": "Serialization round trip", "statement": "Deserializing the bytes produced by serialize for a value built from fixed-size scalars, strings, vectors and tuples (arbitrarily nested) yields the same value.", "quantifier": "every serializable type shape and every value of it", "why_tests_cant": "Infinitely many shapes and values.", "anchors": ["src/ptable/core/serialize.hpp: serialize, deserialize"]}
{"id": "C15", "title": "Serialization is self-delimiting and append-only", "statement": "serialize appends exactly get_size(v) bytes to the stream and leaves the earlier bytes unchanged; deserializing from a stream that contains the encoding of v followed by arbitrary bytes returns v and leaves the read position exactly after v's encoding.", "quantifier": "every type shape, every value, every stream prefix and suffix", "why_tests_cant": "Quantifies over all values and contexts.", "anchors": ["src/ptable/core/serialize.hpp: serialize, get_size, deserialize"]}
{"id": "C16", "title": "BDCC bit assignment is a partition", "statement": "For every list of dimensions, the masks derived for the dimensions are pairwise disjoint, the mask of a dimension has exactly as many bits as the dimension asked for, and together they cover exactly the bit positions 0..numBins-1, where numBins is the sum of the requested bits.", "quantifier": "every list of dimensions with at most 32 bits in total (including zero-bit dimensions)", "why_tests_cant": "All dimension lists; tests check two or three.", "anchors": ["src/ptable/core/BDCCInfo.hpp: BDCCInfo, deriveMasks, numBins"]}
{"id": "C17", "title": "BDCC assignment is round-robin from the top", "statement": "Scanning positions from numBins-1 downwards, the k-th bit (from the most significant) of an earlier dimension is placed above the k-th bit of a later one, and every dimension's (k+1)-th bit is placed below the k-th bit of every dimension.", "quantifier": "every list of dimensions with at most 32 bits in total", "why_tests_cant": "All dimension lists.", "anchors": ["src/ptable/core/BDCCInfo.hpp: deriveMasks"]}
{"id": "C18", "title": "BDCC value of a tuple lies in the table's key range", "statement": "The BDCC value computed for any tuple is smaller than 2^numBins, so for a fresh table the initial block range [0, 2^numBins-1] contains it.", "quantifier": "every dimension list with at most 32 bits, every tuple", "why_tests_cant": "All dimension lists and all tuples.", "anchors": ["src/ptable/PTable.hpp: getBDCCFromTuple, init", "src/ptable/core/BDCCInfo.hpp"]}
{"id": "C19", "title": "Block layout is well formed", "statement": "A freshly initialised data block for any schema of int/double/string columns has, for each column, an SMA area followed by a data area, the areas of different columns are disjoint, follow the header, and end inside the block.", "quantifier": "every schema of int/double/string columns whose minipages are large enough for their SMA area (this includes every schema with at most 700 columns), every BDCC range", "why_tests_cant": "All schemas.", "anchors": ["src/ptable/PTable.hpp: initBlock, calcMinipageSizes", "src/ptable/core/DataNode.hpp"]}
{"id": "C20", "title": "Stored tuples read back unchanged", "statement": "If the space check accepts a tuple for a block and the tuple is inserted into that block, reading every attribute through the returned tuple handle gives the inserted values, and every handle to a tuple inserted earlier into the block still reads its own values.", "quantifier": "every schema of int/double/string columns, every history of accepted tuples (strings without NUL characters), every column", "why_tests_cant": "All schemas and insertion histories; corruption only shows at particular fill levels.", "anchors": ["src/ptable/PTable.hpp: insertTuple, hasEnoughSpace, initBlock", "src/ptable/core/PTuple.hpp: get, createTuple"]}
{"id": "C21", "title": "Small materialized aggregates bound the block", "statement": "For every column of a block that received at least one tuple, the stored minimum and maximum are the minimum and maximum of that column over all tuples inserted into the block; consequently a block skipped by a range scan contains no matching tuple.", "quantifier": "every schema, every history of accepted tuples, every column, every predicate (a NaN attribute lies in no range)", "why_tests_cant": "All histories and predicates.", "anchors": ["src/ptable/PTable.hpp: insertTuple, getCandidateBlocks"]}
{"id": "C22", "title": "Range scan returns exactly the matching live tuples", "statement": "rangeScan(predicates) yields exactly the tuples currently in the table (inserted and not deleted since) whose attributes all lie in the given closed ranges.", "quantifier": "every table history of inserts and deletes, every predicate", "why_tests_cant": "All histories and predicates.", "anchors": ["src/ptable/PTable.hpp: rangeScan, BlockIterator, getCandidateBlocks, isPTupleinRange, deleteByKey"]}
{"id": "C23", "title": "Block ranges partition the BDCC domain", "statement": "At every moment the BDCC ranges of the table's blocks, in list order, cover [0, 2^numBins-1] without gaps, so inserting any tuple finds a target block.", "quantifier": "every history of block splits at arbitrary tuples", "why_tests_cant": "All histories of splits.", "anchors": ["src/ptable/PTable.hpp: insert, splitBlock, findInsertNodeOrSplit"]}
{"id": "C24", "title": "Table count equals number of live keys", "statement": "count() equals the number of distinct keys currently retrievable by getByKey.", "quantifier": "every history of insert, updateComplete and deleteByKey calls", "why_tests_cant": "All histories.", "anchors": ["src/ptable/PTable.hpp: count, insert, deleteByKey, getByKey"]}
{"id": "C25", "title": "BaseTrie lookup reflects inserts", "statement": "After any sequence of inserts into an empty trie, lookup(k) succeeds exactly for the inserted keys and returns the value of the last insert of k.", "quantifier": "every sequence of inserts with arbitrary byte-string keys and every looked-up key of fewer than 256 bytes", "why_tests_cant": "All key sets; prefixes interact.", "anchors": ["src/ptries/BaseTrie.hpp: insert, lookup"]}
{"id": "C26", "title": "BaseTrie remove deletes only the given key", "statement": "After remove(k), lookup(k) fails and lookup of every other key gives the same result as before.", "quantifier": "every reachable trie, every key", "why_tests_cant": "All key sets; the interesting cases are prefix pairs.", "anchors": ["src/ptries/BaseTrie.hpp: remove"]}
{"id": "C27", "title": "Simple skip list is a map", "statement": "For every outcome of the random level choices, search(k) succeeds exactly for the keys inserted so far and returns the value of the last insert of k (an insert of a present key updates the value); insert(k) returns true exactly when k was not present before.", "quantifier": "every history of inserts and searches whose first insert is not one of the smallest key value, every sequence of random levels, every MAX_LEVEL >= 2", "why_tests_cant": "The structure depends on random levels; tests see one random run.", "anchors": ["src/pskiplists/simplePSkiplist.hpp: insert, search, getRandomLevel"]}
{"id": "C28", "title": "Simple skip list levels are nested sorted sublists", "statement": "At all times the node sequence on level i+1 is a subsequence of the one on level i, every level is strictly increasing in keys, level 0 contains exactly the inserted keys with their values, and the node count is the number of keys.", "quantifier": "every history of inserts, every sequence of random levels", "why_tests_cant": "All random outcomes.", "anchors": ["src/pskiplists/simplePSkiplist.hpp: insert"]}
{"id": "C29", "title": "Write-optimised skip list is a map", "statement": "For every outcome of the random level choices, search(k) succeeds exactly for the keys inserted so far.", "quantifier": "every history of inserts of distinct keys, every sequence of random levels, node capacity >= 2", "why_tests_cant": "Random structure, node splits at arbitrary fill patterns.", "anchors": ["src/pskiplists/woPSkiplist.hpp: insert, search, splitNode, insertInNode"]}
{"id": "C30", "title": "BPTree insert/lookup is a map", "statement": "After any sequence of insert(k,v) calls on an empty BPTree, lookup(k) returns true exactly for inserted keys and yields the value of the last insert of k, and no operation touches memory outside a node.", "quantifier": "every even or odd branch capacity N >= 3, every leaf capacity M >= 2, every insert sequence, every key", "why_tests_cant": "All insert orders and all tree shapes.", "anchors": ["src/pbptrees/BPTree.hpp: insert, lookup, insertInLeafNode, insertInBranchNode, splitBranchNode"]}
{"id": "C31", "title": "BPTree insert/erase/lookup is a map", "statement": "After any sequence of insert and erase calls in which erase is only called for keys present, lookup behaves as in the abstract map (insert overwrites, erase removes), erase returns true, and no operation touches memory outside a node or follows a dangling pointer.", "quantifier": "every even branch capacity N >= 6, every leaf capacity M >= 2, every such history", "why_tests_cant": "All histories: rebalancing and merging at every level must be right for every tree shape.", "anchors": ["src/pbptrees/BPTree.hpp: erase, eraseFromLeafNode, underflowAtLeafLevel, underflowAtBranchLevel, balanceLeafNodes, balanceBranchNodes, mergeLeafNodes, mergeBranchNodes"]}
{"id": "C32", "title": "BPTree erase of an absent key is a no-op", "statement": "erase(k) for a key that is not stored returns false and leaves every lookup unchanged.", "quantifier": "every reachable tree, every absent key", "why_tests_cant": "Depends on stale array contents left by earlier operations.", "anchors": ["src/pbptrees/BPTree.hpp: eraseFromLeafNode"]}
{"id": "C33", "title": "BPTree works for every documented capacity", "statement": "The map behaviour under insert and erase holds for every branch capacity accepted by the class (N > 2), in particular for N = 3, 4 and 5.", "quantifier": "every N > 2, M >= 2, every history erasing only present keys", "why_tests_cant": "Small and odd capacities break only after specific merge patterns.", "anchors": ["src/pbptrees/BPTree.hpp: static_assert N > 2, underflowAtLeafLevel, mergeBranchNodes"]}
{"id": "C34", "title": "BPTree scan is sorted and complete", "statement": "scan(func) calls func exactly once for every stored entry, in strictly increasing key order.", "quantifier": "every history of inserts and erases of present keys (N even, N >= 6, M >= 2)", "why_tests_cant": "All tree shapes; requires the leaf chain to be coherent with the tree.", "anchors": ["src/pbptrees/BPTree.hpp: scan(func), nextLeaf/prevLeaf maintenance in insertInLeafNode and mergeLeafNodes"]}
{"id": "C35", "title": "BPTree range scan returns exactly the range", "statement": "scan(lo, hi, func) calls func exactly once for every stored entry with lo <= key <= hi, in strictly increasing key order, and for no other entry.", "quantifier": "every history as above, every pair of bounds (also lo > hi)", "why_tests_cant": "All tree shapes and bounds.", "anchors": ["src/pbptrees/BPTree.hpp: scan(minKey, maxKey, func)"]}
{"id": "C36", "title": "BPTree iterator enumerates the tree", "statement": "Iterating from begin() to end() yields every stored entry exactly once in strictly increasing key order.", "quantifier": "every history as above ending in a non-empty tree", "why_tests_cant": "All tree shapes.", "anchors": ["src/pbptrees/BPTree.hpp: iterator"]}
{"id": "C37", "title": "BPTree stays balanced and within capacity", "statement": "Every root-to-leaf path has the same length, every non-root branch node has between N/2-1 and N keys, every non-root leaf has between M/2 and M entries, and separators bound the keys below them.", "quantifier": "every history as above", "why_tests_cant": "Structural invariant over all histories.", "anchors": ["src/pbptrees/BPTree.hpp"]}
{"id": "C38", "title": "PBPTree insert/erase/lookup is a map", "statement": "The persistent B+ tree behaves as the abstract map under insert, erase of present keys, and lookup; scan, range scan and iteration are sorted and complete.", "quantifier": "every even N >= 6, every M >= 2, every such history", "why_tests_cant": "All histories.", "anchors": ["src/pbptrees/PBPTree.hpp: insert, erase, lookup, scan, iterator"]}
{"id": "C39", "title": "HPBPTree insert/erase/lookup is a map", "statement": "The hybrid B+ tree (volatile branches, persistent sorted leaves) behaves as the abstract map under insert, erase of present keys and lookup; scan and range scan are sorted and complete.", "quantifier": "every even N >= 6, every M >= 2, every such history without recovery", "why_tests_cant": "All histories.", "anchors": ["src/pbptrees/HPBPTree.hpp: insert, erase, lookup, scan"]}
{"id": "C40", "title": "FPTree insert/lookup is a map", "statement": "After any sequence of inserts, FPTree lookup returns exactly the inserted entries (last value wins); the one-byte fingerprints never cause a stored key to be missed or a wrong value to be returned.", "quantifier": "every N >= 4, M >= 2, every insert sequence of non-negative keys, every fingerprint collision pattern", "why_tests_cant": "All insert orders and hash collisions.", "anchors": ["src/pbptrees/FPTree.hpp: insert, lookup, lookupPositionInLeafNode, splitLeafNode, fpHash"]}
{"id": "C41", "title": "FPTree erase removes exactly the given key", "statement": "FPTree erase(k) returns true exactly when k is stored, afterwards lookup(k) fails and all other lookups are unchanged.", "quantifier": "every history of inserts and erases", "why_tests_cant": "Rebalancing decisions depend on stale slots.", "anchors": ["src/pbptrees/FPTree.hpp: erase, underflowAtLeafLevel, balanceLeafNodes"]}
{"id": "C42", "title": "FPTree recovery preserves the contents", "statement": "After losing all volatile branch nodes at any operation boundary, recover() rebuilds a tree in which every lookup gives the same result as before.", "quantifier": "every well-formed leaf chain (every number of leaves, every fill)", "why_tests_cant": "The shape of the rebuilt tree depends on the number of leaves; tests use one.", "anchors": ["src/pbptrees/FPTree.hpp: recover, recoveryInsert, recoveryInsertInBranchNode"]}
{"id": "C43", "title": "HPBPTree recovery preserves the contents", "statement": "After recover() every lookup gives the same result as before, and later inserts and erases keep behaving as the abstract map.", "quantifier": "every well-formed leaf chain and every later history", "why_tests_cant": "All chains and later histories.", "anchors": ["src/pbptrees/HPBPTree.hpp: recover, recoveryInsert"]}
{"id": "C44", "title": "UnsortedPBPTree insert/erase/lookup is a map", "statement": "The B+ tree with unsorted leaves behaves as the abstract map under insert, erase of present keys and lookup.", "quantifier": "every even N >= 6, every M >= 2, every such history", "why_tests_cant": "All histories; leaf order is arbitrary.", "anchors": ["src/pbptrees/UnsortedPBPTree.hpp: insert, erase, lookup, splitLeafNode, underflowAtLeafLevel"]}
{"id": "C45", "title": "wBPTree/wHBPTree insert/lookup is a map", "statement": "After any sequence of inserts of distinct keys every inserted key is found by lookup.", "quantifier": "every N, M and insert order", "why_tests_cant": "A lost key needs a particular insert position at a full leaf.", "anchors": ["src/pbptrees/wBPTree.hpp: insert, lookup, insertInLeafNode, splitLeafNode, findLeafNode", "src/pbptrees/wHBPTree.hpp: insert, lookup, insertInLeafNode, splitLeafNode, findLeafNode"]}
{"id": "C46", "title": "BitHPBPTree/BitPBPTree range scan returns exactly the range", "statement": "scan(lo, hi, func) reports exactly the stored entries with lo <= key <= hi.", "quantifier": "every tree content and every pair of bounds", "why_tests_cant": "All contents.", "anchors": ["src/pbptrees/BitHPBPTree.hpp: scan(minKey,maxKey,func)", "src/pbptrees/BitPBPTree.hpp: scan(minKey,maxKey,func)"]}
{"id": "C47", "title": "Crash inside a transaction is all-or-nothing", "statement": "If a sequence of persistent writes is run in a transaction that snapshots each range before its first modification, then a crash after any prefix of the steps followed by recovery leaves the persistent state exactly as before the transaction, and a crash after commit leaves it exactly as after.", "quantifier": "every initial persistent state, every sequence of snapshot/write steps obeying snapshot-before-write, every crash point", "why_tests_cant": "All crash points of all write sequences.", "anchors": ["src/pbptrees/PBPTree.hpp: get_rw usage in insertInLeafNodeAtPosition etc.", "src/ptable/PTable.hpp: deleteByKey transaction::run"]}
{"id": "C48", "title": "FPTree leaf insert is crash-consistent without a transaction", "statement": "With writes persisting in program order, a crash at any point inside the non-splitting leaf insert leaves a leaf whose visible entries are either exactly the old ones or exactly the old ones plus the new entry.", "quantifier": "every leaf content, every new entry, every crash point", "why_tests_cant": "All crash points.", "anchors": ["src/pbptrees/FPTree.hpp: insertInLeafNodeAtPosition"]}
{"id": "C49", "title": "Bitmap text form", "statement": "The string written for a bitmap has exactly NB characters, and for every position p < NB the character at index NB-1-p is '1' when test(p) is true and '0' when it is false.", "quantifier": "every bitmap size and every bitmap reachable by any history of calls", "why_tests_cant": "Index reversal and word boundaries interact for every size; a test prints one or two bitmaps.", "anchors": ["src/utils/Bitmap.hpp: copyToString, operator<<"]}
{"id": "C50", "title": "Slot-array binary search", "statement": "Searching a node that keeps its entries in arbitrary physical order plus a slot array listing them in key order returns, for a leaf, one plus the number of stored keys smaller than the searched key and, for a branch, one plus the number of stored keys not greater than it.", "quantifier": "every node capacity, every number of entries, every physical order, every searched key", "why_tests_cant": "All layouts and boundary keys; the 1-based result is easy to get wrong by one at either end.", "anchors": ["src/utils/SearchFunctions.hpp: binarySearch (slot variant)", "src/pbptrees/wBPTree.hpp: lookupPositionInLeafNode, lookupPositionInBranchNode"]}
{"id": "C51", "title": "Truncated serialized data is rejected", "statement": "Deserializing any strict prefix of the bytes written for a value never yields a value: the bounds assertion fires.", "quantifier": "every serializable type shape, every value, every strict prefix length", "why_tests_cant": "All values and all cut positions.", "anchors": ["src/ptable/core/serialize.hpp: serialize, deserialize"]}
{"id": "C52", "title": "BDCC value encodes exactly the bins", "statement": "Two tuples get the same BDCC value if and only if, in every dimension, the bits of their column values selected by the dimension (its number of bits, below its alignment) are equal.", "quantifier": "every dimension list with at most 32 bits and sensible alignments, every pair of tuples", "why_tests_cant": "All pairs of tuples and all dimension lists.", "anchors": ["src/ptable/PTable.hpp: getBDCCFromTuple", "src/ptable/core/BDCCInfo.hpp: deriveMasks, applyMask"]}
{"id": "C53", "title": "FPTree scan and range scan report each entry exactly once", "statement": "After any sequence of inserts, FPTree scan(func) reports every stored entry exactly once and nothing else, and scan(lo, hi, func) reports every stored entry with lo <= key <= hi exactly once and nothing else (in any order, since leaves are unsorted).", "quantifier": "every N >= 3, M >= 2, every insert sequence of non-negative keys, every pair of bounds", "why_tests_cant": "The range scan stops at the first key above hi within an unsorted leaf; only some slot layouts would expose a missed entry.", "anchors": ["src/pbptrees/FPTree.hpp: scan(func), scan(minKey, maxKey, func)"]}
{"id": "C54", "title": "BaseTrie subNodes counts the prefixes of the stored keys", "statement": "After any history of inserts and removes, subNodes() equals the number of different prefixes (including the empty one) of the keys still stored; in particular no unreachable or superfluous node remains.", "quantifier": "every history of inserts and removes with arbitrary byte-string keys", "why_tests_cant": "The count depends on all shared prefixes and on every earlier removal.", "anchors": ["src/ptries/BaseTrie.hpp: subNodes, insert, remove"]}
{"id": "C55", "title": "Write-optimised skip list nodes are ordered and disjoint", "statement": "At all times the nodes on level 0 of woPSkiplist are ordered with pairwise disjoint [min,max] bounds that contain all keys stored in the node, no node exceeds its capacity, every inserted entry is stored in exactly one node, nodeCount is the number of nodes, and the node sequence of every upper level is a subsequence of the one below.", "quantifier": "every history of inserts, every sequence of random levels, node capacity >= 2", "why_tests_cant": "Random levels decide where a split-off node is linked; the order of the upper levels is never observed by search results.", "anchors": ["src/pskiplists/woPSkiplist.hpp: insert, insertInNode, splitNode, printList"]}
{"id": "C56", "title": "UnsortedPBPTree scan reports each entry exactly once", "statement": "After any sequence of inserts, UnsortedPBPTree scan(func) calls func for every stored entry exactly once with its last inserted value, and for nothing else.", "quantifier": "every N >= 3, M >= 2, every insert sequence of non-negative keys", "why_tests_cant": "All insert orders; the slot order inside the leaves is arbitrary and splits scatter entries.", "anchors": ["src/pbptrees/UnsortedPBPTree.hpp: scan(func), insertInLeafNode, splitLeafNode"]}
{"id": "C57", "title": "UnsortedPBPTree erase of an absent key changes nothing", "statement": "UnsortedPBPTree erase(k) for a key k that is not stored returns false and leaves every lookup unchanged.", "quantifier": "every history of inserts and erases, every absent key", "why_tests_cant": "The outcome depends on the stale contents of the slot behind the last entry; tests rarely erase an absent key.", "anchors": ["src/pbptrees/UnsortedPBPTree.hpp: erase, eraseFromLeafNode, lookupPositionInLeafNode"]}
{"id": "C58", "title": "BaseTrie insert survives a crash", "statement": "If a crash interrupts BaseTrie insert(k, v) at any point, then after recovery either every lookup answers as before the insert and repeating the insert has the same result as if there had been no crash, or every lookup answers as after the insert.", "quantifier": "every trie, key, value, and every point at which the sequence of transactions of the insert may be interrupted", "why_tests_cant": "All crash points for all keys; the intermediate tries contain nodes that no completed operation leaves.", "anchors": ["src/ptries/BaseTrie.hpp: insert, lookup"]}
{"id": "C59", "title": "getByKey returns the record last stored under the key", "statement": "After any history of insert (of keys not currently stored), updateComplete and deleteByKey calls, getByKey(k) returns the attributes of the record last stored under k, and throws for a key that is not stored.", "quantifier": "every schema, every history, every key, including histories that split blocks", "why_tests_cant": "Splits move tuples between blocks and rewrite the index; the property must hold for all histories and all split points.", "anchors": ["src/ptable/PTable.hpp: getByKey, insert, splitBlock, deleteByKey, updateComplete"]}
{"id": "C60", "title": "wBPTree/wHBPTree erase while the root is a leaf", "statement": "While all entries fit into one leaf, erase(k) returns whether k was stored and removes it; lookups answer as a map under any sequence of inserts and erases.", "quantifier": "every leaf order M, every sequence of inserts and erases that never stores more than M keys", "why_tests_cant": "The stray read happens one element behind an array and usually hits padding; no test output shows it.", "anchors": ["src/pbptrees/wBPTree.hpp: eraseFromLeafNode, eraseFromLeafNodeAtPosition", "src/pbptrees/wHBPTree.hpp: eraseFromLeafNode, eraseFromLeafNodeAtPosition"]}
{"id": "C61", "title": "BitHPBPTree/BitPBPTree behave as a map under inserts", "statement": "After any sequence of insert(k, v) calls no call fails, and lookup(k) returns the value of the last insert of k, or reports absence if k was never inserted.", "quantifier": "every sequence of inserts of int keys, every branch order N and leaf order M, every content of uninitialised slots", "why_tests_cant": "Unbounded histories with arbitrarily deep splits; failures need special orders (multiples of 64) or special keys (negative, INT_MAX as separator).", "anchors": ["src/pbptrees/BitHPBPTree.hpp: insert, lookup, splitLeafNode, insertInBranchNode, splitBranchNode", "src/pbptrees/BitPBPTree.hpp: insert, lookup, splitLeafNode, insertInBranchNode, splitBranchNode"]}
{"id": "C62", "title": "BitHPBPTree/BitPBPTree full scan reports every entry once", "statement": "scan(func) calls func exactly once for each stored entry and for nothing else.", "quantifier": "every sequence of inserts, every order", "why_tests_cant": "Missing entries only show for insertion orders that split the leftmost leaf repeatedly; tests insert ascending keys.", "anchors": ["src/pbptrees/BitHPBPTree.hpp: scan(func)", "src/pbptrees/BitPBPTree.hpp: scan(func)"]}
{"id": "C63", "title": "BitHPBPTree/BitPBPTree behave as a map under inserts and erases", "statement": "In any history of insert(k, v) and erase(k), erase returns whether k was stored, and afterwards lookup returns the last value inserted and not erased.", "quantifier": "every history of inserts and erases of keys 0..2^31-2, every order", "why_tests_cant": "The pointer deleted in a merge with the right neighbour is the wrong one, and the damage shows only when another leaf is visited later; the repository's erase tests end before that.", "anchors": ["src/pbptrees/BitHPBPTree.hpp: erase, eraseFromBranchNode, underflowAtLeafLevel, mergeLeafNodes, balanceLeafNodes, deleteLeafNode", "src/pbptrees/BitPBPTree.hpp: erase, eraseFromBranchNode, underflowAtLeafLevel, mergeLeafNodes, balanceLeafNodes, deleteLeafNode"]}
{"id": "C64", "title": "BitHPBPTree recovery restores every lookup", "statement": "After any history of inserts and a restart, recover() returns and every lookup on the recovered tree answers as it did before the restart.", "quantifier": "every sequence of inserts, every number of leaves, every order N, M", "why_tests_cant": "Recovery fails exactly for leaf counts whose predecessor has a zero digit in base N+1; a test with one fixed size sees either always success or always failure, and the failure is a read of an uninitialised pointer.", "anchors": ["src/pbptrees/BitHPBPTree.hpp: recover", "src/pbptrees/BitHPBPTree.hpp: recoveryInsert", "src/pbptrees/BitHPBPTree.hpp: recoveryInsertInBranchNode"]}
{"id": "C65", "title": "PatriciaTree behaves as a map under inserts", "statement": "After any sequence of insert(key, len, v) calls no call has undefined behaviour, insert returns true exactly for a key that was not stored, lookup finds exactly the inserted keys with the value of the last insert, and getCount() is the number of stored keys.", "quantifier": "every sequence of inserts of non-empty byte strings, every content of the caller's memory behind the key, every value type", "why_tests_cant": "Overruns of a few bytes stay within allocator padding; a key that is a common prefix of others at a byte boundary is found although never inserted, which tests with printable keys do not reach.", "anchors": ["src/ptries/Patricia.hpp: insert, lookup, branchNode, MATCH_KEY, CHECK_BIT", "src/ptries/PTreeNode.hpp: setKey, setChild"]}
{"id": "C66", "title": "PatriciaTree remove deletes exactly the given key", "statement": "remove(key) returns whether key was stored, afterwards key is not found, every other key is found with its value as before, and getCount() decreases by one exactly if key was stored.", "quantifier": "every sequence of inserts and removes of non-empty byte strings", "why_tests_cant": "Which keys are lost depends on the shape of the trie above the removed node, which only prefix-related key sets produce.", "anchors": ["src/ptries/Patricia.hpp: remove, deleteNode", "src/ptries/PTreeNode.hpp: unsetChild"]}
{"id": "C67", "title": "PatriciaTree operations interrupted by a crash", "statement": "If insert or remove is interrupted by a crash, then after the restart lookups and getCount() are those of a trie in which the operation either took effect completely or not at all.", "quantifier": "every history of inserts and removes with any number of crashes, every point of interruption", "why_tests_cant": "The window between the transaction and the update of the count is a few instructions wide; tests do not crash there.", "anchors": ["src/ptries/Patricia.hpp: insert, remove, deleteNode"]}
{"id": "C68", "title": "PString holds the last string set", "statement": "After any sequence of set(value) and reset() calls no call has undefined behaviour, and data() is the value of the last set, or the empty string after reset.", "quantifier": "every sequence of calls on one object, values of any length and content, every content of the uninitialised buffer", "why_tests_cant": "Freed persistent memory usually keeps its content for a while, so a dangling pointer still shows the old string.", "anchors": ["src/ptable/core/PString.hpp: set, reset, data"]}
{"id": "C69", "title": "Table metadata reports the columns it was created with", "statement": "A table created with as many column names as its tuple type has elements reports these names and the types of the elements in order; findColumnByName returns the first position with the given name, or -1 if there is none.", "quantifier": "every tuple type over int, double and string, every list of names", "why_tests_cant": "Names are arbitrary std::string values; tests use a handful of plain identifiers.", "anchors": ["src/ptable/core/PTableInfo.hpp: PTableInfo, columnInfo, findColumnByName", "src/ptable/core/PTableInfo.cpp: PColumnInfo", "src/ptable/core/VTableInfo.hpp: ColumnsConstructor, VTableInfo"]}
{"id": "C70", "title": "Iterating a non-empty FPTree or UnsortedPBPTree visits every entry once", "statement": "After any sequence of inserts that stores at least one key, the loop from begin() to end() ends and yields every stored entry exactly once and nothing else, in the order of scan.", "quantifier": "every sequence of inserts of non-negative keys (also with erases, for the erases that work at all), all template parameters N >= 3 and M >= 2, every content of uninitialised memory", "why_tests_cant": "The FPTree iterator skips unused slots by two different loops with different end conditions; the cases (last slot used or not, gaps, next leaf) are too many to sample.", "anchors": ["src/pbptrees/FPTree.hpp: iterator", "src/pbptrees/UnsortedPBPTree.hpp: iterator"]}
{"id": "C71", "title": "Iterating an empty tree does nothing", "statement": "If a tree holds no entries, the loop from begin() to end() ends without a round.", "quantifier": "every history of inserts and erases that leaves the tree empty, in particular the new tree; BPTree, PBPTree, HPBPTree, UnsortedPBPTree, FPTree", "why_tests_cant": "The tests never iterate over an empty tree, and an out-of-bounds read in a pool often goes unnoticed.", "anchors": ["src/pbptrees/BPTree.hpp: iterator", "src/pbptrees/PBPTree.hpp: iterator", "src/pbptrees/HPBPTree.hpp: iterator", "src/pbptrees/UnsortedPBPTree.hpp: iterator", "src/pbptrees/FPTree.hpp: iterator"]}
{"id": "C72", "title": "A crash in a leaf insert or erase of a Bit tree is atomic", "statement": "If the assignments of an insert (key stored already, or a free position in the leaf) or of an erase to a leaf become persistent in program order and a crash stops them, then all lookups afterwards are those before or all are those after the operation.", "quantifier": "every history of inserts and erases without underflow, every key and value, every crash point; BitHPBPTree (leaves) and BitPBPTree", "why_tests_cant": "The unit tests never crash the process between two assignments.", "anchors": ["src/pbptrees/BitHPBPTree.hpp: insertInLeafNode, insertInLeafNodeAtPosition, eraseFromLeafNodeAtPosition", "src/pbptrees/BitPBPTree.hpp: insertInLeafNode, insertInLeafNodeAtPosition, eraseFromLeafNodeAtPosition"]}
{"id": "C73", "title": "A crash in an insert into an UnsortedPBPTree leaf is atomic", "statement": "If the assignments of an insert (key stored already, or a free slot in the leaf) become persistent in program order and a crash stops them, then all lookups afterwards are those before or all are those after the insert.", "quantifier": "every sequence of inserts of non-negative keys (and erases that free no leaf in use), every key and value, every crash point", "why_tests_cant": "The unit tests never crash the process between two assignments.", "anchors": ["src/pbptrees/UnsortedPBPTree.hpp: insertInLeafNode, insertInLeafNodeAtPosition"]}
{"id": "C74", "title": "A crash in an erase from an UnsortedPBPTree leaf is atomic", "statement": "If the assignments of an erase to a leaf become persistent in program order and a crash stops them, then all lookups afterwards are those before or all are those after the erase.", "quantifier": "every sequence of inserts of non-negative keys, every stored key, every crash point", "why_tests_cant": "The unit tests never crash the process between two assignments.", "anchors": ["src/pbptrees/UnsortedPBPTree.hpp: eraseFromLeafNode, eraseFromLeafNodeAtPosition"]}
{"id": "C75", "title": "A crash in an insert into a PBPTree leaf is atomic", "statement": "If the assignments of an insert (key stored already, or a free slot in the leaf) become persistent in program order and a crash stops them, then all lookups afterwards are those before or all are those after the insert.", "quantifier": "every history of inserts and erases of stored keys, every key and value, every crash point", "why_tests_cant": "The unit tests never crash the process between two assignments.", "anchors": ["src/pbptrees/PBPTree.hpp: insertInLeafNode, insertInLeafNodeAtPosition"]}
{"id": "C76", "title": "A crash in an erase from a PBPTree leaf is atomic", "statement": "If the assignments of an erase to a leaf become persistent in program order and a crash stops them, then all lookups afterwards are those before or all are those after the erase.", "quantifier": "every history of inserts and erases of stored keys, every stored key, every crash point", "why_tests_cant": "The unit tests never crash the process between two assignments.", "anchors": ["src/pbptrees/PBPTree.hpp: eraseFromLeafNode, eraseFromLeafNodeAtPosition"]}
{"id": "C77", "title": "A leaf insert of a Bit tree needs no order of its assignments", "statement": "If an arbitrary subset of the assignments of an insert of a new key into a free position has become persistent when the process crashes, then all lookups afterwards are those before or all are those after the insert.", "quantifier": "every history of inserts and erases without underflow, every new key and value, every subset; BitHPBPTree (leaves) and BitPBPTree", "why_tests_cant": "Which cache lines have reached persistent memory at a crash is up to the processor; there is no flush or fence between the assignments.", "anchors": ["src/pbptrees/BitHPBPTree.hpp: insertInLeafNodeAtPosition", "src/pbptrees/BitPBPTree.hpp: insertInLeafNodeAtPosition"]}
{"id": "C78", "title": "A crash in a leaf split of the FPTree loses nothing", "statement": "If a crash stops splitLeafNode after any number of its assignments and the tree is recovered from the list of leaves, then all lookups are those before the operation.", "quantifier": "every history of inserts, every full leaf, every crash point; any key type, fingerprint function and uninitialised memory", "why_tests_cant": "The unit tests never crash the process between two assignments.", "anchors": ["src/pbptrees/FPTree.hpp: splitLeafNode, recover, recoveryInsert"]}
{"id": "C79", "title": "reverse mirrors the bits of an integer", "statement": "For every integer type, reverse(n) mirrors all bits, so reverse(reverse(n)) == n.", "quantifier": "every width, signed and unsigned, every value", "why_tests_cant": "A few sample values never contain all combinations of bits and types.", "anchors": ["src/utils/PatriciaUtils.hpp: reverse"]}
{"id": "C80", "title": "toBinaryString gives the bits of the memory", "statement": "toBinaryString(in, size) reads no memory beyond the first size bits, gives exactly size characters, and character q is bit 7 - q % 8 of byte q / 8; two buffers give the same text exactly if they agree on these bits.", "quantifier": "every size, every buffer of at least size bits", "why_tests_cant": "The out-of-bounds read at sizes divisible by 8 is only avoided by an early return; tests do not cover all sizes.", "anchors": ["src/utils/PatriciaUtils.hpp: toBinaryString"]}
{"id": "C81", "title": "RNG gives different keys of the requested size", "statement": "A generator (INCREMENTAL) of either kind can be constructed, next(key, size) writes size bytes, and up to 256^size calls give different keys.", "quantifier": "both kinds, every buffer size, every number of calls", "why_tests_cant": "The overflow of a short buffer and the write through an uninitialised pointer need not be visible in a test run.", "anchors": ["src/utils/PatriciaUtils.hpp: RNG::RNG, RNG::next, RNG::reset"]}
{"id": "C82", "title": "HPBPTree: a crash inside a leaf split loses nothing", "statement": "If the program stops after any number of assignments of splitLeafNode of HPBPTree and recover is called, every lookup answers as before the operation.", "quantifier": "every history of inserts and erases of present keys, every full leaf, every crash point", "why_tests_cant": "A test cannot stop the program between two assignments of a function.", "anchors": ["src/pbptrees/HPBPTree.hpp: splitLeafNode, recover, recoveryInsert"]}
{"id": "C83", "title": "PBPTree: a crash inside a leaf split loses nothing", "statement": "If the program stops after any number of assignments of splitLeafNode of PBPTree and the tree is opened again, every lookup answers as before the operation.", "quantifier": "every history of inserts and erases of present keys, every full leaf, every crash point", "why_tests_cant": "A test cannot stop the program between two assignments of a function.", "anchors": ["src/pbptrees/PBPTree.hpp: splitLeafNode, recover"]}
{"id": "C84", "title": "UnsortedPBPTree: a crash inside a leaf split loses nothing", "statement": "If the program stops after any number of assignments of splitLeafNode of UnsortedPBPTree and the tree is opened again, every lookup answers as before the operation.", "quantifier": "every history of inserts of non-negative keys (also with erases of present keys that free no leaf in use), every full leaf, every crash point", "why_tests_cant": "A test cannot stop the program between two assignments of a function, and which keys are affected depends on the order of the entries in the leaf.", "anchors": ["src/pbptrees/UnsortedPBPTree.hpp: splitLeafNode, lookup"]}
{"id": "C85", "title": "A table over its tree index: select and rangeScan2 return the records by key", "statement": "A PTable works with the PBPTree it uses as its index: after any history of insert (of keys not currently stored), updateComplete and deleteByKey calls, getByKey and count agree with the map of the stored records, rangeScan2(min, max) passes exactly the records with min <= key <= max to the function, by increasing key, and iterating over select(pred) gives exactly the records that satisfy pred, by increasing key.", "quantifier": "every schema, every history (including histories that split blocks and tree nodes), all node sizes of the index, every predicate on records, all bounds", "why_tests_cant": "A block split erases and reinserts the index entries of a whole block, which triggers splits and merges of tree nodes; the combination must be right for all histories, key distributions and predicates.", "anchors": ["src/ptable/PTable.hpp: select, rangeScan2, iterator, splitBlock, insertTuple, deleteByKey", "src/pbptrees/PBPTree.hpp: insert, erase, lookup, scan, iterator"]}
{"id": "C86", "title": "Scans and iterators of the slot-array trees visit every entry once", "statement": "After any sequence of inserts of distinct keys, wBPTree::scan(func) calls func exactly once for every inserted entry and in ascending key order, wHBPTree::scan(func) calls func exactly once for every inserted entry, and for both trees the loop from begin() to end() yields every inserted entry exactly once.", "quantifier": "every sequence of distinct keys (any order, any length including none), all N and M, any content of uninitialised slots", "why_tests_cant": "The scan starts at children[0] of each branch node, which is the first child only for some insertion orders; tests with ascending keys never see the difference, and the number of orders grows factorially.", "anchors": ["src/pbptrees/wBPTree.hpp: scan, iterator, begin, insertInBranchNode, splitLeafNode", "src/pbptrees/wHBPTree.hpp: scan, iterator, begin"]}
{"id": "C87", "title": "An insert into a leaf of the slot-array trees is atomic under crashes", "statement": "If a wBPTree or wHBPTree that consists of one leaf with room for the key is interrupted by a crash anywhere inside insert(k, v), then afterwards lookup returns for all keys the values from before the insert, or for all keys the values from after it.", "quantifier": "every history of inserts with at most M different keys, every key and value, every number of completed assignments, both trees, any content of uninitialised slots", "why_tests_cant": "The insert shifts slots one byte at a time without a transaction; between the second shift and the update of the counter the largest key is not reachable. A test would have to cut the power between two particular byte writes; the unit tests never crash.", "anchors": ["src/pbptrees/wBPTree.hpp:624-635", "src/pbptrees/wHBPTree.hpp:633-645"]}
{"id": "C88", "title": "The slot-array trees can be used on after a crash inside an insert", "statement": "After a crash anywhere inside insert(k, v) into a one-leaf wBPTree or wHBPTree, further inserts that fit into the leaf succeed, and then lookup returns for all keys the values of the history with or without the interrupted insert.", "quantifier": "every history before and after the crash with at most M different keys in total, every number of completed assignments, both trees", "why_tests_cant": "wBPTree marks the position before it counts the entry (a crash in between loses the position for good), wHBPTree counts the entry before it marks the position (the next insert overwrites it). The damage shows only in a later operation after a crash at one particular point.", "anchors": ["src/pbptrees/wBPTree.hpp:624-635", "src/pbptrees/wHBPTree.hpp:633-645", "src/pbptrees/wBPTree.hpp:493-527"]}
{"id": "C89", "title": "An erase from a leaf of the slot-array trees is atomic under crashes", "statement": "If a wBPTree or wHBPTree that consists of one leaf that is not full is interrupted by a crash anywhere inside erase(k) of a stored key, then afterwards lookup returns for all keys the values from before the erase, or for all keys those from after it.", "quantifier": "every history of inserts with fewer than M different keys, every stored key, every number of completed assignments, both trees, any content of uninitialised slots", "why_tests_cant": "The last round of the loop copies the first unused slot into the range of used slots before the counter is decremented. Whether that matters depends on what the uninitialised slot holds and on whether the binary search reaches it; with zeroed memory it never does harm, with other content a lookup reads an uninitialised position.", "anchors": ["src/pbptrees/wBPTree.hpp:831-846", "src/pbptrees/wHBPTree.hpp:818-833"]}
{"id": "C90", "title": "The slot-array trees can be used on after a crash inside an erase", "statement": "After a crash anywhere inside erase(k) of a stored key of a one-leaf wBPTree or wHBPTree, further inserts that fit into the leaf succeed, and then lookup returns for all keys the values of a history in which the erase took place or did not.", "quantifier": "every history before and after the crash that fits into the leaf, every stored key, every number of completed assignments, both trees", "why_tests_cant": "The erase clears the bit of the position before it removes the slot. A crash in between leaves a used slot with a free position; the next insert overwrites the key under the slot, the slots are not sorted any more and other keys are lost. It needs a crash after exactly the first write and then an insert.", "anchors": ["src/pbptrees/wBPTree.hpp:831-846", "src/pbptrees/wHBPTree.hpp:818-833"]}
{"id": "C91", "title": "BitHPBPTree/BitPBPTree behave as a map under inserts and erases, with underflows of branch nodes", "statement": "In any history of insert(k, v) and erase(k) on a tree that grows and shrinks over any number of levels, erase returns whether k was stored, no call ends in undefined behaviour, an exception or a failed assertion, and afterwards lookup returns the last value inserted and not erased.", "quantifier": "every history of inserts and erases of keys 0..2^31-2, trees of any depth, every leaf and branch capacity", "why_tests_cant": "Underflows of branch nodes need trees of at least three levels and erases at particular places; most of the cases of the handling crash or lose keys, and which case is reached depends on the order of all earlier inserts.", "anchors": ["src/pbptrees/BitHPBPTree.hpp:373-386", "src/pbptrees/BitHPBPTree.hpp:685-897", "src/pbptrees/BitPBPTree.hpp:328-341", "src/pbptrees/BitPBPTree.hpp:635-871"]}
{"id": "C92", "title": "The handling of an underflow of a branch node of BitHPBPTree/BitPBPTree keeps the entries", "statement": "When a child of a branch node has fewer than half of the keys, underflowAtBranchLevel gives the node (or, if it has no key left, the returned child) such that it is a valid search tree with the same entries.", "quantifier": "every valid node of any height, every position and content of the child and its neighbours, every capacity", "why_tests_cant": "The case is chosen by the slot numbers and key counts of the neighbours; entries of the right neighbour are moved correctly, every other case of a node inside a tree is wrong, and it is seen only when a key of one of the two nodes is looked up.", "anchors": ["src/pbptrees/BitHPBPTree.hpp:740-897", "src/pbptrees/BitPBPTree.hpp:690-871"]}
{"id": "C93", "title": "A crash inside insert of simplePSkiplist leaves the whole insert or nothing", "statement": "In any history of insert(k, v) calls, some of which are interrupted by a crash behind any of their assignments to persistent memory and followed by recover(), every interrupted insert has taken effect as a whole or not at all: the results of the completed inserts and all later searches are those of one map that contains each interrupted insert completely or not.", "quantifier": "every history of inserts and crashes, every crash point, every outcome of the random levels, every MAX_LEVEL of at least two; up to the first completed insert the smallest value of the key type is not inserted; assignments reach the memory in program order", "why_tests_cant": "A test process cannot be stopped behind each of the up to 2*MAX_LEVEL+2 assignments for each random level and each content of the list, and the damage of a wrong order would show only for later keys.", "anchors": ["src/pskiplists/simplePSkiplist.hpp:112-129", "src/pskiplists/simplePSkiplist.hpp:173-214", "src/pskiplists/simplePSkiplist.hpp:223-246"]}
{"id": "C94", "title": "After crashes the levels of simplePSkiplist are still nested sorted lists, and nodeCount is wrong by at most the number of crashes", "statement": "After any history of inserts and crashes inside of inserts, the nodes of each level have strictly increasing keys, the nodes of level i+1 are a sublist of those of level i, level 0 has exactly the entries of one of the maps possible by C93, and nodeCount is at most their number and smaller by at most the number of crashes.", "quantifier": "every history of inserts and crashes, every crash point, every outcome of the random levels, every MAX_LEVEL of at least two; up to the first completed insert the smallest value of the key type is not inserted; assignments reach the memory in program order", "why_tests_cant": "The half-linked nodes of earlier crashes stay in the list, so that later inserts work on states that no history without crashes can build.", "anchors": ["src/pskiplists/simplePSkiplist.hpp:95-129", "src/pskiplists/simplePSkiplist.hpp:173-214", "src/pskiplists/simplePSkiplist.hpp:244-262"]}
{"id": "C95", "title": "getSubnodes() of PatriciaTree counts the nodes of the compressed trie of the stored keys", "statement": "After any history of insert and remove with non-empty keys, getSubnodes() is the number of distinct bit strings that are empty (the root), equal to a stored key, or continued by stored keys with both bits: no superfluous node is kept and no needed node is missing. In particular, with d > 0 stored keys there are at least d + 1 and at most 2 d nodes.", "quantifier": "every history of inserts and removes of non-empty byte strings, every value type, every content of uninitialised memory", "why_tests_cant": "The number of nodes depends on all common prefixes of the stored keys at the level of bits; a remove that leaves a superfluous inner node or frees a needed one shows up only for particular prefixes.", "anchors": ["src/ptries/PTreeNode.hpp:231-245", "src/ptries/Patricia.hpp:352-356", "src/ptries/Patricia.hpp:108-229", "src/ptries/Patricia.hpp:269-350"]}
{"id": "C96", "title": "Range scans of wHBPTree list exactly the stored entries in the range", "statement": "After any sequence of inserts into an empty wHBPTree, scan(minKey, maxKey, func) calls func exactly once for every stored entry with minKey <= key <= maxKey, with the value of the last insert of the key, and for nothing else.", "quantifier": "every sequence of inserts in any order and with repeated keys, every minKey and maxKey, every order N, M of the nodes, every content of uninitialised memory", "why_tests_cant": "Whether entries are missed depends on the slot that findLeafNode reads behind the last separator, which holds what earlier splits left there; most ranges are scanned correctly by luck.", "anchors": ["src/pbptrees/wHBPTree.hpp:468-489", "src/pbptrees/wHBPTree.hpp:755-762"]}
{"id": "C97", "title": "Erase in wBPTree and wHBPTree with several leaves", "statement": "In every tree that inserts and erases lead to, erase(k) of a key that lookup finds returns true; then k is not found any more, and every other key that was found before is still found with its value.", "quantifier": "every history of inserts and erases in any order, every order N, M of the nodes, every content of uninitialised memory, trees of any depth", "why_tests_cant": "Whether an erase damages the tree depends on the fill of the neighbouring leaves, the position of the leaf below its branch node and the fill of the nodes above; most erases cause no underflow at all.", "anchors": ["src/pbptrees/wBPTree.hpp:779-1280", "src/pbptrees/wHBPTree.hpp:770-1226"]}
{"id": "C98", "title": "A restart of wHBPTree loses no key that was found before", "statement": "After any sequence of inserts into an empty wHBPTree, if recover() runs through (its assertion on the number of leaves holds), every key that lookup found before the restart is found afterwards with the same value.", "quantifier": "every sequence of inserts in any order and with repeated keys, every number of leaves recover() accepts, every order N, M of the nodes, every content of uninitialised memory", "why_tests_cant": "Recovery builds full branch nodes, so every key behind the last separator of its branch node is lost; which keys these are depends on the base-(N+1) digits of the index of the leaf, and the assertion rejects most trees, so a test rarely gets to a tree of two levels.", "anchors": ["src/pbptrees/wHBPTree.hpp:389-422", "src/pbptrees/wHBPTree.hpp:1232-1321", "src/pbptrees/wHBPTree.hpp:755-762"]}
{"id": "C99", "title": "Branch nodes of wBPTree and wHBPTree that take separators from a neighbour", "statement": "After inserts and erases that keep the tree intact, erase(k) of a stored key that makes a branch node take separators from a neighbouring branch node returns true and removes k and nothing else; and every later insert or erase that would keep an intact tree intact works: it returns, answers right, and all stored keys are where inserts and erases look for them.", "quantifier": "every history of inserts and erases that keep the tree intact, every order N, M > 1 of the nodes, trees of any depth, a balance at any level with a left or right neighbour, every history afterwards", "why_tests_cant": "Directly after the erase everything is right. One position of a bitmap stays marked as used; only when later splits fill that very branch node up to its last place does an insert write behind the arrays.", "anchors": ["src/pbptrees/wBPTree.hpp:972-1030", "src/pbptrees/wBPTree.hpp:1112-1190", "src/pbptrees/wHBPTree.hpp:959-1011", "src/pbptrees/wHBPTree.hpp:1084-1150"]}
{"id": "C100", "title": "A crash inside insert of woPSkiplist is atomic for lookups", "statement": "If the process crashes at any point inside insert(k, v) of a woPSkiplist built by inserts, every search after the restart answers as before the insert or every search answers as after it.", "quantifier": "every history of inserts, every key and value of the interrupted insert, every random level, every crash point between two assignments, every node capacity N >= 2 and every number of levels M >= 2", "why_tests_cant": "The code runs without interruption in a test. The window between the assignment of the bitmap of a split node and the link to its new sibling is a few instructions wide; half of a node is lost for good if the crash hits it.", "anchors": ["src/pskiplists/woPSkiplist.hpp:238-309", "src/pskiplists/woPSkiplist.hpp:362-421"]}
{"id": "C101", "title": "woPSkiplist can be used after a crash inside insert", "statement": "After a crash at any point inside insert of a woPSkiplist built by inserts, every further sequence of inserts behaves as on a map whose contents are those found by search after the restart: each insert reports whether the key is new, and afterwards search finds exactly these contents.", "quantifier": "every history of inserts, every interrupted insert, every crash point, every history of inserts after the restart, every random level, every N >= 2 and M >= 2", "why_tests_cant": "The states after a crash are not reachable without one. In one of them repeating the insert reports an update for ever and the key is never found; in another one the repeated insert works and a later split brings the old value back.", "anchors": ["src/pskiplists/woPSkiplist.hpp:238-309", "src/pskiplists/woPSkiplist.hpp:362-421"]}
{"id": "C102", "title": "Iterating a non-empty BitHPBPTree or BitPBPTree visits what scan reports", "statement": "After any sequence of at least one insert, the loop from begin() to end() ends and yields exactly the entries that scan(func) reports, in the same order; after inserts in ascending order these are all stored entries, each exactly once.", "quantifier": "every non-empty sequence of inserts of admissible keys, trees of any depth, all orders N >= 2 not divisible by 64 and M >= 2 (not divisible by 64 for BitHPBPTree), every content of uninitialised memory", "why_tests_cant": "operator++ has two loops with different end conditions and a recursion; which of them runs depends on the pattern of free positions in every leaf, of which there are too many to sample.", "anchors": ["src/pbptrees/BitHPBPTree.hpp:233-291", "src/pbptrees/BitPBPTree.hpp:184-246"]}
{"id": "C103", "title": "An insert that splits a leaf of BitHPBPTree survives a crash", "statement": "After any sequence of inserts into a BitHPBPTree, if an insert of a new key into a full leaf is interrupted by a crash at any point and the tree is recovered, then the lookups are either those before the insert or those after it.", "quantifier": "every sequence of inserts of admissible keys, every new key whose leaf is full, every crash point, all orders N >= 2 not divisible by 64 and M >= 2 not divisible by 64, every content of uninitialised memory; numbers of leaves for which recover works without a crash (C64)", "why_tests_cant": "The crash has to fall between two assignments of one call; the keys that are lost are in persistent memory and only missing from the list of leaves, so that nothing fails until they are looked up.", "anchors": ["src/pbptrees/BitHPBPTree.hpp:908-945", "src/pbptrees/BitHPBPTree.hpp:954-1005", "src/pbptrees/BitHPBPTree.hpp:1015-1024"]}
{"id": "C104", "title": "An insert that splits a leaf of BitPBPTree survives a crash before the branch nodes are changed", "statement": "After any sequence of inserts into a BitPBPTree, if an insert of a new key into a full leaf is interrupted by a crash at any point at which only leaves have been changed, then the lookups are either those before the insert or those after it.", "quantifier": "every sequence of inserts of admissible keys, every new key whose leaf is full, every crash point before the first assignment to a branch node, all orders N >= 2 not divisible by 64 and M >= 2, every content of uninitialised memory", "why_tests_cant": "The branch nodes are persistent and are changed after the leaves, so the window in which they do not lead to the new leaf exists in every split, but it is only visible after a crash inside it.", "anchors": ["src/pbptrees/BitPBPTree.hpp:873-910", "src/pbptrees/BitPBPTree.hpp:919-972", "src/pbptrees/BitPBPTree.hpp:983-992"]}
{"id": "C105", "title": "BitPBPTree stays usable after any history of inserts and crashes inside inserts", "statement": "After any history of inserts into a BitPBPTree, any of which may be cut off by a crash at any of its changes of leaves, branch nodes, root and depth, no lookup is undefined; a lookup returns nothing or a value that was inserted for this key and not overwritten by a completed insert; and what was inserted after the last crash is found.", "quantifier": "every history of completed and interrupted inserts of admissible keys, every crash point of each (level and number of changes done there), all orders N >= 2 not divisible by 64 and M >= 2, every content of uninitialised memory", "why_tests_cant": "The histories mix arbitrarily many crashes at arbitrary points of trees of any depth; the crash point that breaks the tree is a single pair of assignments that is reached only when the tree grows by a level.", "anchors": ["src/pbptrees/BitPBPTree.hpp:275-300", "src/pbptrees/BitPBPTree.hpp:873-992", "src/pbptrees/BitPBPTree.hpp:1003-1027", "src/pbptrees/BitPBPTree.hpp:1040-1082"]}
{"id": "C106", "title": "A crash inside an insert into BitPBPTree affects only the leaf of the inserted key", "statement": "After any history of inserts and crashes, if an insert into a BitPBPTree is interrupted at any point that leaves a tree, then every key that belongs to another leaf than the inserted key is looked up with the same result as before.", "quantifier": "every history of completed and interrupted inserts, every inserted key, every crash point on every level, every other key, all orders N >= 2 not divisible by 64 and M >= 2", "why_tests_cant": "Whether other leaves are affected depends on how full the lowest branch node on the path is and at which of its assignments the crash happens.", "anchors": ["src/pbptrees/BitPBPTree.hpp:1003-1027", "src/pbptrees/BitPBPTree.hpp:1040-1082"]}
{"id": "C107", "title": "A crash while the lowest branch node of BitPBPTree gets a new separator leaves the state of before or after the insert", "statement": "After any history of inserts and crashes, if an insert into a BitPBPTree splits a leaf below a branch node with a free position and a crash happens at any point of the update of this branch node, then the lookups are either all those of before the insert or all those of after it.", "quantifier": "every history of completed and interrupted inserts, every insert that splits a leaf below a branch node that is not full, every number of assignments to the branch node done, all orders N >= 2 not divisible by 64 and M >= 2", "why_tests_cant": "The four assignments take nanoseconds; a test would have to crash between two particular ones of them.", "anchors": ["src/pbptrees/BitPBPTree.hpp:1057-1080"]}
{"id": "C108", "title": "A crash inside insertTuple never damages the records of the block", "statement": "Every history of inserts into a new block, some of them interrupted by a crash at any store, runs without an error. Reading the block by position then gives, in order, all records whose insert completed and some of the interrupted ones, each of them whole. Each completed record is still read through the offsets that its insert returned.", "quantifier": "every schema that fits a block, every list of records, every choice of which inserts are interrupted and after how many stores", "why_tests_cant": "The record is stored byte by byte into several pages of the block; a test would have to cut the power between two particular stores, and to go on inserting after each of these cuts.", "anchors": ["src/ptable/PTable.hpp:824-963", "src/ptable/PTable.hpp:1005-1057"]}
{"id": "C109", "title": "Minimum and maximum of a column stay right after crashes inside insertTuple", "statement": "After any history of inserts and interrupted inserts into a new block, the stored minimum and maximum of every column bound the values of all records of the block, so that a range scan never skips a block that has a matching record.", "quantifier": "every schema that fits a block, every list of records, every choice of which inserts are interrupted and after how many stores, every column", "why_tests_cant": "The error needs a crash between two assignments of one insert and another insert whose bytes replace those of the interrupted one.", "anchors": ["src/ptable/PTable.hpp:852-857", "src/ptable/PTable.hpp:876-881", "src/ptable/PTable.hpp:913-926"]}
{"id": "C110", "title": "A crash inside insert of a table leaves the insert done or not done", "statement": "Take a table after any history of calls, and an insert of an absent key that would complete. If a crash interrupts this insert at any step, then getByKey and count both see the table as before the insert, or both see it as after the insert. The other keys keep their records.", "quantifier": "every table schema whose first column holds numbers, every history with 16-bit keys that are the key attributes of their records, every crash point, including those between the splits of blocks", "why_tests_cant": "The block, the index and the BDCC sum are changed one after the other outside of a transaction; only a crash between two particular assignments separates them.", "anchors": ["src/ptable/PTable.hpp:345-396", "src/ptable/PTable.hpp:834-963", "src/ptable/PTable.hpp:528-537"]}
{"id": "C111", "title": "After crashes a table behaves as if each interrupted call was done or not done", "statement": "Take any history of inserts, erases and updates of a table, some of them interrupted by a crash, with more calls after each crash. There is a way to regard each interrupted call as done or as not done, such that getByKey finds exactly the records of the resulting history.", "quantifier": "every table schema whose first column holds numbers, every history with 16-bit keys that are the key attributes of their records and are inserted while absent, every choice of crash points", "why_tests_cant": "The effect shows only if a crash between two assignments is followed by calls that find the key absent, and much later by a split of the same block.", "anchors": ["src/ptable/PTable.hpp:345-396", "src/ptable/PTable.hpp:450-482", "src/ptable/PTable.hpp:834-963", "src/ptable/PTable.hpp:965-1078"]}
{"id": "C112", "title": "After crashes getByKey finds only records that were passed to a call", "statement": "After any history of inserts, erases and updates of a table, some of them interrupted by a crash at any step, reading the handle that getByKey returns succeeds and gives one whole record that some call passed to the table. If keys are the key attributes of their records, this call named the key that was looked up.", "quantifier": "every table schema, every history, every choice of crash points", "why_tests_cant": "A torn record needs a crash between two byte stores of one insert, followed by inserts or splits that use the remains.", "anchors": ["src/ptable/PTable.hpp:345-396", "src/ptable/PTable.hpp:431-502", "src/ptable/PTable.hpp:834-963", "src/ptable/PTable.hpp:965-1078"]}
{"id": "C113", "title": "A crash inside updateComplete leaves the old or the new record", "statement": "Take a table after any history of calls, and an update of a present key that would complete. If a crash interrupts this update at any step, then getByKey finds the old or the new record of the key, and the records of all other keys.", "quantifier": "every table schema whose first column holds numbers, every history with 16-bit keys that are the key attributes of their records, every crash point", "why_tests_cant": "The update erases the record in one transaction and inserts the new one afterwards; only a crash between the two loses the record.", "anchors": ["src/ptable/PTable.hpp:431-437", "src/ptable/PTable.hpp:450-482", "src/ptable/PTable.hpp:834-963"]}
{"id": "C114", "title": "After crashes the calls of a table still come to an end", "statement": "Take any history of inserts, erases and updates of a table, some of them interrupted by a crash at any step, with records that fit into an empty block. Every call of the history, before and after the crashes, comes to an end without undefined behaviour; in particular an insert splits blocks only finitely often. At every moment, insert finds a block for every BDCC value that the table has bins for.", "quantifier": "every table schema, every history of calls and crashes, every choice of crash points, every BDCC value below 2^bins", "why_tests_cant": "A crash leaves records that are stored but not counted in the sums that splits divide by. The splits that follow can make ranges that are empty, and an insert that splits forever shows only for special numbers of records and sums.", "anchors": ["src/ptable/PTable.hpp:345-396", "src/ptable/PTable.hpp:834-963", "src/ptable/PTable.hpp:965-1078"]}
{"id": "C115", "title": "Records are stored in a block whose BDCC range contains them", "statement": "After any history of inserts, erases and updates of a table, a record that getByKey finds is stored in a data block whose BDCC range contains the BDCC value of the record.", "quantifier": "every table schema, every function from records to BDCC values, every history of calls, every key", "why_tests_cant": "Range scans skip blocks by their range; a record in a wrong block is still found by its key, so tests of getByKey pass.", "anchors": ["src/ptable/PTable.hpp:345-396", "src/ptable/PTable.hpp:834-963", "src/ptable/PTable.hpp:965-1078"]}
{"id": "C116", "title": "A crash on the branch levels of an insert into PBPTree loses nothing", "statement": "Take a PBPTree after any history of inserts and erases of present keys, and an insert whose changes of the leaf are done. If a crash interrupts this insert at any assignment to a branch node or to the root, then the tree can be used afterwards, and every lookup gives the value from before or from after the insert.", "quantifier": "every tree with even N >= 6 and M >= 2, every history, every key and value, every branch level, every crash point", "why_tests_cant": "Tests do not crash between two assignments; the keys that are lost for a moment lie in children of the node that the insert does not touch.", "anchors": ["src/pbptrees/PBPTree.hpp:210-235", "src/pbptrees/PBPTree.hpp:1020-1050", "src/pbptrees/PBPTree.hpp:1063-1110"]}
{"id": "C117", "title": "A crash on a branch level of an insert into PBPTree loses only keys of the split child", "statement": "Take a PBPTree after any history of inserts and erases of present keys, and an insert that splits a child of a branch node. If a crash interrupts the insert while this node gets its new separator, then every key whose search does not come to the split child keeps the value it has after the insert.", "quantifier": "every tree with even N >= 6 and M >= 2, every history, every key and value, every branch level, every crash point, every key searched for", "why_tests_cant": "Entries of the node are moved one by one from the last one; which child is hidden depends on the number of moves done, so only all crash points together show which keys can be lost.", "anchors": ["src/pbptrees/PBPTree.hpp:1063-1110", "src/pbptrees/PBPTree.hpp:1145-1165"]}
{"id": "C118", "title": "A crash on the branch levels of an insert into UnsortedPBPTree loses nothing", "statement": "Take an UnsortedPBPTree after any history of inserts, or of inserts and erases that free no leaf in use, with non-negative keys, and an insert whose changes of the leaf are done. If a crash interrupts this insert at any assignment to a branch node or to the root, then the tree can be used afterwards, and every lookup gives the value from before or from after the insert.", "quantifier": "every tree with N >= 3 and M >= 2, every content of new leaves, every history, every key and value, every branch level, every crash point", "why_tests_cant": "Tests do not crash between two assignments; the keys that are lost for a moment lie in children of the node that the insert does not touch.", "anchors": ["src/pbptrees/UnsortedPBPTree.hpp:218-244", "src/pbptrees/UnsortedPBPTree.hpp:1027-1117", "src/pbptrees/UnsortedPBPTree.hpp:1152-1159"]}
{"id": "C119", "title": "FPTree: inserts with crashes and recoveries lose no completed insert", "statement": "Take any history of inserts into an FPTree in which any inserts are interrupted by a crash at any assignment to persistent memory, each crash followed by a recovery. Afterwards lookup gives for every key the value of its last completed insert, or the value of an interrupted insert of this key after it.", "quantifier": "every tree with N >= 2 and M >= 2 (M >= 4 or keys below the maximum), every history, every number of crashes, every crash point, every key", "why_tests_cant": "One crash at a harmless place leaves slots that are marked but not found; only several crashes at the same point together with a later split make a completed insert disappear. Tests do not crash between two assignments, let alone repeatedly.", "anchors": ["src/pbptrees/FPTree.hpp:228-254", "src/pbptrees/FPTree.hpp:374-405", "src/pbptrees/FPTree.hpp:492-530", "src/pbptrees/FPTree.hpp:539-597", "src/pbptrees/FPTree.hpp:611-624"]}
{"id": "C120", "title": "FPTree stays usable after any number of crashes and recoveries", "statement": "In any history of inserts into an FPTree in which any inserts are interrupted by a crash at any assignment to persistent memory, each crash followed by a recovery, all inserts, recoveries and lookups come to an end without undefined behaviour, exception or failed assertion.", "quantifier": "every tree with N >= 2 and M >= 2 (M >= 4 or keys below the maximum), every history, every number of crashes, every crash point, every key", "why_tests_cant": "The failing histories need several crashes at exactly the same assignment; every single crash is harmless.", "anchors": ["src/pbptrees/FPTree.hpp:374-405", "src/pbptrees/FPTree.hpp:492-530", "src/pbptrees/FPTree.hpp:539-597", "src/pbptrees/FPTree.hpp:583-589", "src/pbptrees/FPTree.hpp:611-624", "src/pbptrees/FPTree.hpp:866-883"]}
{"id": "C121", "title": "FPTree: an interrupted erase removes at most its own key", "statement": "Take any history of inserts and erases on an FPTree after which all lookups are right, and an erase of a key that is interrupted by a crash at any assignment to persistent memory. After recovery lookup gives the old value for every other key, and for the erased key its old value or nothing.", "quantifier": "every tree with M >= 4, every history, every key, every crash point", "why_tests_cant": "Most erases change one bit. Only those that make a leaf underflow move entries of other keys between leaves, and a wrong value appears only if the crash falls between two of the four assignments of a moved entry.", "anchors": ["src/pbptrees/FPTree.hpp:288-303", "src/pbptrees/FPTree.hpp:374-405", "src/pbptrees/FPTree.hpp:794-806", "src/pbptrees/FPTree.hpp:858-905", "src/pbptrees/FPTree.hpp:991-1037", "src/pbptrees/FPTree.hpp:1114-1151"]}
{"id": "C122", "title": "FPTree: inserts after an interrupted erase work on the recovered contents", "statement": "After an erase on an FPTree that is interrupted by a crash at any assignment to persistent memory and the following recovery, every history of inserts comes to an end, and afterwards lookup gives for every key the value of its last insert, or, if there is none, the value that lookup gave after the recovery.", "quantifier": "every tree with M >= 4, every history before the crash, every key, every crash point, every history of inserts after it", "why_tests_cant": "A crash between copying an entry and removing the original leaves two copies. All lookups right after the recovery are correct; the stale copy becomes visible only when a later insert splits the leaf that holds it.", "anchors": ["src/pbptrees/FPTree.hpp:228-254", "src/pbptrees/FPTree.hpp:374-405", "src/pbptrees/FPTree.hpp:539-597", "src/pbptrees/FPTree.hpp:991-1037", "src/pbptrees/FPTree.hpp:1114-1151"]}
{"id": "C123", "title": "FPTree: a restarted tree behaves as a map under inserts and erases", "statement": "Take any history of inserts and erases on an FPTree, a restart without crash (the branch nodes are lost and recover() builds them again from the leaves), and a further history of inserts and erases. Every call comes to an end in the defined way, every erase reports whether the key was present, and lookup gives for every key what a map gives after both histories.", "quantifier": "every even N >= 6, every M >= 2, every two histories of inserts and erases that are safe in the sense of C41", "why_tests_cant": "recover() fills the branch nodes from left to right, so that the number of separators of the last node of each level is a digit of the number of leaves in base N + 1. Only if such a digit is 0 or 1 does the first erase of a large key read a separator that was never written or drop the root; a test has to hit such a number of leaves.", "anchors": ["src/pbptrees/FPTree.hpp:354-370", "src/pbptrees/FPTree.hpp:374-405", "src/pbptrees/FPTree.hpp:813-985", "src/pbptrees/FPTree.hpp:1049-1108", "src/pbptrees/FPTree.hpp:1184-1261"]}
{"id": "C124", "title": "HPBPTree: histories with restarts behave as a map", "statement": "Take any history of inserts, erases of present keys and restarts on an HPBPTree; a restart loses the branch nodes and calls recover(), which builds them again from the leaves. Every call comes to an end in the defined way, every erase reports whether the key was present, and at the end lookup gives for every key what a map gives after the inserts and erases.", "quantifier": "every even N >= 6, every M >= 2, every key type with a linear order, every history of any length with any number of restarts", "why_tests_cant": "recover() enters the first leaf twice: as child 0 of the lowest branch node and behind the first separator. All lookups right after the restart are correct. The fault shows only if later keys below the smallest one split the first leaf through its first entry, or if erases make the first leaf underflow through its second entry, where prevLeaf is null.", "anchors": ["src/pbptrees/HPBPTree.hpp:339-361", "src/pbptrees/HPBPTree.hpp:782-834", "src/pbptrees/HPBPTree.hpp:1091-1160"]}
{"id": "C125", "title": "HPBPTree: an erase interrupted by a crash is atomic after recovery", "statement": "Take any history of inserts and erases of present keys on an HPBPTree and then an erase of a stored key that is interrupted by a crash after any number of its assignments to persistent memory (removal from the leaf, merge with a sibling and deletion of a leaf, or move of entries from a sibling). The branch nodes are lost and recover() builds them again. Then lookup gives for every key what a map gives before the erase, or for every key what a map gives after it.", "quantifier": "every even N >= 6, every M >= 4, every key type with a linear order, every history, every stored key, every crash point", "why_tests_cant": "The assignments of one erase reach two leaves and the links between them; a test would have to cut the power between two stores for every position of the key and every number of entries of the siblings, and a key with a wrong value or a lost key shows only if exactly that key is looked up afterwards.", "anchors": ["src/pbptrees/HPBPTree.hpp:697-727", "src/pbptrees/HPBPTree.hpp:740-834", "src/pbptrees/HPBPTree.hpp:919-958", "src/pbptrees/HPBPTree.hpp:1041-1058", "src/pbptrees/HPBPTree.hpp:1091-1160"]}
{"id": "C126", "title": "PBPTree: an erase that merges two leaves is atomic if it is interrupted by a crash", "statement": "Take any history of inserts and erases of present keys on a PBPTree and then an erase of a stored key that merges two leaves and is interrupted by a crash after any number of its assignments to the leaves, up to the deletion of the second leaf. The branch nodes are persistent and still as before. Then lookup gives for every key what a map gives before the erase, or for every key what a map gives after it.", "quantifier": "every even N >= 6, every M >= 4, every key type with a linear order, every history, every stored key whose erase frees a leaf, every crash point", "why_tests_cant": "deleteLeafNode is a transaction of its own; the parent still refers to the leaf until it is updated afterwards. Only a crash between these two steps leaves a dangling pointer, and only keys above the separator then follow it.", "anchors": ["src/pbptrees/PBPTree.hpp:385-419", "src/pbptrees/PBPTree.hpp:431-484", "src/pbptrees/PBPTree.hpp:491-522", "src/pbptrees/PBPTree.hpp:1190-1198"]}
{"id": "C127", "title": "HPBPTree: which interrupted erases can lose another key", "statement": "Take any history of inserts and erases of present keys on an HPBPTree and then an erase of a stored key k. There is a crash point of this erase after which, with recover(), a stored key other than k is not found, if and only if the uninterrupted erase frees no leaf and changes the leaf of a stored key smaller than k that is not the leaf of k (it takes entries from the left sibling). If it changes no such leaf, then after every crash recover() succeeds, k is gone after the first assignment, and every other key has its value, but for at most one key that has the value of a smaller stored key.", "quantifier": "every even N >= 6, every M >= 4, every key type with a linear order, every history, every stored key, every crash point", "why_tests_cant": "Whether keys get lost depends on the direction in which entries are moved and on the store after which the power fails; the claim is an equivalence over all histories and all crash points, and both directions need all states of the two leaves.", "anchors": ["src/pbptrees/HPBPTree.hpp:697-727", "src/pbptrees/HPBPTree.hpp:740-834", "src/pbptrees/HPBPTree.hpp:1041-1058", "src/pbptrees/HPBPTree.hpp:1091-1160"]}
{"id": "C128", "title": "PBPTree: which interrupted erases can lose another key", "statement": "Take any history of inserts and erases of present keys on a PBPTree and then an erase of a stored key k. There is a crash point among its assignments to the leaves after which, with the branch nodes as before, a stored key other than k is not found or its lookup follows a dangling pointer, if and only if the uninterrupted erase frees a leaf or changes a leaf other than that of k.", "quantifier": "every even N >= 6, every M >= 4, every key type with a linear order, every history, every stored key, every crash point up to the end of the assignments to the leaves", "why_tests_cant": "The claim is an equivalence over all histories and crash points: every merge and every move of entries, in either direction, has a bad crash point, and no other erase has one.", "anchors": ["src/pbptrees/PBPTree.hpp:385-463", "src/pbptrees/PBPTree.hpp:491-584", "src/pbptrees/PBPTree.hpp:1190-1198"]}
{"id": "C129", "title": "PBPTree: crashes in the update of the branch node after an erase", "statement": "Take any history of inserts and erases of present keys on a PBPTree and then an erase of a stored key. Once its leaves are done, a crash after any number of assignments to the branch node above them (or to rootNode and depth) leaves a tree in which every lookup gives the value before or the value after the erase.", "quantifier": "every even N >= 6, every M >= 4, every key type with a linear order, every history, every stored key, every number of assignments", "why_tests_cant": "Which key is lost depends on the parity of the number of assignments, on the position of the deleted leaf and on how the binary search falls on a repeated separator; tests do not stop between two stores.", "anchors": ["src/pbptrees/PBPTree.hpp:284-297", "src/pbptrees/PBPTree.hpp:431-483", "src/pbptrees/PBPTree.hpp:598-631"]}
{"id": "C130", "title": "PBPTree: crashes behind a merge of two branch nodes in an erase", "statement": "Take any history of inserts and erases of present keys on a PBPTree and then an erase of a stored key. If it merges two branch nodes, then a crash after one or more of the assignments to the branch node above them, when the empty node has been deleted, leaves a tree in which every lookup gives the value before or the value after the erase.", "quantifier": "every even N >= 6, every M >= 4, every key type with a linear order, every history, every stored key, every level of branch nodes, every number of assignments", "why_tests_cant": "The keys are moved in one loop and the children in another. Which subtrees cannot be reached in between, and which lookups follow the pointer to the deleted node, depends on the number of assignments, on the position of the merged nodes and on how the binary search falls on a repeated separator; tests do not stop between two stores.", "anchors": ["src/pbptrees/PBPTree.hpp:598-631", "src/pbptrees/PBPTree.hpp:639-664", "src/pbptrees/PBPTree.hpp:677-730"]}
{"id": "C131", "title": "PBPTree: crashes while two branch nodes are balanced in an erase", "statement": "Take any history of inserts and erases of present keys on a PBPTree and then an erase of a stored key. A crash after any number of the assignments that move keys and children between two neighbouring branch nodes leaves a tree in which every lookup gives the value before or the value after the erase.", "quantifier": "every even N >= 6, every M >= 4, every key type with a linear order, every history, every stored key, every level of branch nodes, every number of assignments", "why_tests_cant": "Between two assignments the keys of a branch node can be out of order, so that the outcome depends on the path of the binary search; whether a lookup finds its key, finds nothing or gives a wrong value is a question about every intermediate state, and tests do not stop between two stores.", "anchors": ["src/pbptrees/PBPTree.hpp:598-631", "src/pbptrees/PBPTree.hpp:677-711", "src/pbptrees/PBPTree.hpp:745-808"]}
{"id": "C132", "title": "PBPTree: crashes while two branch nodes are merged in an erase", "statement": "Take any history of inserts and erases of present keys on a PBPTree and then an erase of a stored key that merges two branch nodes. A crash after any number of the assignments of the merge, before the empty node is deleted, leaves a tree in which every lookup gives the value after the erase.", "quantifier": "every even N >= 6, every M >= 4, every key type with a linear order, every history, every stored key, every level of branch nodes, every number of assignments", "why_tests_cant": "The claim is about the state after every single store; tests do not stop between two stores. It also covers the state in which the children of one node are reachable from both nodes.", "anchors": ["src/pbptrees/PBPTree.hpp:598-631", "src/pbptrees/PBPTree.hpp:639-664", "src/pbptrees/PBPTree.hpp:677-711"]}
{"id": "C133", "title": "PBPTree: crashes between the assignments to rootNode and depth", "statement": "Take any history of inserts and erases of present keys on a PBPTree and then an operation that replaces the root: an insert that splits it, or an erase that leaves one child of it. A crash between the assignment to rootNode and the change of depth leaves a tree in which every lookup gives the value before or the value after the operation.", "quantifier": "every even N >= 6, every M >= 4, every key type with a linear order, every history, every operation that replaces the root, every looked up key", "why_tests_cant": "The two fields are changed by two adjacent statements of three functions; a test does not stop between them, and after a crash the outcome of a lookup that takes a leaf for a branch node depends on the bytes that happen to be there.", "anchors": ["src/pbptrees/PBPTree.hpp:224-234", "src/pbptrees/PBPTree.hpp:476-480", "src/pbptrees/PBPTree.hpp:623-627", "src/pbptrees/PBPTree.hpp:1122-1133"]}
{"id": "C134", "title": "PBPTree: a scan after a crash in the branch nodes of an erase lists everything", "statement": "Take any history of inserts and erases of present keys on a PBPTree and then an erase of a stored key that is interrupted in the branch nodes, after any number of the assignments that balance or merge two branch nodes or that update the node above after a merge. A scan of the tree lists exactly the entries after the erase, once each, in increasing order of the keys.", "quantifier": "every even N >= 6, every M >= 4, every key type with a linear order, every history, every stored key, every level of branch nodes, every number of assignments", "why_tests_cant": "Lookups lose keys or follow dangling pointers at some of these crash points; that scans never do is a claim about child 0 of every branch node in every intermediate state, and tests do not stop between two stores.", "anchors": ["src/pbptrees/PBPTree.hpp:318-339", "src/pbptrees/PBPTree.hpp:598-631", "src/pbptrees/PBPTree.hpp:639-724", "src/pbptrees/PBPTree.hpp:745-808"]}
