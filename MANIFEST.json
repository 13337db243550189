{"claims": [
 {"property": "C01", "status": "proved", "theorems": ["Verif.BitmapProps.C01_point_updates", "Verif.BitmapProps.C01_out_of_range"], "note": "All sizes and all histories of point updates."},
 {"property": "C02", "status": "proved", "theorems": ["Verif.BitmapProps.C02_count", "Verif.BitmapProps.C02_all"], "note": "All sizes and histories (all() for NB > 0; NB = 0 is a zero-length array in C++)."},
 {"property": "C03", "status": "proved", "theorems": ["Verif.BitmapProps.C03_getFirstSet", "Verif.BitmapProps.C03_getFreeZero"], "note": "All sizes and histories."},
 {"property": "C04", "status": "partial", "theorems": ["Verif.BitmapProps.C04_partial", "Verif.BitmapProps.C04_refuted"], "note": "Proved for NB % 64 != 0; refuted for every positive multiple of 64 (sanitize clears the whole last word)."},
 {"property": "C05", "status": "proved", "theorems": ["Verif.Rand.C05_cycle"], "note": "All seeds and all numbers of draws."},
 {"property": "C06", "status": "proved", "theorems": ["Verif.Rand.C06_uniform", "Verif.Rand.C06_oneIn", "Verif.Rand.C06_skewed"], "note": "All generator states and arguments."},
 {"property": "C07", "status": "proved", "theorems": ["Verif.Rand.C07_full_period"], "note": "Full period via the order of the multiplier."},
 {"property": "C08", "status": "proved", "theorems": ["Verif.SearchProps.C08_binarySearch_leaf"], "note": ""},
 {"property": "C09", "status": "proved", "theorems": ["Verif.SearchProps.C09_binarySearch_branch"], "note": ""},
 {"property": "C10", "status": "partial", "theorems": ["Verif.SearchProps.C10_node", "Verif.SearchProps.C10_bits_partial", "Verif.SearchProps.C10_refuted"], "note": "Node variants proved. Bitmap variants fail on keys equal to the numeric limit used as start value; proved for all other contents, the full statement is refuted."},
 {"property": "C100", "status": "partial", "theorems": ["Verif.WoSkipProps.C100_insert_partial", "Verif.WoSkipProps.C100_insert_gen", "Verif.WoSkipProps.C100_lost", "Verif.WoSkipProps.C100_refuted"], "note": "False for inserts that split a node: C100_refuted; every such insert has a crash point at which stored keys are lost (C100_lost). Proved for all crash points: the lookups are those before or after, or the insert splits a node and between 1 and N-1 stored keys are missing, all others as before."},
 {"property": "C101", "status": "partial", "theorems": ["Verif.WoSkipProps.C101_usable_partial", "Verif.WoSkipProps.C101_usable_gen", "Verif.WoSkipProps.C101_stuck", "Verif.WoSkipProps.C101_refuted", "Verif.WoSkipProps.staleRun_eq"], "note": "False between the bit of the new entry and the bounds of its node: C101_refuted. Without a split, every retry then reports an update and the key is never found (C101_stuck); with a split, a stale value can come back (staleRun_eq). Proved for all other crash points, recognised by printList showing only entries within the bounds of their nodes."},
 {"property": "C102", "status": "proved", "theorems": ["Verif.BitTree.C102_iterate", "Verif.BitTree.C102_int", "Verif.BitTree.C102_ascending", "Verif.BitTree.C102_empty"], "note": "C102_empty shows that the condition on the number of inserts is needed: begin() of an empty tree throws. Where the descent through children[0] meets an unused position below the root, scan and begin() have no meaning in the model and the equality says only that."},
 {"property": "C103", "status": "partial", "theorems": ["Verif.BitTree.C103_split_crash_partial", "Verif.BitTree.C103_always_loses", "Verif.BitTree.C103_refuted"], "note": "False as stated (C103_refuted): from the second change of a split until the sibling is linked the keys from the split key on are lost. The partial theorem gives the lookups after a crash at every point and a recovery, for all histories of inserts; C103_always_loses shows that no split avoids the loss."},
 {"property": "C104", "status": "partial", "theorems": ["Verif.BitTree.C104_split_crash_partial", "Verif.BitTree.C104_always_loses", "Verif.BitTree.C104_refuted"], "note": "False as stated (C104_refuted): every moved key is lost from its move on, and all of them stay lost until the branch node is changed. The partial theorem gives the lookups at every point, for all histories of inserts; C104_always_loses shows that no split avoids the loss."},
 {"property": "C105", "status": "partial", "theorems": ["Verif.BitTree.C105_usable_partial", "Verif.BitTree.C105_root", "Verif.BitTree.C105_refuted"], "note": "False as stated (C105_refuted for orders 3 and 4): when an insert makes the tree deeper, a crash between the assignments to rootNode and depth makes every lookup undefined, whatever happened before (C105_root). C105_usable_partial proves the statement for every history in which no insert is cut off at exactly this point, with any number of crashes at any other points on any level."},
 {"property": "C106", "status": "partial", "theorems": ["Verif.BitTree.C106_local_partial", "Verif.BitTree.C106_refuted"], "note": "False as stated (C106_refuted): while a full lowest branch node is split, other leaves are unreachable. C106_local_partial proves it at every crash point on every level when the lowest branch node on the path has a free position."},
 {"property": "C107", "status": "partial", "theorems": ["Verif.BitTree.C107_branch_partial", "Verif.BitTree.C107_refuted"], "note": "False as stated (C107_refuted). C107_branch_partial gives the lookups at every point exactly: until the third assignment the keys of the split leaf from the separator on are lost, after it those below the separator, after the fourth the insert is done; all other lookups are those after the insert."},
 {"property": "C108", "status": "proved", "theorems": ["Verif.PTable.C108_block", "Verif.PTable.C108_crash"], "note": "All crash points between the stores of insertTuple into a block (byte by byte for copyToByteArray), any number of crashes."},
 {"property": "C109", "status": "partial", "theorems": ["Verif.PTable.C109_sma_partial", "Verif.PTable.C109_skip_partial", "Verif.PTable.C109_refuted"], "note": "False for string columns: the minimum is a position; if the insert of a new minimum is interrupted behind the SMA update, the next record is stored over its bytes. Proved for int and double columns after any history and for all columns if only the last event is a crash."},
 {"property": "C11", "status": "partial", "theorems": ["Verif.SearchProps.C11_partial", "Verif.SearchProps.C11_refuted"], "note": "Fails when the only answer is the numeric limit used as start value (refuted); proved otherwise."},
 {"property": "C110", "status": "partial", "theorems": ["Verif.PTable.C110_insert_partial", "Verif.PTable.C110_refuted", "Verif.PTable.exTblCrash_ok"], "note": "False as stated (C110_refuted): count counts the record two steps before getByKey finds it. Proved instead for every crash point: getByKey sees the insert as done or as not done, count sees it as done from the store of the count on, and the only states that differ are the two steps between. The insert into the index and a split are one step each."},
 {"property": "C111", "status": "partial", "theorems": ["Verif.PTable.C111_other_keys_partial", "Verif.PTable.C111_total_partial", "Verif.PTable.C111_refuted", "Verif.PTable.exGhost_run", "Verif.PTable.exGhost_other"], "note": "False as stated (C111_refuted): an insert that stops before the index leaves a record that no call finds or erases, and a later split enters it into the index. Proved for all keys that no interrupted call names: getByKey follows the completed calls of that key (C111_other_keys_partial), and with enough fuel the whole history comes to an end (C111_total_partial)."},
 {"property": "C112", "status": "proved", "theorems": ["Verif.PTable.C112_records", "Verif.PTable.C112_records_keyed"], "note": "For histories that run to the end; the insert into the index, a split and an erase are one step each."},
 {"property": "C113", "status": "partial", "theorems": ["Verif.PTable.C113_update_partial", "Verif.PTable.C113_refuted", "Verif.PTable.exTblUpdate_ok"], "note": "False as stated (C113_refuted): between the erase and the insert into the index the key is absent. Proved instead for every crash point: before the first step the old record, then absent, from the insert into the index on the new record; all other keys keep their records."},
 {"property": "C114", "status": "proved", "theorems": ["Verif.PTable.C114_total", "Verif.PTable.C114_cover", "Verif.PTable.exGhost_total"], "note": "For records that fit into an empty block (otherwise an insert splits forever even without a crash). The recursion of insert is modelled with fuel; the theorem gives a fuel that is enough. The index insert is one step, splits and erases are atomic transactions."},
 {"property": "C115", "status": "proved", "theorems": ["Verif.PTable.C115_clustered"], "note": "For histories without crashes. After crashes ranges may overlap or be empty and the claim is not made."},
 {"property": "C116", "status": "partial", "theorems": ["Verif.BTreeProps.C116_branch_crash_partial", "Verif.BTreeProps.C116_refuted", "Verif.BTreeProps.C116_refuted_mixed"], "note": "False as stated: keys are lost while a branch node gets a separator, and between the assignments to rootNode and depth the tree takes a branch node for a leaf. Proved for every history, level and crash point: apart from that one point every lookup comes to an end and gives nothing or the value after the insert; keys whose search does not come to the node at work keep their value."},
 {"property": "C117", "status": "partial", "theorems": ["Verif.BTreeProps.C117_lost_keys_partial", "Verif.BTreeProps.C117_last_child", "Verif.BTreeProps.C117_refuted", "Verif.BTreeProps.threeLeaves_last"], "note": "False as stated: the keys of the last child are lost whenever a separator is added before the last one. Proved: exactly which keys are lost at every crash point. Missing: separators that a node holds twice."},
 {"property": "C118", "status": "partial", "theorems": ["Verif.UnsortedProps.C118_branch_crash_partial", "Verif.UnsortedProps.C118_after_erases_partial", "Verif.UnsortedProps.C118_last_child", "Verif.UnsortedProps.C118_refuted", "Verif.UnsortedProps.C118_refuted_mixed"], "note": "False as stated, as for PBPTree. Proved: exactly which keys are lost at every crash point, for every key."},
 {"property": "C119", "status": "partial", "theorems": ["Verif.FPTreeProps.C119_values_partial", "Verif.FPTreeProps.C119_calm", "Verif.FPTreeProps.C119_refuted", "Verif.FPTreeProps.C119_loss"], "note": "False as stated: M crashes between the bit and the fingerprint of a new entry fill a leaf with entries that no lookup finds, and the next split puts a completed insert on the wrong side of its separator (C119_refuted); a crash inside a split loses moved keys (C119_loss). Proved for all histories without a crash between bit and fingerprint: at most M/2 keys per crash inside a split are lost, every other key has a permitted value, and no lookup gives a value that was not inserted."},
 {"property": "C12", "status": "proved", "theorems": ["Verif.SearchProps.C12_elementOfRankK"], "note": "All integer arrays, duplicates and negative keys included."},
 {"property": "C120", "status": "partial", "theorems": ["Verif.FPTreeProps.C120_usable_partial", "Verif.FPTreeProps.C120_refuted", "Verif.FPTreeProps.C120_erase_null_prev"], "note": "False as stated: after M crashes between bit and fingerprint an insert of a larger key fails an assertion. Proved for all histories without such crashes. Erases are not part of the histories: after a crash between the two link assignments of a split an erase follows a null prevLeaf pointer (C120_erase_null_prev)."},
 {"property": "C121", "status": "partial", "theorems": ["Verif.FPTreeProps.C121_erase_crash_partial", "Verif.FPTreeProps.C121_no_underflow", "Verif.FPTreeProps.C121_complete", "Verif.FPTreeProps.C121_refuted", "Verif.FPTreeProps.C121_undone"], "note": "After every history of safe calls (the hypothesis of C41) and for a safe erase, at every crash point outside a half-copied entry, an interrupted erase removes at most its own key, and has removed it from the first assignment on; at all crash points if the leaf does not underflow. The full claim is false: a crash inside the copying of an entry can give a key the value of another one or undo a completed erase. Not covered: erases that are not safe in the sense of C41, M < 4, key INT_MAX."},
 {"property": "C122", "status": "partial", "theorems": ["Verif.FPTreeProps.C122_inserts_partial", "Verif.FPTreeProps.C122_refuted"], "note": "Proved for the crash points of C121 at which no key is stored in two leaves. The full claim is false: a second copy left by a crash inside a merge comes back with its old value after a later split. Not covered: crash points inside a copied entry."},
 {"property": "C123", "status": "partial", "theorems": ["Verif.FPTreeProps.C123_restart_partial", "Verif.FPTreeProps.C123_few_keys", "Verif.FPTreeProps.C123_zero_digit", "Verif.FPTreeProps.C123_one_digit", "Verif.FPTreeProps.C123_refuted"], "note": "Proved if all digits but the first of (number of leaves - 1) in base N + 1 are at least 2, in particular for at most (N + 1) * (M / 2) keys. The full claim is false: with a digit 0 no erase of a key at least as large as all stored ones comes to an end in the defined way (proved for all such trees), with last digit 1 the same for the greatest key if the last two leaves hold at most (M + 1) / 2 entries. Not covered: a digit 1 otherwise, erases that are not safe in the sense of C41, odd N or N < 6, key INT_MAX."},
 {"property": "C124", "status": "partial", "theorems": ["Verif.BTreeProps.C124_partial", "Verif.BTreeProps.C124_null", "Verif.BTreeProps.C124_refuted"], "note": "False: after a restart that finds two or more leaves, inserts of keys below the smallest one lose keys (C124_refuted), and after every history that leaves more than M keys a restart followed by the erases of the M/2+1 smallest keys dereferences a null pointer (C124_null, all N, M and histories). Proved for all histories with any number of restarts in which, after a restart that finds at least 2*(M/2) keys, there are only inserts of keys not below all keys the restart found (C124_partial)."},
 {"property": "C125", "status": "partial", "theorems": ["Verif.BTreeProps.C125_erase_crash_partial", "Verif.BTreeProps.C125_refuted", "Verif.BTreeProps.C125_refuted_lost", "Verif.BTreeProps.C127_torn_otherwise"], "note": "False as stated: a crash in the removal can give one larger key the value of a smaller one (C125_refuted), and a crash while entries are moved from the left sibling loses keys (C125_refuted_lost). Proved: the removal from the leaf at all its crash points after recovery, every erase that frees a leaf at all crash points, and (C127_torn_otherwise) all crash points of moves from the right sibling. Moves from the left sibling always have a crash point that loses a key (C127_lost_iff)."},
 {"property": "C126", "status": "partial", "theorems": ["Verif.BTreeProps.C126_merge_crash_partial", "Verif.BTreeProps.C126_refuted_every", "Verif.BTreeProps.C126_refuted"], "note": "False as stated, for every erase that merges two leaves: after the deletion of the second leaf a stored key is looked up through a dangling pointer (C126_refuted_every). Proved: all lookups at all crash points: the removal as in C76, the map after the erase from there to the deletion, and exactly the keys that the branch nodes send to the deleted leaf are affected afterwards. The update of the parent behind the deletion is not modelled."},
 {"property": "C127", "status": "proved", "theorems": ["Verif.BTreeProps.C127_lost_iff", "Verif.BTreeProps.C127_torn_otherwise"], "note": "For the model of single stores in program order and of recover(); every crash point of every erase of a stored key after any history."},
 {"property": "C128", "status": "proved", "theorems": ["Verif.BTreeProps.C128_pb_lost_iff"], "note": "Crash points up to the end of the assignments to the leaves (removal, move or merge with deletion); the update of the parent afterwards is C129."},
 {"property": "C129", "status": "partial", "theorems": ["Verif.BTreeProps.C129_erase_branch_crash_partial", "Verif.BTreeProps.C129_exact", "Verif.BTreeProps.C129_refuted", "Verif.BTreeProps.C129_refuted_dangling", "Verif.BTreeProps.C129_refuted_mixed"], "note": "False: after an odd number of assignments a separator that stands there twice may not be found, the first assignment can make a search follow a pointer to the deleted leaf, and between rootNode and depth the tree takes a leaf for a branch node. Proved: the outcome of every lookup at every number of assignments except for that one separator, for which it is the right value, nothing, or (before the second assignment) a dangling pointer. Changes of branch nodes further up: C130."},
 {"property": "C13", "status": "partial", "theorems": ["Verif.SearchProps.C13_partial", "Verif.SearchProps.C13_refuted"], "note": "False for negative keys (witness -1, 5); proved for non-negative integer keys."},
 {"property": "C130", "status": "partial", "theorems": ["Verif.BTreeProps.C130_exact", "Verif.BTreeProps.C130_join_crash_partial", "Verif.BTreeProps.C130_subtrees_lost", "Verif.BTreeProps.C130_refuted", "Verif.BTreeProps.C130_refuted_dangling"], "note": "False: between the loop over the keys and the loop over the children whole subtrees are not found, and searches for the keys of one child follow the pointer to the deleted node. Proved: the outcome of every lookup at every number of assignments at every level, except for the separator that was copied last, for which it is the right value, nothing, or a dangling pointer. The merge itself and balanceBranchNodes are one step here (C131, C132); the replacement of the root is C133."},
 {"property": "C131", "status": "partial", "theorems": ["Verif.BTreeProps.C131_balance_crash_partial", "Verif.BTreeProps.C131_elsewhere", "Verif.BTreeProps.C131_refuted", "Verif.BTreeProps.C131_refuted_left"], "note": "False: while keys and children are moved between two branch nodes, keys of the moved and of the remaining children are not found (moves in both directions). Proved: at every crash point every lookup gives the value after the erase or nothing, never a wrong value, an empty slot or a dangling pointer; lookups whose search comes neither to the child on the way to the erased key nor to a direct neighbour of it are right; after the last assignment all lookups are right. Missing: which keys of the two nodes are not found after t assignments."},
 {"property": "C132", "status": "proved", "theorems": ["Verif.BTreeProps.C132_merge_crash"], "note": "The assignments of mergeBranchNodes, in program order; the deletion and the update of the node above are C130."},
 {"property": "C133", "status": "partial", "theorems": ["Verif.BTreeProps.C133_root_crash_partial", "Verif.BTreeProps.C133_other_order", "Verif.BTreeProps.C133_refuted"], "note": "False: between the two assignments every lookup of every key is undefined, whatever the history and the operation: searches go down one level too many or too few and take a leaf for a branch node or a branch node for a leaf. Proved: this for all operations that replace the root, and the same for the other order of the two assignments; once both are done, every lookup gives the value after the operation. Missing: the statement itself, which no order of the two assignments can give."},
 {"property": "C134", "status": "proved", "theorems": ["Verif.BTreeProps.C134_scan_crash", "Verif.BTreeProps.C134_leaf_level"], "note": "The crash models are those of C129 to C132 (assignments persist in program order; the leaves are done). C134_leaf_level covers the branch node above the leaves. The replacement of the root (C133) is not part of the statement."},
 {"property": "C14", "status": "proved", "theorems": ["Verif.SerProps.C14_roundtrip"], "note": ""},
 {"property": "C15", "status": "proved", "theorems": ["Verif.SerProps.C15_self_delimiting", "Verif.SerProps.C15_sequence"], "note": ""},
 {"property": "C16", "status": "proved", "theorems": ["Verif.BdccProps.C16_partition"], "note": "All dimension lists with at most 32 bits in total."},
 {"property": "C17", "status": "proved", "theorems": ["Verif.BdccProps.C17_round_robin"], "note": "All dimension lists with at most 32 bits in total."},
 {"property": "C18", "status": "partial", "theorems": ["Verif.BdccProps.C18_partial", "Verif.BdccProps.C18_refuted"], "note": "Proved for every machine that gives shifts by a negative amount some value. By the letter of the C++ standard the code evaluates x >> -1, so the strict statement is refuted."},
 {"property": "C19", "status": "proved", "theorems": ["Verif.PTable.C19_layout", "Verif.PTable.C19_layout_700", "Verif.PTable.C19_needs_size"], "note": "Byte-level model of initBlock; C19_needs_size shows that the condition on the minipage sizes cannot be dropped."},
 {"property": "C20", "status": "proved", "theorems": ["Verif.PTable.C20_read_back"], "note": "Byte-level model of hasEnoughSpace, insertTuple and PTuple::get; strings without NUL characters, non-empty schema, minipages large enough for their SMA areas."},
 {"property": "C21", "status": "proved", "theorems": ["Verif.PTable.C21_sma", "Verif.PTable.C21_sma_numbers", "Verif.PTable.C21_skip_sound"], "note": "Minimum and maximum are values of the column with no value below or above; in the usual sense for columns without NaN. A skipped block has no matching record, also with NaN."},
 {"property": "C22", "status": "partial", "theorems": ["Verif.PTable.C22_inserts_partial", "Verif.PTable.C22_complete_partial", "Verif.PTable.C22_gap", "Verif.PTable.C22_refuted", "Verif.PTable.C22_lenient_refuted"], "note": "Refuted twice: as written every completed scan with a candidate block reads *candidates.end(); granting a null pointer there, a scan still returns deleted records. Proved, granting the null pointer and if no candidate block behind the first is empty: after inserts only, the scan returns exactly the inserted records in the ranges; after any history it returns all live ones. C22_gap: an empty candidate behind the first ends the scan early. Bounds and values are not NaN."},
 {"property": "C23", "status": "proved", "theorems": ["Verif.PTable.C23_cover", "Verif.PTable.C23_insert_succeeds", "Verif.PTable.C23_oversized"], "note": "After every history the block list is a chain whose BDCC ranges cover [0, 2^numBins-1] without gaps, in order; an insert of a record that fits an empty block terminates and lands in a block whose range contains its BDCC value. Records are well typed with NUL-free strings. C23_oversized: a record that does not fit an empty block makes splitBlock divide by zero."},
 {"property": "C24", "status": "partial", "theorems": ["Verif.PTable.C24_count_partial", "Verif.PTable.C24_refuted"], "note": "Refuted as stated: inserting a stored key again counts it twice. Proved for histories inserting only absent 16-bit keys that equal the key attribute, with a non-string first column."},
 {"property": "C25", "status": "proved", "theorems": ["Verif.BaseTrieProps.C25_insert_lookup", "Verif.BaseTrieProps.C25_insert_new", "Verif.BaseTrieProps.C25_long_keys_missed"], "note": "lookup of keys of 256 bytes and more always fails (8-bit loop counter), hence the bound"},
 {"property": "C26", "status": "partial", "theorems": ["Verif.BaseTrieProps.C26_refuted", "Verif.BaseTrieProps.C26_remove_partial", "Verif.BaseTrieProps.C26_history_partial", "Verif.BaseTrieProps.C26_prefix_free_partial"], "note": "false: removing ab can remove a; the exact set of lost keys is proved for every history"},
 {"property": "C27", "status": "proved", "theorems": ["Verif.SkipListProps.C27_insert_search", "Verif.SkipListProps.C27_min_key_dropped", "Verif.SkipListProps.C27_one_level"], "note": "The two restrictions are shown necessary: the smallest key value is dropped by an empty list, and MAX_LEVEL = 1 reads behind the array."},
 {"property": "C28", "status": "proved", "theorems": ["Verif.SkipListProps.C28_levels"], "note": ""},
 {"property": "C29", "status": "partial", "theorems": ["Verif.WoSkipProps.C29_insert_search_partial", "Verif.WoSkipProps.C29_insert_search_gen", "Verif.WoSkipProps.C29_refuted"], "note": "Proved for all key sets on which the conversion to size_t is monotone and invertible (non-negative ints), including repeated keys. False for negative keys: findSplitKey compares as size_t (C29_refuted)."},
 {"property": "C30", "status": "proved", "theorems": ["Verif.BTreeProps.C30_insert_lookup"], "note": "every N>=3, M>=2; the outcome is ok, so no out-of-bounds access, uninitialised read or failed assertion"},
 {"property": "C31", "status": "proved", "theorems": ["Verif.BTreeProps.C31_insert_erase_lookup", "Verif.BTreeProps.outs_true"], "note": "every even N>=6, M>=2; all histories that erase present keys only"},
 {"property": "C32", "status": "partial", "theorems": ["Verif.BTreeProps.C32_refuted", "Verif.BTreeProps.C32_refuted_loses_entry", "Verif.BTreeProps.C32_refuted_out_of_bounds", "Verif.BTreeProps.C32_erase_absent_partial"], "note": "The claim is false for the code (stale key behind the last entry, read behind a full array): negation proved. The partial theorem covers keys smaller than some key of their leaf."},
 {"property": "C33", "status": "partial", "theorems": ["Verif.BTreeProps.C33_refuted_3", "Verif.BTreeProps.C33_refuted_4", "Verif.BTreeProps.C33_refuted_5", "Verif.BTreeProps.C33_capacities_partial"], "note": "The claim is false for N = 3, 4, 5: negation proved. It holds for even N >= 6."},
 {"property": "C34", "status": "proved", "theorems": ["Verif.BTreeProps.C34_scan", "Verif.BTreeProps.C34_scan_inserts"], "note": ""},
 {"property": "C35", "status": "proved", "theorems": ["Verif.BTreeProps.C35_range_scan", "Verif.BTreeProps.C35_range_scan_inserts"], "note": "bounds are arbitrary, also lo > hi"},
 {"property": "C36", "status": "proved", "theorems": ["Verif.BTreeProps.C36_iterator"], "note": "the iteration loop terminates and yields the entries; non-empty trees"},
 {"property": "C37", "status": "proved", "theorems": ["Verif.BTreeProps.C37_shape"], "note": "Shape is stated on the raw arrays"},
 {"property": "C38", "status": "proved", "theorems": ["Verif.BTreeProps.C38_map"], "note": "map, scan, range scan, iterator and shape"},
 {"property": "C39", "status": "proved", "theorems": ["Verif.BTreeProps.C39_map"], "note": "map, scan, range scan, iterator and shape"},
 {"property": "C40", "status": "proved", "theorems": ["Verif.FPTreeProps.C40_insert_lookup", "Verif.FPTreeProps.C40_insert_lookup_gen"], "note": "every N >= 3, M >= 2, arbitrary uninitialised bytes; _gen for every key type, fingerprint function"},
 {"property": "C41", "status": "partial", "theorems": ["Verif.FPTreeProps.C41_refuted", "Verif.FPTreeProps.C41_small_partial", "Verif.FPTreeProps.C41_safe_partial"], "note": "false in general (rebalancing reads the stale key of slot 0); proved while at most M keys are stored, and for histories whose erases are safe: either no leaf has a misleading slot-0 key, or the leaf is above its minimum fill"},
 {"property": "C42", "status": "partial", "theorems": ["Verif.FPTreeProps.C42_recover_inserts", "Verif.FPTreeProps.C42_recover_inserts_small", "Verif.FPTreeProps.C42_recover_partial", "Verif.FPTreeProps.C42_recover_safe_partial", "Verif.FPTreeProps.C42_recover_gen", "Verif.FPTreeProps.C42_refuted"], "note": "false for a leaf chain with a leaf holding only INT_MAX; proved for all other chains, for all insert histories (also with later inserts), and after safe erases"},
 {"property": "C43", "status": "partial", "theorems": ["Verif.BTreeProps.C43_refuted", "Verif.BTreeProps.C43_lookup_partial"], "note": "lookups after recovery are right after every history; later inserts can lose keys (counterexample)"},
 {"property": "C44", "status": "partial", "theorems": ["Verif.UnsortedProps.C44_partial", "Verif.UnsortedProps.C44_inserts_partial", "Verif.UnsortedProps.C44_refuted"], "note": "The full claim is false (C44_refuted): an erase that merges the first child of a branch node with its right sibling frees the leaf behind that sibling (inserting 1..7 and erasing 1 with M = 4 makes lookup(5) read a freed leaf). Proved for all N, M for histories without such an erase, and for all insert sequences. Keys are non-negative ints."},
 {"property": "C45", "status": "partial", "theorems": ["Verif.WBTree.C45_general_partial", "Verif.WBTree.C45_ends_partial", "Verif.WBTree.C45_leaf_partial", "Verif.WBTree.C45_split_loses", "Verif.WBTree.C45_single", "Verif.WBTree.C45_refuted", "Verif.WBTree.C45_lost_key"], "note": "False for every order: after any M+1 distinct keys some inserted key is not found (findLeafNode reads an unwritten slot; with zero-filled memory the key is reported missing). A second, fully defined loss is shown by C45_lost_key. Proved for trees of any depth and inserts in any order, as long as no insert splits a leaf exactly in the middle (true for all keys inserted at the ends of the key range): no lookup answers a wrong value, lookups whose descent meets a larger separator everywhere are right, and a lookup that took the last child as insert does would be right for all keys. Proved in full for histories with at most M distinct keys."},
 {"property": "C46", "status": "partial", "theorems": ["Verif.BitTree.C46_partial", "Verif.BitTree.C46_full_leaf", "Verif.BitTree.C46_refuted"], "note": "False for every leaf order and both files (C46_refuted): the bit test is inverted, so a leaf filled by M distinct keys yields nothing for every range (C46_full_leaf) and everything reported is the content of an unused slot inside the bounds (C46_partial)."},
 {"property": "C47", "status": "proved", "theorems": ["Verif.Tx.C47_crash_before_commit", "Verif.Tx.C47_crash_after_commit", "Verif.Tx.C47_needs_snapshot", "Verif.Tx.C47_leaf_insert"], "note": ""},
 {"property": "C48", "status": "partial", "theorems": ["Verif.FPTreeProps.C48_refuted", "Verif.FPTreeProps.C48_refuted_duplicate", "Verif.FPTreeProps.C48_crash_partial"], "note": "joint visibility to lookup and scan is false between bit and fingerprint write; each of them alone is all-or-nothing"},
 {"property": "C49", "status": "proved", "theorems": ["Verif.BitmapProps.C49_copyToString"], "note": "All sizes and histories."},
 {"property": "C50", "status": "proved", "theorems": ["Verif.SearchProps.C50_binarySearch_slots"], "note": ""},
 {"property": "C51", "status": "proved", "theorems": ["Verif.SerProps.C51_truncated"], "note": ""},
 {"property": "C52", "status": "proved", "theorems": ["Verif.BdccProps.C52_same_bins"], "note": "For every machine giving negative shifts some value (see C18)."},
 {"property": "C53", "status": "proved", "theorems": ["Verif.FPTreeProps.C53_scans", "Verif.FPTreeProps.C53_scans_gen"], "note": ""},
 {"property": "C54", "status": "proved", "theorems": ["Verif.BaseTrieProps.C54_subNodes"], "note": ""},
 {"property": "C55", "status": "partial", "theorems": ["Verif.WoSkipProps.C55_levels_partial", "Verif.WoSkipProps.C55_levels_gen", "Verif.WoSkipProps.C55_refuted"], "note": "Level 0 fully proved for non-negative keys; upper levels are duplicate-free selections of the level below. Their order is false: a split-off node may be linked before the split node (C55_refuted)."},
 {"property": "C56", "status": "proved", "theorems": ["Verif.UnsortedProps.C56_scan", "Verif.UnsortedProps.C56_scan_after_erases"], "note": "C56_scan_after_erases extends the claim to histories with erases that free no leaf in use."},
 {"property": "C57", "status": "partial", "theorems": ["Verif.UnsortedProps.C57_partial", "Verif.UnsortedProps.C57_refuted", "Verif.UnsortedProps.C57_refuted_full_leaf"], "note": "The full claim is false: a stale slot equal to the key makes erase return true and drop another entry, and in a full leaf a slot outside the array is read. Proved if the leaf has a free slot and its first free slot holds another key."},
 {"property": "C58", "status": "proved", "theorems": ["Verif.BaseTrie.C58_crash_insert"], "note": ""},
 {"property": "C59", "status": "partial", "theorems": ["Verif.PTable.C59_get_partial", "Verif.PTable.C59_refuted"], "note": "Refuted as stated: splitBlock re-enters keys through uint16_t, so key 65537 becomes 1. Proved for 16-bit keys that equal the key attribute, with a non-string first column."},
 {"property": "C60", "status": "partial", "theorems": ["Verif.WBTree.C60_partial", "Verif.WBTree.C60_full", "Verif.WBTree.C60_absent", "Verif.WBTree.C60_refuted"], "note": "False for every M: erasing from a full leaf reads one element behind the slot array; erasing a key from an empty tree uses an unwritten slot. Proved for sequences whose erases avoid these two cases."},
 {"property": "C61", "status": "partial", "theorems": ["Verif.BitTree.C61_partial", "Verif.BitTree.C61_int", "Verif.BitTree.C61_refuted", "Verif.BitTree.C61_order64"], "note": "C61_partial: map refinement over all insert histories, all N >= 2 with N % 64 != 0, M >= 2 (M % 64 != 0 for BitHPBPTree), any key type whose keys convert to size_t monotonically and lie strictly between the numeric limits; C61_int instantiates it to int keys 0..2^31-2. Outside: C61_refuted (INT_MAX in both files, negative keys in BitHPBPTree) and C61_order64 (BitHPBPTree with M = 64 loses a key on every history of 65 distinct keys)."},
 {"property": "C62", "status": "partial", "theorems": ["Verif.BitTree.C62_partial", "Verif.BitTree.C62_ascending_partial", "Verif.BitTree.C62_leaf_partial", "Verif.BitTree.C62_refuted"], "note": "False in both files (C62_refuted: four descending inserts with N = 3, M = 2; children[0] is not the leftmost leaf). C62_partial: after every insert history the scan is exact if and only if the descent through children[0] ends in leafList. C62_ascending_partial: exact for every history with ascending keys. C62_leaf_partial: exact as long as the keys fit in one leaf."},
 {"property": "C63", "status": "partial", "theorems": ["Verif.BitTree.C63_partial", "Verif.BitTree.C63_underflow_partial", "Verif.BitTree.C63_leaf_partial", "Verif.BitTree.C63_refuted", "Verif.BitTree.C63_dangling", "Verif.BitTree.C63_null_prev", "Verif.BitTree.C63_stale_slot", "Verif.BitTree.C63_left_entries", "Verif.BitTree.C63_slot_zero", "Verif.BitTree.merge_right_deletes"], "note": "False in both files: a merge with the right neighbour deletes the leaf behind it (merge_right_deletes, for every state; C63_dangling: seven ascending inserts and one erase), the leftmost leaf's null prevLeaf is followed (C63_null_prev), the direction of balancing is read off slots that may be unused (C63_stale_slot), the new separator goes to a wrong slot (C63_left_entries), and a merge overflows the leaf (C63_slot_zero). C63_partial: all histories that reach no underflow handling, all orders as in C61. C63_underflow_partial: also underflows in trees of depth 1 handled by a merge with the left neighbour or with entries of the right one whose slot 0 is in order. C63_leaf_partial: all histories over at most M keys, every order and key type. Underflow handling in deeper trees: C91, C92."},
 {"property": "C64", "status": "partial", "theorems": ["Verif.BitTree.C64_partial", "Verif.BitTree.C64_continue_partial", "Verif.BitTree.C64_refuted", "Verif.BitTree.C64_example"], "note": "False for every N, M (C64_refuted): with N+2 leaves the last branch node has no separator and its only child at position 0, so lookups of the largest keys follow the uninitialised children[N]. C64_partial: after every history the recovered tree answers every lookup correctly iff the number of leaves minus one has no digit 0 in base N+1. C64_continue_partial: in that case later inserts and lookups behave as if there had been no restart."},
 {"property": "C65", "status": "partial", "theorems": ["Verif.Patricia.C65_refuted", "Verif.Patricia.C65_overrun", "Verif.Patricia.C65_phantom", "Verif.Patricia.C65_partial", "Verif.Patricia.C65_results_partial"], "note": "False: as written the first insert writes behind the allocated key; with the copy loop bounded by bytes a key never inserted is found. Partial: exact description of lookups for all insert histories (copy loop bounded by bytes, buffers at least as long as the longest key); results and count exact when values convert to true."},
 {"property": "C66", "status": "partial", "theorems": ["Verif.Patricia.C66_refuted", "Verif.Patricia.C66_prefix_lost", "Verif.Patricia.C66_fork_stays", "Verif.Patricia.C66_count", "Verif.Patricia.C66_partial", "Verif.Patricia.C66_frame_partial"], "note": "False: removing a key can lose a prefix of it, leave the key findable, or count a key that was never stored. Partial: exact map for prefix-free key sets; for all histories a remove affects only lookups of prefixes of the removed key."},
 {"property": "C67", "status": "partial", "theorems": ["Verif.Patricia.C67_refuted", "Verif.Patricia.C67_restricted_refuted", "Verif.Patricia.C67_torn", "Verif.Patricia.C67_partial"], "note": "False: remove updates the count outside its transaction. Partial: lookups are all-or-nothing for prefix-free key sets, the count is too large by at most the number of removes interrupted between the two steps."},
 {"property": "C68", "status": "partial", "theorems": ["Verif.PString.C68_refuted", "Verif.PString.C68_partial", "Verif.PString.C68_reset", "Verif.PString.C68_frame"], "note": "False: reset frees a long string but keeps the pointer, and NUL bytes cut values. Partial: exact result of every sequence of calls."},
 {"property": "C69", "status": "partial", "theorems": ["Verif.PString.C69_refuted", "Verif.PString.C69_partial", "Verif.PString.C69_no_nul_partial", "Verif.PString.C69_mismatch", "Verif.PString.C69_too_few"], "note": "False only for names with NUL bytes, which are cut; exact otherwise. The list constructor of PTableInfo reads behind the list when names are missing."},
 {"property": "C70", "status": "proved", "theorems": ["Verif.IterProps.C70_fptree", "Verif.IterProps.C70_fptree_erases", "Verif.IterProps.C70_unsorted", "Verif.IterProps.C70_unsorted_erases"], "note": "After any non-empty insert history the loop ends and yields every entry once in the order of scan; also after the erases that are correct in the sense of C41 and C44."},
 {"property": "C71", "status": "partial", "theorems": ["Verif.IterProps.C71_refuted", "Verif.IterProps.C71_sorted_ub", "Verif.IterProps.C71_unsorted_ub", "Verif.IterProps.C71_fptree_throws", "Verif.IterProps.C71_partial"], "note": "False for all five trees: begin() of an empty tree is not end(); the loop reads outside the leaf or uninitialised memory, an FPTree throws. Proved for every history that ends empty. C71_partial: the loop ends normally exactly if the tree is not empty."},
 {"property": "C72", "status": "proved", "theorems": ["Verif.BitTree.C72_crash"], "note": "In-order persistency of single assignments; splits and underflow handling are not covered."},
 {"property": "C73", "status": "proved", "theorems": ["Verif.UnsortedProps.C73_insert_crash", "Verif.UnsortedProps.C73_insert_crash_after_erases"], "note": "In-order persistency of single assignments; splits are not covered."},
 {"property": "C74", "status": "partial", "theorems": ["Verif.UnsortedProps.C74_refuted", "Verif.UnsortedProps.C74_refuted_wrong_value", "Verif.UnsortedProps.C74_partial"], "note": "The claim is false (the last entry of the leaf can be lost or get a wrong value); C74_partial gives the lookups at every crash point exactly."},
 {"property": "C75", "status": "partial", "theorems": ["Verif.BTreeProps.C75_refuted", "Verif.BTreeProps.C75_refuted_wrong_value", "Verif.BTreeProps.C75_refuted_new_key", "Verif.BTreeProps.C75_partial"], "note": "The claim is false for keys smaller than the largest of the leaf; updates and appends are atomic, and C75_partial describes every crash point."},
 {"property": "C76", "status": "partial", "theorems": ["Verif.BTreeProps.C76_refuted", "Verif.BTreeProps.C76_refuted_duplicate", "Verif.BTreeProps.C76_partial", "Verif.BTreeProps.C76_even_partial"], "note": "The claim is false (a key can get the value of a smaller one, and a key can be stored twice); C76_partial describes every crash point."},
 {"property": "C77", "status": "partial", "theorems": ["Verif.BitTree.C77_refuted", "Verif.BitTree.C77_partial"], "note": "The claim is false if the bit becomes persistent before key and value; C77_partial covers all other subsets."},
 {"property": "C78", "status": "partial", "theorems": ["Verif.FPTreeProps.C78_refuted", "Verif.FPTreeProps.C78_always_loses", "Verif.FPTreeProps.C78_split_crash_partial"], "note": "The claim is false: the moved keys are lost until the pointer to the sibling is set. C78_split_crash_partial gives the lookups at every crash point; C78_always_loses: every split has a crash point that loses half of the leaf."},
 {"property": "C79", "status": "partial", "theorems": ["Verif.PatriciaUtils.C79_refuted", "Verif.PatriciaUtils.C79_mirror", "Verif.PatriciaUtils.C79_involution_partial"], "note": "False for negative values of signed types (the sign is lost); proved for all others."},
 {"property": "C80", "status": "proved", "theorems": ["Verif.PatriciaUtils.C80_binary", "Verif.PatriciaUtils.C80_injective"], "note": "sizes >= 0"},
 {"property": "C81", "status": "partial", "theorems": ["Verif.PatriciaUtils.C81_refuted", "Verif.PatriciaUtils.C81_refuted_digits", "Verif.PatriciaUtils.C81_characters", "Verif.PatriciaUtils.C81_overflow", "Verif.PatriciaUtils.C81_repeats", "Verif.PatriciaUtils.C81_digits_partial"], "note": "False: next always writes four bytes, CHARACTERS writes through an uninitialised pointer. Proved for DIGITS and buffers of at least four bytes up to 2^32 calls."},
 {"property": "C82", "status": "partial", "theorems": ["Verif.BTreeProps.C82_split_crash_partial", "Verif.BTreeProps.C82_refuted"], "note": "The full claim is false (C82_refuted): between the assignment of the old leaf's counter and the link to the sibling the upper half of the leaf is lost. C82_split_crash_partial gives all lookups after recovery at every crash point, for N even >= 6 and M >= 2."},
 {"property": "C83", "status": "partial", "theorems": ["Verif.BTreeProps.C83_split_crash_partial", "Verif.BTreeProps.C83_refuted"], "note": "The full claim is false (C83_refuted): from the assignment of the old leaf's counter on, the upper half of the leaf is not found; recover() does nothing, so the loss is permanent. C83_split_crash_partial gives all lookups at every crash point, for N even >= 6 and M >= 2."},
 {"property": "C84", "status": "partial", "theorems": ["Verif.UnsortedProps.C84_split_crash_partial", "Verif.UnsortedProps.C84_split_crash_after_erases_partial", "Verif.UnsortedProps.C84_refuted", "Verif.UnsortedProps.C84_refuted_wrong_value"], "note": "False in full: entries below the split key are moved to the front of the old leaf in place, so upper keys are lost as soon as their slot is reused and a lower key can have the value of another entry. Proved: the answer of every lookup at every crash point, and that after the last assignment memory is that of the split."},
 {"property": "C85", "status": "partial", "theorems": ["Verif.PTable.C85_index_partial", "Verif.PTable.C85_refuted"], "note": "False for a table without records: select dereferences begin() of the empty tree (C85_refuted, select_empty). Proved for all other tables under the restrictions of C24 (16-bit keys equal to the key attribute, inserted only while absent, first column not a string): the table over the PBPTree model behaves as the table over a map, rangeScan2 and select return exactly the records by increasing key. The erases of a block split are shown to hit present keys only."},
 {"property": "C86", "status": "partial", "theorems": ["Verif.WBTree.C86_general_partial", "Verif.WBTree.C45_ends_partial", "Verif.WBTree.C86_ascending_partial", "Verif.WBTree.C86_leaf_partial", "Verif.WBTree.C86_empty", "Verif.WBTree.C86_missed", "Verif.WBTree.C86_refuted"], "note": "False: the scans start at children[0], which is not the first child after the first leaf has been split twice, so entries are missed (descending keys); begin() of an empty tree throws; a split can leave the scan unsorted. Proved for trees of any depth and inserts in any order without a split exactly in the middle (N >= 4): the scan lists an end of the stored entries in key order, wHBPTree::scan and the iterators list the same entries. Proved in full for ascending inserts and as long as no leaf is split."},
 {"property": "C87", "status": "partial", "theorems": ["Verif.WBTree.C87_insert_partial", "Verif.WBTree.C87_overwrite", "Verif.WBTree.C87_refuted"], "note": "False as stated (C87_refuted, every M > 1). C87_insert_partial gives the lookups at every crash point of the insert of a new key; C87_overwrite proves atomicity for a stored key. Missing from the full statement: nothing that is true; splits are not covered by the property."},
 {"property": "C88", "status": "partial", "theorems": ["Verif.WBTree.C88_partial", "Verif.WBTree.C87_overwrite", "Verif.WBTree.C88_damage", "Verif.WBTree.C88_refuted"], "note": "False as stated (C88_refuted for both trees). C88_partial: after at most three assignments or all of them later inserts behave correctly; C87_overwrite: stored keys. The behaviour after the other crash points is not characterised beyond the counterexamples."},
 {"property": "C89", "status": "partial", "theorems": ["Verif.WBTree.C89_zero_partial", "Verif.WBTree.C89_damage", "Verif.WBTree.C89_refuted"], "note": "True at every crash point if the slots of a new leaf are zero (C89_zero_partial proves the full statement for that case); false for uninitialised slots (C89_refuted)."},
 {"property": "C90", "status": "partial", "theorems": ["Verif.WBTree.C90_partial", "Verif.WBTree.C89_damage", "Verif.WBTree.C90_refuted"], "note": "False as stated (C90_refuted, even with zeroed slots). C90_partial: if none or all assignments are done, later inserts behave correctly."},
 {"property": "C91", "status": "partial", "theorems": ["Verif.BitTree.C91_partial", "Verif.BitTree.C91_refuted", "Verif.BitTree.C91_same_model", "Verif.BitTree.C92_merge_short"], "note": "False in both files (C91_refuted: an underflow of the rightmost child reads behind the arrays; C92_merge_short: a key is lost). C91_partial: all orders, depths and histories in which every leaf underflow is handled by a merge with the left neighbour or by entries of the right one whose slot 0 is in order, and every underflow of a branch node by entries of the right neighbour or, if M = N, by the merge of the last two children of the root. C91_same_model: the full model agrees with the model of C63 where that one is defined."},
 {"property": "C92", "status": "partial", "theorems": ["Verif.BitTree.C92_partial", "Verif.BitTree.C92_refuted", "Verif.BitTree.under_right", "Verif.BitTree.under_last", "Verif.BitTree.C92_rightmost", "Verif.BitTree.C92_left_merge", "Verif.BitTree.C92_left_entries", "Verif.BitTree.C92_empty_entries", "Verif.BitTree.C92_right_merge", "Verif.BitTree.C92_merge_full", "Verif.BitTree.C92_merge_throws", "Verif.BitTree.C92_merge_short"], "note": "False (C92_refuted, in a tree made by ten inserts). C92_partial: entries of the right neighbour, and the last two children of a node if M = N. For every other case a general theorem says what goes wrong: the rightmost child reads behind the arrays, a merge with the left neighbour fails an assertion, entries of the left neighbour make the keys of the node unreachable, a merge with the right neighbour of an inner node leaves a dangling child, a merge of nodes with too many keys overflows or throws, and if M < N children are left out. Not covered: merges of nodes without keys."},
 {"property": "C93", "status": "proved", "theorems": ["Verif.SkipListProps.C93_crash_atomic", "Verif.SkipListProps.C93_one_crash", "Verif.SkipListProps.C93_all_assignments", "Verif.SkipListProps.C93_needs_order"], "note": "Crash points are the prefixes of the list of assignments in program order, each done as a whole; C93_all_assignments ties the list to the model of insert. C93_needs_order shows that the order is needed: the code neither flushes nor orders these assignments outside of the emulation."},
 {"property": "C94", "status": "proved", "theorems": ["Verif.SkipListProps.C94_levels_after_crashes", "Verif.SkipListProps.C94_count_lost"], "note": "Same crash model as C93. C94_count_lost shows that the bound on nodeCount is reached."},
 {"property": "C95", "status": "partial", "theorems": ["Verif.Patricia.C95_inserts_partial", "Verif.Patricia.C95_partial", "Verif.Patricia.C95_bounds_partial", "Verif.Patricia.C95_lost", "Verif.Patricia.C95_refuted"], "note": "False as written (every insert writes behind the end of its key buffer) and, with the copy loop bounded by bytes, for keys that are prefixes of others (removing cpp also frees the node of c). Proved with the copy loop bounded by bytes and large enough buffers: the exact count for all insert histories and for all histories of inserts and removes over prefix-free keys, and the bounds by the number of keys."},
 {"property": "C96", "status": "partial", "theorems": ["Verif.WBTree.C96_partial", "Verif.WBTree.C96_missed", "Verif.WBTree.C96_split_loses", "Verif.WBTree.C96_refuted"], "note": "False: findLeafNode reads a slot behind the last separator; with twenty keys scan(97,107) misses four of six entries with all memory initialised (C96_missed), and after any M+1 distinct keys some scan has undefined behaviour (C96_split_loses). Proved for trees of any depth and inserts in any order without a split exactly in the middle: only entries in the range are listed, each once, and they are all entries in the range of a final segment of the stored entries; all of them if the search meets a larger separator at every branch node."},
 {"property": "C97", "status": "partial", "theorems": ["Verif.WBTree.C97_partial", "Verif.WBTree.C97_balance_next", "Verif.WBTree.C97_balance_prev", "Verif.WBTree.C97_merge_right", "Verif.WBTree.C97_merge_left", "Verif.WBTree.C97_shrink", "Verif.WBTree.C97_refuted_each", "Verif.WBTree.C97_refuted"], "note": "The full statement (C97_statement) is false for both trees: separators go to the wrong slot after a balance, and a merge of two branch nodes can free the wrong one and keep it as the root. C97_partial covers, for trees of any depth, histories without splits exactly in the middle whose erases take stored keys from leaves that are not full and end without underflow, in a merge that leaves the branch node half full (or is below the root), or (wBPTree) in a balance with the left neighbour of the last leaf: all calls succeed and the content is exact. C97_shrink: a merge of branch nodes drops the last separator of the node above along with another one. Missing: lookups of keys behind the last separator (C45) and the other kinds of underflow, which are wrong (balances of branch nodes are in C99)."},
 {"property": "C98", "status": "partial", "theorems": ["Verif.WBTree.C98_asserts", "Verif.WBTree.C98_exact", "Verif.WBTree.C98_lost", "Verif.WBTree.C98_partial", "Verif.WBTree.C98_example", "Verif.WBTree.C98_refuted"], "note": "The claim is false: C98_refuted (52 ascending keys, N = M = 4). For inserts without splits exactly in the middle: recover accepts exactly the numbers of leaves that are powers of N + 1 (C98_asserts); then a key in leaf i is found iff no base-(N+1) digit of i is N, otherwise the lookup reads behind the slot array (C98_exact); the largest key is always lost with two or more leaves (C98_lost). C98_partial: no wrong value is ever answered, scan lists every entry once, and if no digit of (leaves - 1) is 0 the tree works like before for further inserts; otherwise, without assertions, the next insert at the right end is undefined. Missing: histories with middle splits and erases."},
 {"property": "C99", "status": "partial", "theorems": ["Verif.WBTree.C99_partial", "Verif.WBTree.C99_leak", "Verif.WBTree.C99_full", "Verif.WBTree.C99_refuted", "Verif.WBTree.balOps_ub"], "note": "false as stated: C99_refuted (18 inserts, one erase, three inserts end in undefined behaviour). C99_partial: for trees of any depth and a balance at any level the erase is right and every key is found afterwards; C99_leak: every such erase leaves a used mark at a position no slot names; C99_full: a branch node with all positions marked cannot take a separator. Missing: further updates, for which the claim is false."}
]}
