{
 "claims": [
  {
   "property": "C01",
   "status": "partial",
   "theorems": [
    "Verif.Tree.C01_get_after_insert_partial",
    "Verif.Tree.C01_apart_before",
    "Verif.Tree.C01_apart_without_clashes",
    "Verif.Tree.C01_get_after_insert_apart_partial",
    "Verif.Tree.C01_stale_value_after_insert"
   ],
   "note": "False in general (C01_stale_value_after_insert). Proved for all histories, of any length below 2^64, in which no two keys clash. Also proved for any keys at all as long as no two neighbouring leaves hold the same chunk (Apart): a split between equal chunks is the only cause of violations."
  },
  {
   "property": "C02",
   "status": "partial",
   "theorems": [
    "Verif.Tree.C02_insert_returns_previous_partial",
    "Verif.Tree.C02_previous_value_is_genuine_partial",
    "Verif.Tree.C02_insert_returns_previous_apart_partial",
    "Verif.Tree.C02_previous_value_differs_from_get"
   ],
   "note": "False in general (C02_previous_value_differs_from_get). Proved for all histories without clashing keys; for all histories a reported previous value was inserted under exactly that key. Also proved for any keys at all as long as no two neighbouring leaves hold the same chunk (Apart): a split between equal chunks is the only cause of violations."
  },
  {
   "property": "C03",
   "status": "partial",
   "theorems": [
    "Verif.Tree.C03_other_keys_unchanged_partial",
    "Verif.Tree.C03_other_keys_unchanged_apart_partial",
    "Verif.Tree.C03_insert_loses_other_keys"
   ],
   "note": "False in general (C03_insert_loses_other_keys). Proved for all histories without clashing keys. Also proved for any keys at all as long as no two neighbouring leaves hold the same chunk (Apart): a split between equal chunks is the only cause of violations."
  },
  {
   "property": "C04",
   "status": "proved",
   "theorems": [
    "Verif.Tree.C04_refines_finite_map",
    "Verif.Tree.C04_refines_finite_map_apart"
   ],
   "note": "Refinement of a finite map by insert, get, len and is_empty for all call sequences whose inserted keys do not clash; noClash_of_length and noClash_of_nulFree give sufficient conditions. C04_refines_finite_map_apart: the same for any keys as long as no split has separated equal chunks."
  },
  {
   "property": "C05",
   "status": "partial",
   "theorems": [
    "Verif.Tree.C05_get_is_latest_partial",
    "Verif.Tree.C05_get_is_genuine_partial",
    "Verif.Tree.C05_get_is_latest_apart_partial",
    "Verif.Tree.C05_overwritten_value_returns"
   ],
   "note": "False in general (C05_overwritten_value_returns). Proved for all histories without clashing keys; for all histories a returned value was inserted under exactly that key. Also proved for any keys at all as long as no two neighbouring leaves hold the same chunk (Apart): a split between equal chunks is the only cause of violations."
  },
  {
   "property": "C06",
   "status": "partial",
   "theorems": [
    "Verif.Tree.C06_len_is_distinct_keys_partial",
    "Verif.Tree.C06_len_bounds_partial",
    "Verif.Tree.C06_len_is_distinct_keys_apart_partial",
    "Verif.Tree.C06_len_counts_key_twice"
   ],
   "note": "False in general (C06_len_counts_key_twice). Proved for all histories without clashing keys; in general len lies between the number of distinct keys and the number of inserts. Also proved for any keys at all as long as no two neighbouring leaves hold the same chunk (Apart): a split between equal chunks is the only cause of violations."
  },
  {
   "property": "C07",
   "status": "proved",
   "theorems": [
    "Verif.Tree.C07_is_empty_iff_no_insert"
   ],
   "note": "All histories, clashing or not."
  },
  {
   "property": "C08",
   "status": "proved",
   "theorems": [
    "Verif.Tree.C08_calls_never_fail"
   ],
   "note": "All call sequences with legal keys, clashing or not; panics, errors, self-deadlock, bad dereferences and misread cells are explicit errors in the model."
  },
  {
   "property": "C09",
   "status": "proved",
   "theorems": [
    "Verif.Tree.C09_bounded_work",
    "Verif.Tree.C09_height_logarithmic"
   ],
   "note": "The loops carry explicit fuel: layers of a lookup and passes of an insert bounded by the key length, climbs and descents by the tree height, leaf walks by constants; never exhausted on a reachable tree. Height logarithmic in the number of nodes."
  },
  {
   "property": "C10",
   "status": "proved",
   "theorems": [
    "Verif.Key.C10_new_accepts",
    "Verif.Tree.C10_only_long_keys_panic"
   ],
   "note": "Key construction, and the whole insert and get on every reachable tree."
  },
  {
   "property": "C11",
   "status": "proved",
   "theorems": [
    "Verif.Key.C11_chunk_order_is_byte_order",
    "Verif.Key.C11_chunk_decides",
    "Verif.Key.C11_chunks_determine"
   ],
   "note": ""
  },
  {
   "property": "C12",
   "status": "proved",
   "theorems": [
    "Verif.Key.C12_shift_shows_rest",
    "Verif.Key.C12_shift_by",
    "Verif.Key.C12_unshift_shift",
    "Verif.Key.C12_unshift_all",
    "Verif.Key.C12_lossless",
    "Verif.Key.C12_ikey_fits",
    "Verif.Key.C12_is_empty",
    "Verif.Key.C12_is_shifted",
    "Verif.Key.C12_from_ikey"
   ],
   "note": ""
  },
  {
   "property": "C13",
   "status": "proved",
   "theorems": [
    "Verif.Key.C13_compare_consistent",
    "Verif.Key.C13_compare_ikey"
   ],
   "note": ""
  },
  {
   "property": "C14",
   "status": "proved",
   "theorems": [
    "Verif.Perm.C14_constructors",
    "Verif.Perm.C14_permutation_preserved"
   ],
   "note": ""
  },
  {
   "property": "C15",
   "status": "proved",
   "theorems": [
    "Verif.Perm.C15_operations_refine",
    "Verif.Perm.C15_insert_positions",
    "Verif.Perm.C15_set"
   ],
   "note": ""
  },
  {
   "property": "C16",
   "status": "proved",
   "theorems": [
    "Verif.Perm.C16_constructors",
    "Verif.Perm.C16_operations_refine",
    "Verif.Perm.C16_permutation_preserved"
   ],
   "note": ""
  },
  {
   "property": "C17",
   "status": "proved",
   "theorems": [
    "Verif.Freeze.C17_valid_not_frozen",
    "Verif.Freeze.C17_freeze",
    "Verif.Freeze.C17_unfreeze_roundtrip",
    "Verif.Freeze.C17_freeze64_position"
   ],
   "note": ""
  },
  {
   "property": "C18",
   "status": "proved",
   "theorems": [
    "Verif.NV.C18_exclusive",
    "Verif.NV.C18_lock_bit_iff_owned",
    "Verif.NV.C18_only_owner_changes",
    "Verif.NV.C18_owned_not_stable",
    "Verif.NV.C18_free_lock_available",
    "Verif.NV.C18_unguarded_root_mark_lost"
   ],
   "note": "C18_unguarded_root_mark_lost records that root-flag changes made without the lock can be overwritten."
  },
  {
   "property": "C19",
   "status": "proved",
   "theorems": [
    "Verif.NV.C19_reader_notices",
    "Verif.NV.C19_unchanged_means_no_write",
    "Verif.NV.C19_wraps_at_2_19",
    "Verif.NV.C19_writer_in_progress_unseen"
   ],
   "note": "Proved for fewer than 2^19 split counter steps between the two reads; C19_wraps_at_2_19 shows the bound is sharp. C19_writer_in_progress_unseen shows has_changed ignores a writer in progress."
  },
  {
   "property": "C20",
   "status": "proved",
   "theorems": [
    "Verif.NV.C20_split_in_progress_seen",
    "Verif.NV.C20_reader_notices_split",
    "Verif.NV.C20_false_means_no_split",
    "Verif.NV.C20_spurious"
   ],
   "note": "C20_spurious: has_split may also report a split after 64 inserts, which only costs a retry."
  },
  {
   "property": "C21",
   "status": "proved",
   "theorems": [
    "Verif.NV.C21_kind_and_deleted_kept",
    "Verif.NV.C21_root_flag",
    "Verif.NV.C21_no_overflow",
    "Verif.NV.C21_born_from_split",
    "Verif.NV.C21_flags_tell"
   ],
   "note": ""
  },
  {
   "property": "C22",
   "status": "proved",
   "theorems": [
    "Verif.Suffix.C22_reads_last_assigned",
    "Verif.Suffix.C22_count_and_compact",
    "Verif.Suffix.C22_in_place_result",
    "Verif.Suffix.C22_leaf_reads_last_assigned",
    "Verif.Suffix.C22_fails_beyond_4GiB"
   ],
   "note": "For histories whose suffix bytes total less than 4 GiB (u32 offsets); C22_fails_beyond_4GiB shows what happens past that."
  },
  {
   "property": "C23",
   "status": "proved",
   "theorems": [
    "Verif.KSearch.C23_lower_bound",
    "Verif.KSearch.C23_found_iff_present",
    "Verif.KSearch.C23_upper_bound",
    "Verif.KSearch.C23_internode",
    "Verif.KSearch.C23_internode_sorted",
    "Verif.KSearch.C23_duplicates_differ"
   ],
   "note": ""
  },
  {
   "property": "C24",
   "status": "partial",
   "theorems": [
    "Verif.Simd.C24_find_exact",
    "Verif.Simd.C24_find_all_matches",
    "Verif.Simd.C24_leaf_matches",
    "Verif.Simd.C24_find_all_beyond_32",
    "Verif.Simd.C24_count_le_partial",
    "Verif.Simd.C24_count_le_signed_bug"
   ],
   "note": "find_exact and find_all proved (find_all for at most 32 keys, C24_find_all_beyond_32 shows the limit). count_le is violated: the AVX2 path compares signed (C24_count_le_signed_bug); C24_count_le_partial covers keys below 2^63."
  },
  {
   "property": "C25",
   "status": "partial",
   "theorems": [
    "Verif.Tree.C25_split_partitions_partial",
    "Verif.Tree.C25_split_strict_partial",
    "Verif.Tree.C25_equal_chunks_separated"
   ],
   "note": "Positive part proved for every reachable full leaf; equal chunks are separated (refuted by C25_equal_chunks_separated), only when the inserted chunk lies above them; strict without clashing keys."
  },
  {
   "property": "C26",
   "status": "proved",
   "theorems": [
    "Verif.Internode.C26_insert",
    "Verif.Internode.C26_split",
    "Verif.Internode.C26_find_insert_position",
    "Verif.Internode.C26_split_sorted"
   ],
   "note": ""
  },
  {
   "property": "C27",
   "status": "proved",
   "theorems": [
    "Verif.Tree.C27_links_and_order",
    "Verif.Tree.C27_one_chain_per_layer",
    "Verif.Tree.C27_bound_is_separator",
    "Verif.Tree.C27_every_bound_is_a_separator",
    "Verif.Tree.C27_bound_routes_to_leaf",
    "Verif.Tree.C27_bound_routes_exactly"
   ],
   "note": "Links, order, one chain per layer, every bound is a separator, and routing to the leaf by its bound (exact without clashing keys; with clashing keys possibly to a neighbour with the same bound)."
  },
  {
   "property": "C28",
   "status": "proved",
   "theorems": [
    "Verif.Tree.C28_no_lock_left"
   ],
   "note": "All histories, clashing or not."
  },
  {
   "property": "C29",
   "status": "partial",
   "theorems": [
    "Verif.Race.C29_found_is_right_partial",
    "Verif.Race.C29_present_key_missed",
    "Verif.Race.C29_witness"
   ],
   "note": "False in general: C29_present_key_missed is an execution of one reader and one writer in which a present key is reported absent. Proved for all schedules: a lookup (of a key with a byte left at this layer) that finds something is right. Single-leaf machine, sequentially consistent memory, no splits."
  },
  {
   "property": "C30",
   "status": "proved",
   "theorems": [
    "Verif.Race.C30_lookup_linearizable",
    "Verif.Race.C30_write_takes_effect_at_once",
    "Verif.Race.C30_idle_write_moves_on",
    "Verif.Race.C30_conversion_only_on_clash",
    "Verif.Race.C30_witness"
   ],
   "note": "All schedules, any number of readers and critical sections, no bound; per-load, per-store interleavings on one leaf of any reachable tree. Writers take effect at their last store. Sequentially consistent memory."
  },
  {
   "property": "C31",
   "status": "partial",
   "theorems": [
    "Verif.Chain.C31_present_key_found_partial",
    "Verif.Chain.C31_present_key_found_if_marked_next_retries",
    "Verif.Chain.C31_key_stays",
    "Verif.Chain.C31_present_key_missed",
    "Verif.Chain.C31_witness"
   ],
   "note": "False for the code: C31_present_key_missed is a schedule in which a key present at every step of a lookup is reported absent, because a second split of the leaf marks its next pointer. Proved for every schedule of any number of lookups, inserts, splits and conversions of values into sublayers over a chain of leaves: a lookup of a key present at its start does not answer absent unless its last load of a next pointer was marked or a conversion under the same eight bytes was under way (C29); with a retry on a marked pointer only the latter remains."
  },
  {
   "property": "C32",
   "status": "proved",
   "theorems": [
    "Verif.Store.C32_released_exactly_once",
    "Verif.Store.C32_dropped_iff_unreachable",
    "Verif.Store.C32_never_while_reachable",
    "Verif.Store.C32_handles_outlive_tree",
    "Verif.Store.C32_boxed_released_exactly_once"
   ],
   "note": "Single-threaded programs with any number of guards, references and handles; both storage modes. seize is represented by its contract (a retired pointer is released when no guard active at its retirement is left). Suffix buffers and nodes are not in this heap (nodes: C39)."
  },
  {
   "property": "C33",
   "status": "partial",
   "theorems": [
    "Verif.Threads.C33_key_in_wrong_layer",
    "Verif.Threads.C33_found_under_rest_partial",
    "Verif.Threads.C33_found_if_restart_stays_in_layer",
    "Verif.Threads.C33_found_partial"
   ],
   "note": "False for the code: C33_key_in_wrong_layer is an execution in which an insert of a 24-byte key meets more than 128 sibling leaves, restarts at the root of the whole tree with the key already shifted, reports success and stores the value under the last 16 bytes of the key. Proved for every execution (up to the first split that separates equal chunks): an insert is found under what is left of its key, which is the whole key unless it ran out of its 128 hops in a sublayer; and under its key always, when the restart is repaired to stay in its layer."
  },
  {
   "property": "C34",
   "status": "proved",
   "theorems": [
    "Verif.Store.C34_same_pointer",
    "Verif.Store.C34_get_ref_agrees",
    "Verif.Store.C34_boxed_get_ref_agrees"
   ],
   "note": "Raw search results equal on every tree; API answers equal in every reachable state, both storage modes."
  },
  {
   "property": "C35",
   "status": "proved",
   "theorems": [
    "Verif.Store.C35_index_is_the_tree",
    "Verif.Store.C35_index_is_a_finite_map"
   ],
   "note": "The wrapper's replies equal those of the tree of plain values for every call sequence and collector schedule; a finite map when no two keys clash (see C04 for the clash restriction)."
  },
  {
   "property": "C36",
   "status": "proved",
   "theorems": [
    "Verif.LinkRace.C36_reachable_stays",
    "Verif.LinkRace.C36_sibling_reachable",
    "Verif.LinkRace.C36_mark_has_one_owner",
    "Verif.LinkRace.C36_mark_cleared",
    "Verif.LinkRace.C36_quiet_chain",
    "Verif.LinkRace.C36_prev_of_next",
    "Verif.LinkRace.C36_witness"
   ],
   "note": "Machine of any number of threads running link_sibling/lock_next on real address words with the mark bit. Reachability through next pointers never shrinks, a published sibling is reachable from its left neighbour for ever, a mark has exactly one owner who clears it within four own steps, and the chain is doubly linked wherever unmarked."
  },
  {
   "property": "C37",
   "status": "proved",
   "theorems": [
    "Verif.Cas.C37_claims_disjoint",
    "Verif.Cas.C37_publish_is_exclusive",
    "Verif.Cas.C37_published_holds_claimants_key",
    "Verif.Cas.C37_split_moves_whole_entries",
    "Verif.Cas.C37_published_stays",
    "Verif.Cas.C37_mixed_with_locked_inserts_loses_a_key",
    "Verif.Cas.C37_witness"
   ],
   "note": "Machine of any number of lock-free inserts and splits (freeze protocol) on one leaf, with the real permutation and version words. Proved among lock-free inserts and splits, as the statement says. C37_mixed_with_locked_inserts_loses_a_key shows that running the protocol together with the crate's present locked insert loses a key."
  },
  {
   "property": "C38",
   "status": "proved",
   "theorems": [
    "Verif.Link.C38_mark_roundtrip",
    "Verif.Link.C38_mark_any"
   ],
   "note": ""
  },
  {
   "property": "C39",
   "status": "proved",
   "theorems": [
    "Verif.Alloc.C39_freed_exactly_once",
    "Verif.Alloc.C39_nothing_left",
    "Verif.Alloc.C39_never_freed_early",
    "Verif.Alloc.C39_contract_needed"
   ],
   "note": "For allocators used under the documented contract; C39_contract_needed shows why it is needed."
  },
  {
   "property": "C40",
   "status": "proved",
   "theorems": [
    "Verif.Cas.C40_no_publish_while_frozen",
    "Verif.Cas.C40_freeze_never_panics",
    "Verif.Cas.C40_frozen_until_installed",
    "Verif.Cas.C40_loaded_permutation_valid",
    "Verif.Cas.C40_witness"
   ],
   "note": "Same machine, locked inserts included. While frozen the word is constant and every publish attempt fails; after unfreezing it is the permutation of the instant of freezing cut to the splitter's split point; the assertions of freeze_permutation never fail."
  },
  {
   "property": "C41",
   "status": "proved",
   "theorems": [
    "Verif.NV.C41_single_threaded_agrees"
   ],
   "note": ""
  },
  {
   "property": "C42",
   "status": "partial",
   "theorems": [
    "Verif.Suffix.C42_dead_suffix_bytes_accumulate",
    "Verif.Suffix.C42_growth_bound_partial"
   ],
   "note": "Violated: C42_dead_suffix_bytes_accumulate. C42_growth_bound_partial bounds the growth by the bytes ever assigned."
  },
  {
   "property": "C43",
   "status": "proved",
   "theorems": [
    "Verif.Store.C43_reference_stays_valid",
    "Verif.Store.C43_boxed_reference_stays_valid"
   ],
   "note": "Single-threaded programs with any number of guards; seize represented by its contract."
  },
  {
   "property": "C44",
   "status": "proved",
   "theorems": [
    "Verif.Store.C44_modes_agree",
    "Verif.Store.C44_programs_see_a_finite_map"
   ],
   "note": "Mode equality is unconditional; the finite-map reading needs NoClash (see C04)."
  },
  {
   "property": "C45",
   "status": "partial",
   "theorems": [
    "Verif.Race.C45_no_misread_partial",
    "Verif.Race.C45_sublayer_read_as_value"
   ],
   "note": "False in general: C45_sublayer_read_as_value (lookup of the empty key). Proved for keys with at least one byte left at this layer, fewer than 2^19 critical sections per lookup."
  },
  {
   "property": "C46",
   "status": "partial",
   "theorems": [
    "Verif.Threads.C46_present_key_missed",
    "Verif.Threads.C46_insert_atomic_partial",
    "Verif.Threads.C46_get_atomic_partial",
    "Verif.Threads.C46_tree_is_stored_partial",
    "Verif.Threads.C46_apart_without_clashes",
    "Verif.Threads.C46_apart_before",
    "Verif.Threads.C46_reports_genuine_partial",
    "Verif.Threads.C46_no_failure",
    "Verif.Threads.C46_insert_linearizable_partial",
    "Verif.Threads.C46_get_linearizable_partial",
    "Verif.Threads.C46_tree_is_map_partial",
    "Verif.Threads.C46_short_keys_linearizable_partial"
   ],
   "note": "False in general: C46_present_key_missed is an execution of one thread in which a key inserted long ago is not found, because a split has separated equal chunks (finding 1); C33_key_in_wrong_layer is another way. What holds: gets and inserts of any number of threads on the whole tree, with lock-protected sections and single loads as atomic steps. Every execution of the code is linearizable with respect to the keys as they are stored (what is left of a key after C33), up to the first split that separates equal chunks (in particular for keys that do not clash); with respect to the keys as given when no insert runs out of hops in a sublayer, in particular for keys of at most eight bytes. No call ever fails but for keys above 256 bytes. The interleavings inside a critical section are the subject of LeafRace, ChainRace and Forest (C57)."
  },
  {
   "property": "C47",
   "status": "proved",
   "theorems": [
    "Verif.Threads.C47_alone_returns"
   ],
   "note": "On the machine of many threads on one tree, where a thread cannot be stopped inside a critical section."
  },
  {
   "property": "C48",
   "status": "partial",
   "theorems": [
    "Verif.Index.C48_get_partial",
    "Verif.Index.C48_insert_partial",
    "Verif.Index.C48_present_key_found_partial",
    "Verif.Index.C48_get_repaired",
    "Verif.Index.C48_insert_repaired",
    "Verif.Index.C48_get_alone_partial",
    "Verif.Index.C48_present_key_missed",
    "Verif.Index.C48_insert_lost"
   ],
   "note": "False for the code (finding 9): C48_present_key_missed, C48_insert_lost. What holds: every get and insert of one layer takes effect at one moment of its call in every execution in which no descent finds a locked internode unchanged (C48_get_partial, C48_insert_partial, C48_present_key_found_partial), hence whenever calls do not overlap (C48_get_alone_partial), and in all executions if has_changed also looked at the lock (C48_get_repaired, C48_insert_repaired). Up to the first failure (by C49 only the limit of 64 rounds)."
  },
  {
   "property": "C49",
   "status": "partial",
   "theorems": [
    "Verif.Index.C49_split_never_fails_partial",
    "Verif.Index.C49_round_limit_reached",
    "Verif.Index.C49_failure_needs_other_splits_partial",
    "Verif.Index.C49_failure_needs_42_nodes_partial",
    "Verif.Index.C49_never_fails_partial"
   ],
   "note": "False for the code as it stands: C49_round_limit_reached gives a schedule of two threads in which an insert panics after 64 rounds of the propagation loop (finding 10). Proved: in every execution of one layer the first failure, if any, is that limit, and it is reached only if other threads create, during that one split, at least 64 minus the height of the tree nodes (at least 42 nodes in a tree of up to 2^63 nodes)."
  },
  {
   "property": "C50",
   "status": "proved",
   "theorems": [
    "Verif.Index.C50_no_deadlock",
    "Verif.Index.C50_locked_sections_end",
    "Verif.Index.C50_no_lock_forgotten",
    "Verif.Index.C50_nothing_held_at_return"
   ],
   "note": "On the machine of one layer, for keys with different slices, in every execution, also after a call has failed."
  },
  {
   "property": "C51",
   "status": "proved",
   "theorems": [
    "Verif.Index.C51_height_logarithmic",
    "Verif.Index.C51_levels"
   ],
   "note": "On the machine of one layer, in every execution up to the first failure (by C49 only the limit of 64 rounds)."
  },
  {
   "property": "C52",
   "status": "proved",
   "theorems": [
    "Verif.Weak.C52_stores_are_sequential",
    "Verif.Weak.C52_memory_is_history",
    "Verif.Weak.C52_lock_excludes",
    "Verif.Weak.C52_insert_sees_newest",
    "Verif.Weak.C52_lookup_not_older",
    "Verif.Weak.C52_found_not_older_partial",
    "Verif.Weak.C52_no_misread_partial",
    "Verif.Weak.C52_knows_for_ever",
    "Verif.Weak.C52_writer_knows",
    "Verif.Weak.C52_lookups_do_not_go_back",
    "Verif.Weak.C52_witness"
   ],
   "note": "One leaf with any number of threads on a release/acquire view machine. The answer clause holds while no slot is turned into a sublayer; with such conversions it holds for lookups that find something (C52_found_not_older_partial), the rest being false already without reordering (C29). Suffix bags are taken as one atomic location per slot."
  },
  {
   "property": "C53",
   "status": "proved",
   "theorems": [
    "Verif.BagRace.C53_reads_what_was_stored",
    "Verif.BagRace.C53_bags_outlive_readers",
    "Verif.BagRace.C53_witness"
   ],
   "note": "One leaf, every access to the bag a step, sequentially consistent. Claimed for slots that no call stores into or clears meanwhile (a reader overtaken by a split or a sublayer conversion of its own slot fails its version check or meets C29), while fewer than 2^32-1 suffix bytes were stored in the leaf. compact_ksuf, which the tree never calls, is left out."
  },
  {
   "property": "C54",
   "status": "partial",
   "theorems": [
    "Verif.BagRace.C54_only_length_races_partial",
    "Verif.BagRace.C54_no_panic_partial",
    "Verif.BagRace.C54_race",
    "Verif.BagRace.C54_length_first_panics",
    "Verif.BagRace.C54_witness"
   ],
   "note": "False for the code as it stands: C54_race gives a get and an insert of two different long keys that race on the vector's length (finding 11). Proved: that is the only racy location for slots that are not stored into; and no reader ever runs out of bounds, in either order of reading offset and length, as long as suffixes are stored only in slots that hold none (as the tree does: C55_never_overwritten), otherwise only if the offset comes first (C54_length_first_panics)."
  },
  {
   "property": "C55",
   "status": "proved",
   "theorems": [
    "Verif.Threads.C55_stored_exactly",
    "Verif.Threads.C55_never_overwritten",
    "Verif.Threads.C55_at_most_len",
    "Verif.Threads.C55_sequential",
    "Verif.Threads.C55_witness"
   ],
   "note": "Critical sections are single steps, as in C46. Copies are counted per slot (Spec/Clean.lean); how the bytes lie in a leaf's suffix bag is C22. No hypothesis on the keys."
  },
  {
   "property": "C56",
   "status": "proved",
   "theorems": [
    "Verif.Chain.C56_found_value_is_current",
    "Verif.Chain.C56_lookup_linearizable",
    "Verif.Chain.C56_leaves_hold_last_written",
    "Verif.Chain.C56_leaves_are_the_map",
    "Verif.Chain.C56_insert_returns_previous",
    "Verif.Chain.C56_witness",
    "Verif.Chain.C56_insert_returns_previous_witness",
    "Verif.Chain.C56_conversion_witness"
   ],
   "note": "On the chain of leaves of one layer, sequentially consistent memory, fewer than 2^19 critical sections ending on one leaf during the lookup; sublayers are represented by their pointers, and splits do not separate equal slices. The empty key is excepted while a value under eight zero bytes is being turned into a sublayer (C45). The property is about values answered and about the entries; that an answer 'absent' is right, too, is C56_lookup_linearizable, up to the failures of C31 and C29 (findings 4 and 3)."
  },
  {
   "property": "C57",
   "status": "proved",
   "theorems": [
    "Verif.Forest.C57_get_found_is_current",
    "Verif.Forest.C57_get_linearizable",
    "Verif.Forest.C57_insert_returns_previous",
    "Verif.Forest.C57_leaves_are_the_map",
    "Verif.Forest.C57_witness",
    "Verif.Forest.C57_get_linearizable_witness",
    "Verif.Forest.C57_insert_returns_previous_witness",
    "Verif.Forest.C57_leaves_are_the_map_witness"
   ],
   "note": "Sequentially consistent memory; fewer than 2^19 critical sections ending on one leaf during the lookup; no internodes (a thread enters a layer's chain at any leaf at or before its key); splits do not separate equal slices. The empty key is excepted while a value under eight zero bytes is being converted (C45). That answers 'absent' are right is C57_get_linearizable, up to the failures of C31 and C29 (findings 4 and 3), which are excluded by hypotheses on `saw` and `InTransit`."
  },
  {
   "property": "C58",
   "status": "proved",
   "theorems": [
    "Verif.Whole.C58_lookup_arrives",
    "Verif.Whole.C58_insert_in_range",
    "Verif.Whole.C58_owner_unique",
    "Verif.Whole.C58_get_found_is_current",
    "Verif.Whole.C58_get_linearizable",
    "Verif.Whole.C58_insert_returns_previous",
    "Verif.Whole.C58_leaves_are_the_map",
    "Verif.Whole.C58_get_repaired",
    "Verif.Whole.C58_get_witness",
    "Verif.Whole.C58_insert_witness",
    "Verif.Whole.C58_leaves_are_the_map_witness"
   ],
   "note": "Sequentially consistent memory; the conditions of the statement are `Clean` (no descent accepts what it has read from a locked internode, no propagation has failed); fewer than 2^19 critical sections ending on one leaf during the lookup; splits do not separate equal slices; exceptions of C29, C31, C45 as in C57. C58_get_repaired needs no condition on descents. Without the condition the statement is false for the code: C48_present_key_missed, C48_insert_lost."
  },
  {
   "property": "C59",
   "status": "proved",
   "theorems": [
    "Verif.Ops.C59_insert_once",
    "Verif.Ops.C59_only_inserts_write",
    "Verif.Ops.C59_insert_at_most_once",
    "Verif.Ops.C59_get_found_is_current",
    "Verif.Ops.C59_get_linearizable",
    "Verif.Ops.C59_read_after_insert",
    "Verif.Ops.C59_insert_witness",
    "Verif.Ops.C59_get_witness",
    "Verif.Ops.C59_read_witness",
    "Verif.Ops.C59_insert_once_all",
    "Verif.Ops.C59_only_inserts_write_all",
    "Verif.Ops.C59_get_linearizable_all"
   ],
   "note": "Sequentially consistent memory; condition `Clean` as in C58; for the answers of `get` fewer than 2^19 critical sections ending on one leaf during the call, and for the answer None the exceptions of C29 and C31 (`Unmarked`, `InTransit`). The loads an insert makes in a leaf it has locked are one step. Failed propagations (C49) are excluded by `Clean`. The theorems `_all` are about the code with findings 1 and 5, up to the first such step (`Regular`); the others leave these steps out."
  },
  {
   "property": "C60",
   "status": "partial",
   "theorems": [
    "Verif.Ops.C60_len_exact_partial",
    "Verif.Ops.C60_len_bounds_partial",
    "Verif.Ops.C60_witness",
    "Verif.Ops.C60_len_exact_all_partial",
    "Verif.Ops.C60_key_counted_twice"
   ],
   "note": "False for the code (finding 9, C60_key_counted_twice). Exact under the condition `Clean` of C58. Sequentially consistent memory; condition `Clean` as in C58. The counter is a natural number; the read of the counter by `len` is one load. The theorems `_all` are about the code with findings 1 and 5, up to the first such step (`Regular`); the others leave these steps out."
  },
  {
   "property": "C61",
   "status": "proved",
   "theorems": [
    "Verif.Ops.C61_insert_never_fails",
    "Verif.Ops.C61_get_never_fails",
    "Verif.Ops.C61_witness",
    "Verif.Ops.C61_insert_never_fails_all"
   ],
   "note": "Sequentially consistent memory; condition `Clean` as in C58 (which excludes the panic of C49); for `get` fewer than 2^19 critical sections ending on one leaf during the call. The theorems `_all` are about the code with findings 1 and 5, up to the first such step (`Regular`); the others leave these steps out."
  },
  {
   "property": "C62",
   "status": "proved",
   "theorems": [
    "Verif.Ops.C62_bound_is_fixed_all",
    "Verif.Ops.C62_bound_in_slot",
    "Verif.Ops.C62_bound_is_fixed",
    "Verif.Ops.C62_bound_separates",
    "Verif.Ops.C62_witness"
   ],
   "note": "Sequentially consistent memory; condition `Clean` as in C58. The theorems `_all` are about the code with findings 1 and 5, up to the first such step (`Regular`); the others leave these steps out."
  },
  {
   "property": "C63",
   "status": "partial",
   "theorems": [
    "Verif.Ops.C63_visible_all_partial",
    "Verif.Ops.C63_lost_by_split",
    "Verif.Ops.C63_regular_witness",
    "Verif.Ops.C63_visible_partial",
    "Verif.Ops.C63_witness",
    "Verif.Ops.C63_missed_while_layer_is_made",
    "Verif.Ops.C63_missed_during_second_split",
    "Verif.Ops.C63_missed_during_index_update",
    "Verif.Ops.C63_insert_lost_for_good",
    "Verif.Ops.C63_not_always",
    "Verif.Ops.C63_visible_quiet_partial",
    "Verif.Ops.C63_visible_repaired_partial",
    "Verif.Ops.C63_quiet_witness",
    "Verif.Ops.C63_repaired_witness"
   ],
   "note": "False for the code: four different causes (findings 1, 3, 4, 9), each an execution of calls from the empty tree on that breaks only one condition of C63_visible_partial. Sequentially consistent memory. C63_visible_quiet_partial: visible whenever the get overlaps no insert. C63_visible_repaired_partial: with the repairs of findings 3 and 9 only keys longer than eight bytes (or empty) on whose way a layer is being made are left, and C49."
  },
  {
   "property": "C64",
   "status": "proved",
   "theorems": [
    "Verif.Ops.C64_no_lock_left",
    "Verif.Ops.C64_lock_has_owner",
    "Verif.Ops.C64_two_leaves_per_insert",
    "Verif.Ops.C64_get_writes_nothing",
    "Verif.Ops.C64_no_lock_left_all",
    "Verif.Ops.C64_two_leaves_per_insert_all",
    "Verif.Ops.C64_witness",
    "Verif.Ops.C64_get_witness"
   ],
   "note": "Sequentially consistent memory; condition `Clean` as in C58 (which excludes the panic of C49). The theorems `_all` are about the code with findings 1 and 5, up to the first such step (`Regular`); the others leave these steps out."
  },
  {
   "property": "C65",
   "status": "proved",
   "theorems": [
    "Verif.Ops.C65_get_in_turn_small_all",
    "Verif.Ops.C65_insert_in_turn_small_all",
    "Verif.Ops.C65_get_quiet",
    "Verif.Ops.C65_get_last",
    "Verif.Ops.C65_in_turn_clean",
    "Verif.Ops.C65_get_in_turn",
    "Verif.Ops.C65_insert_in_turn",
    "Verif.Ops.C65_get_last_all",
    "Verif.Ops.C65_in_turn_clean_all",
    "Verif.Ops.C65_get_in_turn_all",
    "Verif.Ops.C65_insert_in_turn_all",
    "Verif.Ops.C65_witness"
   ],
   "note": "Sequentially consistent memory. `Clean` as in C58; for calls in turn only `NoFail` (C49) is left of it, and by C67 not even that (`_small_all`). `Call` is a call that has returned. The theorems `_all` are about the code with findings 1 and 5, up to the first such step (`Regular`); the others leave these steps out."
  },
  {
   "property": "C66",
   "status": "proved",
   "theorems": [
    "Verif.Ops.C66_some_insert_moves",
    "Verif.Ops.C66_alone",
    "Verif.Ops.C66_witness"
   ],
   "note": "Sequentially consistent memory; `Clean` as in C58 (which excludes the panic of C49). About the code with findings 1 and 5; before the time in question none of their steps has been taken (`Regular`), at it they may be next. Says that some insert can step, not that a given insert returns: that depends on the scheduler."
  },
  {
   "property": "C67",
   "status": "proved",
   "theorems": [
    "Verif.Ops.C67_no_failure",
    "Verif.Ops.C67_in_turn",
    "Verif.Ops.C67_small",
    "Verif.Ops.C67_no_failure_all",
    "Verif.Ops.C67_no_failure_repaired_all",
    "Verif.Ops.C67_in_turn_all",
    "Verif.Ops.C67_small_all",
    "Verif.Ops.C67_witness",
    "Verif.Ops.C67_in_turn_witness"
   ],
   "note": "Sequentially consistent memory. `FewSplits` counts the steps in which another thread adds a node to some layer while the insert runs. `Calm` is the first half of `Clean` (C48); with the repair of C48, and for calls in turn, it is not needed. `Small` follows from the number of steps (`C67_small`). The theorems `_all` are about the code with findings 1 and 5, up to the first such step (`Regular`)."
  },
  {
   "property": "C68",
   "status": "proved",
   "theorems": [
    "Verif.Ops.C68_get_bound",
    "Verif.Ops.C68_get_returns",
    "Verif.Ops.C68_get_bound_all",
    "Verif.Ops.C68_get_returns_all",
    "Verif.Ops.C68_witness"
   ],
   "note": "Sequentially consistent memory. K depends on the tree and the key only. `Clean` and, in the theorems `_all` about the code with findings 1 and 5, `Regular` are asked for up to the call only: that they hold during it is part of the proof. `C68_get_returns` is the same for a thread that goes on for ever."
  },
  {
   "property": "C69",
   "status": "proved",
   "theorems": [
    "Verif.Ops.C69_insert_returns",
    "Verif.Ops.C69_insert_returns_all",
    "Verif.Ops.C69_in_turn_all",
    "Verif.Ops.C69_witness"
   ],
   "note": "Sequentially consistent memory. That the thread goes on means: as long as the insert has not returned there comes another of its steps that changes something; C66 says that there is such a step at any time, with suitable numbers for new nodes. `Clean` and, in the theorems `_all` about the code with findings 1 and 5, `Regular` are asked for while the insert runs; for calls in turn `Clean` follows (`C69_in_turn_all`)."
  },
  {
   "property": "C70",
   "status": "proved",
   "theorems": [
    "Verif.Ops.C70_handed_over",
    "Verif.Ops.C70_none_lost",
    "Verif.Ops.C70_one_first",
    "Verif.Ops.C70_given_once",
    "Verif.Ops.C70_get_last",
    "Verif.Ops.C70_handed_over_all",
    "Verif.Ops.C70_none_lost_all",
    "Verif.Ops.C70_get_last_all",
    "Verif.Ops.C70_witness",
    "Verif.Ops.C70_regular_witness"
   ],
   "note": "Sequentially consistent memory. `HandedOver` in `Prop/OpsHandOver.lean` says what a chain is, with calls and returns only. Asks for `Clean` and, in the theorems `_all` about the code with findings 1 and 5, `Regular`. The values are those the model stores; when a replaced value is released is C32 and C43."
  },
  {
   "property": "C71",
   "status": "proved",
   "theorems": [
    "Verif.Ops.C71_get_returns",
    "Verif.Ops.C71_get_returns_all",
    "Verif.Ops.C71_witness",
    "Verif.Ops.C71_regular_witness"
   ],
   "note": "Sequentially consistent memory. Strengthens C68, whose lookups overlap no insert; without C68's bound on the number of steps. `Clean` and, in `C71_get_returns_all` about the code with findings 1 and 5, `Regular` are asked for up to the step after which no insert is under way."
  },
  {
   "property": "C72",
   "status": "proved",
   "theorems": [
    "Verif.Ops.C72_inserts_end",
    "Verif.Ops.C72_insert_returns",
    "Verif.Ops.C72_get_returns",
    "Verif.Ops.C72_witness"
   ],
   "note": "Sequentially consistent memory. Strengthens C69, C66 and C71. `Clean` (no insert fails, C67) and `Regular` (no split between equal slices, no more than 128 siblings in a sublayer: findings 1 and 5) are asked for throughout. `Fair` is about the threads with an insert under way only; the lock of a leaf or an internode need not be fair, since nobody calls a new insert."
  },
  {
   "property": "C73",
   "status": "partial",
   "theorems": [
    "Verif.Ops.C73_linearizable_partial",
    "Verif.Ops.C73_linearizable_all_partial",
    "Verif.Ops.C73_reads_newest",
    "Verif.Ops.C73_no_thin_air",
    "Verif.Ops.C73_not_linearizable",
    "Verif.Ops.C73_not_linearizable_split",
    "Verif.Ops.C73_witness"
   ],
   "note": "Spec/Linear.lean has the textbook definition (Herlihy and Wing), in terms of calls and answers only. C73_linearizable_partial: for the code as it is with any number of threads, under Clean (C48, C49) and Regular (C25, C33), all inserts and all lookups that return a value, or return nothing outside the situations of C19, C29 and C31, are linearizable; C73_linearizable_all_partial says it of all calls if all lookups are such. The claim in full is refuted: C73_not_linearizable (a value on its way into a layer), C73_not_linearizable_split (a leaf being split; an internode being changed; a leaf split between equal slices). C73_reads_newest and C73_no_thin_air follow from linearizability alone. Missing: executions and lookups with the defects named; for C25, C29, C31 and C48 executions that are not linearizable are given here, for C19, C33 and C49 no such execution is given in this claim."
  },
  {
   "property": "C74",
   "status": "proved",
   "theorems": [
    "Verif.Ops.C74_some_insert_returns",
    "Verif.Ops.C74_get_or_insert_returns",
    "Verif.Ops.C74_witness"
   ],
   "note": "Sequentially consistent memory; conditions `Clean`, `Regular` and `Fair` as in C72, asked for the whole execution. `Threads` says that finitely many threads call anything; calls that a thread makes while it has one under way have no effect in the model, and are left out (`heard`). The witness is the finite execution of C72 (nothing happens after its end)."
  },
  {
   "property": "C75",
   "status": "proved",
   "theorems": [
    "Verif.ValueRace.C75_no_use_after_release",
    "Verif.ValueRace.C75_reference_stays",
    "Verif.ValueRace.C75_released_once",
    "Verif.ValueRace.C75_released_at_last",
    "Verif.ValueRace.C75_reclaimable",
    "Verif.ValueRace.C75_witness"
   ],
   "note": "Sequentially consistent memory; seize represented by its contract (what is retired is released only when all guards of the same collector that were active have been dropped). The steps of threads are not restricted to those of the loops of `get` and `insert`, so the theorems cover more than these. `Proper` says that the guards passed are of this tree; C76 shows that this is needed."
  },
  {
   "property": "C76",
   "status": "partial",
   "theorems": [
    "Verif.ValueRace.C76_foreign_guard_dangles",
    "Verif.ValueRace.C76_dropped_tree_dangles",
    "Verif.ValueRace.C76_foreign_retire_dangles",
    "Verif.ValueRace.C76_own_guards_partial"
   ],
   "note": "The code violates the full statement: `C76_foreign_guard_dangles`, `C76_dropped_tree_dangles` and `C76_foreign_retire_dangles` (finding 12). `C76_own_guards_partial` is what holds until a guard of another tree is passed."
  },
  {
   "property": "C77",
   "status": "partial",
   "theorems": [
    "Verif.Index.C77_panic_repeats",
    "Verif.Index.C77_panic_keeps_tree_partial",
    "Verif.Index.C77_lookups_go_on_partial",
    "Verif.Index.C77_witness",
    "Verif.Index.C77_witness_lookup",
    "Verif.Index.C77_no_split_partial",
    "Verif.Index.C77_updates_go_on_partial",
    "Verif.Index.C77_witness_update"
   ],
   "note": "False for the code as it stands: C77_panic_repeats is a run in which an insert panics after 64 rounds and a later insert, running alone, panics because the leaf it splits never got a parent (finding 10). Proved by C77_panic_keeps_tree_partial: the first panic of an execution keeps no lock and changes no entry, link, key or child. C77_lookups_go_on_partial: if the other threads were at rest and no insert is called afterwards, every later lookup returns what the map held before the panic. C77_no_split_partial: if no other thread splits a node at that moment, then until a later call has to split a node all lookups and inserts that return after the panic, also those under way, return the right answers and no other thread panics. C77_updates_go_on_partial: this holds for ever if the inserts under way or called later only give new values to keys that are there, and lookups then return."
  }
 ]
}