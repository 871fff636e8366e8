{"id": "C01", "title": "A key just inserted can be read back", "statement": "After `insert(k, v)` returns Ok, `get(k)` (with no other call in between) returns v.", "quantifier": "every history of prior insert calls, every key of at most 256 bytes, every value", "why_tests_cant": "The tree shape (splits, sublayers, root growth) that the lookup must traverse depends on the whole history; tests sample a handful of shapes.", "anchors": ["src/tree/generic.rs:insert_concurrent_generic", "src/tree/generic.rs:get_concurrent_generic"]}
{"id": "C02", "title": "insert reports the previous value", "statement": "`insert(k, v)` returns Ok(old) where old is exactly what `get(k)` would have returned just before the call (None for an absent key).", "quantifier": "every history of prior inserts, every key of at most 256 bytes, every value", "why_tests_cant": "Needs agreement of two different search loops on every reachable tree.", "anchors": ["src/tree/generic.rs:insert_concurrent_generic", "src/tree/generic.rs:search_for_insert_generic", "src/tree/generic.rs:get_concurrent_generic"]}
{"id": "C03", "title": "Inserting one key leaves all other keys readable", "statement": "`insert(k, v)` does not change the result of `get(k')` for any k' different from k.", "quantifier": "every history of prior inserts and every pair of distinct keys of at most 256 bytes", "why_tests_cant": "Interference happens only when a leaf split lands inside a group of keys that share an 8-byte chunk; random tests hardly ever build that state.", "anchors": ["src/tree/generic.rs:insert_concurrent_generic", "src/leaf24.rs:calculate_split_point", "src/leaf24.rs:split_into_preallocated"]}
{"id": "C04", "title": "The tree is a map", "statement": "For histories in which no two keys clash (same leading bytes, zero-padded next 8-byte chunk equal, one ending inside that chunk, e.g. all keys of one length never clash), every insert result, every get result and len() equal those of an ordinary finite map fed the same history.", "quantifier": "all histories over non-clashing keys of at most 256 bytes, all values", "why_tests_cant": "Equivalence to a map over unboundedly many operations is a refinement statement.", "anchors": ["src/tree/generic.rs:insert", "src/tree/generic.rs:get", "src/tree/generic.rs:len"]}
{"id": "C05", "title": "A lookup never returns a wrong value", "statement": "If `get(k)` returns Some(v), then v is the value of the most recent insert whose key was exactly k.", "quantifier": "all histories of inserts, clashing or not, all keys of at most 256 bytes", "why_tests_cant": "Quantifies over all histories including those that trigger the split defect.", "anchors": ["src/tree/generic.rs:get_concurrent_generic", "src/tree/generic.rs:insert_concurrent_generic"]}
{"id": "C06", "title": "len counts the keys", "statement": "`len()` equals the number of distinct keys inserted so far.", "quantifier": "all histories", "why_tests_cant": "Count must stay right over every path (plain, alternative slot, layer creation, update, after split).", "anchors": ["src/tree/generic.rs:len", "src/tree/generic.rs:insert_concurrent_generic"]}
{"id": "C07", "title": "is_empty is exact", "statement": "`is_empty()` is true exactly when no insert has succeeded yet.", "quantifier": "all histories", "why_tests_cant": "Depends on the root shape after arbitrarily many splits.", "anchors": ["src/tree/generic.rs:is_empty"]}
{"id": "C08", "title": "insert succeeds for every legal key", "statement": "With no concurrent activity, `insert` on a key of at most 256 bytes returns Ok: it never returns an error, never panics and never interprets a sublayer pointer as a value or the reverse.", "quantifier": "all histories, all keys of at most 256 bytes", "why_tests_cant": "The error and panic branches (split point missing, null parent, root CAS failure, child not found, propagation limit) are unreachable only by invariant.", "anchors": ["src/tree/generic.rs:handle_leaf_split_generic", "src/tree/split/propagation.rs:propagation_loop", "src/tree/split/root_creation.rs", "src/leaf24.rs:calculate_split_point"]}
{"id": "C09", "title": "Operations terminate", "statement": "With no concurrent activity every `insert` and `get` finishes within a number of loop iterations bounded by the key length and the tree height; no retry loop spins forever and no lock is taken twice by the same operation.", "quantifier": "all histories, all keys of at most 256 bytes", "why_tests_cant": "Absence of infinite retry is a statement about all states.", "anchors": ["src/tree/generic.rs:insert_concurrent_generic", "src/tree/generic.rs:reach_leaf_concurrent_generic", "src/tree/generic.rs:maybe_parent_generic"]}
{"id": "C10", "title": "Over-long keys are rejected before any effect", "statement": "`insert` and `get` with a key longer than 256 bytes abort (panic) before reading or changing the tree; keys of exactly 256 bytes or fewer are accepted.", "quantifier": "all keys, all trees", "why_tests_cant": "Length ranges over all naturals; the documented Err(..) result is never produced.", "anchors": ["src/key.rs:Key::new", "src/tree/generic.rs:insert_with_guard", "src/tree/generic.rs:get_with_guard"]}
{"id": "C11", "title": "Chunk order is byte order", "statement": "Comparing two keys chunk by chunk as big-endian integers, with length as tie-break, orders them exactly as lexicographic comparison of the byte strings; two keys with equal chunks and equal length class are equal.", "quantifier": "all pairs of byte strings", "why_tests_cant": "Infinite domain.", "anchors": ["src/key.rs:read_ikey", "src/key.rs:compare"]}
{"id": "C12", "title": "Walking a key by chunks loses nothing", "statement": "Shifting a key n times shows exactly bytes 8n.. of it: chunk, remaining length, suffix; unshift undoes shift and unshift_all restores the original.", "quantifier": "all byte strings up to 256 bytes, all shift counts", "why_tests_cant": "Infinite domain.", "anchors": ["src/key.rs:shift", "src/key.rs:unshift", "src/key.rs:shift_by", "src/key.rs:suffix"]}
{"id": "C13", "title": "Key comparison is an order consistent with bytes", "statement": "`Key::compare` against a stored (chunk, length) pair returns Less/Equal/Greater consistently with the byte order of the remaining key and any stored key with that chunk and length.", "quantifier": "all keys, all chunk/length pairs", "why_tests_cant": "Infinite domain.", "anchors": ["src/key.rs:compare"]}
{"id": "C14", "title": "A slot permutation stays a permutation", "statement": "Starting from the empty or sorted value, after any sequence of legal permuter operations (insert, remove, remove-to-back, exchange, rotate, swap of free slots, resize) each of the 24 slots occurs exactly once and the size is at most 24.", "quantifier": "all operation sequences of any length, all 24 slots", "why_tests_cant": "24! arrangements; 128-bit state.", "anchors": ["src/permuter24.rs"]}
{"id": "C15", "title": "Permuter operations do what their names say", "statement": "Inserting at position i shifts later positions up by one and puts the former back slot at i; remove/remove_to_back/exchange/rotate/set_size act on the logical slot list as the corresponding list operations.", "quantifier": "all valid 24-slot permutation words and all positions", "why_tests_cant": "2^128 words.", "anchors": ["src/permuter24.rs:insert_from_back", "src/permuter24.rs:remove", "src/permuter24.rs:remove_to_back", "src/permuter24.rs:exchange", "src/permuter24.rs:rotate"]}
{"id": "C16", "title": "The 64-bit permuter behaves the same for every width", "statement": "The width-generic permuter (1..15 slots) satisfies C14 and C15 for each width.", "quantifier": "all widths 1..15, all operation sequences", "why_tests_cant": "15 widths times up to 15! arrangements.", "anchors": ["src/permuter.rs"]}
{"id": "C17", "title": "Freezing is detectable and reversible", "statement": "A frozen permutation word is never mistaken for a valid one nor the reverse; freezing changes nothing but the freeze marker; unfreezing with the old top slot restores the word.", "quantifier": "all 128-bit words / all valid permutations", "why_tests_cant": "2^128 words.", "anchors": ["src/freeze24.rs", "src/leaf24/freeze.rs"]}
{"id": "C18", "title": "A node lock is exclusive", "statement": "Under any interleaving of any number of threads calling lock, try_lock, mark_insert, mark_split and dropping guards, at most one thread holds a node's lock, and only the holder's guard can change the version counters.", "quantifier": "all schedules, any number of threads", "why_tests_cant": "Schedules are unbounded.", "anchors": ["src/nodeversion.rs:lock", "src/nodeversion.rs:try_lock", "src/nodeversion.rs:LockGuard::drop"]}
{"id": "C19", "title": "A reader notices completed writes", "statement": "If a reader took a stable version of a node and between 1 and 2^19-1 lock/unlock cycles completed on that node since, `has_changed` returns true (and the counter can wrap back after more).", "quantifier": "all version words, all sequences of unlocks", "why_tests_cant": "Counter wrap needs half a million steps in one exact pattern.", "anchors": ["src/nodeversion.rs:has_changed", "src/nodeversion.rs:LockGuard::drop"]}
{"id": "C20", "title": "A reader notices splits", "statement": "If a node was split fewer than 2^19 times since the reader's stable version, `has_split` returns true; a false answer means no split happened.", "quantifier": "all version words, all unlock sequences", "why_tests_cant": "Same as C19.", "anchors": ["src/nodeversion.rs:has_split", "src/nodeversion.rs:unlock_for_split"]}
{"id": "C21", "title": "Version updates keep node kind and flags", "statement": "No lock/unlock cycle changes whether a node is a leaf; only a split unlock clears the root flag; a deleted mark survives unlocks.", "quantifier": "all 32-bit version words, all sequences", "why_tests_cant": "2^32 words times sequences.", "anchors": ["src/nodeversion.rs"]}
{"id": "C22", "title": "Suffix storage returns what was stored", "statement": "In a leaf's suffix storage, after any sequence of assign / in-place assign / clear / compact, reading a slot gives the bytes last assigned to it, or nothing if cleared, and other slots are unaffected.", "quantifier": "all sequences of operations, all byte strings, all slots", "why_tests_cant": "Byte offsets, capacity and reuse interact over unbounded histories.", "anchors": ["src/suffix.rs"]}
{"id": "C23", "title": "Key search in a node finds the right position", "statement": "Binary and linear lower/upper bound searches agree with each other and return the position defined by the sorted key array, for every array and every target.", "quantifier": "all sorted arrays up to any length, all targets", "why_tests_cant": "Infinite domain.", "anchors": ["src/ksearch.rs"]}
{"id": "C24", "title": "Vectorised search equals scalar search", "statement": "The SSE2/AVX2 versions of find_exact, find_all_matches and count_le return the same answer as the scalar versions.", "quantifier": "all arrays of 64-bit keys, all targets", "why_tests_cant": "2^64 values per lane.", "anchors": ["src/ksearch/simd.rs"]}
{"id": "C25", "title": "A leaf split partitions the entries in order", "statement": "When a full leaf is split, the entries of the two halves concatenated are exactly the old entries, both halves are non-empty, keys in the left half are not greater than the separator and keys in the right half are at least the separator; keys with the same 8-byte chunk stay on one side.", "quantifier": "all reachable full leaves, all inserted keys", "why_tests_cant": "All arrangements of 24 slots and equal-chunk groups.", "anchors": ["src/leaf24.rs:calculate_split_point", "src/leaf24.rs:split_into_preallocated"]}
{"id": "C26", "title": "Internode insertion and split keep routing", "statement": "Inserting a separator and child at a position, with or without splitting the node, yields exactly the sequence with the separator and child inserted, cut around the promoted key.", "quantifier": "all full or non-full internodes, all positions, all widths 1..15", "why_tests_cant": "All key/child arrangements.", "anchors": ["src/internode.rs:insert_key_and_child", "src/internode.rs:split_into"]}
{"id": "C27", "title": "The leaf chain is ordered and complete", "statement": "In every layer the leaves form a doubly linked chain in key order; each non-first leaf's bound is the separator by which lookups are routed to it.", "quantifier": "all histories", "why_tests_cant": "Global shape property.", "anchors": ["src/leaf24.rs:link_sibling", "src/leaf24.rs:ikey_bound", "src/tree/generic.rs:advance_to_key_generic"]}
{"id": "C28", "title": "All locks are released", "statement": "After every insert (Ok or Err) with no concurrent activity no node of the tree is left locked.", "quantifier": "all histories", "why_tests_cant": "Lock leaks hide in rarely taken split paths.", "anchors": ["src/tree/split/propagation.rs", "src/tree/generic.rs:insert_concurrent_generic"]}
{"id": "C29", "title": "A lookup of a present key succeeds during layer creation", "statement": "While another thread inserts a key that shares the first 8 bytes with a present longer key (turning it into a sublayer), `get` of the present key still returns its value.", "quantifier": "all schedules of one reader and one writer", "why_tests_cant": "The window is a few instructions wide.", "anchors": ["src/tree/generic.rs:get_concurrent_generic", "src/tree/generic.rs:insert_concurrent_generic", "src/leaf24.rs:clear_ksuf"]}
{"id": "C30", "title": "Lookups are linearizable against plain inserts and updates", "statement": "Concurrent with writers that insert new keys into, or update keys of, the same leaf, a lookup returns the value the key had at some moment during the lookup.", "quantifier": "all schedules, any number of writers' critical sections, any number of readers", "why_tests_cant": "Unbounded interleavings.", "anchors": ["src/tree/generic.rs:get_concurrent_generic", "src/tree/generic.rs:insert_concurrent_generic", "src/nodeversion.rs:has_changed"]}
{"id": "C31", "title": "A lookup of a present key succeeds during leaf splits", "statement": "A key present throughout a lookup is found even when the leaf reached has already been split and is being split again.", "quantifier": "all schedules", "why_tests_cant": "Needs two splits overlapping one lookup at specific instructions.", "anchors": ["src/tree/generic.rs:get_concurrent_generic", "src/leaf24.rs:link_sibling"]}
{"id": "C32", "title": "Every stored value is released exactly once", "statement": "Each value handed to insert is dropped exactly once in total (on replacement, on conversion to a sublayer entry after cloning, or at tree drop), and never while the tree can still return it.", "quantifier": "all histories of inserts followed by dropping the tree", "why_tests_cant": "Double free / leak over unbounded histories.", "anchors": ["src/tree/generic.rs:insert_concurrent_generic", "src/slot.rs", "src/leaf24.rs:Drop", "src/tree.rs:Drop"]}
{"id": "C33", "title": "A retried insert stays in its sublayer", "statement": "When an insert into a sublayer has to restart, the key ends up in the sublayer selected by its leading bytes.", "quantifier": "all states, including chains of more than 128 leaves behind a stale parent", "why_tests_cant": "Needs 128 unlinked siblings.", "anchors": ["src/tree/generic.rs:insert_concurrent_generic", "src/tree/generic.rs:advance_to_key_by_bound_generic"]}
{"id": "C34", "title": "get_ref agrees with get", "statement": "`get_ref(k)` returns a reference to the same value as `get(k)` returns.", "quantifier": "all histories, all keys", "why_tests_cant": "Separate copy of the search loop.", "anchors": ["src/tree/generic.rs:get_ref_generic", "src/tree/generic.rs:get_concurrent_generic"]}
{"id": "C35", "title": "MassTreeIndex is the same map", "statement": "The copy-value wrapper returns for every operation the value (not the pointer) the underlying tree returns.", "quantifier": "all histories", "why_tests_cant": "Wrapper over all histories.", "anchors": ["src/tree/index.rs"]}
{"id": "C36", "title": "Concurrent splits do not lose a sibling", "statement": "When several threads link new right siblings into the leaf chain concurrently, every linked sibling stays reachable through the next pointers and the mark is always cleared.", "quantifier": "all schedules, any number of splitting threads", "why_tests_cant": "Unbounded interleavings.", "anchors": ["src/leaf24.rs:lock_next", "src/leaf24.rs:link_sibling", "src/link.rs"]}
{"id": "C37", "title": "A lock-free insert publishes at most one owner per slot", "statement": "In the (currently disabled) CAS insert protocol two threads never both publish the same physical slot, and a published slot holds the key and value of its claimant.", "quantifier": "all schedules, any number of threads", "why_tests_cant": "Unbounded interleavings.", "anchors": ["src/tree/generic.rs:try_cas_insert_generic", "src/leaf24/cas.rs"]}
{"id": "C38", "title": "Pointer marking is lossless", "statement": "Marking and unmarking a node address round-trips for every even address, and only marked addresses test as marked.", "quantifier": "all addresses", "why_tests_cant": "2^64 addresses.", "anchors": ["src/link.rs"]}
{"id": "C39", "title": "Node memory is released exactly once", "statement": "Every node registered with the allocator is freed exactly once, by retirement or at teardown, under any order of alloc, track and retire calls.", "quantifier": "all sequences of allocator calls", "why_tests_cant": "Unbounded sequences.", "anchors": ["src/alloc24.rs"]}
{"id": "C40", "title": "A frozen leaf rejects lock-free publishes", "statement": "While a splitting thread has frozen a leaf's permutation no compare-and-swap publish succeeds, and after unfreezing the permutation is the one the splitter installed.", "quantifier": "all schedules of a splitter and any number of CAS inserters", "why_tests_cant": "Unbounded interleavings.", "anchors": ["src/leaf24/freeze.rs", "src/leaf24/cas.rs", "src/freeze24.rs"]}
{"id": "C41", "title": "The single-threaded version type agrees with the concurrent one", "statement": "Running the same sequence of locked critical sections through the single-threaded version type and through the concurrent version type gives the same version word, so code may switch between them.", "quantifier": "all version words and all sequences of marks inside a critical section", "why_tests_cant": "2^32 words and unbounded sequences.", "anchors": ["src/nodeversion.rs:1005-1127"]}
{"id": "C42", "title": "Suffix memory of a leaf stays bounded by what it stores", "statement": "The memory a leaf spends on key suffixes stays within a constant factor of the suffixes it currently stores, however many keys have passed through it.", "quantifier": "all sequences of suffix stores and clears on a leaf", "why_tests_cant": "Unbounded histories; growth only shows after very many operations.", "anchors": ["src/leaf24.rs assign_ksuf/clear_ksuf/compact_ksuf", "src/suffix.rs assign/clear/compact"]}
{"id": "C43", "title": "A reference from get_ref stays valid as long as its guard", "statement": "A reference returned by `get_ref` under a guard of the same tree keeps showing the value it showed first, and that value is not released, whatever the program does before the guard is dropped: replacing the value, turning its entry into a sublayer, splitting its leaf, dropping other guards, running the collector.", "quantifier": "all programs of inserts, lookups, guards, handle drops and collector steps, before and after the reference is taken", "why_tests_cant": "A premature release is a use after free that a test only sees if the allocator reuses the cell at once; the programs are unbounded.", "anchors": ["src/tree/generic.rs:get_ref", "src/tree/generic.rs:insert_concurrent_generic", "src/slot.rs:cleanup_value_ptr"]}
{"id": "C44", "title": "The storage mode cannot be observed", "statement": "A program gets the same answers from the tree with reference-counted values and from the tree with boxed, copied values; when no two of its keys clash these are the answers of a finite map in which handles and references are plain values.", "quantifier": "all programs of inserts, lookups, guards, references, handle drops and collector steps", "why_tests_cant": "Equality of two implementations over unbounded programs.", "anchors": ["src/slot.rs", "src/leaf24.rs", "src/tree.rs"]}
{"id": "C45", "title": "A lookup never uses an internal pointer as a value", "statement": "Concurrent with any inserts, `get` never hands out, as a value, memory that is not a value (for instance a node of a sublayer), and never walks into a value as if it were a node.", "quantifier": "all schedules, any number of readers and writers, all keys", "why_tests_cant": "Needs a reader suspended between two loads while a writer rewrites the slot between them.", "anchors": ["src/tree/generic.rs:get_concurrent_generic", "src/tree/generic.rs:insert_concurrent_generic", "src/leaf24.rs:clear_ksuf"]}
{"id": "C46", "title": "Lookups and inserts of many threads are linearizable", "statement": "Any number of threads call `get` and `insert` on one tree. Each insert takes effect at one moment between its call and its return and reports the value that was bound at that moment; each lookup reports the value bound at some moment between its call and its return; when all is quiet the tree holds exactly the latest insert of each key and `len` is the number of distinct keys.", "quantifier": "all schedules of any number of threads over trees of any size and depth", "why_tests_cant": "The number of interleavings is unbounded; stale parents and nodes split several times behind a sleeping thread are practically never hit.", "anchors": ["src/tree/generic.rs:get_concurrent_generic", "src/tree/generic.rs:insert_concurrent_generic", "src/tree/generic.rs:reach_leaf_concurrent_generic"]}
{"id": "C47", "title": "A call left alone returns", "statement": "Whatever any number of threads have done to the tree, and wherever in their calls they have been suspended (outside the sections protected by a lock), a `get` or `insert` that is left to run alone returns after finitely many steps: stale positions, splits that happened behind it and exceeded hop limits cannot trap it.", "quantifier": "all schedules of any number of threads, all points of suspension, trees of any size and depth", "why_tests_cant": "A livelock after an unusual suspension is not found by tests, and its absence not shown by them.", "anchors": ["src/tree/generic.rs:get_concurrent_generic", "src/tree/generic.rs:insert_concurrent_generic", "src/tree/generic.rs:advance_to_key_by_bound_generic"]}
{"id": "C48", "title": "Lookups and inserts are right while a split updates the index above them", "statement": "While splits caused by other inserts are being entered into the inner nodes of the tree, a `get` called after the insert of its key has returned finds that key, and an insert puts its key where later lookups find it: each call takes effect at one moment between its call and its return.", "quantifier": "all schedules of any number of threads, trees of any height, every store of the update of an inner node a separate step", "why_tests_cant": "Needs a reader suspended inside the search of an inner node while a writer shifts exactly those entries.", "anchors": ["src/tree/generic.rs:reach_leaf_concurrent_generic", "src/internode.rs:insert_key_and_child", "src/nodeversion.rs:has_changed"]}
{"id": "C49", "title": "A split never fails half-way", "statement": "An `insert` that has to split a leaf completes: under any schedule it neither panics (missing parent, failed exchange of the root pointer, too many rounds) nor returns an error because the parent of a node could not be found.", "quantifier": "all schedules of any number of threads, trees of any height", "why_tests_cant": "The failing branches need parents that move between being read and being locked, repeatedly.", "anchors": ["src/tree/split/propagation.rs:propagation_loop", "src/tree/split/parent_locking.rs:validate_membership", "src/tree/split/root_creation.rs"]}
{"id": "C50", "title": "No deadlock", "statement": "Threads that insert and look up never wait for each other in a circle: whenever a call cannot proceed because a node is locked, some thread that holds locks can proceed, and it releases its locks after a bounded number of its own steps; no lock is ever left behind.", "quantifier": "all schedules of any number of threads, trees of any height", "why_tests_cant": "Deadlocks depend on rare orders of lock acquisition across levels; tests cannot exclude them.", "anchors": ["src/tree/split/propagation.rs:propagation_loop", "src/tree/generic.rs:handle_leaf_split_generic", "src/nodeversion.rs:lock"]}
{"id": "C51", "title": "The tree stays balanced under concurrent inserts", "statement": "However many threads insert at once, the number of nodes on the way from the root of a layer to a leaf stays logarithmic in the number of nodes of that layer, and every way down has the same length.", "quantifier": "all schedules of any number of threads, any number of inserts", "why_tests_cant": "A test measures the height after some schedules; imbalance would come from rare orders of splits and root changes.", "anchors": ["src/tree/split/propagation.rs:propagation_loop", "src/internode.rs:split_into", "src/tree/split/root_creation.rs"]}
{"id": "C52", "title": "Lookups and inserts stay right when memory is reordered", "statement": "On a machine that may reorder memory accesses as far as their release and acquire orderings allow: inserts into a leaf exclude each other and each starts from the result of the one before; a `get` answers what the leaf held after some point of that sequence which includes every insert that happens before the `get` (made by the same thread, seen by one of its earlier lookups, or made known to it by other synchronisation); and a thread's lookups never go back behind an earlier one. The answers are claimed as long as no insert meanwhile turns an entry into a sublayer (two keys that first differ after eight more bytes), otherwise for every `get` that finds something.", "quantifier": "all executions of any number of threads, all placements of stores in the modification orders and all stale reads that release/acquire allows", "why_tests_cant": "Tests run on one machine, mostly x86, whose memory shows few reorderings; and stale reads need rare timing.", "anchors": ["src/ordering.rs", "src/nodeversion.rs:lock", "src/nodeversion.rs:unlock", "src/tree/generic.rs:search_leaf_with_version", "src/leaf24.rs"]}
{"id": "C53", "title": "Long keys are read whole while others are stored", "statement": "A `get` or `insert` that compares the part of a stored key beyond its first eight bytes, while other threads insert other long keys into the same node, reads exactly the bytes that were stored for that key: nothing torn, nothing of another key, never out of bounds. The memory it reads is not released before it drops its guard, and all replaced memory is handed to reclamation exactly once.", "quantifier": "all interleavings of single memory accesses of any number of readers with the stores of any sequence of inserts into other slots, any byte strings, any capacities chosen by the allocator", "why_tests_cant": "The windows are single stores inside a copy of a few bytes; tests rarely hit them and cannot show that none is harmful.", "anchors": ["src/suffix.rs:get", "src/suffix.rs:try_assign_in_place", "src/suffix.rs:assign", "src/leaf24.rs:assign_ksuf", "src/leaf24.rs:clear_ksuf", "src/leaf24.rs:ksuf_equals"]}
{"id": "C54", "title": "No data race on the memory of long keys", "statement": "No thread reads memory that is not atomic while another thread may write it: a `get` of a long key and an `insert` of another long key never access the same plain memory at the same time; and whatever a reader of a slot meets, it never runs out of bounds.", "quantifier": "all interleavings of any number of readers with any sequence of stores, including stores in the slot that is read", "why_tests_cant": "A data race is undefined behaviour that mostly shows no symptom; race detectors see only the schedules that occur.", "anchors": ["src/suffix.rs:get", "src/suffix.rs:try_assign_in_place", "src/leaf24.rs:assign_ksuf"]}
{"id": "C55", "title": "The tree keeps one copy of the rest of a long key, as long as it needs it", "statement": "Of the bytes of a key beyond the chunk a node compares, the tree keeps one copy, in the node where the key is stored, and none when the key moves to another node or one level deeper: the number of such copies never exceeds `len()`. A copy is never written over while it is kept, so a concurrent `get` that compares it cannot meet another key's bytes in its place.", "quantifier": "all histories of inserts of any keys, by any number of threads, at every step", "why_tests_cant": "Left-over copies do not change any answer; a test sees memory grow only if it looks for it in the one history that leaks.", "anchors": ["src/leaf24.rs:split_into_preallocated", "src/leaf24.rs:clear_ksuf", "src/tree/generic.rs:assign_slot_generic", "src/tree/generic.rs:create_layer_concurrent_generic"]}
{"id": "C56", "title": "A lookup among splits answers with a value that was current during the call", "statement": "While other threads insert new keys, replace values, split the nodes a lookup walks over and turn values into sublayers, `get` answers either nothing or a value that was the key's latest value at some moment between its call and its return, or with the sublayer that had become responsible for the key by then: never another key's value, and never one that was replaced before the call began. Splits neither lose, duplicate nor alter entries: whenever no node is locked, the nodes hold exactly the latest value of every key inserted. An insert returns the value its key had just before, and `None` if and only if the key had none.", "quantifier": "all schedules of any number of lookups, inserts, updates, splits and conversions, every load and store a step", "why_tests_cant": "A stale or foreign value needs a reader stopped between two loads of one leaf while it is updated, split and filled again; the number of such schedules is unbounded.", "anchors": ["src/tree/generic.rs:get_concurrent_generic", "src/tree/generic.rs:advance_to_key_generic", "src/tree/generic.rs:handle_leaf_split", "src/leaf24.rs:split_into_preallocated", "src/leaf24.rs:link_sibling", "src/tree/generic.rs:insert_concurrent_generic"]}
{"id": "C57", "title": "Lookups and inserts are right in the whole trie, at every granularity", "statement": "For keys of any length, sharing prefixes of any length: while other threads insert, replace values, split nodes and grow the tree deeper under a lookup, a `get` that finds a value returns one that was its key's latest value at some moment between call and return, and a `get` that finds nothing was right at some moment, too (except in the situations of C29, C31 and C45). An `insert` returns exactly the value its key had just before, and `None` if and only if the key was not in the tree, also when it has to build new levels below an existing key. Whenever no node is locked, going down through the nodes finds for every key exactly the latest value inserted.", "quantifier": "all keys, all numbers of levels and all schedules of any number of lookups, inserts, updates, splits and constructions of new levels, every load and store a step", "why_tests_cant": "The cases depend on where two keys differ, on how many levels an insert has to add, and on which of the stores of another thread's insert a lookup falls between at each level; both keys and schedules are unbounded.", "anchors": ["src/tree/generic.rs:get_concurrent_generic", "src/tree/generic.rs:insert_concurrent_generic", "src/tree/generic.rs:create_layer_concurrent_generic", "src/tree/generic.rs:assign_final_layer_entries", "src/key.rs:shift"]}
{"id": "C58", "title": "The whole tree, inner nodes included, behaves like one map", "statement": "In the complete tree, with inner nodes above the leaves of every level, under any interleaving: a `get` that starts at the root of the tree, goes down through the inner nodes and the levels and finds a value returns one that was its key's latest value at some moment of the call; a `get` that finds nothing was right at some moment, too (except in the situations of C29, C31 and C45). An `insert` puts its key only into a leaf that is responsible for it and returns exactly the previous value. Whenever no leaf is locked, the leaves hold exactly the latest values. This is for executions in which no descent has accepted what it read from an inner node that another thread was changing (the defect of C48) and no split has failed (C49); if `has_changed` looked at the lock bit, the first condition would always hold.", "quantifier": "all keys, all sizes and heights of the tree and of its levels, and all schedules of any number of lookups, inserts, updates, splits of leaves and of inner nodes, new roots and constructions of new levels, every load and store of leaves and of inner nodes a step", "why_tests_cant": "Descents, the leaves they lead to and the propagation of splits interact: a lookup may be sent to a leaf by an inner node that is being changed while that leaf is being split. The number of such interleavings is unbounded.", "anchors": ["src/tree/generic.rs:reach_leaf_concurrent_generic", "src/tree/generic.rs:get_concurrent_generic", "src/tree/generic.rs:insert_concurrent_generic", "src/tree/generic.rs:advance_to_key_by_bound_generic", "src/tree/split/propagation.rs"]}
{"id": "C59", "title": "Every call of get and insert takes effect at one moment between its call and its answer", "statement": "For any number of threads that call `get` and `insert`, each one call after the other: every `insert(k, v)` that returns has changed the map exactly once, at a moment between its call and its return, by giving `k` the value `v` and changing no other key, and it returns exactly what `k` had just before (`None` iff `k` was absent). An insert that has not returned has changed the map at most once. Nothing else changes the map. Every `get(k)` returns what the map held for `k` at some moment between call and return. So a thread that calls `get(k)` after an `insert(k, v)` has returned reads `v` unless somebody inserts `k` again. (The answer `None` of a `get` is excepted in the situations of C29, C31 and C45, and all of this in executions with the defects of C25, C33, C48 and C49.)", "quantifier": "all numbers of threads, all sequences of calls, all keys and values, and all interleavings of their loads and stores", "why_tests_cant": "An insert may meet an update, a new slot, a split with its propagation and a retry, or new levels, in any order and several of them in one call; that it stores exactly once in every one of these courses and interleavings is a statement about unboundedly many executions.", "anchors": ["src/tree/generic.rs:get_concurrent_generic", "src/tree/generic.rs:insert_concurrent_generic", "src/tree/generic.rs:search_for_insert_generic", "src/tree/generic.rs:assign_slot_generic", "src/tree/generic.rs:handle_leaf_split_generic", "src/tree/generic.rs:create_layer_concurrent_generic"]}
{"id": "C60", "title": "len counts the keys under concurrency", "statement": "Whenever no call of `insert` is under way, `len()` is exactly the number of distinct keys in the map, whatever the threads have inserted and replaced before and in which interleaving. While inserts are under way, `len()` is never more than the number of keys, and it lacks at most one key for every insert under way, namely one whose key is in the map already.", "quantifier": "all numbers of threads, all sequences of calls, all keys and values, and all interleavings of their loads and stores", "why_tests_cant": "The counter is incremented after the lock is dropped, on three different paths; a test would have to stop every thread between its store and the increment, for every mixture of new keys, replaced values, splits and new levels.", "anchors": ["src/tree/generic.rs:len", "src/tree/generic.rs:insert_concurrent_generic", "src/tree/generic.rs:create_layer_concurrent_generic"]}
{"id": "C61", "title": "Calls do not fail under concurrency", "statement": "Whatever other threads do, `insert` of any legal key does not fail: it never meets an entry that is neither a value nor a sublayer where it expects one, and it never has to split a node that it cannot split. `get` never uses a sublayer as a value or a value as a sublayer. (Excepted are the panic of C49, executions with the defects of C25, C33 and C48, and the empty key in the situation of C45.)", "quantifier": "all numbers of threads, all sequences of calls, all keys and values, and all interleavings of their loads and stores", "why_tests_cant": "The failing branches are taken only if another thread leaves an entry in a state that does not fit its length byte, or a node fills up with keys that all share their chunk; a test that never takes them says nothing about the interleavings it has not met.", "anchors": ["src/tree/generic.rs:insert_concurrent_generic", "src/tree/generic.rs:handle_leaf_split_generic", "src/leaf24.rs:calculate_split_point", "src/tree/generic.rs:get_concurrent_generic"]}
{"id": "C62", "title": "The borders between nodes never move", "statement": "When a node of the tree is split, the new node gets a border: keys from there on belong to it. Whatever is inserted later, by however many threads, the border that other threads read from the node stays the one it was created with, although it is read from a slot that entries are stored in; at every moment every key in the node is at or above its border, and every key in a node with a smaller border, or in the leftmost node, is below it. So a thread that walks to the right never passes the node of its key. (Excepted are executions with the defects of C25, C33, C48 and C49.)", "quantifier": "all numbers of threads, all sequences of calls, all keys and values, and all interleavings of their loads and stores", "why_tests_cant": "The border shares its memory with an entry; it goes wrong only if a slot that has become free is given to another key, which depends on the whole history of inserts and splits of the node.", "anchors": ["src/leaf24.rs:ikey_bound", "src/leaf24.rs:can_reuse_slot0", "src/tree/generic.rs:insert_concurrent_generic", "src/tree/generic.rs:advance_to_key_generic"]}
{"id": "C63", "title": "An insert that has returned is visible to every later get", "statement": "If `insert(k, v)` has returned, then every `get(k)` that is called afterwards answers `v`, as long as nobody inserts `k` again. What has been inserted does not disappear for good when other threads insert other keys at the same time.", "quantifier": "all numbers of threads, all sequences of calls from the empty tree on, all keys and values, and all interleavings of their loads and stores", "why_tests_cant": "It fails only if the lookup stops at a certain load while another thread makes a layer, splits a leaf for the second time or shifts the entries of an inner node, with hundreds of steps before it that build up the tree.", "anchors": ["src/tree/generic.rs:get_concurrent_generic", "src/tree/generic.rs:insert_concurrent_generic", "src/tree/generic.rs:reach_leaf_concurrent_generic", "src/tree/generic.rs:create_layer_concurrent_generic", "src/nodeversion.rs:has_changed"]}
{"id": "C64", "title": "No call leaves a lock behind, and lookups take none", "statement": "Whenever no `insert` is under way, nothing in the tree is locked: however many inserts have run concurrently before, whichever way each of them went (replaced a value, took a free slot, made new levels, split a node, gave up a node because it had been split meanwhile, or started again), every lock it took has been released and every mark it set has been cleared. While inserts are under way, at most two leaves are locked for each of them. A `get` writes nothing to the tree. (Excepted are executions with the defects of C25, C33, C48 and C49.)", "quantifier": "all numbers of threads, all sequences of calls, all keys and values, and all interleavings of their loads and stores", "why_tests_cant": "A lock that is left behind on a rare way out makes a later call hang, perhaps much later and on another key; a test would have to take every way out in every interleaving and then look at every node.", "anchors": ["src/tree/generic.rs:insert_concurrent_generic", "src/tree/generic.rs:handle_leaf_split_generic", "src/tree/generic.rs:propagate_split_generic", "src/nodeversion.rs:LockGuard::drop", "src/tree/generic.rs:get_concurrent_generic"]}
{"id": "C65", "title": "A lookup that overlaps no insert, and calls made in turn, see exactly the last insert", "statement": "However many inserts and lookups have run concurrently before, a `get` during which no `insert` is under way answers the value of an insert of its key that had returned before the `get` was called and after which no other insert of the key was called and returned; it answers `None` only if no insert of its key had returned. If calls never overlap, though many threads make them, the tree is an ordinary map: every `get` answers the value of the last insert of its key, and every `insert` returns the value its key had before and changes nothing else. (Excepted are executions with the defects of C25, C33 and C49, and, for calls that overlapped before, C48.)", "quantifier": "all numbers of threads, all sequences of calls, all keys and values, and all interleavings of the loads and stores of the calls made before", "why_tests_cant": "What a lookup meets is what any number of concurrent inserts before it have left behind: half-linked nodes, marks, stale index entries; tests see the leftovers of a few schedules only.", "anchors": ["src/tree/generic.rs:get_concurrent_generic", "src/tree/generic.rs:insert_concurrent_generic"]}
{"id": "C66", "title": "Concurrent inserts never wait for each other in a circle", "statement": "At any time at which calls of `insert` are under way, at least one of them can take its next step at once: it does not wait for a lock, a mark or anything else that another call would have to release first. So no interleaving brings all inserts to a standstill, whatever nodes, levels and splits they are in, and an `insert` that is the only one under way never waits, whatever lookups run beside it. (Excepted are executions with the defects of C25, C33, C48 and C49 before that time.)", "quantifier": "all numbers of threads, all sequences of calls, all keys and values, and all interleavings of their loads and stores", "why_tests_cant": "A deadlock needs several threads that each hold a lock another one wants; with locks on leaves, on internodes up to the root and on marks that are waited for, the number of such constellations is unbounded, and a stress test that does not hang shows only that its schedules did not meet one.", "anchors": ["src/tree/generic.rs:insert_concurrent_generic", "src/tree/generic.rs:handle_leaf_split_generic", "src/tree/generic.rs:advance_to_key_by_bound_generic", "src/tree/split/propagation.rs", "src/nodeversion.rs:lock"]}
{"id": "C67", "title": "An insert fails only if 42 nodes are added while it runs, and never if calls do not overlap", "statement": "An `insert` that has to split nodes does not fail (panic, or return an error) unless other threads, while it runs, make at least 42 new leaves or internodes; so no `insert` ever fails in an execution in which calls do not overlap, and there every lookup and every returned old value are those of an ordinary map. This holds in every layer of the tree as long as no layer has 2^63 nodes, which takes as many steps. (Excepted are executions with the defects of C25, C33 and, if calls overlap, C48.)", "quantifier": "all numbers of threads, all sequences of calls, all keys and values, trees of any height, and all interleavings of their loads and stores", "why_tests_cant": "The bound on the rounds of the propagation loop is met only by schedules in which the parent of one node moves dozens of times during one insert; a test cannot tell a bound that is never reached from one that its schedules did not reach.", "anchors": ["src/tree/split/propagation.rs:propagation_loop", "src/tree/split/parent_locking.rs", "src/tree/split/root_creation.rs", "src/tree/generic.rs:handle_leaf_split_generic", "src/tree/generic.rs:insert_concurrent_generic"]}
{"id": "C68", "title": "A lookup that overlaps no insert returns after a bounded number of its own steps", "statement": "For every state of the tree and every key there is a number K such that a `get` of that key, called in that state, returns after fewer than K steps of its own if no `insert` is under way while it runs, whatever number of other lookups run beside it and however they are interleaved with it. So such a `get` never loops: it does not descend for ever, does not go round in the chain of leaves, does not start over again and again, and does not wait for a lock or a mark that an earlier insert has left behind. (Excepted are trees that have come about with the defects of C25, C33, C48 and C49.)", "quantifier": "all trees that any concurrent inserts and lookups can leave behind, all keys of any length, all numbers of layers, levels and leaves, all numbers of other lookups and all interleavings", "why_tests_cant": "A lookup has retry loops in the internodes, in the leaf and along the chain of leaves, and one more level for every eight bytes of the key; that none of them can be entered for ever depends on what all inserts before have left behind, which tests sample only.", "anchors": ["src/tree/generic.rs:get_concurrent_generic", "src/tree/generic.rs:reach_leaf_concurrent_generic", "src/tree/generic.rs:advance_to_key_generic"]}
{"id": "C69", "title": "An insert that is the only one under way returns", "statement": "An `insert` whose thread goes on taking steps returns if no other `insert` is under way while it runs, whatever lookups run beside it: it does not descend for ever, does not go round in the chain of leaves, does not split leaves again and again without coming to a leaf with room for its key, does not make layers for ever, and does not go up in the index for ever. In particular every `insert` returns if calls do not overlap. (Excepted are executions with the defects of C25, C33, C48 and C49.)", "quantifier": "all trees that any concurrent inserts and lookups can leave behind, all keys of any length and all values, all numbers of layers, levels and leaves, all numbers of lookups beside it and all interleavings", "why_tests_cant": "After a split the insert starts again at the top of the layer, and after a version that has changed it starts again as well: that each way round the loop brings it nearer to its end depends on what all inserts before have left behind and on the keys in the full leaf, which tests sample only, and a test cannot tell a long loop from an endless one.", "anchors": ["src/tree/generic.rs:insert_concurrent_generic", "src/tree/generic.rs:handle_leaf_split_generic", "src/tree/generic.rs:advance_to_key_by_bound_generic", "src/tree/split/propagation.rs:propagation_loop"]}
{"id": "C70", "title": "Every inserted value is handed back by at most one insert, and none is lost", "statement": "Whenever no `insert` of a key is under way, the inserts of that key that have returned, from whatever threads, form one chain in an order that agrees with real time (a call that had returned before another was made comes first): the first has answered `None`, each later one has answered exactly what the one before it put in, and a `get` that overlaps no insert answers what the last one put in. So exactly one insert of a key answers `None`, no value is handed back twice, and every value put in is either handed back or still in the tree. (Excepted are executions with the defects of C25, C33, C48 and C49.)", "quantifier": "all keys, all values, all numbers of threads and of concurrent inserts and lookups of this and other keys, all interleavings, all splits and new layers that happen meanwhile", "why_tests_cant": "Two inserts of one key that race may both answer the same old value or both answer `None`, or the value of one may vanish, in a window of a few instructions; a stress test samples interleavings and can at most see that a count is wrong.", "anchors": ["src/tree/generic.rs:insert_concurrent_generic", "src/tree/generic.rs:insert_with_guard", "src/tree/generic.rs:get_concurrent_generic"]}
{"id": "C71", "title": "Once the inserts are over, every lookup under way returns", "statement": "A `get` that is under way when the last `insert` returns, whatever inserts have done since it was called, returns if its thread goes on taking steps: it may have been anywhere, in the search of a leaf or an internode that has been split since, on its way along the chain of leaves, or waiting for a lock, and still it does not go on for ever, and it does not fail. (Excepted are executions with the defects of C25, C33, C48 and C49, calls during which a leaf is changed 2^19 times, C19, and lookups of the empty key during which a value is on its way into a new layer.)", "quantifier": "all keys, all numbers of concurrent inserts and lookups before, all trees, all positions at which the lookup can be when the inserts end, and all interleavings", "why_tests_cant": "A lookup holds versions, slots and pointers it has read at different times; that none of these combinations sends it round a retry loop for ever once the tree has come to rest concerns every position of every loop at every moment, and a test that hangs cannot be told from one that is slow.", "anchors": ["src/tree/generic.rs:get_concurrent_generic", "src/tree/generic.rs:reach_leaf_concurrent_generic", "src/tree/generic.rs:advance_to_key_generic"]}
{"id": "C72", "title": "Once no more inserts are called, every insert and every lookup under way returns", "statement": "If from some moment on no further `insert` is called, and every thread with an `insert` under way goes on (it gets another step again and again, and one that does something unless it waits for a lock at that moment), then all of these inserts return, however many there are: none waits for a lock for ever, none is sent back to the root for ever, and none finds for ever that the leaf of its key has moved. Every `get` that is under way returns too if its thread goes on. (Excepted are executions with the defects of C25, C33, C48 and C49, and for lookups the cases excepted in C71.)", "quantifier": "all keys and values, all numbers of inserts and lookups under way, all trees, all positions of all threads when the last insert is called, all fair interleavings, which need not serve waiting threads in any order", "why_tests_cant": "That no schedule lets threads hold each other up for ever (neither by locks held in a circle, nor by repeated retries, nor by one overtaking the other at the same lock again and again) concerns infinitely long executions and every position of every thread in six nested loops; a test sees a few finite schedules, and one that hangs cannot be told from one that is slow.", "anchors": ["src/tree/generic.rs:insert_concurrent_generic", "src/tree/generic.rs:handle_leaf_split_generic", "src/tree/generic.rs:advance_to_key_by_bound_generic", "src/tree/split/propagation.rs:propagation_loop", "src/nodeversion.rs:lock"]}
{"id": "C73", "title": "The calls of all threads are linearizable", "statement": "For every execution there is one sequence of the calls, `get` and `insert`, of all threads that an ordinary map, used by one thread, answers in exactly the same way, and in which no call comes before another one that had returned when it was made; an `insert` that has not returned is in the sequence only if it has taken effect. In particular a lookup made after an insert of its key has returned finds the value of that insert or of one that overlaps or follows it, and no lookup returns a value that nobody has inserted. (The code violates this: a lookup can miss a key that was inserted before, see C25, C29, C31 and C48. With the exception of lookups that find nothing in the cases of C29 and C31, of calls during which a leaf is changed 2^19 times, C19, and of executions with the defects of C25, C33, C48 and C49, it holds.)", "quantifier": "all keys and values, all numbers of threads and calls, all trees that they build, all interleavings, at every moment of the execution", "why_tests_cant": "A test that records a history can only check that this one history is linearizable, which is itself a search over all orders; the claim is about all histories of any length and number of threads, and the violations need two particular steps of another thread within a few instructions.", "anchors": ["src/tree/generic.rs:get_concurrent_generic", "src/tree/generic.rs:insert_concurrent_generic"]}
{"id": "C74", "title": "The tree as a whole makes progress, however many inserts are called", "statement": "As long as an `insert` is under way, some `insert` returns later: threads may go on calling inserts for ever, wait for each other's locks, throw each other back to the root and split each other's leaves, but never so that from some moment on none returns any more. Likewise, while a `get` is under way, either it returns or inserts go on returning. Every thread with an insert under way is assumed to go on as in C72; no order of waiting threads is assumed. (Excepted are executions with the defects of C25, C33, C48 and C49, and for lookups the cases excepted in C71.)", "quantifier": "all keys and values, all finite numbers of threads, all unending sequences of calls, all trees, all fair interleavings", "why_tests_cant": "Livelock is a property of infinite executions: that threads do not for ever undo each other's work concerns all infinite schedules of all numbers of threads, while a test sees finitely many steps of a few and cannot tell slow from stuck.", "anchors": ["src/tree/generic.rs:insert_concurrent_generic", "src/tree/generic.rs:get_concurrent_generic", "src/tree/split/propagation.rs:propagation_loop", "src/nodeversion.rs:lock"]}
{"id": "C75", "title": "Values shared by threads are never used after they are released, and are released exactly once", "statement": "With any number of threads calling `get`, `get_ref` and `insert` at the same time: a reference returned by `get_ref` keeps showing the same value until its guard is dropped; `get` never takes a handle of a value that is gone; no value is released twice; a value is released as soon as the tree, the collector and the callers have given up all their handles of it, and not before; once no guard is active the collector can release everything that has been replaced; dropping the tree releases what is left. The guards passed to the calls are those of the tree (see C76).", "quantifier": "all numbers of threads, guards, handles and values, all interleavings of single loads, stores and changes of a count, all moments at which the collector runs", "why_tests_cant": "A use after free needs a reader between its load and its use while another thread replaces the value and a third runs the collector; it shows only if the memory is reused at that moment. That a value is never leaked or freed twice concerns all interleavings.", "anchors": ["src/tree/generic.rs:get_ref_generic", "src/tree/generic.rs:get_concurrent_generic", "src/tree/generic.rs:insert_concurrent_generic", "src/leaf24.rs:split_into_preallocated", "src/slot.rs:cleanup_value_ptr", "src/tree.rs:drop"]}
{"id": "C76", "title": "No guard that safe code can pass makes a reference dangle", "statement": "`get_ref`, `get_with_guard` and `insert_with_guard` are safe functions, so whatever guard is passed to them, one of this tree or of another, no reference or handle they return is ever to a value that has been released. (The code violates this: the guard's collector is not compared with the tree's. A reference taken under a guard of another tree dangles when its value is replaced or the tree is dropped; a value replaced under a guard of another tree is released while a reader with a guard of this tree is using it. It holds up to the first call with a guard of another tree.)", "quantifier": "all numbers of threads, guards, handles and values, all interleavings", "why_tests_cant": "Soundness of a safe function is about all programs that compile; tests use the guards of the tree under test, and a dangling reference usually still shows the old value.", "anchors": ["src/tree/generic.rs:get_ref", "src/tree/generic.rs:get_with_guard", "src/tree/generic.rs:insert_with_guard", "src/tree/generic.rs:guard"]}
{"id": "C77", "title": "A panic of an insert does no lasting harm", "statement": "When an insert panics, the tree stays usable for other threads: the panicking call holds no lock afterwards, nothing that was stored has changed, lookups called later return and find what was stored, keys that are stored can be given new values, and inserts called later, with nothing running beside them, do not panic. (The code violates the last part: after an insert has panicked because its split used up 64 rounds, the leaf it created is never entered in the index. Further inserts of keys in its range fill it, and the one that has to split it panics, although it runs alone. The other parts hold for the first panic.)", "quantifier": "all executions of one layer, any number of threads and keys, any interleaving", "why_tests_cant": "The first panic needs a schedule in which other threads split the parent again and again while a split is moving up, and the harm shows only in later calls.", "anchors": ["src/tree/split/propagation.rs:propagation_loop", "src/tree/split/propagation.rs:unlock_right_for_split", "src/tree/generic.rs:insert"]}
