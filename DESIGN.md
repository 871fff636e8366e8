# Formal model of consistent-milk12/masstree in Lean 4

## Layout

* `lean/Verif/Model/*`: total, computable definitions. Each cites the Rust lines it models and says where it
  simplifies them.
* `lean/Verif/Spec/*`: the small specifications used in property statements. They do not use the model's search,
  split or insert functions.
* `lean/Verif/Proof/*`: lemmas and invariants.
* `lean/Verif/Prop/*`: the property theorems (`Cxx_...`) and, beside each, a concrete non-trivial case that meets its
  hypotheses. `_partial` marks a theorem that proves less than the property; its comment says what is missing.
* `seeded/LOG.jsonl`: wrong versions of the model, and which theorems noticed.

## What is modelled

| model | source in /repo/src | contents |
|---|---|---|
| `Permuter`, `Freeze24` | permuter24.rs, permuter.rs, freeze24.rs | bit level: u128 / u64 permutation words, freeze words |
| `NodeVersion` | nodeversion.rs | bit level: version word, guards |
| `Link` | link.rs | bit level: mark bit on an address |
| `Key` | key.rs | key slices, shift, unshift, comparison |
| `Suffix` | suffix.rs | `SuffixBag`: slot table and byte buffer |
| `KSearch`, `Simd` | ksearch.rs, ksearch/simd.rs, ksearch/simd_search.rs | scalar and vector searches, lanes as lists |
| `Internode` | internode.rs | keys and children as arrays, insert, split, width a parameter |
| `Alloc` | alloc_trait.rs, alloc24.rs | node ownership, retire, teardown |
| `Tree` | tree/generic.rs, tree/split.rs, tree/split/*, leaf24.rs, leaf24/freeze.rs | heap of nodes with parent, next, prev and child pointers; `get` and `insert` function by function |
| `Store` | slot.rs, value.rs, tree.rs, tree/index.rs, leaf24.rs (`Drop`, `try_clone_output`) | values behind the tree: `Arc` / `Box` cells, guards, retirement, public API |
| `ValueRace` | tree/generic.rs 443-776, 1509-1900, leaf24.rs 619-654, 1312, 1390, 1548-1661, slot.rs, tree.rs 227-247 | pointers to values shared by threads: every load, store and change of a count a step; guards, the collector, `Arc`s outside the tree. What the threads decide is left open |
| `LockMachine` | nodeversion.rs | threads taking the lock of a node |
| `LeafRace` | tree/generic.rs 661-828, 1663-1860 | readers and one writer at a time on one leaf, every load and store a step |
| `WeakLeaf` | ordering.rs, nodeversion.rs, tree/generic.rs 661-828, 1663-1860 | the threads of `LeafRace` on release/acquire memory: timestamps, views, stale reads |
| `BagRace` | suffix.rs, leaf24.rs 352-500 | the suffix bag of one leaf: every access to its bytes, metadata and length a step, readers with guards, bags retired and released |
| `CasRace` | tree/generic.rs 935-1255, leaf24/cas.rs, leaf24/freeze.rs | lock-free inserts, freezing splits and locked inserts on one leaf |
| `LinkRace` | leaf24.rs 849-886, 1432-1490 | threads linking new leaves |
| `ChainRace` | tree/generic.rs 661-828, 1363-1416, 1667-1858, 1966-2070, leaf24.rs | lookups, inserts, splits and conversions of values into sublayers on the chain of leaves of one layer, every load and store a step |
| `Forest` | tree/generic.rs 661-828, 1804-1858, 2187-2387 | the whole trie: every layer is a `ChainRace`, inserts make chains of new layers, lookups go from layer to layer; every load and store a step |
| `Whole` | tree/generic.rs 661-926, 1363-1874, 1966-2070, tree/split/*, internode.rs, ksearch.rs | `Forest` with the internodes of `IndexRace` in every layer: descents and split propagation load by load and store by store above leaves that are read and written load by load and store by store |
| `Ops` | tree/generic.rs 443-480, 655-828, 1509-1914, 1985-2070, tree/split/*, key.rs, ksearch.rs | whole calls of `get` and `insert` by any number of threads, from call to answer, with what the code decides in between, on top of `Whole`, and the counter behind `len` |
| `OpsAll` | tree/generic.rs 1456-1476, 1588-1591, leaf24.rs 1246-1283 | `Ops` with the two wrong turns of findings 1 and 5 |
| `TreeRace` | tree/generic.rs 443-926, 1363-1874 | any number of threads on one whole tree; a visit to a node and a critical section are one step |
| `IndexRace` | tree/generic.rs 832-926, tree/split/*, internode.rs, ksearch.rs | any number of threads on one layer with its internodes: descents load by load, `insert_key_and_child` store by store, split propagation lock by lock |

In the sequential tree, panics, `Err` results, taking a lock twice, dereferencing null or a node of the wrong kind, and
reading a sublayer pointer as a value are explicit error values, so their absence is a theorem. Loops carry fuel
derived from the key length and the number of nodes; running out is an error value too, and C09 proves that it does not
happen.

Not modelled: tracing_helpers.rs, tree/optimistic.rs (debug counters only), tree/test_hooks.rs, prefetch.rs, main.rs,
bin/*, leaf_trait.rs (trait declarations), the `Debug` and `Display` implementations,
and back-off and wait loops beyond the fact that they only delay.

## Bounds

No theorem bounds sizes, depths or the number of steps by a small number. Theorems about histories assume fewer than
2^64 inserts, and theorems about executions at most 2^128 steps, because counters and the addresses of the model are
finite words in the code. C19, C29, C45, C56, C57, C58, C59 and C61 assume fewer than 2^19 critical sections on one leaf during one lookup, as
the version counters wrap (C19 proves that this bound is sharp). C22 assumes less than 4 GiB of suffix bytes (sharp,
too). Keys are at most 256 bytes; longer ones panic (C10).

## Plan per property

| id | model | method |
|----|-------|--------|
| C01 C02 C03 C05 C06 | `Tree` | False for the code (findings 1, 2): concrete histories evaluated in the kernel. `_partial`: exact for all histories without clashing keys, by C04, and for any keys until a split separates equal chunks (`Apart`, `Proof/TreeNeat.lean`); for all histories a value answered was inserted for that very key. |
| C04 | `Tree` | heap invariant with ghost key prefix and range per node; `get` characterised by the live entries; preservation by each critical section; induction over histories |
| C07 C08 C09 C27 C28 | `Tree` | consequences of the heap invariant, for all histories |
| C10 | `Key`, `Tree` | case analysis on the length |
| C11 C12 C13 | `Key` | induction on byte lists, positional arithmetic |
| C14 C15 C16 | `Permuter` | bitvector extensionality per field; refinement to lists of slots; induction over operations |
| C17 | `Freeze24` | bitvector extensionality |
| C18 | `LockMachine` | inductive invariant, any number of threads |
| C19 C20 C21 C41 | `NodeVersion` | arithmetic on the counters; wrap-around witness |
| C22 C42 | `Suffix` | region disjointness, induction over operations; C42 is false (finding 8), growth bounded |
| C23 | `KSearch` | loop invariants |
| C24 | `Simd` | lanes as lists; `count_le` false (finding 7) |
| C25 | `Tree` | loop invariant of the split point; equal-chunk clause false (finding 1) |
| C26 | `Internode` | list insertion lemmas |
| C29 C45 | `LeafRace` | false (finding 3): schedules; `_partial`: what is found is right, for all schedules |
| C30 | `LeafRace` | ghost history; every lookup has a linearization point; all schedules |
| C31 | `ChainRace` | false (finding 4): schedule; `_partial`: invariant on where a key can be, for all schedules |
| C32 C34 C35 C43 C44 | `Store` | reference counts equal owners, simulation by the tree of plain values |
| C33 | `TreeRace` | false (finding 5): execution of the real tree with 3073 keys; `_partial`: found under what is left of the key |
| C36 | `LinkRace` | inductive invariant, any number of threads |
| C37 C40 | `CasRace` | ownership of slots and of the frozen word, any number of threads |
| C38 | `Link` | bitvector arithmetic |
| C39 | `Alloc` | multiset invariant |
| C46 | `TreeRace` | every critical section preserves the heap invariant of `Tree` and keeps all threads' positions valid; linearization points; all schedules. False in general: one-thread execution with finding 1 (`TreeLoss`) |
| C47 | `TreeRace` | measure on a thread running alone in any reachable state |
| C48 | `IndexRace` | False for the code (finding 9): schedules evaluated in the kernel. `_partial`: invariants on the order of keys (`IndexOrder*`) in executions in which no descent passes validation at a locked node; then each call takes effect at one moment. With a `has_changed` that looks at the lock this covers every execution |
| C49 C50 C51 | `IndexRace` | inductive invariants on pointers, heights and locks, any number of threads; locks are taken upwards; measure on a locked section; a lost round is charged to a node that another thread created (`IndexRounds`); half-full internodes give the height (`IndexHeight`); a schedule of two threads that uses up 64 rounds, by induction (`IndexLimit` to `IndexLimit5`) |
| C52 | `WeakLeaf` | invariant: all stores to a leaf form one sequence, and a view is a prefix of it; each lookup is embedded in an execution of `LeafRace` (`WeakLeafEmb`), then C30 and C29 apply |
| C53 | `BagRace` | the rest of a call is proved good at every access (`Good`); what a reader has in hand is what the slot holds |
| C54 | `BagRace` | refuted by a schedule; for other slots the invariant of C53 leaves only the vector's length; no panic by an invariant on offset and length read at different times |
| C55 | `Tree`, `TreeRace` | an invariant of every leaf, kept by each critical section: a suffix is stored for exactly the listed entries with length code 64; the number of suffixes is summed over all leaves |
| C56 | `ChainRace` | refinement: an ideal map that only publishing a slot, replacing a value and finishing a conversion change (`contents`, Spec/Chain.lean); invariant `MapOk` says where each key of the map is, also in the middle of a split or a conversion (in transit: `ChainConv`, `ChainTidy`); a validated read is placed at one moment by the version counters (`ChainWord`, `ChainValue`). Answers "absent" up to findings 3 and 4 |
| C57 | `Forest` | each layer projects to an execution of `ChainRace` (`ForestProj`), so C56 applies to it; invariant `Inv` (`ForestMap`): every layer in use says about the keys below it what one ideal map of whole keys says or leads to the layer whose prefix is eight bytes longer; layers under construction say what the map will say after the last store of the conversion; the byte-string meaning of the leaves that `create_layer_concurrent_generic` builds is `leaves_spec` (`ForestLeaf`) |
| C58 | `Whole` | the machine does not check where a descent arrives or into which leaf an insert stores; invariant `LOk` (`WholeLay`) ties the index of `IndexRace` (its invariant `Full`) to the chain of `ChainRace` (its `Inv`): the leaves of the index are the leaves of the chain, with the same bounds and the same order, and nobody is to the right of its key. Hence every step does to the leaves what `Forest` does (`Exec.forest`), and C57 applies |
| C59 | `Ops` | every thread runs the code of `get` and `insert` from call to answer on the machine `Whole`, which it does not change; `Exec.whole`: what happens in the tree is an execution of `Whole`, so C58 applies; invariant `PhOk` (`OpsInv`): where a thread is in its call fits what it has locked, what it has stored so far and what the map holds; `Open.insert` (`OpsHist`) and `Call.lookup` (`OpsGet`) follow a call from its start |
| C60 | `Ops` | False for the code (finding 9). `_partial`: invariant `Tally` (`OpsCount`): the number of keys is the counter plus the number of inserts that have stored a new key and not yet counted it |
| C61 | `Ops` | `PutOk` has no failed state: the search and the invariant `Tidy` of the leaf agree on what a slot holds; at most ten keys of a leaf share a slice (`group_le`), so a leaf of 22 keys has a split point (`calc_some`); for `get`, `Miss` and C57 |
| C62 | `Ops` | invariant `Bound` (`ChainBound`): slot 0 of every leaf but the first has the bound of the leaf; a split copies the entry at the split point to slot 0, and a store to slot 0 leaves its slice (`Keeps0`), which follows from `can_reuse_slot0` (`OpsBound`). So the field `lo` of the model is what `ikey_bound` reads |
| C63 | `Ops` | False for the code (findings 3, 4, 9): executions of calls from the empty tree on, evaluated in the kernel in one pass (`walk`). `_partial`: from C59. For finding 1 one thread is enough (`C63_lost_by_split`). The theorems `.._all` of C59 to C63 are about executions of `OpsAll`, up to the first wrong turn (`Regular`), by agreement with an execution of `Ops` |
| C64 | `Ops` | Invariant `Locks`: every leaf that is held is one that exactly one thread has to unlock (`keeps`, read off its phase), and every index node of a leaf that is locked belongs to a thread that propagates a split. Each step of a call is a `Moves`, by phases. Version words and marks from the chain of the layer (`ChainWord`, `ChainMark`), locked internodes from `Index.Inv.held` |
| C65 | `Ops` | While no insert is under way nothing is held (C64), so the conditions of C59 hold: no release, no conversion, no marked pointer (`quiet_few`, `quiet_transit`, `quiet_unmarked`). The answer is then the map, whose last store belongs to a call that has returned. For calls in turn `Clean` is proved by induction: a locked internode would have a holder whose call is over |
| C66 | `Ops`, `OpsAll` | A step that changes nothing is one that waits. By phases (`put_live`): an insert goes on, or waits at a locked internode, or at a leaf that is held, and then holds none. Who holds a leaf (C64) therefore goes on or waits at an internode, and of the holders of internodes the highest goes on (C50). Invariants besides: there is always a fresh leaf and a fresh layer (`Room`), so making a new level never fails (`conflict_some`), and a propagation holds the locks its leaves still have in the index (`Spread`) |
| C67 | `Ops`, `OpsAll` | Invariant `Rounds` (`OpsRounds`), as in C49 but for whole calls in all layers: the rounds a split has used are at most the height it has reached plus the nodes that other threads have added since the call. The index of every layer is half full up to the first failure, so with less than 2^63 nodes it has at most 22 levels (C51). Calls in turn: no other thread adds nodes, and C65 gives `Clean` up to the step in question |
| C68 | `Ops`, `OpsAll` | A lookup in a tree that nobody changes is a function of where it is (`Pos`, `pace` in `OpsEnd`). It ends: induction on the bytes of the key that are left, in a layer on the height of the index and on the distance of the lower bound of the leaf from the key, in a node on the interval of the binary search, in a leaf on the slots that are left; nothing is locked (C64), every published slot is a value or a layer (`Tidy`), and a version that is read twice has not changed. Steps of other lookups change neither the tree nor the thread (`Frame`), and no insert under way means that `Clean` goes on to hold |
| C69 | `Ops`, `OpsAll` | A rank in a sixfold lexicographic product (`rank` in `OpsLone`) that every step of the insert which changes something makes smaller: the bytes of the key that are left; in a layer, first whether a leaf begins to the right of the key and where the nearest does, then how many slices up to the key begin no leaf (a split adds a slice that began none before, `span_lt`); then the stage of the way (climb, descent, leaf, section, split) and the steps of the stage (`OpsAim`: in an index in which nothing is locked a descent comes to the leaf of its key and does not start again). Steps of lookups leave the rank alone (C64, `Frame`). Well-founded induction along the execution |
| C70 | `Ops`, `OpsAll` | Induction on the steps: every store of the key is that of exactly one insert (`Exec.writer`, C59), which has returned by the end because none is under way, and stores only once; in the order of their stores the calls form the chain. That the order agrees with real time holds because each stores between its call and its return. Counting of values, the one `None` and the `get` (with C65) follow from the chain |
| C71 | `Ops`, `OpsAll` | An invariant of a lookup under way, kept by every step of every thread: it is in a layer its key leads to and at leaves of the chain (`Open.track`). Once no insert is under way the tree stays as it is and nothing is locked, so each position is excluded in turn, if the lookup were never to return: those at the start of a search by C68's lemmas, those of a search with an old version because the check then sends it on to `advance_to_key`, which comes to an end since bounds grow, and leaves with the version as it is |
| C72 | `Ops`, `OpsAll` | If inserts were never to return: how far each has come (`stage`: layers, free slots and splits left, position in a section under a lock) never gets worse by a step of another thread, since bounds are only added, and gets better by its own steps but those of the descent; so from some moment on all are in the descent or in a propagation that waits. Then no bound, link or internode changes any more; the order of the locks of internodes (C66) leaves a holder that does not wait, so there is none, and every insert is on its way down. There a second measure (`spin`) falls: versions that are out of date are found to be so, and with fresh ones the descent reaches the leaf of the key. So from some moment on no step changes anything, which contradicts that whoever keeps the lock of a leaf can move |
| C73 | `Ops`, `OpsAll` | The definition of Herlihy and Wing is in `Spec/Linear.lean`, in terms of calls, answers and the steps at which calls are made and return. The sequence is made of one block for each step: the lookups whose moment (C59) it is, then the insert that stores in that step, if there is one; the ideal map before and after a step is the state before and after its block, and as the block of a call lies within the call, the order of calls that do not overlap is kept. The claim in full does not hold: the executions of C63 in which a lookup misses a key have no linearization. |
| C74 | `Ops`, `OpsAll` | If from some moment on no insert returned, every accepted call of an insert would take one more of finitely many threads for ever, so a moment would come from which on none is called; then C72 applies, and all return. |
| C75 | `ValueRace` | Invariant: the count of a value is the number of those responsible for it (slots, inserts, retired pointers, `Arc`s; a finite tally), and a pointer loaded under a guard is in a slot, in the hands of an insert that has taken it out and not yet retired it, or retired and waiting for that guard. What an insert has read under the lock is still in its slot |
| C76 | `ValueRace` | False for the code (finding 12): executions. `_partial`: as C75, up to the first call with a guard of another tree |
| C77 | `IndexRace` | False for the code (extends finding 10): the schedule of C49, then thread 1 alone fills the leaf that has no parent (`IndexOrphan`, induction on the room left in it). `_partial`: the step that fails, with the invariant on locks of C50; lookups afterwards: the heap is ordered as before and nobody changes it, each step of a lookup keeps it left of its key and comes nearer to the answer (`IndexAfter`); calls that split nothing, in particular new values for keys that are there: only entries and versions of leaves change, the order is kept, and a lookup that misses has seen a leaf without its key at one moment (`IndexAfter2`) |

## Findings (each is a theorem about the model)

1. A leaf split may put two keys with the same 8-byte slice on different sides of the separator; keys are lost and
   counted twice (`C03_insert_loses_other_keys`, `C06_len_counts_key_twice`, `C25_equal_chunks_separated`).
   This is the only cause: as long as no two neighbouring leaves hold the same chunk, the tree is an exact map
   (`C05_get_is_latest_apart_partial`), and once they do they do so for ever (`C01_apart_before`). With whole calls, step by step:
   `C63_lost_by_split`.
2. A later split may leave a leaf with an empty range that shadows the live one: stale values
   (`C01_stale_value_after_insert`, `C05_overwritten_value_returns`).
3. A lookup that races with the creation of a sublayer can miss a present key (`C29_present_key_missed`) and, for the
   empty key, read the sublayer pointer as a value (`C45_sublayer_read_as_value`). With whole calls:
   `C63_missed_while_layer_is_made`.
4. A lookup that meets a marked next pointer of a leaf splitting for the second time misses a present key
   (`C31_present_key_missed`). With whole calls: `C63_missed_during_second_split`.
5. An insert that meets more than 128 siblings in a sublayer restarts at the root of the whole tree with the shifted
   key and stores under the rest of the key (`C33_key_in_wrong_layer`).
6. The lock-free insert (not called at this commit) would lose keys when run together with the locked insert
   (`C37_mixed_with_locked_inserts_loses_a_key`).
7. The AVX2 `count_le` compares signed (`C24_count_le_signed_bug`).
8. Suffix memory grows without bound under assign / clear cycles (`C42_dead_suffix_bytes_accumulate`).
9. A descent that has taken the version of an internode before a writer locks it, and reads it while
   `insert_key_and_child` shifts its entries, passes `has_changed`, which ignores the lock and the insert mark. It ends in
   the right neighbour of the leaf it looks for: `get` misses a present key, `insert` stores where no lookup will find it
   (`C48_present_key_missed`, `C48_insert_lost`). Internodes have no next pointers, and leaves cannot be walked to the
   left. With whole calls: `C63_missed_during_index_update`; an insert of a key that is present answers `None`, its value is never seen,
   and `len` counts the key twice (`C63_insert_lost_for_good`, `C60_key_counted_twice`).
10. The propagation loop panics after 64 rounds; a round is used up whenever the parent is split between being read and
   being locked. `C49_split_never_fails_partial` shows that this is the only way a split can fail, and
   `C49_failure_needs_42_nodes_partial` that other threads must create at least 42 nodes meanwhile. It can happen:
   `C49_round_limit_reached` gives two threads that exhaust the 64 rounds in a sound tree of 64-bit keys.
   The harm lasts: the panic unlocks both nodes but the new leaf never gets a parent, so a later insert that has to split
   it panics with `NULL parent on non-root`, also when it runs alone (`C77_panic_repeats`). No lock and no entry is lost by the
   panic itself (`C77_panic_keeps_tree_partial`), lookups go on (`C77_lookups_go_on_partial`),
   and so do all calls until one has to split a node (`C77_no_split_partial`), such as new values for keys that are there
   (`C77_updates_go_on_partial`).
11. `assign_ksuf` changes the suffix bag in place through `&mut` while readers hold references to it. A `get` of a long key reads
   `data.len()` while an insert of another long key in the same leaf writes it: a data race on plain memory, hence undefined
   behaviour (`C54_race`). Taken access by access it does no harm: readers of other slots get the right bytes
   (`C53_reads_what_was_stored`), and no reader runs out of bounds as long as suffixes are stored only in slots that hold none, as
   the tree does (`C54_no_panic_partial`, `C55_never_overwritten`). Otherwise one can, if the compiler reads the length before the offset
   (`C54_length_first_panics`).
12. `get_ref`, `get_with_guard` and `insert_with_guard` are safe and take any guard; that it is one of this tree is only in the
   documentation. The reference that `get_ref` returns has the lifetime of the guard, so with a guard of another tree it outlives a
   replaced value (`C76_foreign_guard_dangles`) and even the tree (`C76_dropped_tree_dangles`), in safe code with one thread. An
   `insert_with_guard` with a guard of another tree retires the old value to the wrong collector, which releases it under readers
   that have made no mistake (`C76_foreign_retire_dangles`).

## Trusted base

* Lean 4.33.0 kernel; axioms at most `propext`, `Classical.choice`, `Quot.sound`; no own axioms.
* The hand translation from Rust to the model (each definition cites its source).
* Memory model: `WeakLeaf` has release/acquire memory in the style of a view machine (loads acquire, stores release, the lock
  is an acquiring compare-and-swap), for one leaf. All other machines are sequentially consistent. Plain accesses to
  a suffix bag are single steps in `BagRace`, and whether they race is C54; load buffering, torn 128-bit access and compiler
  behaviour are outside the model.
* Granularity: `TreeRace` takes visits and critical sections as atomic. `LeafRace` and `ChainRace` justify this for
  lookups on a leaf and on a chain, up to the violations C29, C31 and C45: each refines an ideal map (C30, C56). There is no
  refinement proof from these machines to `TreeRace`.
* `ChainRace` is one layer: a sublayer is a number that a lookup may answer with; `Forest` puts the layers together. In both, where a
  lookup or an insert enters the chain of leaves of a layer is left open (any leaf at or before the key's), so internodes do not
  occur; `IndexRace` is about those, and `Whole` has both. `Forest` builds new layers in one step, because they are private until the last store of the
  conversion. `ChainRace` has equal slices with different lengths in one leaf, but its splits do not separate equal
  slices (finding 1 is about those that do). `OpsAll` has splits that separate them.
* `seize` is represented by its contract (a retired pointer is released when no guard active at its retirement is
  left). `Arc`, `Box`, `parking_lot`, the system allocator and the SIMD intrinsics are represented by their documented
  meaning.
