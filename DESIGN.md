# Design of the formal model of growt

Sections: 1 what is modelled, 2 modelling decisions, 3 the properties one by one, 4 defects of the code that
the proofs establish or that were found while reading, 5 trusted base, 6 how the theorems were tested.

## 1. What is modelled

Paths are relative to `/repo`; `ds` stands for `data-structures`.  Every definition in the Lean files cites
file
and lines.

| code | Lean modules (`lean/Verif/`) |
|------|------------------------------|
| `ds/returnelement.hpp` return codes | `ReturnCode` |
| `ds/base_linear.hpp` mapper, sizes, `compute_capacity`, `resize` | `Mapper`, `MapperLemmas` |
| `ds/element_types/simple_slot.hpp`, `single_word_slot.hpp`: words, marks, reserved keys | `SlotBits`; abstracted to `Cell` |
| `ds/element_types/complex_slot.hpp`: packed pointer, fingerprint, mark; allocation and cleanup | `HeapSlot`, `HeapMem` |
| `ds/base_linear.hpp` all operations, access by access | `BaseOps` (step machine), `BaseInv`, `BaseStep` |
| the same, one thread | `SeqBase`, `SeqTrace` |
| the same, any number of threads | `Lin` (linearizability), `Conc`, `ConcAny`, `ConcSched` |
| `ds/base_linear_iterator.hpp`, `begin`, `range` | `Iter` |
| `ds/migration_table_iterator.hpp` | `MigIter` |
| `ds/base_linear.hpp` `migrate`, `initialize`, `insert_unsafe`; `blockwise_migrate` | `Migrate`, `MigGeo`, `MigHead`, `MigInv`, `MigStep`, `MigReach`, `MigCount`, `MigTerm`, `MigBlocks` |
| `ds/migration_table.hpp` counters, handles, growth trigger | `Count` |
| `ds/migration_table.hpp` operations through one handle | `GrowSeq`, `GrowInv`, `GrowTerm` |
| `ds/strategies/estrat_sync.hpp` protocol, registration | `Sync`, `SyncInv`, `SyncPrompt`, `SyncReg`, `SyncLive` |
| the same with table contents and operations | `SyncData`, `SyncDataInv` |
| the same protocol with store buffers | `SyncTso` |
| `range`, `crange` of handles of growing tables | `Range` |
| which tables exist in both growth protocols | `Reclaim` |
| the objects of a handle and the references between them: constructor, move constructor, destructor, pool thread (`migration_table.hpp`, `estrat_*.hpp`, `wstrat_pool.hpp`) | `Moves` |
| `ds/strategies/estrat_async.hpp` protocol | `Async`, `AsyncInv`, `AsyncStep`, `AsyncLive` |
| the same with table contents and operations | `AsyncData`, `AsyncTab`, `AsyncDataInv` |
| modifications through its iterators | `AsyncIter` |
| `ds/strategies/wstrat_pool.hpp`, `counting_wait.hpp` with asynchronous growth | `Pool`, `PoolInv`, `PoolMany` |
| the same with synchronised growth (`estrat_sync.hpp`) | `SyncPool`, `SyncPoolInv`, `SyncPoolMany` |
| `data-structures/tsx_circular.hpp:238-890` without the `_unsafe` variants | `Tsx`, `TsxInv`, `TsxProgress` |
| `data-structures/tsx_circular.hpp:898-992` (migration) | `TsxMig` |
| `data-structures/base_linear.hpp:1114-1293`: which slots of the new table a helper accesses | `MigRace` |
| publication of elements: `element_types/complex_slot.hpp:198-259, 466-487` with memory orders | `Publish` |
| memory orders of asynchronous growth: `estrat_async.hpp:197-350` | `AsyncHb` |
| memory orders of synchronised growth: `estrat_sync.hpp:61-505` | `SyncHb` |
| bounded table on words: `base_linear.hpp:556-1084` with `element_types/simple_slot.hpp`, `element_types/single_word_slot.hpp`; loads in two halves (`simple_slot.hpp:313-322`) | `Words`, `Torn` |
| mapped values behind pointers: `complex_slot.hpp:198-259, 415-427, 531-606`, `base_linear.hpp:918-1064`, `base_linear_iterator.hpp:212-227` | `HeapVal` |
| number of steps of the retry loops: `base_linear.hpp:556-916` | `Progress` |
| moving of table objects: `base_linear.hpp:396-471`, `tsx_circular.hpp:257-320` | `TabMove` |
| `ds/tsx_iterator.hpp`, `begin` | `TsxIter` |
| `ds/seq_linear.hpp` | `SeqLin` (circular probing: C45, C46, C88; linear probing: C89) |
| the same with `element_types/seq_complex_slot.hpp` (elements on the heap) | `SeqHeap` |
| the same with `element_types/seq_simple_slot.hpp` (words) | `SeqWords` |
| `ds/table_config.hpp`, `seq_table_config.hpp`, `hash_table_mods.hpp` | `Config` |
| `allocator/alignedallocator.hpp`, `poolallocator.hpp` | `Alloc` |
| `wrapper/*.hpp` | `Wrapper`, `WrapperInv` |
| `tests/agg_test.cpp:66-91`, `example/update_fcts.hpp:11-26` | `Agg`, `Props/Agg` |
| `tests/ins_test.cpp:90-160`, `tests/del_test.cpp:135-205`, `tests/con_test.cpp:63-132`, `example/update_fcts.hpp:32-52` | `Acct`, `Props/Acct`, `Props/Bench` |
| `tests/mix_test.cpp:48-150` | `Reason`, `Props/Reason`, `Props/Mixed` |
| `tests/lat_test.cpp:46-89, 116-145` | `Props/Latency` |
| `tests/ins32_test.cpp:60-168, 171-234` | `Props/Ins32` |
| `tests/ins_test.cpp:76-157, 194-222` | `Props/Ins64` |
| `example/example.cpp:25-136, 165-185` | `Props/Example` |
| `tests/functionality.cpp:50-70, 109-429` | `Props/FunTest` |
| `tests/text_test.cpp:68-149` | `Text`, `Props/Text` |
| `example/range_example.cpp:31-95` | `Props/RangeSum` |
| `tsx_circular.hpp:238-266` | `Props/TsxRoom` |
| `complex_slot.hpp:166-170, 335-339` with `base_linear.hpp:482-551, 1147-1191` | `Props/HeapTomb` |

The specification is separate: `Spec` (finite maps `K -> Option V` and the meaning of a call on them), `Lin`
(histories, sequential objects, linearizability), `HeapMem.hrun` (a heap).  They mention no slot, mapper or
protocol state.  The property theorems are in `lean/Verif/Props/`.

Not modelled:

* of `tsx_iterator.hpp` the references and `erase`, of `tsx_circular.hpp` the `_unsafe` variants (they do not
  compile when used); the element
  type of that table is not in `/repo`: it is assumed to behave like the markable slots; transactions are
strongly
  isolated
* the libraries behind `wrapper/`; of `tests/` everything except the loops and checks of the benchmarks named
  in the table above, of `example/` everything except the update functions and the range example; command line
  tools
* the submodule `utils` is empty in `/repo`: the reclamation library (`rtm::`) is a specification (`protect`
  is
  atomic, an object is destroyed only when retired and unprotected); the mark helpers (`mark::`) likewise
* the hash function: an arbitrary function into 64-bit words; key comparison: equality
* weak memory: all accesses are sequentially consistent; the code uses acquire/release/relaxed in places
  (exceptions: C54 runs the protocol of `estrat_sync.hpp` with store buffers; C67 models the publication of
  heap
  elements with store buffers and with the happens-before relation; C68 adds the happens-before relation of
plain
  writes to the interleavings of `estrat_async.hpp`, C69 that of all accesses to tables to those of
`estrat_sync.hpp`)
* exceptions thrown by user code; performance

## 2. Modelling decisions

* **Cells.** A slot is a mark bit and `empty | live k v | deleted v`.  `SlotBits` and `HeapSlot` prove for
  each
  layout that the words implement this for legal keys (C34-C36).
* **Steps.** One step = one atomic access (load, compare-and-swap, fetch-and-add, store).  The same machine is
  run
  alone (`run`) and interleaved with all other threads (`Exec` over a step relation).  A 128-bit load or
  compare-and-swap is one step, as the code assumes (`simple_slot.hpp:313-340`).
* **Undefined behaviour** is a distinct outcome (`oob`, `none` = uninitialised memory, a freed table, a bad
  `free`), never totalised away.  An execution that reaches it does not continue.
* **Update functions** are arbitrary pure functions, with or without an `.atomic` version (`UpdFn`).
* **Numbers.** Hash values, capacities and block ends are computed modulo `2^64` resp. `2^32` as in the code
  where this matters (C14, C15, C16, C21); slot indices inside a table are unbounded numbers, justified by
C11.
  Counters of elements are integers without overflow.
* **Growth decision.** In the protocol models the counter values read by `resize` are arbitrary; so the
  theorems
  hold whatever the counters say.
* **Violations.** The model contains the code as it is.  If the code violates a property, the negation is
  proved with a concrete execution and the theorem with the suffix `_partial` says under which condition the
  property holds.

## 3. The properties

For each property: status in `MANIFEST.json`; *modelled* = what of the code the theorems are about; *method*;
*missing* = what separates a partial claim from the full statement; theorems with the axioms they depend on
(`p` = propext, `q` = Quot.sound, `c` = Classical.choice; nothing else occurs).  Names are relative to
`Growt.`.

### C01 Bounded table behaves like a map (one thread) - proved

* Modelled: the step machines of all operations (`base_linear.hpp:556-1084`) run alone on a bounded table,
  both mapping and probing modes
* Method: refinement to the ideal map: invariant "every stored key is reachable from its home slot and stored
  once" (`Inv`), preserved by every call; induction on the probe and on the call sequence
* Missing / violated: the iterator of a successful plain `insert` is exempt (it is wrong, C09). With circular
  probing a call on a table without empty slot diverges (C12); such calls are covered as far as they return
* Theorems: `C01_bounded_table_is_map` (pqc), `C01_every_returned_call` (pqc)

### C02 Bounded table is linearizable - partial

* Modelled: the step machines of all operations (`base_linear.hpp:556-1084`), any number of threads, every
  interleaving of single accesses
* Method: forward simulation to the atomic object; linearization points are the last accesses; `Inv` is stable
  under all steps
* Missing / violated: tables without markable slots (value-only compare-and-swap): only if no key is both
  removed and updated (`Mix`); otherwise false (C05)
* Theorems: `C02_linearizable_partial` (pqc), `C02_linearizable_markable` (pqc)

### C03 At most one concurrent insert of a key wins - proved

* Modelled: the concurrent system, with calls counted at the access where they take effect
* Method: invariant over executions relating the count to the stored dictionary; also for value-only updates
  (`ConcAny`)
* Theorems: `C03_at_most_one_winner` (pqc)

### C04 No lost updates - partial

* Modelled: the concurrent system
* Method: per-effect theorem from the simulation; sums by induction over histories
* Missing / violated: tables without marks when a key is both updated and removed: an acknowledged increment
  is lost (execution proved)
* Theorems: `C04_markable` (pqc), `C04_no_lost_update_partial` (pqc), `C04_increments_add_up_partial` (pqc),
  `C04_acknowledged_increment_lost` (pqc)

### C05 Update and erase do not interfere on tables without marking - partial

* Modelled: the concurrent system with value-only compare-and-swap (`simple_slot.hpp:387-449`)
* Method: witness execution and proof that its history has no linearization
* Missing / violated: violated; holds when removed and updated keys are disjoint
* Theorems: `C05_update_erase_interfere` (pq), `C05_split_keys_partial` (pqc)

### C06 Conditional erase removes only the expected value - proved

* Modelled: the concurrent system incl. value-only updates
* Method: per-effect theorem over all executions
* Theorems: `C06_erase_if` (pqc)

### C07 insert_or_update reports which branch happened - partial

* Modelled: the concurrent system; `insert_or_assign` as its special case
* Method: per-effect theorem from the simulation
* Missing / violated: tables without marks when a key is both updated and removed: violated (execution proved)
* Theorems: `C07_markable` (pqc), `C07_insert_or_update_partial` (pqc), `C07_insert_or_assign_partial` (pqc),
  `C07_absent_key_reported_updated` (pqc)

### C08 update_with_backoff gives up only when told - proved

* Modelled: the concurrent system; the callback is an arbitrary function of the number of its call
* Method: per-effect theorem; step-by-step equality of the two machines
* Theorems: `C08_update_with_backoff` (pqc), `C08_backoff_true_is_update` (p)

### C09 The iterator returned by a successful insert shows the inserted element - partial

* Modelled: iterators as slot copies returned by the operations
* Method: direct, from the machine
* Missing / violated: violated: the iterator of every successful `insert` carries the empty slot
  (`base_linear.hpp:580`); proved for `insert_or_update`
* Theorems: `C09_insert_iterator_shows_empty_slot` (pqc), `C09_insert_or_update_iterator_partial` (pqc)

### C10 Assignment through operator[] stores the value - partial

* Modelled: `operator[]` and assignment through the returned reference (`base_linear.hpp:206-209`,
  `migration_table.hpp:249-257`)
* Method: composition of insert, iterator and store; sequential
* Missing / violated: violated for absent keys on markable tables; proved for present keys and unmarkable
  tables
* Theorems: `C10_bracket_assign_partial` (pqc), `C10_bracket_assign_lost` (pqc)

### C11 Probing never leaves the allocated slots - partial

* Modelled: all operations and all steps of `migrate`; the growing handle
* Method: invariant "nothing stored behind addressable + 300" and that each probe ends before the end of the
  allocation; migration: C20; witness for the termination half
* Missing / violated: violated: the 303rd key with the same hash value makes a growing table grow for ever
  (C23). Missing: accesses of asynchronous migrations after a torn mark (finding 1)
* Theorems: `C11_no_out_of_bounds_partial` (pqc), `C12_terminates_with_room` (pqc),
  `C23_equal_hashes_never_return` (pqc), `C20_no_uninitialised_read` (pqc), `C20_modified_source_partial`
  (pqc)

### C12 Circular probing terminates while a slot is free - proved

* Modelled: the step machines of all operations (`base_linear.hpp:556-1084`) with circular probing
* Method: measure: distance to the next empty slot; without one: the machine never stops
* Theorems: `C12_terminates_with_room` (pqc), `C12_full_table_diverges` (pqc)

### C13 Insertion is refused only when the table is really crowded - proved

* Modelled: insertion on a bounded table
* Method: induction on the probe
* Theorems: `C13_full_only_when_crowded` (pqc)

### C14 The constructor provides the requested capacity - partial

* Modelled: `compute_capacity` in 32-bit arithmetic (`base_linear.hpp:58-63`)
* Method: induction on the doubling loop
* Missing / violated: violated above 2^30 (too small) and above 2^31 (loop never ends), both proved
* Theorems: `C14_capacity_partial` (pqc), `C14_fails_above_2_30` (pqc), `C14_diverges_above_2_31` (pqc)

### C15 Hash mapping is in range and compatible with growth - proved

* Modelled: `map` in both modes, `resize`
* Method: arithmetic on shifts and masks, all 64-bit hashes
* Theorems: `C15_map_in_range` (pqc), `C15_map_doubled` (pqc), `C15_map_same_size` (pqc)

### C16 Growth decision - proved

* Modelled: `resize` incl. the comparison in double arithmetic
* Method: exact arithmetic, valid up to 2^53 slots
* Theorems: `C16_growth_decision` (pq), `C16_never_shrinks` (pq)

### C17 Migration preserves the contents exactly - proved

* Modelled: `migrate` access by access, any number of helpers and schedules
* Method: invariant over blocks, runs and targets (`MigInv`, `MigReach`); quiescent source
* Missing / violated: limits in the statement; a full circular source loses everything (proved)
* Theorems: `C17_migration_preserves_contents` (pqc), `C17_full_circular_source_is_lost` (pq), `migration_end`
  (pqc)

### C18 Deleted elements are reclaimed by migration - proved

* Modelled: the same
* Method: counting of occupied target slots
* Theorems: `C18_tombstones_reclaimed` (pqc)

### C19 Parallel migration is independent of scheduling - proved

* Modelled: the same
* Method: each block writes to disjoint target slots; termination measure
* Theorems: `C19_schedule_independent` (pqc), `C19_single_helper_finishes` (pqc)

### C20 No uninitialised slot is ever read - partial

* Modelled: the same; uninitialised memory is `none`
* Method: invariant; also for sources that are modified meanwhile, as long as no mark is torn; violated after
  a torn mark: an execution at whose end a lookup reads a slot that was never initialised
* Missing / violated: asynchronous migrations after a torn mark (finding 35)
* Theorems: `C20_no_uninitialised_read` (pqc), `C20_modified_source_partial` (pqc),
  `Async.C20_torn_mark_leaves_uninitialised` (pqc)

### C21 Every block is migrated exactly once - partial

* Modelled: block claims by fetch-and-add, block ends in 32 bits
* Method: counting; arithmetic
* Missing / violated: violated for tables of 2^32 slots and more (proved)
* Theorems: `C21_blocks_partition_partial` (pq), `C21_each_block_once` (pq), `C21_huge_table_loses_everything`
  (p)

### C22 All advertised mapping/probing combinations grow safely - partial

* Modelled: the four mode combinations
* Method: C17 for three of them, witness for the fourth
* Missing / violated: violated for circular mapping with linear probing: `migrate` reads uninitialised memory
  (proved)
* Theorems: `C22_combinations_partial` (pqc), `C22_circular_map_reads_uninitialised` (pq),
  `C22_counterexample_is_well_formed` (pqc)

### C23 Growing table behaves like an unbounded map (one handle) - partial

* Modelled: all operations through one handle incl. retry, counters and growth (`migration_table.hpp`)
* Method: refinement by induction over call sequences, composed of C01 and C17; completion by a measure over
  growth steps
* Missing / violated: completion of every call is violated: 303 keys with equal hash values never fit;
  circular probing hangs when the counter passes the threshold exactly. Both proved; completion proved
  otherwise. Below 2^32 slots
* Theorems: `C23_growing_table_is_map_partial` (pqc), `C23_calls_complete_linear_partial` (pqc),
  `C23_calls_complete_circular_partial` (pqc), `C23_equal_hashes_never_return` (pqc), `C23_302_equal_hashes`
  (pqc), `C23_circular_never_returns` (pqc), `C23_growth_happens` (pqc)

### C24 Asynchronous growth loses no acknowledged operation - partial

* Modelled: protocol, table contents, operations and every access of `migrate` together (`AsyncData`)
* Method: simulation with helping: effects of finds on replaced tables are placed before the replacement;
  invariant `DInv` over tables, migration and protocol
* Missing / violated: violated: torn marks lose (16-byte slots) or duplicate (8-byte and heap slots) an
  element, both proved; linearizable in every execution without a torn mark. Below 2^32 slots; with circular
  probing a table under migration needs a free slot
* Theorems: `Async.C24_linearizable_partial` (pqc), `Async.C24_linear_probing_partial` (pqc),
  `Async.C24_no_wild_access_partial` (pqc), `Async.C24_calls_continue_partial` (pqc), `Async.C24_not_vacuous`
  (pqc), `Async.C24_torn_mark_loses_element` (pqc), `Async.C24_torn_mark_duplicates_element` (pqc)

### C25 A new table is published only when completely migrated (async) - proved

* Modelled: protocol of `estrat_async.hpp`, any number of handles and helpers; with the contents of the tables
  (`AsyncData.lean`) for the marks
* Method: inductive invariant `Inv` over the protocol state; invariant `WInv` (also with torn marks): a table
  with a marked slot has a successor, so the premise of `exitHelp` always holds
* Missing / violated: executions end at the first undefined behaviour (C11, C20); handles that are moved are
  not modelled
* Theorems: `Async.C25_published_complete` (pqc), `Async.C25_block_finished_by_its_owner` (p),
  `Async.C25_successor_fixed` (p), `Async.C25_one_successor` (pqc), `Async.C25_versions_never_decrease` (pqc),
  `Async.C25_no_null_table` (pqc), `Async.C25_executions_follow_protocol` (pq),
  `Async.C25_marks_have_successor` (pqc), `Async.C25_help_has_successor` (pqc),
  `Async.C25_refused_call_continues` (pqc), `Async.C25_help_not_vacuous` (pqc)

### C26 Handles come into being and refresh in finite time (async) - partial

* Modelled: `init`, `load` (`estrat_async.hpp:197-205, 310-319`)
* Method: witness: states from which the loop can never be left; partial: progress from the other states
* Missing / violated: violated: a handle overtaken by a growth step waits for ever
* Theorems: `Async.C26_overtaken_waits_for_ever` (pqc), `Async.C26_creation_can_wait_for_ever` (pqc),
  `Async.C26_refresh_can_wait_for_ever` (pqc), `Async.C26_waiting_ends_partial` (pqc)

### C27 Helpers never touch a reclaimed table (async) - proved

* Modelled: protocol and reclamation specification
* Method: invariant: whoever accesses a table protects it or it is current; projected to the executions with
  contents
* Missing / violated: as C25
* Theorems: `Async.C27_no_access_after_reclamation` (pqc), `Async.C27_reclaimed_once` (pqc),
  `Async.C27_slots_not_reclaimed` (pqc)

### C28 Synchronous growth excludes operations (sync) - partial

* Modelled: protocol of `estrat_sync.hpp` with all flags
* Method: inductive invariant `SInv` (phases of a growth step)
* Missing / violated: violated when a moved-from handle is destroyed; sequential consistency is essential
  (store then load of two flags)
* Theorems: `C28_operations_exclude_migration_partial` (pqc), `C28_moved_handle_unprotects` (pq),
  `C28_not_vacuous` (pq)

### C29 Synchronous growth never touches freed tables - partial

* Modelled: the same with deleted tables
* Method: witness; invariant
* Missing / violated: violated: a helper stopped between loading and protecting the table reads a deleted one
* Theorems: `C29_helper_reads_deleted_table` (pq), `C29_working_threads_partial` (pqc),
  `C29_prompt_helpers_partial` (pqc), `C29_not_vacuous` (pq)

### C30 Synchronous growth is linearizable - partial

* Modelled: protocol, table contents, operations and `migrate` together (`SyncData`)
* Method: simulation: C02 on the current table, C17 during a growth step, C28 for exclusion; a concrete
  execution for the violation
* Missing / violated: violated: the destructor of a moved-from handle lets an insertion through the new handle
  get lost. Not covered by the theorem: these destructors, helpers that would touch a deleted table (C29),
  tables below 2^32 slots, with circular probing a free slot in a table that is grown
* Theorems: `Sync.C30_linearizable_partial` (pqc), `Sync.C30_linear_probing_partial` (pqc),
  `Sync.C30_no_wild_access_partial` (pqc), `Sync.C30_not_vacuous` (pqc), `Sync.C30_moved_handle_loses_element`
  (pqc)

### C31 Handle registration is unique - partial

* Modelled: `register_handle` and handle life cycle
* Method: invariant
* Missing / violated: violated for the 257th handle and for moved-from handles
* Theorems: `C31_flags_unique_partial` (pqc), `C31_handles_inspected_partial` (pqc),
  `C31_registration_succeeds` (pqc), `C31_257th_handle_unreported` (pqc), `C31_moved_handle_shares_flags`
  (pq), `C31_not_vacuous` (pqc)

### C32 Element count - partial

* Modelled: counters, flushes, moves, growth; each atomic access a step
* Method: conservation invariant
* Missing / violated: violated: two separate loads can give a huge number; tombstones are subtracted late
  during growth
* Theorems: `C32_counts_add_up` (pq), `C32_counts_add_up_partial` (pq), `C32_exact_when_flushed` (pq),
  `C32_unflushed_bounded` (pqc), `C32_off_during_growth` (p), `C32_count_can_be_huge` (p), `C32_two_loads` (p)

### C33 Growth is triggered when the fill limit is crossed - partial

* Modelled: `inc_inserted`, `update_numbers`
* Method: arithmetic; invariant
* Missing / violated: violated: the test is an equality that can be jumped over
* Theorems: `C33_trigger_iff` (pqc), `C33_growth_triggered_partial` (pqc), `C33_never_triggered` (pqc)

### C34 Key space - partial

* Modelled: the words of 8-byte and 16-byte slots
* Method: bit vector lemmas for all words
* Missing / violated: violated for key 2^63 (2^31) without marks
* Theorems: `C34_keys_storable_partial` (pqc), `C34_legal_keys` (pqc), `C34_key_2_63_lost` (pqc),
  `C34_marked_keys_reserved` (pqc), `layout_faithful` (pqc), `encode_injective` (pqc)

### C35 Marking a slot does not change its contents - proved

* Modelled: the same
* Method: bit vector lemmas; from words to cells by `encode`
* Theorems: `C35_mark_keeps_contents` (pqc), `C35_marked_slot_refused` (pq), `C35_cas_fails_after_mark` (pq),
  `encode_mark` (p)

### C36 Heap slots: packing and fingerprints are faithful - proved

* Modelled: the packed word of `complex_slot`
* Method: bit vector lemmas; search on packed words equals search on cells
* Theorems: `Heap.C36_packing` (pqc), `Heap.C36_predicates` (pqc), `Heap.C36_find_faithful` (pqc),
  `Heap.mkSlot_represents` (pqc)

### C37 emplace makes the element findable - partial

* Modelled: `emplace` on packed words
* Method: witness and general theorem
* Missing / violated: violated on non-growing tables: the fingerprint is not set
* Theorems: `Heap.C37_emplaced_never_found` (pqc), `Heap.C37_emplace_lost` (p),
  `Heap.C37_insert_findable_partial` (pqc)

### C38 Heap allocated elements are freed exactly once - partial

* Modelled: the calls to the allocator in all executions of the bounded, the synchronously and the
  asynchronously growing table (`HeapMem`); destructors. Calls: all that compile for heap slots (`find`,
  `insert`, `emplace` on growing tables, updates in place)
* Method: provenance: whatever a slot, a local variable or a result refers to is allocated, a generic
  induction instantiated by the three systems; accounting: the blocks in use are the elements of the ideal map
  plus those held by running calls
* Missing / violated: violated: synchronous growth leaks everything at destruction; asynchronous growth frees
  an element twice after a torn mark. The allocator is assumed not to give out blocks that are in use
* Theorems: `HeapMem.C38_bounded` (pqc), `HeapMem.C38_bounded_not_vacuous` (pqc),
  `HeapMem.C38_async_no_early_free` (pq), `HeapMem.C38_sync_no_early_free` (pq), `HeapMem.C38_async_partial`
  (pqc), `HeapMem.C38_async_not_vacuous` (pqc), `HeapMem.C38_sync_partial` (pqc),
  `HeapMem.C38_sync_not_vacuous` (pqc), `HeapMem.C38_sync_leaks` (pq), `HeapMem.C38_sync_leak_happens` (pqc),
  `HeapMem.C38_async_double_free` (pqc)

### C39 Iteration visits every element exactly once - proved

* Modelled: `begin`, `++`, `end` on a table that is not modified
* Method: induction on slots
* Theorems: `C39_iteration_exactly_once` (pq), `C39_after_calls` (pqc), `C39_after_concurrent` (pqc)

### C40 Ranges partition the table - proved

* Modelled: `range`
* Method: induction on slots
* Theorems: `C40_range_exact` (pqc), `C40_ranges_partition` (pq)

### C41 Iteration never yields erased elements - partial

* Modelled: `++` access by access in concurrent executions
* Method: invariant
* Missing / violated: violated for marked tombstones
* Theorems: `C41_presented_is_present_partial` (pqc), `C41_marked_tombstone_presented` (pqc),
  `C41_erased_slot_presented` (p)

### C42 Iterators survive migration - partial

* Modelled: `migration_table_iterator` refresh
* Method: case analysis
* Missing / violated: violated: null pointer arithmetic after the element was erased
* Theorems: `C42_increment_partial` (pqc), `C42_increment_after_erase` (pqc)

### C43 Iterator erase terminates - partial

* Modelled: iterator `erase`
* Method: witness of divergence for every state; partial: termination
* Missing / violated: violated on growing tables and on changed 16-byte slots
* Theorems: `C43_erase_terminates_partial` (pq), `C43_erase_never_returns` (pq),
  `C43_growing_erase_never_returns` (p)

### C44 Conditional modifications through iterators act only on the unchanged value - partial

* Modelled: `erase_if_unchanged`, `compare_exchange`
* Method: case analysis over slot kinds
* Missing / violated: violated after a migration and for second attempts on 8-byte slots
* Theorems: `C44_conditional_partial` (p), `C44_growing_partial` (pq), `C44_second_attempt_succeeds` (p),
  `C44_after_migration` (pqc)

### C45 Sequential table behaves like a map (without erase) - proved

* Modelled: `seq_linear.hpp` without erase
* Method: refinement as C01, with growth
* Theorems: `C45_sequential_table_is_map` (pqc)

### C46 Sequential erase leaves the other keys reachable - partial

* Modelled: `erase` of `seq_linear.hpp:508-538`
* Method: refinement under conditions; witnesses
* Missing / violated: violated: raw hash value compared with a slot number
* Theorems: `C46_erase_partial` (pqc), `C46_erase_loses_key` (pqc), `C46_erase_moves_key` (pqc)

### C47 Pool worker: a user thread continues only after the migration - partial

* Modelled: `wstrat_pool.hpp`, `counting_wait.hpp`: futex with spurious wake-ups, epochs, several handles
* Method: invariant over timely runs; termination measure; witnesses
* Missing / violated: violated by late or spurious wake-ups, by two handles, and at start-up. Proved in full:
  one handle, no wake-up before the counter has changed; for any number of handles and any wake-ups: tables
  are replaced by their successors only, each block is migrated by one thread, once
* Theorems: `Pool.C47_continues_after_migration_partial` (pqc), `Pool.C47_continues_eventually_partial` (pqc),
  `Pool.C47_no_deadlock_partial` (pqc), `Pool.C47_not_vacuous` (pq), `Pool.C47_late_wake_loses_table` (p),
  `Pool.C47_spurious_wake_loses_table` (p), `Pool.C47_two_handles_lose_table` (pq), `Pool.C47_start_deadlock`
  (pq), `Pool.C47_any_number_of_handles` (pqc), `Pool.C47_replaced_by_successor` (pqc)

### C48 Return codes - proved

* Modelled: `returnelement.hpp:21-52`
* Method: case analysis over all codes
* Theorems: `C48_successful_iff` (pq), `C48_codes_distinct` (p)

### C49 The dispatcher builds a working table for every set of modifiers - partial

* Modelled: the dispatcher as a function of the modifier list and the type sizes
* Method: case analysis over all lists
* Missing / violated: violated for `deletion` without `growable` and for the query `all`
* Theorems: `C49_is_correct` (pq), `C49_all_always_true` (pqc), `C49_all_wrong` (p), `C49_dispatch_partial`
  (pq), `C49_deletion_only` (pq), `C49_seq_dispatch` (pq), `C49_fits_base` (pq)

### C50 Allocators - partial

* Modelled: size computations; first use of the pool as a step machine
* Method: arithmetic; invariant; witnesses
* Missing / violated: violated by the converting constructor; hangs after failure
* Theorems: `C50_aligned_size` (pq), `C50_aligned_refuses_only_overflow` (pqc), `C50_pool_size` (pqc),
  `C50_at_most_one_pool` (pq), `C50_returns_after_pool_partial` (pq), `C50_objects_have_pool_partial` (pq),
  `C50_pool_stays` (pq), `C50_not_vacuous` (pq), `C50_converting_constructor_has_no_pool` (pq),
  `C50_constructor_finishes` (pq), `C50_failed_allocation_hangs` (pqc), `C50_failed_allocation_occurs` (p),
  `C50_size_one_hangs` (pqc), `C50_size_one_occurs` (p)

### C51 Moving a handle keeps the count right - proved

* Modelled: move constructor, move assignment, destructor of handles
* Method: invariant of `Count`
* Theorems: `C51_moves_transfer_once` (pq), `C51_move_constructor` (pq), `C51_moved_from_flush_adds_nothing`
  (pqc)

### C52 Unsafe updates equal atomic updates without concurrency - proved

* Modelled: the unsafe machines
* Method: step-by-step comparison
* Theorems: `C52_update_unsafe_like_update` (pq), `C52_insert_or_update_unsafe_like_insert_or_update` (pq)

### C53 Modifications through iterators of an asynchronously growing table are linearizable - partial

* Modelled: the asynchronously growing table with contents, helpers and any number of handles, and callers
  that keep iterators (version, position, copy) and later call erase_if_unchanged or compare_exchange through
  them; if the table has another version than the iterator, the key is searched again in the table, access by
  access (`AsyncIter`)
* Method: invariant: the contents invariant of C24 plus: an iterator of the current version points into the
  table; a search of a modification runs as a find whose effect is left out of the history; a successful
  compare-and-swap from an unmarked copy is the linearization point, for the value that the iterator showed at
  the call or, after a search, shows since; the violations are concrete executions with one calling thread and
  one helper
* Missing / violated: iterators with marked copies (claim false, proved), torn marks (C24), what follows the
  use of a null pointer after an unsuccessful search of compare_exchange (undefined behaviour, reachability
  proved)
* Theorems: `Async.C53_modifications_linearizable_partial` (pqc), `Async.C53_search_in_bounds` (pqc),
  `Async.C53_search_not_vacuous` (pqc), `Async.C53_iterator_in_bounds` (pqc),
  `Async.C53_marked_copy_loses_erasure` (pqc), `Async.C53_not_vacuous` (pqc),
  `Async.C53_refreshed_iterator_erases` (pqc), `Async.C53_erased_element_null_pointer` (pqc)

### C54 Synchronised growth excludes operations on machines with store buffers - partial

* Modelled: the protocol of `Sync` with a buffer of delayed stores to the flags `ops_protect` and
  `mig_protect` for every thread; read-modify-write accesses and sequentially consistent stores wait for an
  empty buffer (`SyncTso`)
* Method: simulation: every execution in which the two loads wait for an empty buffer is explained by a
  sequentially consistent execution whose flags are those of memory with the buffers applied, where a buffered
  release is delayed; hence C28 carries over; the violation is a concrete execution
* Missing / violated: the code does not wait (claim false, proved); moved handles (C28); other reorderings
  than those of store buffers
* Theorems: `C54_careful_partial` (pqc), `C54_operation_during_migration` (pqc), `C54_includes_sequential`
  (pqc), `C54_not_vacuous` (pqc)

### C55 Range iterators of growing tables point into existing memory - partial

* Modelled: both protocols with the table of each thread's range iterator (`Range`)
* Method: the current table and its version change only with a publication; what a handle holds exists
  (`Inv`); witnesses
* Missing / violated: violated with both protocols: the table is deleted while the iterator is in use
* Theorems: `Sync.C55_sync_until_growth_partial` (pqc), `Sync.C55_sync_range_of_deleted_table` (pq),
  `Sync.C55_not_vacuous_sync` (pq), `Async.C55_async_until_next_table_partial` (pqc),
  `Async.C55_async_range_of_deleted_table` (pq), `Async.C55_not_vacuous_async` (-)

### C56 Replaced tables are reclaimed - partial

* Modelled: the tables that exist in both protocols (`Reclaim`)
* Method: invariant `Kept`: every table is current, about to be published by a thread, about to be deleted by
  a thread, or retired; a growth step under way has a thread that carries it out
* Missing / violated: violated with asynchronous growth: the table of a destroyed handle is never released
* Theorems: `Sync.C56_sync_one_table` (pqc), `Sync.C56_sync_two_tables` (pqc), `Sync.C56_not_vacuous_sync`
  (pq), `Async.C56_async_reclaimable_partial` (pqc), `Async.C56_async_destroyed_handle` (pqc),
  `Async.C56_async_table_leaks` (pqc), `Async.C56_not_vacuous_async` (-)

### C57 A handle may be moved and its source destroyed - partial

* Modelled: the objects of a handle, the thread and the flag of the pool, and the references between them
  (`Moves`): constructor, move constructor, destructor, `grow`, the loop of a pool thread
* Method: invariant on references, by induction over all sequences of actions; witnesses
* Missing / violated: violated: references to the source are copied. Move assignment of a handle is
  destruction and move construction (`migration_table.hpp:508-518`)
* Theorems: `Moves.C57_no_dangling_partial` (pq), `Moves.C57_moved_handle_grows` (p),
  `Moves.C57_moved_handle_always` (pq), `Moves.C57_pool_move_reads_itself` (p),
  `Moves.C57_pool_thread_of_destroyed_handle` (p), `Moves.C57_not_vacuous` (p)

### C58 Heap elements of the sequential table are freed exactly once - partial

* Modelled: `seq_linear.hpp` with the slots of `seq_complex_slot.hpp` (`SeqHeap`): words of pointer and
  fingerprint, a heap of blocks, `malloc` as an arbitrary function that may fail, undefined behaviour for bad
  accesses and bad `free`
* Method: simulation of the table of cells (`SeqLin`, C45) with the ownership invariant `Own`: slots own
  pairwise different blocks and nothing else is allocated
* Missing / violated: violated by `erase` (leak). Destructors of key and value are not run by the code and not
  modelled
* Theorems: `C58_freed_once_partial` (pqc), `C58_erase_leaks` (pqc)

### C59 References into the sequential table with heap elements stay valid - partial

* Modelled: as C58; writing through an iterator is a store to the word behind the slot (8-byte keys and
  values)
* Method: the simulation of C58 also shows which words and blocks a call leaves alone; witnesses quantified
  over all valid tables
* Missing / violated: violated by growing and by `operator*`, `operator->`, `operator[]`
* Theorems: `C59_addresses_stay_partial` (pqc), `C59_growth_moves_all` (pqc), `C59_index_overwrites_neighbour`
  (pqc)

### C60 Synchronised growth with the thread pool: publication after migration - partial

* Modelled: `estrat_sync.hpp` with the worker `wstrat_pool.hpp`: handles created and destroyed at any time,
  their user and pool threads, flags, counters, futex, publication and deletion of tables (`SyncPool`)
* Method: invariant over timely runs of one handle (`SyncPoolInv`); termination measure; witnesses
* Missing / violated: violated: destroying a handle wakes the pool threads of others too early; `migrate`
  reads `_epoch` after `_table`. Proved: one handle, no wake-up before the counter has changed
* Theorems: `SyncPool.C60_published_after_migration_partial` (pqc), `SyncPool.C60_growth_ends_partial` (pqc),
  `SyncPool.C60_no_deadlock_partial` (pqc), `SyncPool.C60_not_vacuous` (pq), `SyncPool.C60_not_vacuous_grown`
  (pq), `SyncPool.C60_destroyed_handle_loses_table` (p), `SyncPool.C60_deleted_table_accessed` (p),
  `SyncPool.C60_deadlock` (pq), `SyncPool.C60_two_handles_lose_table` (pq), `SyncPool.C60_one_grower` (pqc),
  `SyncPool.C60_current_not_deleted` (pqc), `SyncPool.C60_versions_increase` (pqc)

### C61 Transactional table without growth is linearizable - proved

* Modelled: `tsx_circular.hpp`: find, insert, update, insertOrUpdate and erase with both paths: the loop
  inside a transaction as one atomic action with plain stores, the fallback access by access (`Tsx`)
* Method: the searches and changes of both paths are matched with those of the base table (`step_match`,
  `effect_of`), whose invariant then gives the linearization points (`TsxInv`)
* Theorems: `Tsx.C61_linearizable` (pqc), `Tsx.C61_contents` (pqc), `Tsx.C61_in_bounds` (pq),
  `Tsx.C61_full_table_never_ends` (pq)

### C62 Migration of the transactional table moves every element once - partial

* Modelled: `tsx_circular.hpp:898-992`: `migrate` and `insert_unsave` access by access, any number of helpers
  that claim blocks of 4096 slots, and calls that change the source meanwhile (`TsxMig`)
* Method: every step is a step of the migration of the base table (`Mig.Reach.base`) as long as every block
  has an empty slot; its invariant then gives the contents
* Missing / violated: blocks without empty slot and slots that change between load and mark: the claim is
  false there, proved with concrete executions (`C62_full_block_reads_uninitialised`,
  `C62_torn_mark_loses_insertion`)
* Theorems: `Tsx.C62_migration_partial` (pqc), `Tsx.C62_no_uninitialised_read_partial` (pqc),
  `Tsx.C62_calls_respect_migration` (pqc), `Tsx.C62_single_helper_finishes` (pqc),
  `Tsx.C62_full_block_reads_uninitialised` (pqc), `Tsx.C62_torn_mark_loses_insertion` (pqc)

### C63 Helpers of different blocks do not race on the new table - partial

* Modelled: the accesses of the jobs to the new table, `base_linear.hpp:1114-1293` (`MigRace`: `JobPC.access`)
* Method: every access of a job lies over a source index that the job owns: from its start up to the first
  empty slot behind its block; the ranges of two jobs have at most empty slots in common (`Core.shared`), and
  the property is kept by all steps (`Cert.step`)
* Missing / violated: the claim is false for initialisations: `C63_initialisations_race` gives the race for
  every table with an empty slot in the second block; torn marks (C24) are excluded
* Theorems: `C63_slots_have_one_user_partial` (pqc), `C63_initialisations_race` (pqc)

### C64 Table objects may be moved - partial

* Modelled: objects, slot arrays and heap blocks; constructors, move operations and destructors of
  `base_linear` (with the default mapper of moved-from objects), of `seq_linear` (implicit) and of
  `TSXCircular` (`TabMove`)
* Method: simulation of a specification that only says who has which elements; invariant: every array has
  exactly one owner and every block is in exactly one slot (`Own`, `Blk`)
* Missing / violated: violated: destroying a moved-from table with circular probing and heap slots; move
  assignment of the transactional table to a table that has an array
* Theorems: `TabMove.C64_tables_move_partial` (pqc), `TabMove.C64_linear_probing_moves` (pqc),
  `TabMove.C64_nothing_remains` (pqc), `TabMove.C64_moved_from_destructor_reads_null` (p),
  `TabMove.C64_moved_from_assignment_reads_null` (p), `TabMove.C64_transactional_assignment_wrong_size` (p),
  `TabMove.C64_transactional_self_assignment` (p), `TabMove.C64_not_vacuous` (p),
  `TabMove.C64_not_vacuous_transactional` (p)

### C65 Iteration over the transactional table - partial

* Modelled: `operator++`, `refresh`, `operator*` of `tsx_iterator.hpp`, `begin` of the table (`TsxIter`)
* Method: induction over the search for the next element; contents from C61
* Missing / violated: violated without `refresh()`; iterating while others work on the table is not modelled;
  `erase` of the iterator does not compile when used
* Theorems: `Tsx.C65_positions` (pq), `Tsx.C65_refreshed_iteration_partial` (pqc),
  `Tsx.C65_shows_the_first_element_only` (pq), `Tsx.C65_second_element_never_shown` (pqc),
  `Tsx.C65_not_vacuous` (pqc)

### C66 Key space of the sequential table - proved

* Modelled: the words of `seq_simple_slot.hpp` and all calls of `seq_linear.hpp` on them (`SeqWords`)
* Method: refinement to `SeqTable` call by call, composed with C45
* Theorems: `SeqWords.C66_all_keys_but_zero` (pqc), `SeqWords.C66_key_zero_always_present` (pq),
  `SeqWords.C66_not_vacuous` (p), `SeqWords.C66_zero_not_vacuous` (pqc)

### C67 Heap elements are published after their construction - partial

* Modelled: construction of elements separated from their publication, on top of the models of C38: with a
  store buffer per thread (`TStep`), and with the happens-before relation of the language for a bounded table
  (`PStep`, memory orders as parameters) (`Publish`)
* Method: invariant over the ownership discipline of C38 (`tso_reached`), invariant of who knows which
  construction (`PInv`)
* Missing / violated: violated in the language: relaxed orders.  Only constructions are delayed; reads of the
  mapped value while others update it in place, and the plain stores of `migrate` to the new table (C63), are
  not part of this property
* Theorems: `HeapMem.C67_x86_bounded` (pq), `HeapMem.C67_x86_async` (pq), `HeapMem.C67_x86_sync` (pq),
  `HeapMem.C67_relaxed_is_a_race` (pqc), `HeapMem.C67_release_acquire_is_needed` (pqc),
  `HeapMem.C67_release_acquire_results` (pq), `HeapMem.C67_x86_not_vacuous` (pqc),
  `HeapMem.C67_x86_growing_not_vacuous` (pqc)

### C68 Asynchronous growth: plain writes of a migration happen before the uses of the new table - proved

* Modelled: the protocol of C25 (`Async`) with the happens-before relation of the language: which thread, and
  which value of which atomic variable, carries the knowledge of which plain writes (construction of a table,
  migration of a block); memory orders as parameters (`AsyncHb`)
* Method: invariant over all steps: who needs to know a write knows it (`HInv`); the necessary orders by three
  executions and monotonicity in the orders (`HReach.weaken`)
* Missing / violated: - (the atomic accesses themselves interleave sequentially consistently, as in C25;
  `protect` of the library is taken to acquire)
* Theorems: `Async.C68_async_writes_seen` (pqc), `Async.C68_async_no_writes_left` (pqc),
  `Async.C68_async_orders_needed` (pqc), `Async.C68_async_code` (pqc), `Async.C68_async_not_vacuous` (p)

### C69 Synchronised growth: operations happen before the migration, and the migration before later operations
- partial

* Modelled: the protocol of C26-C28 (`Sync`) with the happens-before relation of the language: which thread,
  and which value of which atomic variable, carries the knowledge of which accesses to tables (construction of
  a table, an operation, migration of a block); memory orders as parameters (`SyncHb`)
* Method: invariant over all steps: who needs to know an access knows it (`HInv`); the necessary orders by
  five executions and monotonicity in the orders (`HReach.weaken`)
* Missing / violated: destruction of moved-from handles (C28: the protocol fails then); the atomic accesses
  themselves interleave sequentially consistently (C54: with store buffers the exclusion fails)
* Theorems: `Sync.C69_sync_accesses_ordered_partial` (pqc), `Sync.C69_sync_no_accesses_left_partial` (pqc),
  `Sync.C69_sync_orders_needed_partial` (pqc), `Sync.C69_sync_code_partial` (pqc), `Sync.C69_sync_not_vacuous`
  (pq)

### C70 The bounded table is linearizable on machine words - partial

* Modelled: the operations of C02 on key words and mapped values, tested and changed with the bit operations
  of the slot classes (`Words`)
* Method: simulation by the table on cells, step by step (`step_enc`, `sim`); linearizability is carried over
  (`linearizable_words`)
* Missing / violated: violated for the key `2^63` on tables without marks; `Mix` as in C02
* Theorems: `Words.C70_words_linearizable_partial` (pqc), `Words.C70_words_markable` (pqc),
  `Words.C70_words_are_cells` (pqc), `Words.C70_unsafe_partial` (pqc), `Words.C70_key_2_63_lost` (pqc),
  `Words.C70_not_vacuous` (pqc)

### C71 Loads of a slot that are not one access - partial

* Modelled: `Words` with loads that take the halves of a slot one after the other, in any order (`WStep
  false`)
* Method: lazy simulation: a call takes effect when its key half is loaded or when its compare-and-swap
  succeeds; an unsuccessful `erase_if` takes effect at an earlier time of its call, put into the history
  afterwards (`Retro.put`, `access`, `torn_explained`); where shown values come from (`torn_values`)
* Missing / violated: violated for the values shown by `find` and `insert`; `Mix` as in C02
* Theorems: `Words.C71_torn_loads_partial` (pqc), `Words.C71_torn_markable` (pqc), `Words.C71_torn_values`
  (pqc), `Words.C71_torn_find` (pqc), `Words.C71_not_vacuous` (pqc), `Words.C71_erase_if_not_vacuous` (pqc)

### C72 Tables of heap elements are linearizable maps of values - partial

* Modelled: any table of addresses (a labelled transition system) composed with a heap: allocation by the
  caller, access in place to the element found, release of elements that lost the race, accesses through
  pointers obtained earlier (`HeapVal`); instantiated with the bounded (`CStep`), the synchronously
  (`Sync.DStepW`) and the asynchronously growing table (`Async.DStepW`)
* Method: the table is replaced by the ideal map of addresses to which its histories are linearizable
  (`replace`, `ideal_exec`); invariant and one event of the map of values per step (`istep`)
* Missing / violated: growing tables: the executions excluded by C30 and C24.  The access in place is one
  atomic step (the code demands `f.atomic`); successful insertions give an iterator to nothing (finding 2)
* Theorems: `HeapVal.C72_bounded` (pqc), `HeapVal.C72_sync_partial` (pqc), `HeapVal.C72_async_partial` (pqc),
  `HeapVal.C72_bounded_not_vacuous` (pq), `HeapVal.C72_sync_not_vacuous` (pqc),
  `HeapVal.C72_async_not_vacuous` (pqc)

### C73 Calls on the bounded table make progress whatever other threads do - proved

* Modelled: executions of the bounded table (`CStep`) with the moving threads written down (`Progress.Trace`);
  one step is one access to a slot
* Method: account per call: slots passed stay occupied, a failed attempt is paid for by a successful
  modification of another thread since the load (`acc`); calls are numbered to add up the steps (`book`)
* Missing / violated: growing tables (a call may have to wait for the growth); word-level retries (loads in
  two halves, C71)
* Theorems: `Progress.C73_every_execution` (pq), `Progress.C73_never_blocked` (pqc),
  `Progress.C73_lookup_wait_free` (pqc), `Progress.C73_lock_free` (pqc), `Progress.C73_total_work` (pqc),
  `Progress.C73_calls_return` (pqc), `Progress.C73_update_starves` (pqc), `Progress.C73_not_vacuous` (pqc),
  `Progress.C73_more_not_vacuous` (pqc)

### C74 Growing the synchronised table cannot deadlock and loses no table - partial

* Modelled: the protocol `Sync.Step`; `Sync.Run`: executions in which only threads inside operations move;
  `Sync.Others`: executions in which one thread does not move
* Method: invariant `Holds`: every set flag, every growth step and every table belongs to a thread; then one
  lemma per place in the code by induction over flags, blocks and stages
* Missing / violated: executions in which a helper stops between lines 400 and 407 while the table is set to
  null (undefined behaviour, C29); `new` is assumed not to fail; the operations themselves are one step each
  here (C73)
* Theorems: `C74_no_deadlock_partial` (pqc), `C74_quiescence_partial` (pqc), `C74_no_leak` (pqc),
  `C74_growing_blocks` (pqc), `C74_not_vacuous` (pqc), `C74_blocks_not_vacuous` (pq)

### C75 Growing the asynchronous table cannot deadlock - partial

* Modelled: the protocol `Async.Step`; `Async.Run P`: executions in which only the threads in `P` and helpers
  move, and none begins anything new; `Async.Others`: executions in which one thread does not move
* Method: one lemma per place in the code, by induction over the blocks left and the number of helpers; for
  all threads together: first the loads of the current epoch, then the epoch, then the other loads, then
  thread by thread; `Kept` of C56 for the tables
* Missing / violated: a thread that waits for an epoch that is over (C26: it waits for ever, so the
  equivalence is exact); the allocation of the new table is assumed not to fail; the operations themselves are
  one step each here (C73)
* Theorems: `Async.C75_no_deadlock_partial` (pqc), `Async.C75_quiescence_partial` (pqc),
  `Async.C75_helper_delays` (pqc), `Async.C75_operation_does_not_delay` (p), `Async.C75_not_vacuous` (p),
  `Async.C75_delays_not_vacuous` (-)

### C76 The wrappers answer like a map - partial

* Modelled: the calls of the five wrappers over a specification of the library tables in which each library
  function is one atomic step: `RStep` (elements that stay in place, references to them), `HStep` (elements
  locked by accessors), `cuckoo` (one library call each), `JStep` (reading and exchanging through a mutator)
* Method: simulations of the ideal map; for folly, the updates that hold a reference to an element take effect
  when another thread erases it; histories that no order explains for the violations
* Missing / violated: what the code violates (see findings 61-66); the libraries themselves, which are not
  part of the repository; `emplace` and the reclamation counter of junction
* Theorems: `Wrap.C76_references_linearizable_partial` (pq), `Wrap.C76_references_content` (pq),
  `Wrap.C76_references_not_vacuous` (p), `Wrap.C76_um_erase_violated` (pq),
  `Wrap.C76_locked_linearizable_partial` (pq), `Wrap.C76_locked_not_vacuous` (p),
  `Wrap.C76_default_key_violated` (pq), `Wrap.C76_cuckoo_partial` (p), `Wrap.C76_cuckoo_violated` (p),
  `Wrap.C76_junction_linearizable_partial` (pq), `Wrap.C76_junction_not_vacuous` (p),
  `Wrap.C76_junction_two_winners` (pq), `Wrap.C76_junction_lost_update` (pqc),
  `Wrap.C76_junction_ignored_violated` (pq), `Wrap.C76_next_power_partial` (pqc),
  `Wrap.C76_next_power_diverges` (pqc), `Wrap.C76_next_cap_partial` (pqc), `Wrap.C76_next_cap_violated` (pqc),
  `Wrap.C76_move_violated` (-)

### C77 Concurrent counting is exact - partial

* Modelled: no new code of the tables: the calls of the earlier models restricted, for one key, to
  `insert_or_update` with `Increment` and `find`; the two loops of the benchmark with its 32-bit and 64-bit
  sums
* Method: an invariant over histories with linearization points: additions returned <= additions that took
  effect <= additions called, and the abstract map holds exactly the additions that took effect; a cut of the
  history at the call and at the return of a look-up gives both bounds
* Missing / violated: what the theorems used leave out; wrappers around libcuckoo and junction; that the keys
  of the benchmark lie between 1 and n is a hypothesis
* Theorems: `Agg.C77_bounded` (pqc), `Agg.C77_bounded_not_vacuous` (pq), `Agg.C77_sync_partial` (pqc),
  `Agg.C77_sync_not_vacuous` (pq), `Agg.C77_async_partial` (pqc), `Agg.C77_async_not_vacuous` (pq),
  `Agg.C77_words` (pqc), `Agg.C77_heap_bounded` (pqc), `Agg.C77_heap_sync_partial` (pqc),
  `Agg.C77_heap_async_partial` (pqc), `Agg.C77_tsx` (pqc), `Agg.C77_locked_partial` (pqc),
  `Agg.C77_references` (pqc), `Agg.C77_benchmark_bounded` (pqc), `Agg.C77_benchmark_sync_partial` (pqc),
  `Agg.C77_benchmark_async_partial` (pqc), `Agg.C77_benchmark_wraps` (p)

### C78 Insertions and erasures of a key alternate - partial

* Modelled: no new code of the tables: for each call, which key it may insert or erase and when it says that
  it has done so
* Method: every sequential map keeps the books: present = insertions minus erasures that took effect; the
  bounds on returned and called operations around the cut of a history as in C77
* Missing / violated: what the theorems used leave out
* Theorems: `Agg.C78_bounded` (pqc), `Agg.C78_sync_partial` (pqc), `Agg.C78_async_partial` (pqc),
  `Agg.C78_words` (pqc), `Agg.C78_tsx` (pqc), `Agg.C78_heap_bounded` (pqc), `Agg.C78_heap_sync_partial` (pqc),
  `Agg.C78_heap_async_partial` (pqc), `Agg.C78_locked_partial` (pqc), `Agg.C79_bounded_not_vacuous` (pqc),
  `Agg.C79_sync_not_vacuous` (pqc), `Agg.C79_async_not_vacuous` (pqc)

### C79 Calls on a key that do not overlap behave sequentially - partial

* Modelled: no new code of the tables; the loops of the insertion and deletion benchmarks with their buffers
  as lists of calls per thread
* Method: every sequential map is local: a call depends on and changes its key only; hence linearizability
  restricts to the events of one key; calls that do not overlap take effect in the order in which they are
  made; induction over the sliding window for the calls on a key
* Missing / violated: what the theorems used leave out; tables of fixed size may refuse insertions, so the
  benchmarks are shown for growing tables
* Theorems: `Agg.C79_bounded` (pqc), `Agg.C79_sync_partial` (pqc), `Agg.C79_async_partial` (pqc),
  `Agg.C79_words` (pqc), `Agg.C79_tsx` (pqc), `Agg.C79_heap_bounded` (pqc), `Agg.C79_heap_sync_partial` (pqc),
  `Agg.C79_heap_async_partial` (pqc), `Agg.C79_locked_partial` (pqc), `Agg.C79_bounded_not_vacuous` (pqc),
  `Agg.C79_sync_window_partial` (pqc), `Agg.C79_sync_not_vacuous` (pqc), `Agg.C79_async_window_partial` (pqc),
  `Agg.C79_async_not_vacuous` (pqc), `Agg.C79_buffers` (pq)

### C80 What all calls keep true of the values of a key is true of every value shown - partial

* Modelled: no new code of the tables; `Overwrite`, the loops of the benchmark with contention and its check
* Method: an invariant of the sequential map carried along the linearization
* Missing / violated: what the theorems used leave out; that the keys of the benchmark lie between 1 and n is
  a hypothesis (the generator is not part of the repository)
* Theorems: `Agg.C80_bounded` (pqc), `Agg.C80_sync_partial` (pqc), `Agg.C80_async_partial` (pqc),
  `Agg.C80_words` (pqc), `Agg.C80_tsx` (pqc), `Agg.C80_heap_bounded` (pqc), `Agg.C80_heap_sync_partial` (pqc),
  `Agg.C80_heap_async_partial` (pqc), `Agg.C80_locked_partial` (pq), `Agg.C80_sync_contention_partial` (pqc),
  `Agg.C80_async_contention_partial` (pqc), `Agg.C80_check` (pqc), `Agg.C80_sync_false_error` (pqc),
  `Agg.C80_async_false_error` (pqc)

### C81 The table with transactions makes progress even if no transaction commits - proved

* Modelled: executions of the table with transactions (`Tsx.Step`) with the moving threads written down
  (`Tsx.Progress.Trace`); a commit is one step, an abort is one step
* Method: as for C73: account per call, calls are numbered to add up the steps; for the transaction induction
  over the distance to the empty slot
* Missing / violated: a migration under way; the number of accesses inside an aborted transaction
* Theorems: `Tsx.Progress.C81_every_execution` (pq), `Tsx.Progress.C81_never_blocked` (pq),
  `Tsx.Progress.C81_transaction_bounded` (pqc), `Tsx.Progress.C81_one_commit` (pqc),
  `Tsx.Progress.C81_lookup_wait_free` (pqc), `Tsx.Progress.C81_lock_free` (pqc), `Tsx.Progress.C81_total_work`
  (pqc), `Tsx.Progress.C81_calls_return` (pqc), `Tsx.Progress.C81_update_starves` (pqc),
  `Tsx.Progress.C81_not_vacuous` (pqc), `Tsx.Progress.C81_more_not_vacuous` (pqc)

### C82 Answers have reasons - partial

* Modelled: histories of all tables as in C78; `says` reads off a result whether the key is present
* Method: the state at the moment where the call takes effect: what is present has been put in and not taken
  out; counts of returned calls bound from below, counts of calls made bound from above the effects, the own
  call being open
* Missing / violated: as C78: the executions excluded by the linearizability theorems of the growing tables
* Theorems: `Agg.C82_bounded` (pqc), `Agg.C82_sync_partial` (pqc), `Agg.C82_async_partial` (pqc),
  `Agg.C82_words` (pqc), `Agg.C82_tsx` (pqc), `Agg.C82_heap_bounded` (pqc), `Agg.C82_heap_sync_partial` (pqc),
  `Agg.C82_heap_async_partial` (pqc), `Agg.C82_locked_partial` (pqc), `Agg.C82_bounded_says` (p),
  `Agg.C83_sync_not_vacuous` (pqc), `Agg.C83_async_not_vacuous` (pq)

### C83 The mixed benchmark counts no error - partial

* Modelled: `generate_reads`, the calls and checks of `prefill` and `mixed_test` (`pick`, `genRead`,
  `mixCall`, `mixErr`); the random numbers are arbitrary
* Method: C82 (an insertion can only fail because of another insertion of the key), C80 (values), induction
  over the tries
* Missing / violated: random keys that collide; tables that do not grow
* Theorems: `Agg.C83_reads` (pqc), `Agg.C83_reads_outside` (pq), `Agg.C83_sync_partial` (pqc),
  `Agg.C83_async_partial` (pqc), `Agg.C83_sync_not_vacuous` (pqc), `Agg.C83_async_not_vacuous` (pq)

### C84 The word count benchmark counts every word once - partial

* Modelled: `push_file`: stream position, extraction of a word, the skipped word, the loop over a block
  (`extract`, `blockStart`, `readLoop`); strings are keys via any function that keeps the pushed words apart
* Method: induction over the blocks: what the blocks before have pushed, followed by the words from the
  position where the next block begins, are the words of the file; then C77 and C78 for the table
* Missing / violated: the executions excluded by C72; `words` and `uniques` are 32-bit counters, not modelled
* Theorems: `Text.C84_blocks` (pqc), `Text.C84_ends` (pqc), `Text.C84_blocks_not_vacuous` (-),
  `Text.C84_word_too_many` (-), `Text.C84_sync_partial` (pqc), `Text.C84_async_partial` (pqc),
  `Text.C84_sync_not_vacuous` (pqc), `Text.C84_async_not_vacuous` (pq), `Text.text_run` (p)

### C85 Iterating over a growing table at rest, and the parallel sums of the example - partial

* Modelled: the loops of `static_load` and `dynamic_blockwise_load` on 64-bit words; the order in which
  threads call `fetch_add` is arbitrary; the range iterators of `Iter`; the table at rest is the one of the
  growing models
* Method: sums over slot segments; the invariants behind C30 and C24 give the contents of the current table
* Missing / violated: the executions excluded by C30 and C24; the rounding of `double` in `work_load`;
  iteration while the table is modified or grows (C41, C42)
* Theorems: `RangeSum.C85_static` (pq), `RangeSum.C85_work_load` (pq), `RangeSum.C85_dynamic` (pqc),
  `RangeSum.C85_keys` (pq), `RangeSum.C85_sync_partial` (pqc), `RangeSum.C85_async_partial` (pqc),
  `RangeSum.C85_example_sync_partial` (pqc), `RangeSum.C85_example_async_partial` (pqc),
  `RangeSum.C85_sync_not_vacuous` (pqc), `RangeSum.C85_async_not_vacuous` (pqc), `RangeSum.C85_second_run` (p)

### C86 An element on the heap is never taken for a tombstone - partial

* Modelled: `kept`, `keptFrom`: which packed words iterators and the migration treat as elements, without
  concurrent access
* Method: the word of an element as a number; induction over the slots
* Missing / violated: the address 2^32 with fingerprint 0, where it is false
* Theorems: `Heap.C86_tombstone_iff` (pqc), `Heap.C86_kept_partial` (pqc), `Heap.C86_elements_partial` (pqc),
  `Heap.C86_invisible` (pqc), `Heap.C86_not_vacuous` (pqc)

### C87 The table with transactions suffices for the elements it was made for - partial

* Modelled: `compute_size` on 32 bits (`computeSize`); the executions of the model of C61
* Method: the loop of C14; invariant: at most as many slots are in use as insertions have reported success;
  then C81
* Missing / violated: requests above 2^30, where it is false; other values of the template parameter `MiSt`
* Theorems: `Tsx.Progress.C87_capacity_partial` (pqc), `Tsx.Progress.C87_diverges` (pqc),
  `Tsx.Progress.C87_room` (pqc), `Tsx.Progress.C87_made_for` (pqc), `Tsx.Progress.C87_not_vacuous` (pqc)

### C88 The sequential table stays proportional to the number of elements - partial

* Modelled: the sequential table of C45 (`SeqTable`), its counter `n` and the growth in `insert`,
  `insertOrUpdate`
* Method: invariant: without `erase` the counter is the number of keys of the ideal map; growth only when the
  counter exceeds 0.666 of the slots. Violation by induction over the rounds
* Missing / violated: sequences with `erase`, for which it is false; linear probing (the bound there has 1024
  more slots)
* Theorems: `SeqTable.C88_size_partial` (pqc), `SeqTable.C88_erased_keys_count` (pqc),
  `SeqTable.C88_not_vacuous` (pqc)

### C89 The sequential table with linear probing never leaves its allocation - partial

* Modelled: the sequential table of C45 with `cp = false`; an access behind the last slot is the outcome `oob`
* Method: own invariant `GoodL` (slots between home and element are occupied, last slot empty); the last slot
  is empty by counting the keys of the run that would reach it; induction over the calls with all growing.
  Violation by an explicit run for every table of at least 1024 slots
* Missing / violated: sequences that fill the last slot, for which it is false; `erase` (C46)
* Theorems: `SeqTable.C89_linear_probing_partial` (pqc), `SeqTable.C89_few_keys_partial` (pqc),
  `SeqTable.C89_leaves_allocation` (pqc), `SeqTable.C89_not_vacuous` (pqc)

### C90 The latency benchmark counts no error - partial

* Modelled: the keys in 64 bits (`fillKey`, `missKey`), the checks of the three stages (`missErr`, `hitErr`),
  the calls (`LatRun`)
* Method: the keys of `fill` by a multiplicative inverse modulo 2^61; the keys of both stages by a reduced
  basis of the lattice of their collisions; then the counting argument of C79 on the linearizations of C30 and
  C24
* Missing / violated: more than 1648476870 elements, where it is false; the executions excluded by C30 and
  C24; the distribution of the indices (`execute_parallel` is not in the repository)
* Theorems: `Agg.C90_keys` (pqc), `Agg.C90_other_keys` (pqc), `Agg.C90_sync_partial` (pqc),
  `Agg.C90_async_partial` (pqc), `Agg.C90_false_error` (pqc), `Agg.C90_not_vacuous` (pqc)

### C91 The functionality test passes on a correct table - partial

* Modelled: the stages of the test as calls and checks (`script`), the counting of errors (`errors`), on the
  growing table used by one handle (`Calls` of C23)
* Method: each stage changes and checks each key on its own (`stage_runs`, by the locality of the map); the
  contents after every stage are given explicitly (`rest_errors`); for the table via C23 and, for the iterator
  of `insert`, by following the run of `insert_intern`
* Missing / violated: the first stage, where it is false; several threads; `ITERATOR ACCESS` (counts no error)
  is represented by the stores it carries out; the later stages, which add nothing to `errors`; more than
  90000000 elements (C21)
* Theorems: `FunTest.C91_ideal` (pqc), `FunTest.C91_first_stage_fails` (pqc),
  `FunTest.C91_other_stages_partial` (pqc), `FunTest.C91_others_report_success` (pq),
  `FunTest.C91_not_vacuous` (pqc)

### C92 The 32-bit benchmark counts no error on a correct table, even with repeated keys - partial

* Modelled: the insertions and look-ups of the benchmark with arbitrary keys (`InsRun`) and its three checks
  with undefined behaviour as an outcome of its own (`Check`), in 32 bits
* Method: the values of a key are those of the indices with this key (`keepsG`, C80); after the insertions
  every key is there because nothing is erased (`legal_present`, every returned call has had its effect); via
  C30 and C24
* Missing / violated: more than 2^32 indices, where it is false (proved); the executions excluded by C30 and
  C24; the local counters `err` and their sum; that the value read through the iterator of a look-up is read
  twice (it does not change any more)
* Theorems: `Agg.C92_sync_partial` (pqc), `Agg.C92_async_partial` (pqc), `Agg.C92_false_error` (pqc),
  `Agg.C92_lost_undefined` (p), `Agg.C92_not_vacuous` (pqc)

### C93 The insertion benchmark counts exactly the repeated keys - partial

* Modelled: the insertions and look-ups of the benchmark with arbitrary keys (`OnceRun`), its three checks
* Method: every successful insertion adds a key, so successes and different keys are equal in number
  (`legal_count`, induction over the effects); each key has exactly one index whose value it has, a bijection
  between the indices that find themselves and the keys; via C30 and C24
* Missing / violated: the executions excluded by C30 and C24; the local counters `err` have 32 bits, not
  modelled
* Theorems: `Agg.C93_sync_partial` (pqc), `Agg.C93_async_partial` (pqc), `Agg.C93_no_errors` (pqc),
  `Agg.C93_not_vacuous` (pqc)

### C94 The example program reports nothing unexpected - partial

* Modelled: the calls of the two rounds of the program (`ExRun`), the loop that repeats failed updates
  (`UpLoop`), the check (`complains`)
* Method: the content of a key is its number plus 42 for each successful update (`ex_all`, induction over the
  effects); the loop has exactly one successful update of each odd key (`upLoop_count`); via C30 and C24
* Missing / violated: the executions excluded by C30 and C24; that the waiting loops end; the printed mean
* Theorems: `Agg.C94_sync_partial` (pqc), `Agg.C94_async_partial` (pqc), `Agg.C94_loop` (pqc),
  `Agg.C94_not_vacuous` (pqc)

### C95 Calls with the reserved keys - proved

* Modelled: the bounded table on machine words (`Words`), called with the reserved keys
* Method: single steps for every table, whole calls by induction over the probe path (`pass_elements`);
  `C95_find_zero` by induction over executions; the violations by executions of any table, refuted with
  `noLin_seq`
* Missing / violated: nothing of the claim; not covered are the growing tables, where a migration also drops
  an element with the tombstone key (read, not proved)
* Theorems: `Words.C95_find_tombstone` (pqc), `Words.C95_erase_tombstone` (pqc), `Words.C95_insert_tombstone`
  (pqc), `Words.C95_update_tombstone` (pqc), `Words.C95_find_zero` (pqc), `Words.C95_zero_lost` (pqc),
  `Words.C95_calls_succeed` (pqc), `Words.C95_erased_twice` (pqc), `Words.C95_ghost` (pqc),
  `Words.C95_not_vacuous` (pqc), `Words.C95_calls_not_vacuous` (pqc)

### C96 A key with the mark bit blocks its slot - proved

* Modelled: the bounded table on machine words (`Words`) with marks, called with keys that have the mark bit
* Method: invariant over all executions: a thread about to change a slot has seen it without mark
  (`ActsUnmarked`, `blocked_step`), so no access changes a marked key word (`key_stays`); a second invariant
  shows that calls with this first slot are refused (`Refusing`, `refusing_step`)
* Missing / violated: nothing of the claim; not covered are the growing tables, where the refused calls are
  repeated
* Theorems: `Words.C96_blocked` (p), `Words.C96_refused` (p), `Words.C96_marked_key` (pqc),
  `Words.C96_not_erased` (pqc), `Words.C96_not_vacuous` (pqc)

## 4. Findings

Proved means: a theorem in `lean/Verif/Props` exhibits the behaviour in the model.

1. `base_linear.hpp:1171-1192`: behind the end of a block `migrate` goes on after a failed `atomic_mark` with
   the slot content loaded before. An acknowledged insertion is lost (16-byte slots, proved, C24), an element
   is copied twice and survives its erasure (8-byte slots, proved, C24), a heap element is freed twice
   (proved, C38).
2. `base_linear.hpp:580`: the iterator of a successful insert is made from the empty slot (proved, C09, C10).
3. `migration_table.hpp:1084-1131`: growth is triggered only when a counter equals the limit (proved, C33);
   with circular probing the table then fills up and insertion never returns (proved, C23).
4. `base_linear.hpp:58-63`: `compute_capacity` in 32 bits is wrong above 2^30 and does not terminate above
   2^31 (proved, C14).
5. `estrat_*.hpp`: block ends are truncated to 32 bits (proved, C21).
6. `simple_slot.hpp`: key 2^63 is lost on tables without marks; a marked tombstone is not recognised as
   deleted (proved, C34, C41).
7. `estrat_sync.hpp:390-427`: a helper reads the table pointer before it protects the table (proved, C29). The
   exclusion between `get_table` and `grow` is right under sequential consistency; it needs a store-load fence
   that acquire/release does not give: with store buffers an operation runs while elements are copied (proved,
   C54).
8. `seq_linear.hpp:508-538`: erase compares a hash value with a slot number (proved, C46); the element counter
   is not decremented (proved, C88); 309-538: the bound is not checked with linear probing, so that 1025 keys
   with large hash values lead behind the allocation (proved, C89).
9. Iterators: `erase` on growing tables never returns, refresh after erasure computes with a null pointer,
   conditional operations succeed on changed values (proved, C42-C44).
10. `base_linear.hpp` `emplace` of heap slots sets no fingerprint (proved, C37).
11. `estrat_sync.hpp:194-200`: elements of heap slots are leaked at destruction (proved, C38).
12. Circular mapping with linear probing reads uninitialised slots while migrating (proved, C22).
13. `hash_table_mods.hpp`: the query `all` is always true (proved, C49).
14. Value-only compare-and-swap: update and erase interfere (proved, C04, C05, C07).
15. A full circular table: operations on absent keys never return (proved, C12), migration loses everything
   (proved, C17).
16. `wstrat_pool.hpp`: late or spurious wake-ups and a second handle let a thread go on before the migration
   is done; a start-up order deadlocks (proved, C47).
17. `estrat_async.hpp:197-205, 310-319`: an overtaken handle waits for ever (proved, C26).
18. `estrat_sync.hpp:202-226`: the 257th handle gets no flags and no error is reported (proved, C31).
19. `poolallocator.hpp:123-140`: after a failed allocation, or with pool size 1, constructors spin for ever
   (proved, C50).
20. `wstrat_pool.hpp:141-146`: the move constructor of the local data moves `_finished` from itself (proved,
   C57).
21. 303 keys with the same hash value: growing does not help, the insertion never returns (proved, C23).
22. `complex_slot.hpp:166-170`: the tombstone equals a pointer 2^32 with fingerprint 0: an element there is
   found, but iterators skip it and the migration loses it (proved, C86).
23. An iterator of a growing table may carry a marked copy of a slot; a compare-and-swap from such a copy
   succeeds on the old table, and the acknowledged modification is lost (proved, C53).
24. `deletion` without `growable` selects asynchronous migration without marks (proved, C49).
25. Range iterators of growing tables are iterators of a base table that may be reclaimed (proved, C55).
26. `element_count_approx` can return a huge number (proved, C32).
27. Moved-from handles of the synchronous strategy clear the flags of the new handle when destroyed (proved,
   C28, C31); an element inserted through the new handle is lost (proved, C30).
28. An asynchronous handle does not unprotect its table when it is destroyed; the table is never reclaimed
   (proved, C56).
29. `base_linear.hpp:405, 422`: `std::bad_alloc();` throws nothing; the following initialisation then writes
   to null.
30. `wstrat_pool.hpp:162-172`: a pool thread gets the address of a local variable and a reference to a handle
   that may be moved.
31. `poolallocator.hpp:153-154`: the converting constructor leaves the pool unset (proved, C50).
32. `base_linear.hpp:453-471`: the move constructor makes a `std::invalid_argument` without throwing it; some
   overloads do not compile when instantiated.
33. `complex_slot.hpp:465-482`: the pointer is published with relaxed order (data race on weak memory).
34. `complex_slot.hpp:489, 531-606`: `atomic_delete` and updates with a functor without `.atomic` do not
   compile.
35. `base_linear.hpp:1123-1136, 1171-1192`: after finding 1 has lost the first elements of a block, the helper
   of that block begins behind them, and their slots of the new table are never initialised. The table is
   published, and operations read these slots (proved, C20).
36. `estrat_async.hpp:162`, `estrat_sync.hpp:240`: a moved handle keeps the reference `_worker_strat` to the
   worker of its source; the thread of the pool keeps references to the source as well (proved, C57). With
   `wstrat_user` the called function uses no member, so the access is undefined but harmless in practice.
37. `seq_linear.hpp:509-538`: `erase` overwrites the word of a heap element without freeing its block (proved,
   C58); it also does not decrement `_n_elem`, so the table grows by insertions of erased keys alone (proved,
   C88).
38. `seq_linear.hpp:569-591` with `seq_complex_slot.hpp`: growing copies every element into a new block and
   frees the old block, although the slots declare `allows_referential_integrity = true` (proved, C59).
39. `seq_linear.hpp:99-109, 230-233`: iterators and `operator[]` take the address of the slot for the address
   of the pair; with heap elements `table[k] = v` overwrites the next slot (proved, C59).
40. `seq_complex_slot.hpp:369-374`: `cleanup` frees the block without running the destructors of key and value
   (leak for keys or values that own memory).
41. `seq_linear.hpp:75-90`: `seq_iterator::operator++` names a member `_t` that does not exist (it does not
   compile when used), and would not move from an occupied slot.
42. `wstrat_pool.hpp:184-187` with `estrat_sync.hpp`: destroying a handle wakes the pool threads of all
   handles; such a thread increments `_user_wait` although nothing was migrated, and the next growth step
   publishes a table of which no slot has been initialised and deletes the old one (proved, C60). A pool
   thread that has just loaded `_table` then accesses the deleted table (proved, C60).
43. `estrat_sync.hpp:400-403`: `migrate` loads `_table` first and `_epoch` afterwards; between the two a
   growth step may begin, and the pool thread returns the epoch of that step as done. It then sleeps through
   the step (deadlock, proved, C60), or counts for the step after it (a table is published unmigrated, proved,
   C60).
44. `tsx_circular.hpp:801-845`: as for the other circular tables, a search for an absent key in a table
   without an empty slot never ends (proved, C61).
45. `tsx_circular.hpp:456-534`: the value shown by `update` depends on whether the transaction committed: the
   return value of the update function, or the value read back from the slot (visible in `Call.meanings`,
   C61).
46. `tsx_circular.hpp:262, 275, 291, 303`: exceptions are constructed but not thrown; `:562`: stray `q` before
   `return`; `:772-778`: `insertOrUpdate_unsafe_intern` passes one argument too few; `tsx_definitions.hpp:1`:
   stray `q`. `:238-243`: `compute_size` uses 32-bit `temp` and does not return for requests above 2^30
   (proved, C87).
47. `tsx_iterator.hpp:188-198`: `operator++` does not refresh the copy of the element; `:219`: the loop
   condition names the member function `isDeleted` without calling it.
48. `tsx_circular.hpp:898-973`: `migrate` has no counterpart of the early return of `base_linear.hpp:1139`:
   the helper of a block without empty slot goes on behind the block and reads slots of the new table that
   nobody has initialised (proved, C62).
49. `tsx_circular.hpp:898-973`: in the loop behind a block a failed mark does not make the helper reload the
   slot before it processes its copy; an insertion committed between load and mark is lost (proved, C62).
50. `tsx_circular.hpp:118-126`: nothing calls `migrate` or uses `currentCopyBlock`; the table never grows.
51. `base_linear.hpp:1144,1177`: the helper of a block and the helper of the next block both initialise the
   slots over the first empty slot behind the block with plain stores: a data race in every migration of at
   least two blocks, formally undefined behaviour, without effect on the contents (proved, C63).
52. `migration_table_iterator.hpp:104-132`: after growth, `compare_exchange` (and assignment) through a
   reference whose element was erased dereferences `end()`: a null pointer (execution proved, C53).  With
   `complex_slot` also `erase_if_unchanged` does so if the key is `key_type()`: `get_key` of an empty copy
   returns that (`complex_slot.hpp:270-279`), so the comparison in lines 366-367 does not notice that nothing
   was found (not modelled).
53. `base_linear.hpp:79, 353-358, 440-471`: a moved-from table with circular probing has a mapper with one
   slot; with heap slots its destructor (and a move assignment to it) reads `_table[0]` through the null
   pointer. This also concerns `seq_linear` with circular probing and heap slots (proved, C64).
54. `tsx_circular.hpp:300-317`: move assignment swaps the arrays but not the capacities: the source releases
   the old array of the target with size 0; self-assignment sets the capacity to 0 (proved, C64).
55. `tsx_iterator.hpp:188-198`: `operator++` does not update the copied pair: iterating shows the first
   element at every position (proved, C65). `erase` (215-229) tests the address of a member function
   (`temp.isDeleted` without call) and does not compile when used.
56. `seq_simple_slot.hpp:177-200` with `seq_linear.hpp:309-538`: in the sequential table the reserved key 0
   always seems to be present (proved, C66); `cas` (273-279) returns the result of a `void` function and does
   not compile when used.
57. `complex_slot.hpp:470, 486`: addresses of elements are published with a relaxed compare-and-swap and
   loaded with relaxed loads: reading the element is a data race in the language (proved, C67); harmless on
   x86 (proved, C67).
58. `simple_slot.hpp:313-322`: `load` uses `_mm_loadu_si128`, which is not guaranteed to be one access. If it
   is not, `find` can show the default value for a key with which no such value was ever stored (proved, C71);
   nothing else goes wrong (proved, C71).
59. On tables without marks the insertion of the key `2^63` (`2^31` for 32 bit keys) succeeds and is lost: the
   key of finding 6, here at the level of calls (proved, C70).
60. `estrat_sync.hpp:473-486`: growing waits for all operations on the old table, and meanwhile no operation
   begins (proved, C74). An update function that uses another handle of the same table therefore waits for
   itself as soon as somebody grows the table.
61. `cuckoo_wrapper.hpp:129-131`: an element with the value 0 is not found. `:165` `update` shows the value 0
   in any case, and an iterator other than `end()` for an absent key; `:181` `insert_or_update` always says
   "inserted"; `:141` a refused `insert` shows the value that was refused (proved, C76).
62. `junction_wrapper.hpp:230-236, 261-266, 293-303`: `getValue` and `exchangeValue` are two steps, so that
   two threads can both be told that they have inserted the same key, and an increment can be lost (proved,
   C76). The value 0 means "absent" there, too.
63. `junction_wrapper.hpp:254-255, 286-287`: an update function that is not declared `junction_compatible` is
   not called; even `insert_or_update` of an absent key does nothing then (proved, C76). `Increment` of
   `example/update_fcts.hpp:29` is one.
64. `stupid_iterator.hpp:37-44`, used by the wrappers around `tbb::concurrent_hash_map`, libcuckoo and
   junction: `end()` is the iterator with the default key, so the answer to a successful insertion of that key
   is `end()` (proved, C76).
65. `tbb_um_wrapper.hpp:187-192`: `erase` does nothing and returns 0 (proved, C76).
66. `junction_wrapper.hpp:31-36`: `nextPowerOf2` has a 32 bit accumulator and does not return above `2^31`, as
   in finding 4; `folly_wrapper.hpp:45-50` gives 0 above `2^62`. Moving a wrapper around folly or libcuckoo
   forgets all elements, as its comment says (proved, C76).
67. `tests/agg_test.cpp:82`: `sum` of `validate_aggregate` is an `unsigned int`, so that `2^32` additions to
   one key give a `SUM_ERROR` although the table is right (proved, C77). `:155-163`: the other threads read
   `valsum` and `errors` without a barrier before the main thread resets them.
68. `tests/con_test.cpp:124`: `temp < 2` counts an error when a key other than 1 shows the value 1, which the
   update with index 0 has written to it; the table is right (proved, C80). `temp > n + 1` lets `temp = n + 1`
   pass, for which `keys[n]` is out of range; a right table does not show that value.
69. `tests/del_test.cpp:135, 176-181`: with a window smaller than the number of threads some buffers are
   empty; each of their threads counts an error for each of its indices, and the keys it inserts are never
   erased, so that the window grows (proved, C79).
70. `tests/mix_test.cpp:82`: if the window (`-win`) exceeds the index, `i - window` wraps around and
   `generate_reads` draws indices outside the array of keys; `:93`: without prefix (`-pre 0`) the bound of the
   "safe" draws is 2^64 - 1 (proved, C83).
71. `tests/text_test.cpp:91-104`: the end of the file is tested before a word is read, not after; if the file
   ends with white space (most do) or is empty, one more "word" is counted: what is left of the string moved
   into the table, or the word skipped at the beginning of the block, so that the last word can be counted
   twice (proved, C84).
72. `example/range_example.cpp:78`: `work_counter` is a static variable that is never reset; a second run of
   `dynamic_blockwise_load` in the same program sums nothing (proved, C85). `:55`: for more than about 2^52
   slots `std::ceil` of the rounded quotient can be too small, the last slots would be left out (not proved).
73. `tests/lat_test.cpp:66-71`: the keys are reduced modulo 2^62, the comparison is not; from 1648476871
   elements on a look-up finds an element inserted for another index and an error is counted although the
   table is right (proved, C90). `:168`: `lat_conig` is not declared, so the file does not compile (not
   modelled).
74. `tests/functionality.cpp:119-123`: the iterator of every successful `insert` shows the empty slot (finding
   of C09), so the stage `+INSERTION` counts an error for each of its n insertions (proved, C91). With several
   threads this can go unnoticed: each thread takes the sum with `errors.exchange(0)` (line 61), so all but
   one print SUCCESSFUL (proved, C91). `:150-155`: `FIND` announces 2n look-ups and does n. `:440-448`:
   `READ[]` computes `err` and drops it. `:339-342, 392-395`: the labels `operator()` and `atomic` are
   exchanged.
75. `tests/fun_test.cpp:78-90`: `insert` counts the successful insertions as errors, so the first stage
   reports an error for every insertion into a correct table (not modelled).
76. `tests/ins32_test.cpp:153-157`: if an inserted key is not found, `find_succ` dereferences `end()` instead
   of counting an error (proved, C92); so a table that loses elements may not be noticed. `:98`: values are
   truncated to 32 bits, so with more than 2^32 indices a correct table gives errors (proved, C92).
77. `tests/ins_test.cpp:90-157`: with repeated random keys the benchmark reports errors on a correct table,
   and exactly how many is determined by the keys (proved, C93); the tests of `ins32_test.cpp` avoid this
   (C92).
78. `base_linear.hpp:556-916`: the reserved keys 0 and 2^63-1 are not rejected. Key 0 is lost after a
   successful insertion, 2^63-1 can be erased again and again, and a look-up of it returns a tombstone
   (proved, C95). `tests/functionality.cpp:502-503` and `tests/handle_stuff_stress_test.cpp:26, 43` draw keys
   from a range that includes 2^63-1.
79. `tests/handle_stuff_stress_test.cpp:25, 125`: the program does not compile (`HASHTYPE` is defined nowhere,
   `id` is not declared); no target builds it.
80. On tables with marks a key with the mark bit is not rejected: its insertion succeeds and blocks its slot
   for ever for all modifying calls of all keys (proved, C96). The handles of the growing tables call
   `help_grow` and try again without end (`migration_table.hpp:623-626`; read, not proved).

## 5. Trusted base

* Lean's kernel (4.33.0).  The axioms of each theorem are given in section 3; only `propext`, `Quot.sound` and
  `Classical.choice` occur.  No own axioms, no `sorry`, no compiler-based evaluation.  Mathlib is not used.
* The transcription of the C++ code into definitions.  Each definition names file and lines.
* Sequential consistency of all accesses; atomicity of 16-byte loads (except in C71) and compare-and-swaps;
  the layout of bit fields (`complex_slot.hpp`) as laid out by the usual x86-64 compilers, lowest bits first.
* The specifications of what is not in `/repo`: counting reclamation, mark helpers, futex (may wake
  spuriously).
* Counters and `_current_copy_block` do not overflow 64 bits.
* The statements.  For each theorem a concrete case that meets its hypotheses stands beside it (theorems with
  `not_vacuous`, or examples in the same file).

## 6. Tests of the theorems

`seeded/LOG.jsonl` has one line per wrong program: a definition of the model was changed in a scratch copy the
way a programmer might get it wrong, and the proofs were rebuilt.  Each line names the theorems that then
failed and what was tightened in response.
