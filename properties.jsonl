{"id": "C01", "title": "Bounded table behaves like a map (one thread)", "statement": "Every finite sequence of insert, find, update, insert_or_update, erase and erase_if calls on a non-growing table returns exactly what an ideal finite map returns (success flag, size, value seen through the iterator of find/update), apart from an insertion that may be refused with (end(), false) when the table is full, and such a refusal changes nothing.", "quantifier": "all keys, values, update functions, hash functions, table sizes, mapping/probing modes and all finite operation sequences", "why_tests_cant": "infinitely many operation sequences and hash collisions patterns; a test run sees a few", "anchors": ["data-structures/base_linear.hpp: insert_intern, update_intern, insert_or_update_intern, erase_intern, erase_if_intern, find"]}
{"id": "C02", "title": "Bounded table is linearizable", "statement": "For any number of threads calling insert/find/update/update_with_backoff/insert_or_update/erase/erase_if concurrently on a non-growing table, every history is equivalent to one in which each call takes effect atomically at one instant between its invocation and its return.", "quantifier": "all thread counts, all operation mixes, all interleavings of the single loads and compare-and-swaps", "why_tests_cant": "the number of interleavings is unbounded; a stress test samples a vanishing fraction and cannot decide linearizability", "anchors": ["data-structures/base_linear.hpp: insert_intern, update_intern, erase_intern, find", "data-structures/element_types/simple_slot.hpp: cas, atomic_update, atomic_delete"]}
{"id": "C03", "title": "At most one concurrent insert of a key wins", "statement": "At every moment of every concurrent execution, for every key, (number of insertions of that key that reported true) minus (number of erasures of that key that reported 1) is 0 or 1, and it is 1 exactly when a find would see the key.", "quantifier": "all keys, thread counts and interleavings, counting calls at the instant they take effect", "why_tests_cant": "a duplicate appears only in a rare race window between two probes", "anchors": ["data-structures/base_linear.hpp: insert_intern, insert_or_update_intern, erase_intern"]}
{"id": "C04", "title": "No lost updates", "statement": "Whenever an update call reports success, the new value of the element is the update function applied to the value the element had at that instant; n successful increments by arbitrary threads raise the value by exactly their sum as long as the key is not erased.", "quantifier": "all update functions, thread counts, interleavings", "why_tests_cant": "a lost update requires a precise interleaving between read and compare-and-swap", "anchors": ["data-structures/base_linear.hpp: update_intern, insert_or_update_intern", "data-structures/element_types/simple_slot.hpp: atomic_update, _atomic_helper_type::execute"]}
{"id": "C05", "title": "Update and erase do not interfere on tables without marking", "statement": "On a table whose slots are not markable (non-growing and synchronously growing tables), an update that reports success and a concurrent erase/erase_if of the same key that reports success can be ordered so that both results are explained by an ideal map.", "quantifier": "all interleavings of update with erase and erase_if on one key", "why_tests_cant": "needs a deletion exactly between the read of the slot and the half-word compare-and-swap", "anchors": ["data-structures/element_types/simple_slot.hpp: _atomic_helper_type::execute, atomic_update", "data-structures/base_linear.hpp: erase_if_intern"]}
{"id": "C06", "title": "Conditional erase removes only the expected value", "statement": "erase_if(k,d) returns 1 only if at the instant of removal k was mapped to d, and it never removes an element whose value differs from d; it returns 0 only if k was absent or had another value at some instant during the call.", "quantifier": "all keys, values and interleavings with concurrent updates", "why_tests_cant": "the value may change between comparison and deletion in any schedule", "anchors": ["data-structures/base_linear.hpp: erase_if_intern, erase_if", "data-structures/migration_table.hpp: erase_if"]}
{"id": "C07", "title": "insert_or_update reports which branch happened", "statement": "insert_or_update(k,d,f) returns true iff the key was absent and is now mapped to d, and false iff it was present with some w and is now mapped to f(w); the iterator shows d respectively f(w). insert_or_assign is the special case in which f yields d.", "quantifier": "all keys, data, functions, states and interleavings", "why_tests_cant": "both branches race with concurrent insertions, updates and erasures", "anchors": ["data-structures/base_linear.hpp: insert_or_update_intern, insert_or_update, insert_or_assign", "data-structures/migration_table.hpp: insert_or_update_intern"]}
{"id": "C08", "title": "update_with_backoff gives up only when told", "statement": "update_with_backoff changes nothing when it reports false; it reports false only if the key was absent or the backoff callback answered false after a failed attempt; if the callback always answers true it behaves exactly like update.", "quantifier": "all callbacks, functions, interleavings", "why_tests_cant": "the callback fires only under contention, in schedule dependent numbers", "anchors": ["data-structures/base_linear.hpp: update_with_backoff_intern"]}
{"id": "C09", "title": "The iterator returned by a successful insert shows the inserted element", "statement": "After insert(k,d) reported true the returned iterator can be dereferenced and shows key k and value d.", "quantifier": "all keys, values, table states and slot kinds", "why_tests_cant": "the property is about every state and slot kind; the shipped test only prints a count", "anchors": ["data-structures/base_linear.hpp: insert_intern, make_insert_ret", "data-structures/base_linear_iterator.hpp: operator*", "README.org: insert"]}
{"id": "C10", "title": "Assignment through operator[] stores the value", "statement": "After handle[k] = v (no concurrent access to k) find(k) shows v, whether or not k was present before.", "quantifier": "all keys, values, states, slot kinds (markable, not markable, heap allocated)", "why_tests_cant": "depends on the snapshot carried by an iterator for every possible state", "anchors": ["data-structures/migration_table.hpp: operator[]", "data-structures/base_linear_iterator.hpp: base_linear_mapped_reference::operator=", "data-structures/element_types/simple_slot.hpp: atomic_update"]}
{"id": "C11", "title": "Probing never leaves the allocated slots", "statement": "With the default (linear) probing no find, insert, update, erase or migration ever reads or writes a slot outside the allocation, and every operation on a quiescent table terminates, for every history of operations and growth steps.", "quantifier": "all histories, hash functions and table sizes", "why_tests_cant": "an out of bounds probe needs hundreds of keys colliding at the end of the table", "anchors": ["data-structures/base_linear.hpp: insert_intern (addressable_slots()+300), lp_buffer, total_slots"]}
{"id": "C12", "title": "Circular probing terminates while a slot is free", "statement": "With circular probing every operation terminates as long as at least one slot is empty.", "quantifier": "all table contents with at least one empty slot, all keys and hash functions", "why_tests_cant": "termination over all contents cannot be sampled", "anchors": ["data-structures/base_linear.hpp: remap, insert_intern, find"]}
{"id": "C13", "title": "Insertion is refused only when the table is really crowded", "statement": "A bounded default table refuses an insertion only if at least 302 slots are occupied in one contiguous run reaching past the end of the addressable part; a refused insertion leaves the table unchanged and the key absent.", "quantifier": "all states and keys", "why_tests_cant": "needs all crowded configurations", "anchors": ["data-structures/base_linear.hpp: insert_intern, UNSUCCESS_FULL"]}
{"id": "C14", "title": "The constructor provides the requested capacity", "statement": "A table constructed for n elements has a power of two number of addressable slots that is at least 2n and at least 512.", "quantifier": "all requested sizes n", "why_tests_cant": "all 2^64 arguments; the failing ones need more memory than a test machine has", "anchors": ["data-structures/base_linear.hpp: compute_capacity, mapper_type"]}
{"id": "C15", "title": "Hash mapping is in range and compatible with growth", "statement": "Every 64-bit hash value is mapped to an addressable slot; after doubling, the home slot of every key is one of the two slots derived from its old home slot; after a same-size migration it is unchanged.", "quantifier": "all 64-bit hash values, all capacities, both mapping modes", "why_tests_cant": "2^64 hash values times all capacities", "anchors": ["data-structures/base_linear.hpp: map, remap, compute_right_shift, resize"]}
{"id": "C16", "title": "Growth decision", "statement": "When growth is triggered the new table has twice the addressable slots if the live element estimate exceeds 30 percent of the old ones and the same number otherwise; it never shrinks.", "quantifier": "all counter values and capacities", "why_tests_cant": "floating point comparison over all counter/capacity pairs", "anchors": ["data-structures/base_linear.hpp: mapper_type::resize"]}
{"id": "C17", "title": "Migration preserves the contents exactly", "statement": "Migrating a table yields a table in which find returns for every key exactly what it returned before; every key is stored at most once and is reachable from its home slot.", "quantifier": "all well formed source tables below 2^32 slots (circular probing: with a free slot) in every configuration except circular mapping with linear probing (see C21, C22 for what is excluded), both growth factors, all hash functions, helper counts and schedules", "why_tests_cant": "all table contents, including clusters crossing block and table boundaries", "anchors": ["data-structures/base_linear.hpp: migrate, insert_unsafe, initialize"]}
{"id": "C18", "title": "Deleted elements are reclaimed by migration", "statement": "After a migration the number of occupied slots equals the number of live elements; no tombstone is carried over.", "quantifier": "all source tables; tables below 2^32 slots and every configuration except circular mapping with linear probing (see C21, C22 for what is excluded)", "why_tests_cant": "ranges over all deletion histories", "anchors": ["data-structures/base_linear.hpp: migrate", "README.org: erase"]}
{"id": "C19", "title": "Parallel migration is independent of scheduling", "statement": "When the source is not modified, any number of helpers that claim blocks and migrate them concurrently in any interleaving produce, once all blocks are done, a table with exactly the contents of the source.", "quantifier": "all helper counts, block assignments, interleavings of their steps, source contents; tables below 2^32 slots and every configuration except circular mapping with linear probing (see C21, C22 for what is excluded)", "why_tests_cant": "block border races depend on the schedule and on clusters crossing borders", "anchors": ["data-structures/base_linear.hpp: migrate, initialize, insert_unsafe", "data-structures/strategies/estrat_async.hpp: blockwise_migrate", "data-structures/strategies/estrat_sync.hpp: blockwise_migrate"]}
{"id": "C20", "title": "No uninitialised slot is ever read", "statement": "A freshly allocated growth target is uninitialised memory; every slot is initialised before it is first read by the migration, and all slots are initialised when the table is published.", "quantifier": "all sources, growth factors, helper schedules; tables below 2^32 slots and every configuration except circular mapping with linear probing (see C21, C22 for what is excluded)", "why_tests_cant": "uninitialised memory usually happens to be zero in tests", "anchors": ["data-structures/base_linear.hpp: base_linear(mapper,version), initialize, migrate"]}
{"id": "C21", "title": "Every block is migrated exactly once", "statement": "The blocks handed out to the helpers are pairwise disjoint and cover every addressable slot, for every number of helpers.", "quantifier": "all table sizes, helper counts and schedules", "why_tests_cant": "needs tables with 2^32 or more slots and all schedules", "anchors": ["data-structures/strategies/estrat_async.hpp: blockwise_migrate", "data-structures/strategies/estrat_sync.hpp: blockwise_migrate"]}
{"id": "C22", "title": "All advertised mapping/probing combinations grow safely", "statement": "Growth preserves the contents for each combination of circular_map and circular_prob.", "quantifier": "all four configurations, helper schedules and contents", "why_tests_cant": "the failing schedule needs a stalled helper on the first block", "anchors": ["data-structures/base_linear.hpp: initialize, migrate", "data-structures/hash_table_mods.hpp: hmod"]}
{"id": "C23", "title": "Growing table behaves like an unbounded map (one handle)", "statement": "Every finite sequence of insert/find/update/insert_or_update/erase/erase_if calls through one handle of a growing table returns exactly what an ideal map returns; insertions are never refused, across any number of growth steps.", "quantifier": "all operation sequences of any length, all hash functions", "why_tests_cant": "unbounded sequences with arbitrarily many migrations", "anchors": ["data-structures/migration_table.hpp: insert_intern, update, erase, find, update_numbers", "data-structures/base_linear.hpp: migrate"]}
{"id": "C24", "title": "Asynchronous growth loses no acknowledged operation", "statement": "Concurrent operations through any number of handles of an asynchronously growing table are linearizable with respect to an ideal map, also while the table is being migrated.", "quantifier": "all thread counts, operations, interleavings with migration steps", "why_tests_cant": "needs a race of an insertion with the marking of the first slot after a block border", "anchors": ["data-structures/base_linear.hpp: migrate (overflow loop)", "data-structures/strategies/estrat_async.hpp: grow, help_grow, migrate, end_grow", "data-structures/migration_table.hpp: insert_intern"]}
{"id": "C25", "title": "A new table is published only when completely migrated (async)", "statement": "With user-thread migration, the current table is replaced only after every block of it has been migrated completely; each version has exactly one successor; the versions seen by a handle never decrease.", "quantifier": "all thread counts and interleavings", "why_tests_cant": "depends on helper counters racing with publication", "anchors": ["data-structures/strategies/estrat_async.hpp: migrate, end_grow, grow"]}
{"id": "C26", "title": "Handles come into being and refresh in finite time (async)", "statement": "Creating a handle, or refreshing a handle to the newest table, terminates while other threads keep working.", "quantifier": "all interleavings with concurrent growth", "why_tests_cant": "needs a growth step to complete between two adjacent instructions", "anchors": ["data-structures/strategies/estrat_async.hpp: init, load, get_table"]}
{"id": "C27", "title": "Helpers never touch a reclaimed table (async)", "statement": "A migrating thread accesses only tables that cannot have been reclaimed, also for the successor table it did not protect before.", "quantifier": "all interleavings", "why_tests_cant": "use-after-free windows are schedule dependent", "anchors": ["data-structures/strategies/estrat_async.hpp: migrate, end_grow"]}
{"id": "C28", "title": "Synchronous growth excludes operations (sync)", "statement": "In a synchronously growing table no operation runs on a table while it is being migrated and every operation runs on the current table, in every sequentially consistent interleaving.", "quantifier": "all thread counts, handle registrations and interleavings", "why_tests_cant": "flag protocols fail only in narrow windows", "anchors": ["data-structures/strategies/estrat_sync.hpp: get_table, rls_table, grow, wait_for_table_op"]}
{"id": "C29", "title": "Synchronous growth never touches freed tables", "statement": "No thread accesses a table after it has been deleted.", "quantifier": "all interleavings of operations, helpers and the growing thread", "why_tests_cant": "use-after-free needs a helper preempted between two instructions for a whole growth step", "anchors": ["data-structures/strategies/estrat_sync.hpp: migrate, wait_for_migration, grow"]}
{"id": "C30", "title": "Synchronous growth is linearizable", "statement": "Concurrent operations through any number of handles of a synchronously growing table are linearizable with respect to an ideal map, across any number of growth steps.", "quantifier": "all thread counts, operations and sequentially consistent interleavings", "why_tests_cant": "unbounded interleavings", "anchors": ["data-structures/strategies/estrat_sync.hpp: get_table, grow, migrate", "data-structures/base_linear.hpp: migrate", "data-structures/migration_table.hpp: insert_intern"]}
{"id": "C31", "title": "Handle registration is unique", "statement": "Two simultaneously living handles of a synchronously growing table never share flags, and every living handle is inspected by a growing thread; exceeding the limit of 256 handles is reported.", "quantifier": "all orders of handle creation/destruction by any threads", "why_tests_cant": "needs concurrent registration in all interleavings and more than 256 handles", "anchors": ["data-structures/strategies/estrat_sync.hpp: register_handle, local_data_type"]}
{"id": "C32", "title": "Element count", "statement": "element_count_approx plus the not yet flushed handle-local differences equals successful insertions minus successful erasures made through the handles, at every moment and across growth; it is exact once all handles are flushed.", "quantifier": "all schedules of operations, flushes, handle moves/destructions and growth steps", "why_tests_cant": "counter updates are split in several atomic steps that interleave with growth", "anchors": ["data-structures/migration_table.hpp: update_numbers, inc_inserted, inc_deleted, element_count_approx, local_count", "data-structures/strategies/estrat_async.hpp: end_grow", "data-structures/strategies/estrat_sync.hpp: grow"]}
{"id": "C33", "title": "Growth is triggered when the fill limit is crossed", "statement": "Whenever the flushed number of occupied slots exceeds the fill limit of the current table, growth has been triggered for it.", "quantifier": "all sequences of flushes by all handles", "why_tests_cant": "fails only when a flush lands exactly on the limit", "anchors": ["data-structures/migration_table.hpp: update_numbers"]}
{"id": "C34", "title": "Key space", "statement": "Every key except the documented reserved ones can be stored and found again: all keys but 0 and 2^63-1 below 2^63 in marking tables, all keys but 0 and 2^63-1 in non-marking ones.", "quantifier": "all 2^64 keys", "why_tests_cant": "2^64 keys; only one of them fails", "anchors": ["data-structures/element_types/simple_slot.hpp: is_empty, is_deleted, compare_key", "README.org: uaGrow"]}
{"id": "C35", "title": "Marking a slot does not change its contents", "statement": "Marking sets a slot aside for migration without changing the key, the value or emptiness as seen by find, is recognised by every modifying operation, and every compare-and-swap prepared before the marking fails after it.", "quantifier": "all slot contents, 64/64 and 32/32 bit layouts", "why_tests_cant": "all bit patterns", "anchors": ["data-structures/element_types/simple_slot.hpp: atomic_mark, is_marked, is_empty, compare_key, cas", "data-structures/element_types/single_word_slot.hpp: atomic_mark"]}
{"id": "C36", "title": "Heap slots: packing and fingerprints are faithful", "statement": "Packing pointer, fingerprint and mark into one word and unpacking returns each of them for every pointer below 2^48; a fingerprint mismatch never hides a stored key.", "quantifier": "all pointers, hashes and marks", "why_tests_cant": "2^64 words", "anchors": ["data-structures/element_types/complex_slot.hpp: ptr_splitter, slot_type, compare_key, fingerprint"]}
{"id": "C37", "title": "emplace makes the element findable", "statement": "After a successful emplace of key k, find(k) finds it, for heap allocated elements as well.", "quantifier": "all keys and hash functions", "why_tests_cant": "depends on fingerprint bits of the hash of every key", "anchors": ["data-structures/base_linear.hpp: emplace", "data-structures/element_types/complex_slot.hpp: slot_type(Args&&...), set_fingerprint"]}
{"id": "C38", "title": "Heap allocated elements are freed exactly once", "statement": "Over the life of a table with heap allocated elements every allocated element is freed exactly once, not before it is unreachable, whatever operations succeeded or failed.", "quantifier": "all operation histories incl. failing inserts, updates, growth, destruction; both growth strategies", "why_tests_cant": "leaks and double frees depend on the history", "anchors": ["data-structures/element_types/complex_slot.hpp: cleanup", "data-structures/base_linear.hpp: insert, slot_cleanup, ~base_linear", "data-structures/migration_table.hpp: insert", "data-structures/strategies/estrat_async.hpp: ~global_data_type", "data-structures/strategies/estrat_sync.hpp: ~global_data_type"]}
{"id": "C39", "title": "Iteration visits every element exactly once", "statement": "On a table that is not modified meanwhile, iterating from begin() to end() terminates and yields every stored element exactly once and nothing else.", "quantifier": "all table contents", "why_tests_cant": "all contents, incl. last slot occupied and empty table", "anchors": ["data-structures/base_linear.hpp: begin, end", "data-structures/base_linear_iterator.hpp: operator++"]}
{"id": "C40", "title": "Ranges partition the table", "statement": "Range iterators over consecutive index ranges covering [0, capacity()) together yield every stored element exactly once; a range yields exactly the elements in its slots.", "quantifier": "all contents, all partitions, all range bounds (also beyond the capacity)", "why_tests_cant": "all partitions and contents", "anchors": ["data-structures/base_linear.hpp: range, crange, capacity", "data-structures/base_linear_iterator.hpp: operator++"]}
{"id": "C41", "title": "Iteration never yields erased elements", "statement": "An iterator never presents a key that has been erased before the iterator reached its slot, also while a migration is in progress.", "quantifier": "all states incl. tables being migrated", "why_tests_cant": "needs iteration concurrent to a migration over a tombstone", "anchors": ["data-structures/element_types/simple_slot.hpp: is_deleted, is_marked", "data-structures/base_linear_iterator.hpp: operator++"]}
{"id": "C42", "title": "Iterators survive migration", "statement": "After the table was migrated in the background, incrementing an iterator reaches another element or end(); it never becomes an invalid position.", "quantifier": "all histories between creation and increment, incl. erasure of the current element", "why_tests_cant": "needs a migration and an erasure between two increments", "anchors": ["data-structures/migration_table_iterator.hpp: base_refresh_ptr, operator++", "README.org: iterators"]}
{"id": "C43", "title": "Iterator erase terminates", "statement": "Calling erase() on an iterator to a live element removes it and returns.", "quantifier": "all iterators, also with concurrent changes of the element", "why_tests_cant": "non-termination cannot be observed by a finite test; needs a concurrent change", "anchors": ["data-structures/migration_table_iterator.hpp: erase", "data-structures/base_linear_iterator.hpp: erase"]}
{"id": "C44", "title": "Conditional modifications through iterators act only on the unchanged value", "statement": "erase_if_unchanged() and compare_exchange(v) succeed only if the element still has the value read when the iterator was created (or refreshed by the user).", "quantifier": "all interleavings with updates, erasures and migrations", "why_tests_cant": "needs an update and a migration between creation and use", "anchors": ["data-structures/base_linear_iterator.hpp: erase_if_unchanged, compare_exchange", "data-structures/migration_table_iterator.hpp: erase_if_unchanged, compare_exchange, base_refresh_ptr"]}
{"id": "C45", "title": "Sequential table behaves like a map (without erase)", "statement": "Every sequence of insert/find/update/insert_or_update calls on the sequential table returns what an ideal map returns, across growth.", "quantifier": "all operation sequences, hash functions and sizes (circular probing)", "why_tests_cant": "unbounded sequences", "anchors": ["data-structures/seq_linear.hpp: insert_intern, find, update, insert_or_update_intern, inc_n, grow, migrate"]}
{"id": "C46", "title": "Sequential erase leaves the other keys reachable", "statement": "After erase(k) on the sequential table every other key is found as before, k is not found, and erase returned whether it was present.", "quantifier": "all table contents and hash functions", "why_tests_cant": "depends on all cluster shapes", "anchors": ["data-structures/seq_linear.hpp: erase"]}
{"id": "C47", "title": "Pool worker: a user thread continues only after the migration", "statement": "With the thread-pool worker a thread that requested a migration continues only after the migration finished, and it eventually continues.", "quantifier": "all interleavings of user and pool threads, incl. spurious futex wake-ups and handle creation", "why_tests_cant": "spurious wake-ups and start-up races are not reproducible", "anchors": ["data-structures/strategies/wstrat_pool.hpp: grow_thread_loop, execute_migration", "data-structures/strategies/counting_wait.hpp"]}
{"id": "C48", "title": "Return codes", "statement": "A call reports success exactly for the codes meaning insertion, update or deletion happened; all codes are distinguishable.", "quantifier": "all return codes", "why_tests_cant": "exhaustive statement over the encoding that every caller relies on", "anchors": ["data-structures/returnelement.hpp: ReturnCode, successful"]}
{"id": "C49", "title": "The dispatcher builds a working table for every set of modifiers", "statement": "For every combination of modifiers and key/value sizes the dispatcher chooses a slot kind, worker and exclusion strategy that fit together (asynchronous growth implies markable slots; referential integrity implies stable heap elements) and a query whether all given modifiers are set answers correctly.", "quantifier": "all 2^7 modifier sets and all type sizes", "why_tests_cant": "only a few combinations are instantiated by tests", "anchors": ["data-structures/table_config.hpp: table_config, slot_config", "data-structures/hash_table_mods.hpp: mod_aggregator"]}
{"id": "C50", "title": "Allocators", "statement": "The aligned allocator never computes a wrapped byte size; concurrent first uses of the pool allocator create the pool exactly once and every constructor returns only after the pool is usable.", "quantifier": "all request sizes; all interleavings of constructors", "why_tests_cant": "race on first use; 2^64 sizes", "anchors": ["allocator/alignedallocator.hpp: allocate", "allocator/poolallocator.hpp: init, BasePoolAllocator"]}
{"id": "C51", "title": "Moving a handle keeps the count right", "statement": "Moving a handle transfers its unflushed counts to the new handle exactly once.", "quantifier": "all counter states and sequences of moves, flushes and destructions", "why_tests_cant": "double counting shows only for particular residues", "anchors": ["data-structures/migration_table.hpp: local_count(local_count&&), migration_table_handle(migration_table_handle&&)"]}
{"id": "C52", "title": "Unsafe updates equal atomic updates without concurrency", "statement": "update_unsafe and insert_or_update_unsafe have the same effect and result as update and insert_or_update when no other thread accesses the table.", "quantifier": "all states, keys, functions", "why_tests_cant": "all states", "anchors": ["data-structures/base_linear.hpp: update_unsafe_intern, insert_or_update_unsafe_intern", "data-structures/element_types/simple_slot.hpp: non_atomic_update"]}
{"id": "C53", "title": "Modifications through iterators of an asynchronously growing table are linearizable", "statement": "erase_if_unchanged() and compare_exchange(v), called through iterators and references of an asynchronously growing table concurrently with all other operations and with migration, are linearizable: when they report success the element had, at some instant during the call, the value that the iterator shows, and from then on it is removed or has the new value; when they report failure they change nothing. They access only slots of an existing table.", "quantifier": "all numbers of threads and handles, all call sequences, all sequentially consistent interleavings with operations and migrations, all numbers of growth steps", "why_tests_cant": "the loss needs an iterator taken from a slot that a helper has just marked", "anchors": ["data-structures/migration_table_iterator.hpp: compare_exchange, erase_if_unchanged, base_refresh_ptr", "data-structures/base_linear_iterator.hpp: compare_exchange, erase_if_unchanged", "data-structures/base_linear.hpp: find, migrate"]}
{"id": "C54", "title": "Synchronised growth excludes operations on machines with store buffers", "statement": "With the memory orders that estrat_sync.hpp uses, on a machine whose processors delay plain stores in store buffers (x86, total store order), no thread copies elements out of a table while another thread is inside an operation on a table, and every operation runs on the current table, of which no block has been handed out.", "quantifier": "all numbers of threads and handles, all interleavings of steps and of delayed stores, all numbers of growth steps", "why_tests_cant": "the window between the store to ops_protect and the load of _table is a few nanoseconds, and the damage is a silently lost update", "anchors": ["data-structures/strategies/estrat_sync.hpp: get_table, rls_table, grow, migrate, wait_for_table_op, wait_for_migration"]}
{"id": "C55", "title": "Range iterators of growing tables point into existing memory", "statement": "An iterator returned by range() or crange() of a handle of a growing table points into a table object that exists as long as the iterator is used, whatever other threads do and whatever the handle is used for meanwhile.", "quantifier": "all numbers of threads and handles, all interleavings with operations and growth steps, both growth protocols", "why_tests_cant": "the table must grow between the creation of the iterator and its use, and freed memory usually still holds the old slots", "anchors": ["data-structures/migration_table.hpp: range, crange, execute", "data-structures/base_linear.hpp: range", "data-structures/strategies/estrat_sync.hpp: rls_table, grow", "data-structures/strategies/estrat_async.hpp: load, end_grow"]}
{"id": "C56", "title": "Replaced tables are reclaimed", "statement": "When a growth step is over, the table it replaced, and tables created in vain, are given back: with synchronised growth exactly one table exists whenever no thread is in an operation; with asynchronous growth every table but the current one may be destroyed by the reclamation library once all handles have seen the current table or have been destroyed.", "quantifier": "all numbers of threads and handles, all interleavings, all numbers of growth steps", "why_tests_cant": "leaks are silent, and the asynchronous one needs a handle that is destroyed while it still protects an old table", "anchors": ["data-structures/strategies/estrat_sync.hpp: grow", "data-structures/strategies/estrat_async.hpp: grow, migrate, load, end_grow, local_data_type::deinit"]}
{"id": "C57", "title": "A handle may be moved and its source destroyed", "statement": "After a handle has been moved to a new handle and the source has been destroyed, every operation of the new handle, its destruction, and its thread in the pool access only objects that exist and are initialised.", "quantifier": "all sequences of creating, moving, using and destroying handles, with and without the thread pool", "why_tests_cant": "the dangling reference points into a stack frame or vector buffer that usually still holds the old object", "anchors": ["data-structures/migration_table.hpp: migration_table_handle move constructor and destructor", "data-structures/strategies/estrat_async.hpp: local_data_type", "data-structures/strategies/estrat_sync.hpp: local_data_type move constructor", "data-structures/strategies/wstrat_pool.hpp: local_data_type move constructor, init, deinit"]}
{"id": "C58", "title": "Heap elements of the sequential table are freed exactly once", "statement": "In the sequential table with elements on the heap, every element stored in the table has a memory block of its own, no block is accessed or freed after it has been freed, a failed insertion releases the block it allocated, growing releases the blocks of the old table, and after the destructor no block is allocated.", "quantifier": "all sequences of find, insert, update, insert_or_update and erase calls on a new table, all hash functions, all allocators", "why_tests_cant": "leaks and double frees are silent without a sanitizer, and which calls leak depends on whether keys are present and whether the table grows", "anchors": ["data-structures/element_types/seq_complex_slot.hpp: allocate, slot_type constructors, cleanup, compare_key", "data-structures/seq_linear.hpp: insert, insert_intern, insert_or_update, erase, migrate, grow", "data-structures/base_linear.hpp: slot_cleanup, destructor"]}
{"id": "C59", "title": "References into the sequential table with heap elements stay valid", "statement": "In the sequential table with elements on the heap (which declares referential integrity) the address of an element stays the same as long as the element is in the table, and dereferencing an iterator or the result of operator[] accesses that element.", "quantifier": "all valid tables, all calls, all hash functions, all allocators", "why_tests_cant": "a stale address usually still holds the old bytes, and a write through the iterator damages the neighbouring slot only", "anchors": ["data-structures/element_types/seq_complex_slot.hpp: allows_referential_integrity", "data-structures/seq_linear.hpp: seq_iterator::operator*, operator->, operator[], grow, migrate"]}
{"id": "C60", "title": "Synchronised growth with the thread pool: publication after migration", "statement": "With synchronised growth and the thread-pool worker a new table becomes current, and the old one is deleted, only after every block of the old table has been migrated; no thread accesses a deleted table; and a thread that has called grow publishes the new table eventually.", "quantifier": "all interleavings of user and pool threads, any number of handles that are created and destroyed at any time, any number of growth steps", "why_tests_cant": "the failing executions need a handle destroyed, or a pool thread delayed between two loads, at one instant before a growth step", "anchors": ["data-structures/strategies/estrat_sync.hpp: grow, migrate", "data-structures/strategies/wstrat_pool.hpp: grow_thread_loop, execute_migration, deinit", "data-structures/strategies/counting_wait.hpp"]}
{"id": "C61", "title": "Transactional table without growth is linearizable", "statement": "In every execution of the table with hardware transactions, in which each modification either commits a transaction or aborts and takes the compare-and-swap path, and in which both paths of all operations interleave arbitrarily, the answers are those of an ideal map, the table holds exactly the elements of the ideal map, and no access is out of bounds. A search for an absent key in a table without an empty slot never ends.", "quantifier": "all power-of-two sizes from 2^12, all hash functions, all keys and values, all update functions, any number of threads, all interleavings, any choice of committed and aborted transactions", "why_tests_cant": "which transactions abort depends on the processor, and the mixture of plain stores in transactions with compare-and-swaps outside of them matters only at single instants", "anchors": ["data-structures/tsx_circular.hpp: insert_intern, update_intern, insertOrUpdate_intern, find, erase", "data-structures/tsx_circular.hpp: non_atomic_insert, atomic_insert, non_atomic_update, atomic_update"]}
{"id": "C62", "title": "Migration of the transactional table moves every element once", "statement": "When several helpers migrate the table with hardware transactions block by block while calls may still modify unmarked slots of the old table, then after the last block the new table is completely initialised, unmarked and without tombstones, and it stores exactly the elements of the old table, each once and where a search finds it; no helper reads a slot of the new table that was never written.", "quantifier": "all power-of-two sizes and growth factors, all hash functions, all contents of the old table, any number of helpers, all interleavings with transactions and compare-and-swaps of callers", "why_tests_cant": "a failure needs a block without empty slot or a transaction that commits between two adjacent instructions of a helper", "anchors": ["data-structures/tsx_circular.hpp: migrate, insert_unsave, resize"]}
{"id": "C63", "title": "Helpers of different blocks do not race on the new table", "statement": "While several helpers migrate a table block by block, no slot of the new table is accessed by the helpers of two different blocks if one of these accesses is a write: the plain (non-atomic) accesses with which the new table is initialised and filled need no synchronisation.", "quantifier": "all power-of-two sizes and growth factors, all mappings and hash functions, all contents of the old table, any number of helpers, all interleavings with operations on the old table", "why_tests_cant": "the racing accesses are a few instructions apart and on common hardware the race has no visible effect", "anchors": ["data-structures/base_linear.hpp: migrate, initialize, insert_unsafe", "data-structures/element_types/simple_slot.hpp: non_atomic_set"]}
{"id": "C64", "title": "Table objects may be moved", "statement": "For every program that constructs, fills, move-constructs, move-assigns and destroys table objects without handles: each move hands all elements over to the target, no constructor, assignment or destructor accesses slots through a null pointer, and every slot array and every heap element is released exactly once, arrays with the size they were allocated with.", "quantifier": "all programs over any number of table objects, all sizes and contents, all slot types and probing modes of base_linear/seq_linear, and the transactional table", "why_tests_cant": "programs and lifetimes are unbounded; whether releasing with a wrong size fails depends on the allocator", "anchors": ["data-structures/base_linear.hpp: base_linear(base_linear&&), operator=, ~base_linear, slot_cleanup, mapper_type()", "data-structures/tsx_circular.hpp: TSXCircular(TSXCircular&&), operator=, ~TSXCircular"]}
{"id": "C65", "title": "Iteration over the transactional table", "statement": "The loop from begin() to end() over a transactional table on which nobody else works ends and shows every element exactly once with its value.", "quantifier": "all capacities, hash functions and contents that any concurrent execution without migration can leave", "why_tests_cant": "needs special hardware; contents are unbounded", "anchors": ["data-structures/tsx_iterator.hpp: IteratorTSX::operator++, operator*, refresh", "data-structures/tsx_circular.hpp: begin, end"]}
{"id": "C66", "title": "Key space of the sequential table", "statement": "With slots of two words, the sequential table behaves like a map (without erase) for all keys except the reserved key 0; the keys that are reserved in the concurrent tables are ordinary ones.", "quantifier": "all key words except 0, all operation sequences without erase, all hash functions and sizes (circular probing), across growth", "why_tests_cant": "2^64 keys, unbounded sequences", "anchors": ["data-structures/element_types/seq_simple_slot.hpp: is_empty, compare_key, get_empty", "data-structures/seq_linear.hpp: insert_intern, find, update, insert_or_update_intern, erase"]}
{"id": "C67", "title": "Heap elements are published after their construction", "statement": "A thread that gets the address of an element on the heap from a slot sees the element as it was constructed: the construction happens before every read through that address, also after migrations.", "quantifier": "any number of threads, all interleavings, all calls available for heap slots, all orders in which delayed stores arrive; bounded tables and both growth strategies", "why_tests_cant": "data races show up only on some machines, compilers and schedules; x86 hides them", "anchors": ["data-structures/element_types/complex_slot.hpp: slot_type constructors, atomic_slot_type::load, cas, compare_key", "data-structures/base_linear.hpp: insert_intern, find"]}
{"id": "C68", "title": "Asynchronous growth: plain writes of a migration happen before the uses of the new table", "statement": "The plain writes with which a table is constructed and filled by migrating threads happen before every access of a thread that uses the table, and before every access of a thread that migrates from it; nobody writes to a table with plain writes while it is in use.", "quantifier": "any number of handles and pool threads, any number of growth steps, all interleavings of the atomic accesses, all combinations of memory orders of these accesses", "why_tests_cant": "data races show up only on some machines, compilers and schedules; x86 hides missing orders", "anchors": ["data-structures/strategies/estrat_async.hpp: migrate, end_grow, grow, load, get_table", "data-structures/base_linear.hpp: initialize, insert_unsafe"]}
{"id": "C69", "title": "Synchronised growth: operations happen before the migration, and the migration before later operations", "statement": "All accesses of operations on a table happen before the plain accesses with which it is migrated; the construction of the new table and the migration happen before every operation on the new table; all accesses to a table happen before its deletion.", "quantifier": "any number of handles, any number of growth steps, handles created, moved and destroyed at any time, all interleavings of the atomic accesses, all combinations of memory orders of these accesses", "why_tests_cant": "data races show up only on some machines, compilers and schedules; x86 hides missing orders", "anchors": ["data-structures/strategies/estrat_sync.hpp: local_data_type::init, get_table, rls_table, grow, help_grow, migrate, blockwise_migrate, wait_for_table_op, wait_for_migration"]}
{"id": "C70", "title": "The bounded table is linearizable on machine words", "statement": "The bounded table as instantiated with simple_slot or single_word_slot, operating on key words with mark bit and mapped values, behaves to any number of concurrent callers like an ideal map from keys to values: results, and the key and value shown by returned iterators.", "quantifier": "any number of threads, all interleavings of slot accesses, all calls, all legal keys, all word sizes, tables with and without marks", "why_tests_cant": "bit patterns of reserved keys and marks interact with interleavings; tests sample few keys and schedules", "anchors": ["data-structures/element_types/simple_slot.hpp: is_empty, is_marked, compare_key, get_key, cas, atomic_update", "data-structures/element_types/single_word_slot.hpp: same", "data-structures/base_linear.hpp: insert_intern, find, update_intern, erase_intern"]}
{"id": "C71", "title": "Loads of a slot that are not one access", "statement": "If the 16 bytes of a slot are loaded in two halves (the instruction used is not guaranteed to be one access), every call still behaves like on an ideal map.", "quantifier": "any number of threads, all interleavings of half loads and other accesses, both orders of the halves, all legal keys", "why_tests_cant": "current processors hide torn loads; they depend on the machine", "anchors": ["data-structures/element_types/simple_slot.hpp: atomic_slot_type::load", "data-structures/base_linear.hpp: find, insert_intern"]}
{"id": "C72", "title": "Tables of heap elements are linearizable maps of values", "statement": "With slots that point to heap allocated elements, whose mapped values are read and updated in place (also through iterators and references obtained earlier, by any thread), the table behaves to any number of concurrent callers like an ideal map from keys to values; no freed element is accessed; an address once shown for a key stays its only address; every allocated element is one of the map or belongs to a running insertion.", "quantifier": "any number of threads, all interleavings, all keys, values and atomic update functions, addresses reused after release; tables of fixed size, synchronised and asynchronous growth", "why_tests_cant": "the effect of an update in place is not an access to the table: lost updates and accesses to released elements depend on the interleaving with racing insertions and growth", "anchors": ["data-structures/element_types/complex_slot.hpp: constructors, cleanup, atomic_update, non_atomic_update", "data-structures/base_linear.hpp: insert, update, insert_or_update, find", "data-structures/migration_table.hpp: insert_intern, update_intern, insert_or_update_intern, find", "data-structures/base_linear_iterator.hpp: references"]}
{"id": "C73", "title": "Calls on the bounded table make progress whatever other threads do", "statement": "No call on a bounded table ever waits for another thread. A lookup ends after at most as many steps as the table has slots; any call ends after at most one more than that plus two steps per successful modification by other threads during the call (unsuccessful calls of others cost nothing); all calls together therefore make a bounded number of steps, and in every infinite run of finitely many threads infinitely many calls return. With circular probing this needs an empty slot.", "quantifier": "any number of threads, all interleavings, arbitrary delays and stops of threads, all mixes of calls, all table sizes and geometries", "why_tests_cant": "livelock and waiting for stopped threads need adversarial schedules; tests run with fair ones", "anchors": ["data-structures/base_linear.hpp: find, insert_intern, update_intern, update_with_backoff_intern, insert_or_update_intern, erase_intern, erase_if_intern (retry loops)"]}
{"id": "C74", "title": "Growing the synchronised table cannot deadlock and loses no table", "statement": "With synchronised growth, the waiting loops of get_table, wait_for_table_op, migrate, wait_for_migration and help_grow never wait for something that cannot happen: from every reachable state every thread inside an operation can finish it, and all threads together can come to rest, through steps of threads that are inside operations already; then no flag is set and exactly one table exists. At any time every table in memory is the current one or belongs to the growth step of some thread.", "quantifier": "any number of threads, handles created, moved and destroyed at any time, all interleavings, all sizes", "why_tests_cant": "a deadlock shows up only in rare interleavings of the growing thread, its helpers and late arrivals; a test that passes says nothing about the others", "anchors": ["data-structures/strategies/estrat_sync.hpp: get_table, rls_table, grow, help_grow, migrate, blockwise_migrate, wait_for_table_op, wait_for_migration, register_handle"]}
{"id": "C75", "title": "Growing the asynchronous table cannot deadlock", "statement": "With asynchronous growth, the waiting loops of init, load and end_grow never wait for something that cannot happen: from every reachable state every thread inside an operation can finish it, through its own steps and steps of threads that migrate or have just exchanged the current table, and all threads together can come to rest; then no growth step is pending and every table but the current one has been retired.", "quantifier": "any number of threads and handles, pool threads, all interleavings, all sizes", "why_tests_cant": "a deadlock shows up only in rare interleavings of the publishing thread, its helpers and loading threads; a test that passes says nothing about the others", "anchors": ["data-structures/strategies/estrat_async.hpp: init, load, grow, help_grow, migrate, blockwise_migrate, end_grow"]}
{"id": "C76", "title": "The wrappers answer like a map", "statement": "The wrappers around the tables of other libraries (folly, two of TBB, libcuckoo, junction) give the answers of an ideal map to find, insert, update, insert_or_update and erase, whatever other threads do meanwhile, assuming that each function of the library is atomic; their sizes are computed correctly, and moving a wrapper keeps its elements.", "quantifier": "all keys, values and update functions, any number of threads, all interleavings of the library calls", "why_tests_cant": "the answers depend on the interleaving of several library calls in one operation and on particular keys and values", "anchors": ["wrapper/folly_wrapper.hpp", "wrapper/tbb_um_wrapper.hpp", "wrapper/tbb_hm_wrapper.hpp", "wrapper/cuckoo_wrapper.hpp", "wrapper/junction_wrapper.hpp", "wrapper/stupid_iterator.hpp"]}
{"id": "C77", "title": "Concurrent counting is exact", "statement": "If a key is only changed by insert_or_update with Increment, then a find of this key counts every such addition that returned before the find was called and no addition called after it returned, and after all calls have returned it shows exactly the sum of the successful additions; hence the aggregation benchmark finds valsum plus errors equal to the number of calls.", "quantifier": "all tables (fixed size, synchronised and asynchronous growth, machine words, heap elements, transactions, wrappers), any number of threads, all executions, all other calls on other keys", "why_tests_cant": "a lost addition depends on the interleaving of updates, migrations and insertions of the same key", "anchors": ["tests/agg_test.cpp:66-91", "example/update_fcts.hpp:11-26", "data-structures/base_linear.hpp"]}
{"id": "C78", "title": "Insertions and erasures of a key alternate", "statement": "At any time at most one insertion of a key more has been reported successful than erasures of it have been called, and no more erasures have been reported successful than insertions have been called; a find that sees the key implies a successful insertion beyond the erasures that have returned, a find that does not see it implies that all successful insertions may have been erased; after all calls have returned, a find sees the key if and only if one insertion more than erasures has been successful.", "quantifier": "all tables (fixed size, synchronised and asynchronous growth, machine words, heap elements, transactions, locked wrapper), all keys, any number of threads, all executions", "why_tests_cant": "two successful insertions or erasures of the same element need a particular interleaving of calls, tombstones and migrations", "anchors": ["data-structures/base_linear.hpp:918-1064", "data-structures/migration_table.hpp:590-1000", "data-structures/returnelement.hpp"]}
{"id": "C79", "title": "Calls on a key that do not overlap behave sequentially", "statement": "The calls on a key that do not overlap each other return what the same calls would return one after the other on an empty map, whatever other threads do to other keys at the same time; in particular the calls on a key used by one thread only. Hence the insertion benchmark and the sliding window of the deletion benchmark count no error with distinct keys, and validation finds exactly the keys in the windows.", "quantifier": "all tables, all keys, any number of threads, all executions; all sets of distinct keys and all distributions of indices to threads", "why_tests_cant": "calls on other keys share probe sequences, blocks and migrations; which of them interfere depends on the schedule", "anchors": ["tests/ins_test.cpp:90-160", "tests/del_test.cpp:139-205", "data-structures/base_linear.hpp"]}
{"id": "C80", "title": "What all calls keep true of the values of a key is true of every value shown", "statement": "If a predicate holds for every value inserted under a key and every update of this key keeps it, then it holds for every value a find of the key shows. Hence the benchmark with contention finds, for every key, the inserted value or a value that an update has written to this key, and all its updates are successful.", "quantifier": "all predicates, all keys, all tables, any number of threads, all executions", "why_tests_cant": "values made up of two updates, values of other keys and values from freed tables appear only under rare interleavings", "anchors": ["tests/con_test.cpp:63-132", "example/update_fcts.hpp:32-52", "data-structures/base_linear.hpp"]}
{"id": "C81", "title": "The table with transactions makes progress even if no transaction commits", "statement": "No call waits for another; if some slot is empty, the loop inside a transaction makes at most as many rounds as the table has slots; a lookup makes at most as many steps as the table has slots; every other call makes at most two steps more, and two for every successful modification of another thread during the call; hence all calls together make a bounded number of steps, however many transactions are aborted.", "quantifier": "all table sizes, all hash functions, any number of threads, all executions, all patterns of aborts and commits", "why_tests_cant": "progress is about all schedules; aborts depend on the hardware and cannot be produced at will", "anchors": ["data-structures/tsx_circular.hpp:368-890"]}
{"id": "C82", "title": "Answers have reasons", "statement": "If a call says that a key is present (a successful find, update or erase, an insertion that fails because of the key), then other calls that may insert the key have been made before it returned, at least one more than erasures of the key had returned successfully when it was called. If a call says that a key is absent (a successful insertion, a failed find, update or erase, an insertion refused by a full table), then calls that may erase the key have been made before it returned, at least as many as insertions of the key had returned successfully when it was called.", "quantifier": "all histories of any number of threads, all keys, all calls, on all tables (fixed size, growing, machine words, transactions, heap allocated elements, locked wrapper)", "why_tests_cant": "the relation between one answer and all overlapping calls has to hold for every interleaving", "anchors": ["data-structures/base_linear.hpp:192-243", "data-structures/base_linear.hpp:918-1064", "data-structures/migration_table.hpp:590-1000", "data-structures/tsx_circular.hpp:368-890"]}
{"id": "C83", "title": "The mixed benchmark counts no error", "statement": "On a growing table the mixed benchmark with pairwise different random keys counts no error: every insertion succeeds, every look-up shows nothing or exactly the value inserted for its key, hence never a value above the bound that is checked; a look-up called after the insertion of its key has returned finds it. Generating a look-up ends after at most 101 tries and gives a key that is inserted at a smaller index, provided that there is a prefix and the window does not exceed the index; otherwise the array of keys is accessed outside its bounds.", "quantifier": "all numbers of threads, all schedules, all arrays of keys, all outcomes of the random draws, all prefixes and windows", "why_tests_cant": "the benchmark is itself a test of one schedule and one seed; whether its checks are sound for all schedules needs a proof", "anchors": ["tests/mix_test.cpp:48-150", "data-structures/migration_table.hpp:590-1000"]}
{"id": "C84", "title": "The word count benchmark counts every word once", "statement": "However the file is cut into blocks and however the blocks are distributed over the threads, the words pushed into the table are the words of the file, each once, and one push more if the file is empty or ends with white space. On a growing table with heap allocated elements, when all threads have finished, the number of words is the number of calls, the number of unique words is the number of different words, and a look-up of a word shows how often it was pushed. Every loop ends.", "quantifier": "all files, all definitions of white space, all block sizes, all numbers of threads, all schedules", "why_tests_cant": "the boundaries of the blocks fall on finitely many places in one file; a word cut by a boundary can be lost or counted twice only for particular files", "anchors": ["tests/text_test.cpp:68-149", "data-structures/element_types/complex_slot.hpp:531-606", "data-structures/base_linear.hpp:1010-1064"]}
{"id": "C85", "title": "Iterating over a growing table at rest, and the parallel sums of the example", "statement": "Whenever no growth is under way and the table is then not modified, iterating over a growing table ends and shows exactly the elements left behind by the calls so far, each once. Summing the values in parallel over ranges, distributed statically or by a shared counter, gives the sum of all values on 64-bit words, whatever the number of threads, the block size and the order; in the example this is the expected number.", "quantifier": "all executions of growing tables, all numbers of threads, all block sizes and schedules of the counter", "why_tests_cant": "all contents, all splittings of the slots and all schedules", "anchors": ["example/range_example.cpp:31-95", "data-structures/base_linear.hpp:522-551", "data-structures/migration_table.hpp:430-456"]}
{"id": "C86", "title": "An element on the heap is never taken for a tombstone", "statement": "A word built for an element is treated as an element by iterators and by the migration: iteration shows and the migration copies exactly the elements of the slots, each once.", "quantifier": "all addresses below 2^48, hashes, marks and tables", "why_tests_cant": "one address out of 2^48", "anchors": ["data-structures/element_types/complex_slot.hpp:166-170, 335-339", "data-structures/base_linear.hpp:482-551, 1147-1191", "data-structures/base_linear_iterator.hpp:231-243"]}
{"id": "C87", "title": "The table with transactions suffices for the elements it was made for", "statement": "The constructor of TSXCircular gives a power of two of at least twice the requested number of elements. Up to as many successful insertions as requested there is always an empty slot, so that every lookup ends after at most as many steps as there are slots and every call is lock-free.", "quantifier": "all requested sizes, all executions of any number of threads with any calls", "why_tests_cant": "all sizes and schedules", "anchors": ["data-structures/tsx_circular.hpp:238-266", "data-structures/tsx_circular.hpp:368-890"]}
{"id": "C88", "title": "The sequential table stays proportional to the number of elements", "statement": "A sequential table started with 2^k slots has at most max(2^k, 4 * number of elements) slots (plus the 1024 slots behind the end with linear probing).", "quantifier": "all sequences of calls, hash functions and initial sizes", "why_tests_cant": "all call sequences of any length", "anchors": ["data-structures/seq_linear.hpp:189-203", "data-structures/seq_linear.hpp:309-560"]}
{"id": "C89", "title": "The sequential table with linear probing never leaves its allocation", "statement": "Every sequence of calls on a new sequential table with linear probing (the default) completes without an access outside the allocated slots and returns what an ideal map returns.", "quantifier": "all sequences of calls, hash functions and initial sizes", "why_tests_cant": "all call sequences and hash functions; the accesses happen only for long runs at the end of the table", "anchors": ["data-structures/seq_linear.hpp:309-538", "data-structures/seq_table_config.hpp:40-60", "data-structures/base_linear.hpp:40-140"]}
{"id": "C90", "title": "The latency benchmark counts no error", "statement": "The keys of the latency benchmark are different and valid; on a correct table all its insertions succeed, its successful look-ups find the inserted value and no error is counted in any of its three stages.", "quantifier": "all numbers of elements and threads, all executions of the growing tables", "why_tests_cant": "all schedules and sizes; the false error needs more than 10^9 elements", "anchors": ["tests/lat_test.cpp:32", "tests/lat_test.cpp:46-89", "tests/lat_test.cpp:116-145"]}
{"id": "C91", "title": "The functionality test passes on a correct table", "statement": "On an ideal map no stage of tests/functionality.cpp counts an error, whatever the number of elements and the distinct keys; and on the growing tables, which behave like such a map, the test reports no error either.", "quantifier": "all numbers of elements, all distinct keys, all hash functions and variants of the growing table used by one thread, across all growth steps", "why_tests_cant": "this is the test: whether its verdict is right for every size, key set and table is a statement about the test", "anchors": ["tests/functionality.cpp:50-70", "tests/functionality.cpp:109-182", "tests/functionality.cpp:184-238", "tests/functionality.cpp:280-429", "data-structures/base_linear.hpp:578-584"]}
{"id": "C92", "title": "The 32-bit benchmark counts no error on a correct table, even with repeated keys", "statement": "In tests/ins32_test.cpp, whatever the random keys (they may repeat), no check of fill, find_unsucc and find_succ counts an error on the growing tables, dereferences end() or reads outside of the key array: a failed insertion shows the value of an index with the same key, every key inserted is found with such a value, and no other key is found.", "quantifier": "all numbers of elements up to 2^32, all keys including repeated ones, all distributions of the indices to threads, all interleavings and growth steps", "why_tests_cant": "the program is the test; which of two insertions of the same key wins depends on the interleaving, and the wrap-around of 32-bit values needs more than 2^32 elements", "anchors": ["tests/ins32_test.cpp:77-89", "tests/ins32_test.cpp:92-116", "tests/ins32_test.cpp:119-142", "tests/ins32_test.cpp:145-168", "tests/ins32_test.cpp:171-240"]}
{"id": "C93", "title": "The insertion benchmark counts exactly the repeated keys", "statement": "In tests/ins_test.cpp, whatever the random keys, the number of errors on the growing tables does not depend on the interleaving: fill and find_succ each count n minus the number of different keys among the first n, find_unsucc counts the indices from n to 2n whose key is among the first n; and all look-ups of a key show the same. In particular fill counts no error if and only if the keys are different.", "quantifier": "all numbers of elements, all keys including repeated ones, all distributions of the indices to threads, all interleavings and growth steps", "why_tests_cant": "the program is the test; that its count is the same in every interleaving, although the winner of an insertion is not, is a statement about all executions", "anchors": ["tests/ins_test.cpp:76-88", "tests/ins_test.cpp:90-114", "tests/ins_test.cpp:117-136", "tests/ins_test.cpp:138-157", "tests/ins_test.cpp:194-222"]}
{"id": "C94", "title": "The example program reports nothing unexpected", "statement": "In example/example.cpp, where one thread inserts the keys from 1 to n while another adds 42 to every odd key below n, trying again until the key is there, and others look up keys, on the growing tables every insertion succeeds, a look-up of the first round shows nothing, the inserted value or, for an odd key below n, the updated one, every key from 1 to n is found in the second round, with 42 added exactly once to the odd keys below n and unchanged otherwise, no other key is found, check_update prints nothing, and operator[] with key 11 refers to 53.", "quantifier": "all n, all interleavings of the threads, any number of failed attempts of the updating thread, across all growth steps", "why_tests_cant": "the program runs one interleaving; that no update is lost or applied twice while the table grows is a statement about all of them", "anchors": ["example/example.cpp:25-37", "example/example.cpp:52-75", "example/example.cpp:80-95", "example/example.cpp:98-129", "example/example.cpp:131-136", "example/example.cpp:165-185"]}
{"id": "C95", "title": "Calls with the reserved keys", "statement": "No operation of the bounded table rejects the reserved keys 0 (empty slot) and 2^63-1 (tombstone). No look-up of key 0 ever finds an element, although inserting it succeeds. A look-up of 2^63-1 that comes to a tombstone reports it as an element, an insertion of it there is refused as if the key were present, an update of it there succeeds on the default value, and erasing it there succeeds and changes nothing. So the table is not linearizable on these keys: key 0 is lost, 2^63-1 can be erased twice after one insertion, and it is found without ever having been inserted if a key with the same first slot, or any element on its probe path, has been erased.", "quantifier": "all tables, hash functions and values; for look-ups of key 0 all executions with any number of threads", "why_tests_cant": "random keys practically never hit one of two reserved values among 2^64; what follows depends on the erased elements on the probe path", "anchors": ["data-structures/element_types/simple_slot.hpp:31, 127-134, 221-250, 347-352", "data-structures/element_types/single_word_slot.hpp: is_empty, is_deleted, compare_key", "data-structures/base_linear.hpp:556-604, 825-851, 887-899", "tests/functionality.cpp:501-508"]}
{"id": "C96", "title": "A key with the mark bit blocks its slot", "statement": "On tables with marks, inserting a key whose word has the mark bit (2^63 or more, 2^31 for 32 bit keys) succeeds, and the slot then looks as if it were being migrated: its key word is never changed again, and every modifying call that comes to the slot, for whichever key, is refused with UNSUCCESS_INVALID for ever. So the inserted key cannot be erased, and legal keys with the same first slot can no longer be inserted, updated or erased.", "quantifier": "all keys with the mark bit, all tables with marks, all executions with any number of threads, also with loads in two halves", "why_tests_cant": "the tests draw keys below 2^63; that a slot stays blocked for ever is a statement about all continuations", "anchors": ["data-structures/element_types/simple_slot.hpp:35, 233-238, 347-365", "data-structures/base_linear.hpp:556-604, 825-851"]}
