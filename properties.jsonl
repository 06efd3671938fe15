{"id": "C01", "title": "Open-addressing containers behave like an abstract map/set", "statement": "Any program over unordered_flat_map/set and unordered_node_map/set objects that uses construct, insert/emplace/try_emplace, insert_or_assign, operator[], at, find/count/contains, erase(key), erase(iterator), erase_if, clear, rehash, reserve, copy, move, swap, merge, extract and operator== returns, at every call, exactly the answer of a plain finite map, and afterwards each container holds exactly the elements of that map. No call has undefined behaviour.", "quantifier": "all lawful hash/equality pairs (any 64-bit hash, including constant ones), all finite sequences of operations on any number of containers, all keys and values", "why_tests_cant": "A test runs finitely many histories with finitely many hash functions; wrong answers depend on the rare coincidence of overflow bits, tombstone-free erasures and rehash points.", "anchors": ["include/boost/unordered/detail/foa/core.hpp: table_core::find, erase, rehash, swap, clear, operator==", "include/boost/unordered/detail/foa/table.hpp: table::emplace_impl, try_emplace, erase, merge, extract, erase_if", "include/boost/unordered/unordered_flat_map.hpp"]}
{"id": "C02", "title": "find never misses a present element", "statement": "After any history, find(k) returns an element equivalent to k whenever the container holds one, and end() otherwise; equally for count, contains, at and operator[].", "quantifier": "all histories of insertions, erasures, clears, copies and rehashes; all keys", "why_tests_cant": "The early exit on the overflow byte is only sound because bits are never cleared while they matter; breaking it needs a specific collision-and-erase history.", "anchors": ["include/boost/unordered/detail/foa/core.hpp: table_core::find, group15::is_not_overflowed, mark_overflow, recover_slot"]}
{"id": "C03", "title": "Keys are unique", "statement": "At no point does a flat/node container hold two elements with equivalent keys, and insert reports 'inserted' exactly when no equivalent element was present.", "quantifier": "all histories, all lawful hash/equality pairs", "why_tests_cant": "needs every history", "anchors": ["include/boost/unordered/detail/foa/table.hpp: table::emplace_impl", "include/boost/unordered/detail/foa/core.hpp: table_core::unchecked_emplace_at"]}
{"id": "C04", "title": "size() is the number of elements, and never exceeds max_load()", "statement": "size() equals the number of elements visited by iteration; size() <= max_load() <= bucket_count(); max_load never wraps below zero on erasure.", "quantifier": "all histories", "why_tests_cant": "The max-load decrement on erasure is unsigned; wrap-around would need adversarial erasure histories that no finite test covers.", "anchors": ["include/boost/unordered/detail/foa/core.hpp: table_core::recover_slot, initial_max_load, size_ctrl"]}
{"id": "C05", "title": "Insertion always terminates with a free slot", "statement": "When size() < max_load() the probe loop of an insertion reaches a group with a free slot after at most bucket-group-count steps; insertion never loops forever and never overwrites a live element or the end marker.", "quantifier": "all tables reachable by any history, all hash values", "why_tests_cant": "Termination is a statement about every reachable configuration.", "anchors": ["include/boost/unordered/detail/foa/core.hpp: nosize_unchecked_emplace_at, pow2_quadratic_prober"]}
{"id": "C06", "title": "Quadratic probing visits every group exactly once", "statement": "Starting anywhere, the prober visits each of the 2^k groups exactly once before it reports exhaustion, for every k.", "quantifier": "all k, all starting positions", "why_tests_cant": "unbounded sizes", "anchors": ["include/boost/unordered/detail/foa/core.hpp: pow2_quadratic_prober::next"]}
{"id": "C07", "title": "Iteration visits each element exactly once", "statement": "Walking from begin() to end() with ++ visits each live element exactly once and nothing else, and terminates; so do cbegin/cend and the range-for of every flat/node container.", "quantifier": "all reachable tables, all sizes", "why_tests_cant": "all configurations of occupied slots, including empty groups and a sparse tail", "anchors": ["include/boost/unordered/detail/foa/table.hpp: table_iterator::increment, table::begin", "include/boost/unordered/detail/foa/core.hpp: match_really_occupied, for_all_elements_while"]}
{"id": "C08", "title": "erase(iterator) removes that element only and continues iteration", "statement": "erase(it) removes the element at it, leaves all others in place, and the iterator it converts to is the one that followed it; the idiom 'while(it!=end) cond? it=erase(it) : ++it' visits every original element exactly once.", "quantifier": "all reachable tables, all iterators, all predicates", "why_tests_cant": "all configurations", "anchors": ["include/boost/unordered/detail/foa/table.hpp: table::erase, table_erase_return_type"]}
{"id": "C09", "title": "erase_if removes exactly the matching elements and returns their number", "statement": "erase_if(c,pred) leaves exactly the elements for which pred is false and returns the number removed.", "quantifier": "all reachable tables, all predicates", "why_tests_cant": "all predicates", "anchors": ["include/boost/unordered/detail/foa/table.hpp: erase_if", "include/boost/unordered/detail/foa/core.hpp: for_all_elements"]}
{"id": "C10", "title": "reserve(n)/construct(n) prevents rehashing for n elements (open addressing)", "statement": "After reserve(n), or construction with capacity n reserved, max_load() >= n, so inserting until size()==n without intervening erasures never reallocates and never moves an element. This includes the float rounding in the code.", "quantifier": "all n up to 2^60 (all that can be allocated), all tables", "why_tests_cant": "The float rounding error grows with n; failures could occur at sizes (> 2^24) no unit test allocates.", "anchors": ["include/boost/unordered/detail/foa/core.hpp: reserve, rehash, capacity_for, initial_max_load, new_arrays_for_growth"]}
{"id": "C11", "title": "Growth always makes room", "statement": "When an insertion finds the container full, the new arrays have max_load > size, so the element fits, and the growth is at least by one; no infinite regress of rehashes.", "quantifier": "all sizes up to 2^60 and all max_load values left by previous erasures", "why_tests_cant": "float rounding at sizes tests cannot reach", "anchors": ["include/boost/unordered/detail/foa/core.hpp: new_arrays_for_growth, unchecked_emplace_with_rehash"]}
{"id": "C12", "title": "Insertion below max_load keeps every element in place; rehash keeps nodes", "statement": "An insertion with size()<max_load() does not move or destroy any other element (references, pointers and iterators stay valid); rehash of node containers keeps node addresses and the multiset of nodes.", "quantifier": "all histories, all elements", "why_tests_cant": "all histories", "anchors": ["include/boost/unordered/detail/foa/core.hpp: unchecked_emplace_at, unchecked_rehash, nosize_transfer_element", "include/boost/unordered/detail/foa/element_type.hpp"]}
{"id": "C13", "title": "SSE2, NEON and portable group metadata agree", "statement": "The three implementations of the 15-slot metadata group answer match, match_available, match_occupied, is_occupied, is_sentinel, is_not_overflowed, maybe_caused_overflow identically after any sequence of set/reset/mark_overflow/set_sentinel, so containers behave the same on every platform.", "quantifier": "all sequences of group operations, all hash values", "why_tests_cant": "2^128 group states; only one implementation is compiled in any test run", "anchors": ["include/boost/unordered/detail/foa/core.hpp: group15 (three specialisations)"]}
{"id": "C14", "title": "Reduced hashes never collide with the markers and keep hash mod 8", "statement": "The one-byte reduced hash of any hash value is never 0 (free) or 1 (end marker) and equals the hash modulo 8, so erasing computes the same overflow bit as the insertion did.", "quantifier": "all 64-bit hash values", "why_tests_cant": "2^64 inputs", "anchors": ["include/boost/unordered/detail/foa/core.hpp: group15::reduced_hash, match_word, maybe_caused_overflow"]}
{"id": "C15", "title": "Hash-to-position arithmetic stays in range and size policy is tight", "statement": "position(hash,index) is below the group count for every 64-bit hash; size_index/size give the least power of two >= max(n,2); capacity after rehash(n) is at least n.", "quantifier": "all 64-bit hashes, all n", "why_tests_cant": "unbounded", "anchors": ["include/boost/unordered/detail/foa/core.hpp: pow2_size_policy, table_arrays::groups_size_for"]}
{"id": "C16", "title": "Array allocation holds all groups and elements, aligned", "statement": "The single buffer allocated for groups and elements is large enough for all elements plus 16-byte-aligned groups, for every element size and every buffer address.", "quantifier": "all sizeof/group counts/addresses", "why_tests_cant": "address and size space unbounded", "anchors": ["include/boost/unordered/detail/foa/core.hpp: table_arrays::buffer_size, new_, delete_"]}
{"id": "C17", "title": "mulx mixing is platform independent", "statement": "The portable 64x64->128 multiplication computes the same result as the native 128-bit one, so hash mixing is identical on all platforms.", "quantifier": "all pairs of 64-bit operands", "why_tests_cant": "2^128 inputs", "anchors": ["include/boost/unordered/detail/mulx.hpp: mulx64, mulx"]}
{"id": "C18", "title": "Closed-addressing bucket position is correct modulo reduction", "statement": "For every hash value and every table size, the bucket position computed through the precomputed reciprocals equals the mathematical remainder of the folded 32-bit hash by the prime (or of the full hash above 2^32), so position < bucket_count(); the portable remainder helper agrees with the 128-bit one.", "quantifier": "all 64-bit hashes x all 38 table sizes", "why_tests_cant": "2^64 x 38 inputs", "anchors": ["include/boost/unordered/detail/prime_fmod.hpp: prime_fmod_size, fast_modulo, get_remainder, position"]}
{"id": "C19", "title": "unordered_map/unordered_set behave like an abstract map", "statement": "Any sequence of insert/emplace/find/erase/clear/rehash/reserve/merge/extract/copy/move/swap operations on unordered_map/unordered_set returns the answers of a plain finite map and keeps its contents.", "quantifier": "all lawful hash/equality pairs, all sequences", "why_tests_cant": "every history", "anchors": ["include/boost/unordered/detail/implementation.hpp: emplace_unique, erase_key_unique, rehash_impl, merge_unique", "include/boost/unordered/detail/fca.hpp"]}
{"id": "C20", "title": "unordered_multimap/multiset behave like an abstract multimap with contiguous groups", "statement": "Any sequence of operations returns the answers of a plain finite multimap; elements with equivalent keys are always adjacent in iteration, so equal_range(k) is exactly the elements equivalent to k; count(k) is their number.", "quantifier": "all lawful hash/equality pairs, all sequences", "why_tests_cant": "every history", "anchors": ["include/boost/unordered/detail/implementation.hpp: emplace_equiv, emplace_hint_equiv, next_group, erase_key_equiv, rehash_impl"]}
{"id": "C21", "title": "Rehash keeps the relative order of equivalent elements (C++ [unord.req])", "statement": "Rehashing a multi container preserves the relative order of equivalent elements.", "quantifier": "all tables, all bucket counts", "why_tests_cant": "Order changes only show for particular rehash sequences.", "anchors": ["include/boost/unordered/detail/implementation.hpp: rehash_impl, transfer_node"]}
{"id": "C22", "title": "Closed-addressing iteration through bucket groups is exact and ++/begin are sound", "statement": "begin()..end() over the grouped bucket array visits each non-empty bucket exactly once, whatever the history of insertions and erasures; local iterators of bucket i visit exactly its elements.", "quantifier": "all histories of insert_node/extract_node/unlink and all bucket counts", "why_tests_cant": "linked-list/bitmask state space unbounded", "anchors": ["include/boost/unordered/detail/fca.hpp: grouped_bucket_array, grouped_bucket_iterator::increment, unlink_bucket, insert_node"]}
{"id": "C23", "title": "load_factor() <= max_load_factor() (closed addressing)", "statement": "After any insertion that completes, size() <= max_load_factor()*bucket_count().", "quantifier": "all histories, sizes and max_load_factor values", "why_tests_cant": "float rounding at sizes tests do not reach; unequal-allocator copy assignment histories", "anchors": ["include/boost/unordered/detail/implementation.hpp: reserve, reserve_for_insert, recalculate_max_load, assign"]}
{"id": "C24", "title": "Comparison of containers is element-set equality", "statement": "operator== on unique containers is true iff both hold equivalent elements; on multi containers iff each equivalence group is a permutation of the other's; it is symmetric and independent of insertion order and bucket count.", "quantifier": "all pairs of containers", "why_tests_cant": "all pairs", "anchors": ["include/boost/unordered/detail/foa/core.hpp: operator==", "include/boost/unordered/detail/implementation.hpp: equals_unique, equals_equiv, group_equals_equiv"]}
{"id": "C25", "title": "Strong exception guarantee for single insertion", "statement": "If allocation, hashing, comparison or construction throws during insertion of one element into a flat/node container, the container's contents are unchanged - also when a rehash is needed, except that hash or move failures during the transfer may lose elements but never duplicate them, corrupt the container or leak.", "quantifier": "all throw points in all operations from all reachable states", "why_tests_cant": "number of throw points x states unbounded", "anchors": ["include/boost/unordered/detail/foa/core.hpp: unchecked_emplace_with_rehash, unchecked_rehash, recover_slot, nosize_transfer_element"]}
{"id": "C26", "title": "Basic exception guarantee for closed-addressing rehash", "statement": "If hashing throws during rehash of unordered_map & co., the container remains valid: size() equals the number of remaining elements, all of which are findable, and no node is leaked or freed twice.", "quantifier": "all throw points, all tables", "why_tests_cant": "all throw points", "anchors": ["include/boost/unordered/detail/implementation.hpp: rehash_impl"]}
{"id": "C27", "title": "Reader-writer spinlock: mutual exclusion and no lost waiters", "statement": "With any number of threads, an exclusive holder excludes all other holders; the reader count is exact; unlock never releases another's lock; whenever nobody holds the lock someone can acquire it, and a pending writer is not overtaken by new readers forever.", "quantifier": "all interleavings of any number of threads (fewer than 2^30 readers)", "why_tests_cant": "interleavings", "anchors": ["include/boost/unordered/detail/foa/rw_spinlock.hpp: rw_spinlock"]}
{"id": "C28", "title": "Container-level locking is deadlock free", "statement": "Threads using single-mutex shared locks, whole-container exclusive locks (locking all mutexes in order) and two-container locks (ordered by address) can never deadlock each other.", "quantifier": "all interleavings, any number of threads and containers", "why_tests_cant": "interleavings", "anchors": ["include/boost/unordered/detail/foa/concurrent_table.hpp: multimutex, scoped_bilock, exclusive_access"]}
{"id": "C29", "title": "Concurrent insertion never creates duplicates", "statement": "In concurrent maps, whatever the interleaving of insertions, visits and erasures, no two live elements have equivalent keys, and of all concurrent insertions of one key at most one succeeds while the element stays.", "quantifier": "all interleavings, any number of threads, any hash function", "why_tests_cant": "interleavings", "anchors": ["include/boost/unordered/detail/foa/concurrent_table.hpp: unprotected_norehash_emplace_and_visit, insert_counter, group_access"]}
{"id": "C30", "title": "Concurrent lookup finds elements that are present throughout", "statement": "A visit(k) of a key whose element is present from before the call starts until after it ends finds it, whatever other threads do (insert, erase others).", "quantifier": "all interleavings of any number of threads in which no insertion is overtaken by 2^32 others through its first group (see C29)", "why_tests_cant": "interleavings", "anchors": ["include/boost/unordered/detail/foa/concurrent_table.hpp: unprotected_internal_visit"]}
{"id": "C31", "title": "Concurrent size control never over-commits", "statement": "However many threads insert concurrently, the number of constructed elements never exceeds max_load, every successful reservation finds a free slot, and when no operation is in flight size() equals the number of elements.", "quantifier": "all interleavings of any number of threads in which no insertion is overtaken by 2^32 others through its first group (see C29)", "why_tests_cant": "interleavings", "anchors": ["include/boost/unordered/detail/foa/concurrent_table.hpp: reserve_size, reserve_slot, atomic_size_control, rehash_if_full"]}
{"id": "C32", "title": "Bulk and whole-table visitation is exact", "statement": "visit(first,last,f) calls f for exactly the keys present, once per requested key occurrence, and returns the number of calls; visit_all/visit_while/erase_if(f) process every element exactly once.", "quantifier": "all key sequences (any length), all tables", "why_tests_cant": "all lengths/chunkings", "anchors": ["include/boost/unordered/detail/foa/concurrent_table.hpp: bulk_visit_size, unprotected_bulk_visit, visit_all, visit_while, erase_if"]}
{"id": "C33", "title": "Serialization round-trips and rejects duplicates", "statement": "Loading an archive saved from any container yields an equal container; loading an archive with two equivalent keys throws bad_archive_exception and never yields a container with duplicates.", "quantifier": "all containers, all archives", "why_tests_cant": "all contents", "anchors": ["include/boost/unordered/detail/serialize_container.hpp", "include/boost/unordered/detail/foa/concurrent_table.hpp: save, load"]}
{"id": "C34", "title": "Node handles own exactly one node or none", "statement": "Through any sequence of extract/insert/move/swap/destroy of node handles, every node is owned by exactly one container or handle and is destroyed exactly once; extract followed by insert restores the container.", "quantifier": "all sequences of handle and container operations", "why_tests_cant": "histories", "anchors": ["include/boost/unordered/detail/foa/node_handle.hpp", "include/boost/unordered/detail/foa/element_type.hpp", "include/boost/unordered/unordered_node_map.hpp: insert(node_type&&), extract"]}
{"id": "C35", "title": "Hash/equality function objects are replaced atomically", "statement": "In closed-addressing containers, exactly one hash/equality pair is active at all times; replacing it either completes or leaves the old pair active when the copy throws.", "quantifier": "all sequences of construct_spare/switch/cleanup and all throw points", "why_tests_cant": "throw points", "anchors": ["include/boost/unordered/detail/implementation.hpp: functions"]}
{"id": "C36", "title": "Memory is returned to the allocator it came from", "statement": "For every sequence of copy/move assignments and swaps with any propagation traits, arrays are deallocated with an allocator equal to the one that allocated them, and never twice.", "quantifier": "all sequences, all propagation-trait combinations", "why_tests_cant": "trait combinations x histories", "anchors": ["include/boost/unordered/detail/foa/core.hpp: table_core::operator=, swap, move constructor"]}
{"id": "C37", "title": "Max-load bookkeeping reflects overflow-causing erasures only", "statement": "max_load() changes only by erasures of elements whose group might have caused overflow (decrement by one each) and is restored by clear/rehash; repeated insert/erase cycles therefore always end in a rehash and cannot degrade probe lengths unboundedly.", "quantifier": "all histories", "why_tests_cant": "histories", "anchors": ["include/boost/unordered/detail/foa/core.hpp: recover_slot, maybe_caused_overflow, clear, unchecked_rehash"]}
{"id": "C38", "title": "xmx mixing loses no information", "statement": "The xmx bit mixer (64-bit and 32-bit) maps distinct hash values to distinct mixed values, so it adds no collisions to the user's hash function.", "quantifier": "all pairs of 64-bit (32-bit) hash values", "why_tests_cant": "2^64 inputs; injectivity is a statement about all pairs", "anchors": ["include/boost/unordered/detail/xmx.hpp: xmx"]}
{"id": "C39", "title": "Bucket interface partitions the container (closed addressing)", "statement": "With at least one bucket, bucket(k) < bucket_count() for every key; bucket n holds exactly the elements whose key maps to it; bucket_size(n) is its length; all buckets together hold every element exactly once, so bucket sizes sum to size().", "quantifier": "all histories of operations, all keys and bucket numbers", "why_tests_cant": "A test can only look at some histories; the partition must hold after every one.", "anchors": ["include/boost/unordered/detail/fca.hpp: grouped_bucket_array::begin(n), position", "include/boost/unordered/detail/implementation.hpp: bucket_size, hash_to_bucket"]}
{"id": "C40", "title": "Closed-addressing erasures remove exactly the designated elements and keep the order of the others", "statement": "erase(it) removes that element, returns the iterator that followed; erase(first,last) removes exactly the range; erase_if(pred) removes exactly the elements satisfying pred and returns their number; the remaining elements keep their iteration order.", "quantifier": "all histories, all positions, ranges and predicates", "why_tests_cant": "The number of shapes of bucket groups and chains is unbounded.", "anchors": ["include/boost/unordered/detail/implementation.hpp: erase_node, erase_nodes_range, erase_if", "include/boost/unordered/detail/fca.hpp: extract_node, unlink_bucket, unlink_group"]}
{"id": "C41", "title": "erase(key) may be given a key stored in the container", "statement": "erase(k) on a multi container works when k is a reference to the key of one of the container's own elements (as std:: containers do, LWG 526): it removes the whole group and never reads a deleted element.", "quantifier": "all histories and all stored elements", "why_tests_cant": "Whether the key is read after its node is freed depends on the position of the element in its bucket; the freed memory usually still holds the old value, so tests pass.", "anchors": ["include/boost/unordered/detail/implementation.hpp: erase_key_equiv_impl"]}
{"id": "C42", "title": "Operations of concurrent containers are linearizable", "statement": "Every visit, insert (and its variants) and erase of a concurrent container takes effect at one instant between its call and its return: at that instant it does to the contents exactly what the sequential specification says and gives the corresponding answer, and nothing else it does changes the contents. Operations on the whole container (rehash, reserve, clear, the insertions and erasures of merge and loading, assignment of an initializer list) take effect at once while no other operation is in progress.", "quantifier": "all interleavings of any number of threads (no insertion overtaken by 2^32 others, see C29), all hash functions, keys and callbacks", "why_tests_cant": "interleavings", "anchors": ["include/boost/unordered/detail/foa/concurrent_table.hpp: unprotected_internal_visit, unprotected_norehash_emplace_and_visit, erase_if, rehash_if_full"]}
{"id": "C43", "title": "Callbacks have the access to the element they ask for", "statement": "While one thread accesses an element for writing (a visit callback taking a non-const reference, construction, destruction or move out), no other thread accesses that element; concurrent accesses are reads.", "quantifier": "all interleavings of any number of threads (see C29)", "why_tests_cant": "interleavings; a data race need not show", "anchors": ["include/boost/unordered/detail/foa/concurrent_table.hpp: access, group_shared, group_exclusive, unprotected_internal_visit, for_all_elements_while"]}
{"id": "C44", "title": "Whole-table passes visit what is there throughout exactly once", "statement": "visit_all, visit_while (if not stopped) and erase_if(f) pass every element that is present from their call to their return to the callback exactly once, whatever other threads insert, erase or visit in the meantime; each step changes the contents only as the callback says; after the callback has said stop (visit_while) it is passed no other element; the answer is the number of elements visited / erased.", "quantifier": "all interleavings of any number of threads (see C29), all callbacks", "why_tests_cant": "interleavings", "anchors": ["include/boost/unordered/detail/foa/concurrent_table.hpp: for_all_elements_while, visit_all_impl, visit_while_impl, erase_if"]}
{"id": "C45", "title": "Concurrent lookups, erasures and passes complete in a bounded number of steps", "statement": "Whatever other threads do, visit/cvisit/contains/count, erase(k)/erase_if(k,p)/extract, and visit_all/visit_while/erase_if(f) return after a number of steps of their own that is bounded by a multiple of the number of groups of the table (besides waiting for a group lock).", "quantifier": "all interleavings of any number of threads, all table sizes and contents", "why_tests_cant": "a test cannot tell a search that is kept going by interfering threads from a slow one, and there are infinitely many schedules", "anchors": ["include/boost/unordered/detail/foa/concurrent_table.hpp: unprotected_internal_visit, for_all_elements_while", "include/boost/unordered/detail/foa/core.hpp: pow2_quadratic_prober"]}
{"id": "C46", "title": "Progress of concurrent insertions", "statement": "If several threads execute insertions and keep moving, some insertion completes. (False of the code: two insertions can invalidate each other's recorded insertion counter for ever. What holds: any operation that is not interfered with completes, from whatever state.)", "quantifier": "all reachable states, all schedules", "why_tests_cant": "a statement about unending runs", "anchors": ["include/boost/unordered/detail/foa/concurrent_table.hpp: unprotected_norehash_emplace_or_visit, emplace_and_visit_impl, reserve_size, reserve_slot"]}
{"id": "C47", "title": "reserve(n) prevents rehashing (closed addressing)", "statement": "After reserve(n) returns, as long as the container never holds more than max(n, size at the call) elements, no insertion rehashes: bucket_count() and the iteration order of the present elements stay as they are.", "quantifier": "all reachable containers, n, max_load_factor values and sequences of later calls", "why_tests_cant": "depends on three float/double roundings (bucket request, stored maximum load, growth test) agreeing for every n and load factor; a counterexample needs a particular load factor and count", "anchors": ["include/boost/unordered/detail/implementation.hpp: reserve, rehash, reserve_for_insert, min_buckets, recalculate_max_load", "include/boost/unordered/detail/fca.hpp: bucket_count_for"]}
{"id": "C48", "title": "Storage of the mutexes of a concurrent container", "statement": "The aligned array that holds a concurrent container's mutexes keeps every element inside its buffer, suitably aligned and on cache lines of its own, constructs each element exactly once and destroys each element exactly once, whatever the address of the container, the element type and the number of elements.", "quantifier": "all addresses, element sizes, array lengths", "why_tests_cant": "depends on the address the container happens to have; the destructor of the actual element type does nothing, so a wrong destructor loop has no visible effect in a test", "anchors": ["include/boost/unordered/detail/foa/concurrent_table.hpp: cache_aligned_array, multimutex"]}
{"id": "C49", "title": "Concurrent containers under relaxed memory", "statement": "Although searches read metadata with relaxed atomics and without locks, so that they may see old values, concurrent containers stay correct: no undefined behaviour and no data race on elements, no duplicates, no overcommitment, insertions and erasures take effect atomically, and a lookup finds every element whose insertion happens before it (same thread or synchronized threads) and that stays in the container.", "quantifier": "all numbers of threads, interleavings, operations and all choices of old values that unlocked reads may return under release/acquire views", "why_tests_cant": "strong hardware (x86) never shows the reorderings, and on weak hardware they need rare timing", "anchors": ["include/boost/unordered/detail/foa/concurrent_table.hpp: atomic_integral, unprotected_internal_visit, unprotected_norehash_emplace_and_visit, reserve_size, group_access", "include/boost/unordered/detail/foa/rw_spinlock.hpp"]}
{"id": "C50", "title": "Exceptions in concurrent containers", "statement": "When user code (hash function, equality, constructors, moves, callbacks) or the allocator throws in an operation on a concurrent container while other threads work on it: there is no undefined behaviour; no lock, reserved size or reserved slot is leaked; there are never duplicates or conflicting accesses; operations that return are linearizable as if nothing had thrown, and whole-table passes that return still visit every element that stays exactly once; an operation left by an exception has not changed the contents except for what its own throwing callback did to the one element it was given (an inserted element stays), or for elements lost when a rehash that moves elements is interrupted; and the unwinding never waits for another thread.", "quantifier": "all numbers of threads, interleavings, operations, hash functions and equalities, and all choices of which calls throw and when", "why_tests_cant": "the point at which the exception is thrown and the state the other threads are in at that moment combine to unboundedly many schedules", "anchors": ["include/boost/unordered/detail/foa/concurrent_table.hpp: norehash_emplace_or_visit, reserve_size, reserve_slot, unprotected_internal_visit, for_all_elements_while, rehash_if_full, emplace_and_visit_impl", "include/boost/unordered/detail/foa/core.hpp: unchecked_rehash, nosize_transfer_element"]}
{"id": "C51", "title": "Storage of plain and concurrent open-addressing containers", "statement": "In any program over open-addressing containers, plain and concurrent, that constructs, destroys, copies, moves, assigns, swaps, grows and converts them (plain to concurrent and back), where any allocation and any user code may throw: every block obtained from an allocator (elements, access objects) is given back exactly once, with the allocator that produced it and the size it was asked with; no two containers share a block; a throwing call leaks nothing, and a throwing constructor, conversion or growth leaves every container with the storage it had; a conversion takes over the elements' block without moving an element; converting to a plain container with raw pointers allocates nothing.", "quantifier": "all programs over any number of containers, all sizes, allocators, propagation traits, pointer kinds, and all choices of which allocations and user calls throw", "why_tests_cant": "leaks and double frees appear only for particular combinations of call sequence, allocator identity and throwing allocation", "anchors": ["include/boost/unordered/detail/foa/core.hpp: table_arrays, arrays_holder, table_core constructors, assignment, swap, unchecked_rehash, unchecked_emplace_with_rehash, noshrink_reserve", "include/boost/unordered/detail/foa/concurrent_table.hpp: concurrent_table_arrays, concurrent_table(compatible_nonconcurrent_table&&)", "include/boost/unordered/detail/foa/table.hpp: table(compatible_concurrent_table&&)"]}
{"id": "C52", "title": "Operations between concurrent containers", "statement": "Copy and move assignment, swap, merge, comparison, and copy and move construction between concurrent containers that other threads are using take effect at one instant: at that instant no other thread is inside either container, contents, key equality and allocator of both become, and the answer (for merge the number of elements transferred) is, what the sequential specification says, and no other container changes; a merge loses and duplicates nothing. Around them every container keeps its guarantees, also when its contents, hash function or equality are replaced meanwhile: no undefined behaviour, no duplicates, no conflicting accesses, no overcommitment, operations with a key linearizable, whole-table passes complete (short of an insertion being overtaken by 2^32 others on the same counter, see C29).", "quantifier": "all numbers of threads and containers, all interleavings, all operations (also self-assignment, self-swap, self-merge), all lawful hash functions and equalities, allocators and propagation traits", "why_tests_cant": "the interleavings of threads inside several containers with operations that replace their arrays are unbounded", "anchors": ["include/boost/unordered/detail/foa/concurrent_table.hpp: scoped_bilock, exclusive_access, operator=, swap, merge, operator==, constructors", "include/boost/unordered/detail/foa/core.hpp: table_core assignment, swap, constructors"]}
{"id": "C53", "title": "Statistics", "statement": "With BOOST_UNORDERED_ENABLE_STATS: collecting, reading and resetting statistics changes no container and no answer; get_stats answers with the count, arithmetic mean and biased variance of exactly the data recorded since the last reset (in exact arithmetic; the count restarts after 2^64-1 data), whatever the order in which threads recorded them; every call records the lookups and insertions it performs, in the container in which it performs them (rehashing re-inserts every element, copies start new statistics, moves take them along, swap leaves them); the number of comparisons recorded for a lookup is the number of calls of the equality function, all of them with keys of elements; the probe length recorded is the number of groups examined (this last part fails for a lookup that exhausts a completely overflowed table, which records one group too many).", "quantifier": "all programs over any number of containers, with get_stats and reset_stats anywhere, all hash functions, sizes and amounts of data", "why_tests_cant": "the averages and the counters must be right for every history of calls; the wrong probe length needs a full table overflowed in every group", "anchors": ["include/boost/unordered/detail/foa/cumulative_stats.hpp: welfords_algorithm, cumulative_stats, concurrent_cumulative_stats", "include/boost/unordered/detail/foa/core.hpp: get_stats, reset_stats, find, nosize_unchecked_emplace_at, constructors, assignment"]}
{"id": "C54", "title": "Reentrancy check of concurrent containers", "statement": "In debug mode, an operation of a concurrent container called from user code that runs inside another operation of the same thread fails the check if and only if the thread is inside an operation on (one of) the container(s) concerned, and then takes no lock; operations on other containers, operations after an early unlock, operations on a container and itself do not fail it. Exceptions thrown by user code or by the assertion handler leave the bookkeeping exact: afterwards the thread is inside nothing it has left, no dead object is referred to. Hence a thread never takes a lock on a container it is inside of, and threads that use a single container cannot deadlock whatever their functions call; without the check a single thread can deadlock with itself.", "quantifier": "all programs of nested operations with throws, catches and early unlocks, any number of containers, any number of threads and all interleavings for the deadlock part", "why_tests_cant": "nesting, exceptions and early unlocks combine in unboundedly many ways; absence of deadlock ranges over all interleavings", "anchors": ["include/boost/unordered/detail/foa/reentrancy_check.hpp: entry_trace, reentrancy_checked, reentrancy_bichecked", "include/boost/unordered/detail/foa/concurrent_table.hpp: shared_access, exclusive_access, construct_and_emplace_and_visit"]}
{"id": "C55", "title": "Memory of closed-addressing containers and node handles", "statement": "In any program over unordered_map/multimap/set/multiset objects and their node handles - construction, copy, move, assignment, swap, clear, rehash, insertion of elements, ranges and nodes, erasure, extraction, merging, handle operations - in which any allocation, any element constructor and any hash, equality or predicate may throw at any time: every block is freed at most once, with the allocator, the size and the type it was obtained with; the live blocks are exactly those used by living objects (nothing leaks, nothing dangles) and no block has two owners; destroying the objects frees everything. A throwing constructor or extract leaves all objects unchanged; a throwing single insertion or rehash changes nothing unless hash/equality threw; a throwing assignment leaves the source unchanged. Rehashing, moving with equal or propagating allocator, swapping, merging and extracting keep the very nodes (pointers and references stay valid). Move construction, swap, clear, erasure, extraction, handle operations and propagating move assignment allocate nothing; clear, destruction and handle operations do not throw.", "quantifier": "all programs (finite call sequences over any number of variables), all points at which exceptions are thrown, all bucket counts, group sizes and propagation traits", "why_tests_cant": "Leaks and double frees on exception paths depend on which of unboundedly many allocation/constructor/hash calls throws and on the combination of operations, allocators and propagation traits before it.", "anchors": ["include/boost/unordered/detail/implementation.hpp: table, node_constructor, node_tmp", "include/boost/unordered/detail/fca.hpp: grouped_bucket_array", "include/boost/unordered/unordered_map.hpp: node_handle_map, merge, extract"]}
{"id": "C56", "title": "Iterators in archives", "statement": "If containers are saved to an archive followed by iterators into them (or end iterators), and archive and iterators are loaded into containers with the same key equality, each loaded iterator corresponds to the saved one: end to end, otherwise it points to the same element in the container loaded in the place of the saved one and can be dereferenced, incremented and used for erasure. An iterator into a container that is not in the archive makes loading throw bad_archive_exception. Archives that saving a container has not written (equivalent items, wrong counts, other tracked objects) end as without tracking: normally, with bad_archive_exception at the first duplicate, or with the archive's exception, the container holding the items before. (This fails for unordered_map/set/multimap/multiset when the loaded container has another bucket count: the loaded iterator dereferences correctly but may carry the bucket of another element, so that incrementing repeats elements and erase is undefined.)", "quantifier": "all reachable containers, any number of them in one archive, all iterators, any reachable containers to load into", "why_tests_cant": "whether an iterator comes back right depends on which elements share buckets and groups before and after, i.e. on all contents, hash functions and histories; the repository's tests only dereference the loaded iterator", "anchors": ["include/boost/unordered/detail/serialize_tracked_address.hpp: track_address, serialize_tracked_address, serialization_tracker", "include/boost/unordered/detail/serialize_container.hpp: load_or_save_unordered_set, load_or_save_unordered_map", "include/boost/unordered/detail/foa/table.hpp: table_iterator serialize", "include/boost/unordered/detail/implementation.hpp: iterator serialize", "include/boost/unordered/detail/fca.hpp: grouped_bucket_iterator serialize"]}
{"id": "C57", "title": "Growth is amortized constant", "statement": "Whatever the container and whatever mixture of insertions and erasures by key is applied to it, the total work done by all its rehashes (elements moved to new arrays, old buckets or groups visited, new buckets or groups initialized) is bounded by a constant per call plus a multiple of what the container held before: for open addressing 126 per insertion and 1 per erasure plus 2*size()+bucket_count(), although erasures lower the maximum load and a rehash may produce arrays of the same size; for closed addressing with the default maximum load factor 40 per insertion plus 11*size(). In particular repeated insertion at full load, interleaved with erasures, cannot cause a rehash each time: after an open-addressing rehash of n elements at least n/61 insertions pass before the next one. Inserting into a new open-addressing container moves at most two elements per element held at the end.", "quantifier": "every reachable container, every finite sequence of insertions and erasures by key, every lawful hash function and key equality", "why_tests_cant": "The bound is over all interleavings; bad ones erase elements with overflow marks at full load, and a missing jump to the next capacity only shows as quadratic total time on adversarial sequences.", "anchors": ["include/boost/unordered/detail/foa/core.hpp: new_arrays_for_growth, unchecked_emplace_with_rehash, unchecked_rehash, recover_slot, initial_max_load", "include/boost/unordered/detail/foa/table.hpp: emplace_impl, erase", "include/boost/unordered/detail/implementation.hpp: emplace_unique, emplace_equiv, reserve, rehash, rehash_impl, min_buckets, recalculate_max_load", "include/boost/unordered/detail/fca.hpp: grouped_bucket_array", "include/boost/unordered/detail/prime_fmod.hpp: sizes, size_index"]}
{"id": "C58", "title": "Closed-addressing containers: pointers, references and iterators stay valid", "statement": "In unordered_map/set/multimap/multiset no call moves an element: after any call, every element the call was not asked to remove is still the same node (same address, key, value) in its container, or - after swap, a move between equal or propagated allocators, merge or insertion of a node handle - in the container that received the nodes. Erasures, lookups and max_load_factor never change bucket_count(); insertions, merge and node insertion do not change it when size() plus the new elements is at most max_load_factor()*bucket_count(). As long as bucket_count() is unchanged every iterator to a remaining element still points to it and can be dereferenced, incremented and erased through; swap and such moves hand iterators over. An unchanged bucket_count() means the bucket array was not replaced.", "quantifier": "every program over any number of containers, every further call, every element and iterator, every lawful hash/equality, both unique and multi containers", "why_tests_cant": "Tests check a few addresses after a few calls; invalidation depends on the whole history (bucket count, load, which bucket and group an element is in) and on every call.", "anchors": ["include/boost/unordered/detail/implementation.hpp: table::rehash, reserve, reserve_for_insert, rehash_impl, transfer_node, swap, move_assign, merge_unique, extract_by_iterator_*", "include/boost/unordered/detail/fca.hpp: grouped_bucket_array::insert_node, extract_node, swap"]}
{"id": "C59", "title": "Heterogeneous calls mean the same as calls with an equal key", "statement": "With transparent hash and key_equal (or find(k,hash,eq)), find, contains, count, equal_range, at, erase, extract, try_emplace/insert (with and without hint), insert_or_assign and operator[] called with a value q of another type compatible with the container's functions (both orders of comparison agree, equal values have equal hashes, equality carries over) are free of undefined behaviour; they find, count, erase or extract exactly the elements equal to q (possibly several different ones in multi containers), insert an element made from q if and only if none is equal to q, and otherwise change nothing; a q equal to no key at all is simply not found. The container stays usable for all further calls of both kinds.", "quantifier": "every program mixing ordinary and heterogeneous calls over any number of containers, every further heterogeneous call and argument, every compatible argument type (it may change from call to call), flat/node and closed-addressing containers, unique and multi keys", "why_tests_cant": "The result depends on the position and reduced hash computed from q rather than from the stored key, on every past insertion made with q-like values and on every pair (q,key); tests try a few types and values.", "anchors": ["include/boost/unordered/detail/implementation.hpp: find_node_impl, transparent_find, find_prev, try_emplace_unique, try_emplace_hint_unique, insert_or_assign_unique, group_count, next_group, erase_key_unique_impl, erase_key_equiv_impl, extract_by_key_impl", "include/boost/unordered/detail/foa/core.hpp: table_core::find, unchecked_emplace_at, unchecked_emplace_with_rehash", "include/boost/unordered/detail/foa/table.hpp: table::emplace_impl, try_emplace, erase", "include/boost/unordered/unordered_map.hpp, unordered_set.hpp, unordered_flat_map.hpp, unordered_flat_set.hpp, unordered_node_map.hpp: transparent overloads", "include/boost/unordered/detail/type_traits.hpp: are_transparent, transparent_non_iterable"]}
{"id": "C60", "title": "Operations called from inside operations of other concurrent containers do not deadlock if they go up", "statement": "User code that runs inside an operation of a concurrent container (visitation functions, predicates, hash, equality, constructors) may call operations of other concurrent containers, to any depth. If containers can be given levels such that a call from inside an operation is always on containers of strictly higher level, and levels do not contradict the addresses of the two containers of swap, assignment, merge and comparison, then no reachable state is a deadlock, everybody can still finish, and exclusive access stays exclusive. Calls towards higher addresses satisfy this. It is not promised otherwise: a visit of a container whose function visits another one at a lower address deadlocks with a swap of the two, even if all nesting goes the same way.", "quantifier": "every number of threads, every program of nested operations, every number of containers, every interleaving of the atomic accesses of the spinlocks", "why_tests_cant": "Deadlocks depend on the interleaving, on the addresses of the containers and on the mutex a thread gets by its identifier.", "anchors": ["include/boost/unordered/detail/foa/concurrent_table.hpp: shared_access, exclusive_access, scoped_bilock, multimutex, unprotected_visit, for_all_elements, unprotected_norehash_emplace_or_visit", "include/boost/unordered/detail/foa/rw_spinlock.hpp"]}
{"id": "C61", "title": "Insertions and the objects their arguments refer to", "statement": "Arguments of an insertion may refer to elements of the container itself, and the insertion may rehash. No object is read after it was moved from or destroyed. If an element with an equal key exists, insert, emplace with a value or a key and a mapped value, and try_emplace change nothing at all: rvalue arguments keep their values. insert_or_assign then only overwrites the mapped value with the value obj had, and moves from obj only if it is an rvalue; the general emplace(args...) consumes its arguments, having built a value from them, and leaves nothing behind. If the element is inserted, it has the values the arguments had at the call; exactly what was passed as an rvalue is moved from, all other elements and objects keep their values (elements possibly at other addresses), and no other object exists afterwards. The same for concurrent insertions that have to start over or wait for a rehash any number of times: arguments are consumed exactly if the element is inserted. Exception: try_emplace(std::move(k), args...) and hinted try_emplace of closed-addressing maps copy the key and never move from it.", "quantifier": "every container contents, key and value type (as what is copied and moved), every equality, all arguments inside or outside the container as lvalues or rvalues, with and without rehash, elements that are moved, copied or kept on rehash", "why_tests_cant": "The combinations of aliasing, value categories, rehash and presence of the key are unbounded; tests with int keys see neither moved-from nor destroyed objects.", "anchors": ["include/boost/unordered/detail/foa/table.hpp: emplace, try_emplace, insert, emplace_impl", "include/boost/unordered/detail/foa/core.hpp: unchecked_emplace_at, unchecked_emplace_with_rehash, unchecked_rehash, nosize_transfer_element, alloc_cted_insert_type", "include/boost/unordered/detail/foa/concurrent_table.hpp: emplace_and_visit_impl, unprotected_norehash_emplace_and_visit", "include/boost/unordered/detail/implementation.hpp: emplace_unique, try_emplace_unique, insert_or_assign_unique, emplace_equiv", "include/boost/unordered/unordered_flat_map.hpp: insert_or_assign"]}
{"id": "C62", "title": "Open-addressing containers: pointers, references and iterators", "statement": "Flat containers: distinct elements have distinct addresses, and every call leaves the elements it does not remove at their addresses - erasure, extract, clear of others, lookup, insertion of a key that is there or while size() < max_load(), range insertion that fits, rehash/reserve that keep bucket_count(), insert_or_assign (which changes the mapped value in place), merge for the elements that stay and for those of a target with room; swap and moves between equal or propagated allocators hand the elements over at their addresses. An insertion of a new key at size() == max_load() leaves no element at its address. Node containers: no call, including rehashing ones, moves an element to another node; swap, moves and merge hand nodes over.", "quantifier": "every program over any number of containers, every call after it, every hash and equality, propagation traits, fancy pointers or not", "why_tests_cant": "Whether a call moves elements depends on the whole history through size, max_load and the block in use, and on every element and every container.", "anchors": ["include/boost/unordered/detail/foa/core.hpp: unchecked_emplace_with_rehash, unchecked_rehash, rehash, reserve, swap, operator=", "include/boost/unordered/detail/foa/table.hpp: emplace_impl, erase, merge", "include/boost/unordered/detail/foa/node_map_types.hpp: move, construct", "include/boost/unordered/unordered_flat_map.hpp: insert_or_assign"]}
{"id": "C63", "title": "GDB pretty-printers list exactly the container's elements", "statement": "When a program is stopped between calls, the GDB script shipped with the library (embedded in every program that includes it) shows for any container exactly its elements, each as often as it occurs - for the open-addressing containers in iteration order, for the others bucket by bucket - with keys and mapped values paired (maps) or numbered 0,1,2,... (sets), as many as the size it prints; it ends, and reads no memory outside the container's arrays and no slot without an element, in either metadata layout and byte order.", "quantifier": "every container any program can produce, both metadata layouts, both byte orders, every memory image of it, maps and sets", "why_tests_cant": "The scripts re-implement metadata matching and iteration on raw memory; a wrong mask or end test shows only for particular contents of particular groups, and the printers' tests look at a handful of containers.", "anchors": ["extra/boost_unordered_printers.py: BoostUnorderedFoaPrinter, BoostUnorderedFcaPrinter, BoostUnorderedHelpers.countr_zero", "include/boost/unordered/detail/unordered_printers.hpp"]}
{"id": "C64", "title": "Visual Studio visualizers list exactly the container's elements", "statement": "The Natvis visualizers show for any container exactly its elements, in iteration order for the open-addressing containers and bucket by bucket for the others, reading no memory that is not part of the container.", "quantifier": "every container any program can produce, both metadata layouts", "why_tests_cant": "As for C63.", "anchors": ["extra/boost_unordered.natvis: foa::table, foa::group15, grouped_bucket_array"]}
{"id": "C65", "title": "The library's own capacity assertions hold", "statement": "In a build with assertions enabled, no call on a closed-addressing container that respects the documented preconditions fails an assertion of the library about sizes, maximum load or bucket counts: copying, move construction with another allocator, element-wise move assignment, and insertion of a range into a multimap or multiset do what they do without assertions.", "quantifier": "every container any program can produce, every range and source, every maximum load factor", "why_tests_cant": "Whether the room reserved is enough depends on three float roundings and a table of primes; it goes wrong only for particular sizes of many millions.", "anchors": ["include/boost/unordered/detail/implementation.hpp: emplace_no_rehash_equiv, insert_range_equiv, move_assign_buckets, copy_buckets, move_construct_buckets, reserve_for_insert"]}
{"id": "C66", "title": "visit_while answers truthfully and stops at once", "statement": "visit_while(f)/cvisit_while(f) returns true iff every call of f it made returned true. After a call that returned false f is not called again. If it returns true, every element present from its call to its return has been passed to f exactly once; in any case no element present all the time is passed twice. It changes nothing but the mapped values of elements passed to an f with write access.", "quantifier": "every interleaving of any number of threads, every table, every callback", "why_tests_cant": "The elements a pass meets depend on the schedule; tests see a few interleavings.", "anchors": ["include/boost/unordered/detail/foa/concurrent_table.hpp: visit_while, cvisit_while, visit_while_impl, for_all_elements_while"]}
{"id": "C67", "title": "Load interface of the open-addressing containers as documented", "statement": "load_factor() (single precision, as computed) never exceeds max_load_factor() except in containers of at most 29 buckets; this holds for the concurrent containers at every moment too. bucket_count() is 0 or 15*2^k-1. rehash(n) leaves bucket_count() >= n and load_factor() <= max_load_factor() (small sizes included), and picks the smallest available bucket count that is >= n and >= ceil(size()/max_load_factor()). After construction, clear() or rehash, max_load() >= max_load_factor()*bucket_count().", "quantifier": "all histories, all n, all interleavings for the concurrent containers (sequentially consistent and acquire/release)", "why_tests_cant": "The bound rests on float rounding at every size up to 2^64 and on the max-load bookkeeping of arbitrary erasure histories and schedules.", "anchors": ["include/boost/unordered/detail/foa/core.hpp: mlf, initial_max_load, capacity, load_factor, max_load, rehash, reserve, clear", "include/boost/unordered/detail/foa/concurrent_table.hpp: load_factor, unprotected_size"]}
{"id": "C68", "title": "Moving between concurrent and non-concurrent containers loses nothing and breaks nothing", "statement": "Constructing a concurrent container from a non-concurrent one, or the reverse (while calls by other threads may be waiting), transfers exactly the elements, each staying at its address, with hash function, equality, allocator, bucket count and size, and leaves the source empty and usable. Whatever sequence of calls, interleaved threads and conversions came before (no insertion being overtaken by 2^32 others between two of its steps, see C29), programs on the non-concurrent containers behave as the abstract maps holding what iteration shows, operations on the concurrent ones are linearizable, no equivalent elements coexist, size() is right when nobody is inside, and no undefined behaviour occurs.", "quantifier": "all histories mixing sequential programs, concurrent schedules and conversions, on any number of containers", "why_tests_cant": "The containers share arrays laid out by the other's code; an invariant one of them does not maintain shows only under particular later schedules.", "anchors": ["include/boost/unordered/detail/foa/concurrent_table.hpp: concurrent_table(compatible_nonconcurrent_table&&)", "include/boost/unordered/detail/foa/table.hpp: table(compatible_concurrent_table&&)"]}
{"id": "C69", "title": "Every public insertion into a concurrent container performs the insertion its documentation describes", "statement": "For every number of constructor arguments, emplace/try_emplace/insert and their _or_[c]visit and _and_[c]visit forms perform one insertion of the element made from all arguments but the trailing callbacks, in order, with the last argument called on an existing element (const exactly for cvisit) and the one before it, if there are two, on a new one; insert_or_assign assigns to an existing element. In any run, the overloads that take ranges or initializer lists return the number of elements inserted.", "quantifier": "all argument lists, all runs with any number of threads, all ranges", "why_tests_cant": "Argument forwarding is generic in the number of arguments; how many elements a range insertion adds depends on what other threads do meanwhile (the tests compare with the range length).", "anchors": ["include/boost/unordered/detail/foa/tuple_rotate_right.hpp: tuple_rotate_right", "include/boost/unordered/detail/foa/concurrent_table.hpp: emplace_or_visit_flast, emplace_and_visit_flast, construct_and_emplace_and_visit", "include/boost/unordered/concurrent_flat_map.hpp: insert, insert_or_visit, insert_and_visit, insert_range_or_visit"]}
{"id": "C70", "title": "Node handles of concurrent node containers: exactly one owner, nothing lost, nothing freed twice", "statement": "While any number of threads visit, insert, erase, extract, insert node handles, rehash and clear, every node is at every moment in exactly one place (a slot of the container or one handle) as long as it is allocated, is freed exactly once and with its allocator, and no undefined behaviour occurs. insert(node_type&&) and its variants take effect at one of their steps: either no equivalent element was there, that very node became the element and the handle is empty, or an equivalent element was passed to the callback and the handle has the node as before. extract and extract_if yield the very node removed at one of their steps, with its value then, or an empty handle because the predicate rejected it or no equivalent element was there. emplace constructs one new node, never used before, or passes the equivalent element to the callback. visit passes the equivalent element to the callback and leaves it in its node. erase and erase_if free the node in the very step that removes its element. Whole-table passes (visit_all, visit_while, erase_if(f)) do to each element what the callback says and leave it in its node, free the node of an element in the step that erases it, pass every key present throughout exactly once if not stopped, and nothing after being stopped. clear frees the nodes of all elements in one step and no other node; rehash and reserve change no element and no node. A node comes to life only in the step that adds its element, and is freed only in a step that removes its element without extracting it, in the destruction of the handle it is in, or in an assignment to that handle; destroying, moving and changing handles never affects the container or other handles.", "quantifier": "all interleavings of any number of threads, all lawful hash functions and equalities (any collisions), all handles, keys changed in handles", "why_tests_cant": "Two threads extracting the same key, or inserting a node while a rehash is waiting, race on single accesses; a lost or twice-owned node shows only in particular schedules.", "anchors": ["include/boost/unordered/concurrent_node_map.hpp: insert(node_type&&), insert_or_visit(node_type&&, F), extract, extract_if", "include/boost/unordered/detail/foa/node_handle.hpp: node_handle_base, node_handle_emplacer_class", "include/boost/unordered/detail/foa/concurrent_table.hpp: extract_if, emplace_and_visit"]}
{"id": "C71", "title": "Exceptions and node handles of concurrent node containers", "statement": "If user code throws during insert(node_type&&), insert_or_[c]visit(node_type&&, f2) or insert_and_[c]visit(node_type&&, f1, f2), the node is neither lost nor owned twice: either the call has added nothing and the handle still has its node, or a callback has thrown after the element was inserted (no equivalent one being there) and the handle is empty. A call that answers has inserted the node and left the handle like new, or has added nothing and the handle has its node, whatever throws in other threads. A handle is afterwards never half empty: it has a node and an allocator, or neither.", "quantifier": "all interleavings of any number of threads, all lawful hash functions and equalities, any choice of calls that throw, in this thread and others", "why_tests_cant": "The state left behind depends on which of the calls of user code throws and on what the other threads have done up to then (reservations, restarts after a lost race, rehashes); tests reach a few of these combinations.", "anchors": ["include/boost/unordered/concurrent_node_map.hpp: insert(node_type&&), insert_or_visit(node_type&&, F), insert_and_visit(node_type&&, F1, F2)", "include/boost/unordered/detail/foa/node_map_types.hpp: construct", "include/boost/unordered/detail/foa/node_handle.hpp: node_handle_base", "include/boost/unordered/detail/foa/concurrent_table.hpp: unprotected_norehash_emplace_and_visit"]}
