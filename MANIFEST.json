{
 "claims": [
  {
   "property": "C01",
   "status": "proved",
   "theorems": [
    "Props.C01_program_refines_abstract_map",
    "Props.C01_program_final_contents"
   ],
   "note": "Refinement of the flat/node table machine to an abstract map, for every program; exceptions are treated in C25."
  },
  {
   "property": "C02",
   "status": "proved",
   "theorems": [
    "Props.C02_find_exact"
   ],
   "note": ""
  },
  {
   "property": "C03",
   "status": "proved",
   "theorems": [
    "Props.C03_keys_unique"
   ],
   "note": ""
  },
  {
   "property": "C04",
   "status": "proved",
   "theorems": [
    "Props.C04_size_exact"
   ],
   "note": ""
  },
  {
   "property": "C05",
   "status": "proved",
   "theorems": [
    "Props.C05_insert_finds_free_slot"
   ],
   "note": ""
  },
  {
   "property": "C06",
   "status": "proved",
   "theorems": [
    "Props.C06_prober_visits_each_group_once"
   ],
   "note": ""
  },
  {
   "property": "C07",
   "status": "proved",
   "theorems": [
    "Props.C07_iteration_exact"
   ],
   "note": "Both the regular and the interleaved increment."
  },
  {
   "property": "C08",
   "status": "proved",
   "theorems": [
    "Props.C08_erase_iterator",
    "Props.C08_erase_while_iterating",
    "Props.C08_erase_range"
   ],
   "note": ""
  },
  {
   "property": "C09",
   "status": "proved",
   "theorems": [
    "Props.C09_erase_if"
   ],
   "note": ""
  },
  {
   "property": "C10",
   "status": "partial",
   "theorems": [
    "Props.C10_reserve_partial",
    "Props.C10_no_rehash_after_reserve",
    "Props.C10_reserve_claim_false",
    "Props.C10_reserve_counterexample"
   ],
   "note": "The claim is false of the code after anti-drift erasures (kernel-checked counterexample); proved otherwise."
  },
  {
   "property": "C11",
   "status": "proved",
   "theorems": [
    "Props.C11_growth_makes_room"
   ],
   "note": ""
  },
  {
   "property": "C12",
   "status": "proved",
   "theorems": [
    "Props.C12_insert_keeps_addresses",
    "Props.C12_rehash_keeps_nodes"
   ],
   "note": ""
  },
  {
   "property": "C13",
   "status": "proved",
   "theorems": [
    "Props.Group15.C13_group_implementations_meet_spec",
    "Props.Group15.C13_group_implementations_agree",
    "Props.Group15.C13_dummy_group"
   ],
   "note": "SSE2, NEON (A64 and A32 movemask) and portable (little and big endian) groups, with their literal lookup tables, all answer a separate last-write specification after every write sequence; masks coincide bit for bit."
  },
  {
   "property": "C14",
   "status": "proved",
   "theorems": [
    "Props.Group15.C14_reduced_hash",
    "Props.Group15.C14_erase_sees_overflow"
   ],
   "note": "All three lookup tables are checked in full (256 entries) by kernel evaluation and lifted to every hash."
  },
  {
   "property": "C15",
   "status": "proved",
   "theorems": [
    "Props.Arith.C15_size_policy_tight",
    "Props.Arith.C15_position_in_range",
    "Props.Arith.C15_capacity_for_request",
    "Props.Arith.C15_rehash_capacity"
   ],
   "note": "64-bit size_t."
  },
  {
   "property": "C16",
   "status": "partial",
   "theorems": [
    "Props.Arith.C16_buffer_holds_arrays_partial",
    "Props.Arith.C16_buffer_size_wraps",
    "Props.Arith.C16_claim_false"
   ],
   "note": "The full claim is false of the code: buffer_size wraps around for huge requests (witness rehash(15*2^55) with 16-byte elements requests 0 elements). Proved whenever the byte count fits size_t."
  },
  {
   "property": "C17",
   "status": "proved",
   "theorems": [
    "Props.Arith.C17_mulx64_exact",
    "Props.Arith.C17_mulx64_portable_agrees",
    "Props.Arith.C17_mulx_platform_independent"
   ],
   "note": ""
  },
  {
   "property": "C18",
   "status": "proved",
   "theorems": [
    "Props.Arith.C18_position_exact",
    "Props.Arith.C18_position_in_range",
    "Props.Arith.C18_position32_in_range",
    "Props.Arith.C18_size_index",
    "Props.Arith.C18_size_index_saturates"
   ],
   "note": "All 29 reciprocals checked in full; Lemire's argument proved for every 32-bit value."
  },
  {
   "property": "C19",
   "status": "partial",
   "theorems": [
    "Props.Closed.C19_program_refines_abstract_map",
    "Props.Closed.C19_pocca_assign_breaks_container"
   ],
   "note": "Refinement of the abstract unique-key container for all programs (including hints, ranges, merge, node transfer, assignment, swap, operator==), except copy assignment of an empty container with a propagated unequal allocator, which provably breaks the container (negative theorem)."
  },
  {
   "property": "C20",
   "status": "proved",
   "theorems": [
    "Props.Closed.C20_program_refines_abstract_multimap",
    "Props.Closed.C20_equal_range_is_the_group"
   ],
   "note": "Same exclusion in the precondition as C19 (copy assignment of an empty container with a propagated unequal allocator), see C19_pocca_assign_breaks_container."
  },
  {
   "property": "C21",
   "status": "partial",
   "theorems": [
    "Props.Closed.C21_rehash_reverses_groups_partial",
    "Props.Closed.C21_rehash_does_not_preserve_order"
   ],
   "note": "The property is false of the code: the order within every group is reversed by each rehash that changes the bucket count. Proved: that exact behaviour, preservation of the multiset and of adjacency, and a reachable counterexample to order preservation."
  },
  {
   "property": "C22",
   "status": "proved",
   "theorems": [
    "Props.Closed.C22_iteration_visits_each_bucket_once"
   ],
   "note": ""
  },
  {
   "property": "C23",
   "status": "partial",
   "theorems": [
    "Props.Closed.C23_insertions_partial",
    "Props.Closed.C23_insertions_default_partial",
    "Props.Closed.C23_program_partial",
    "Props.Closed.C23_program_default_partial",
    "Props.Closed.C23_load_factor_bound_partial",
    "Props.Closed.C23_load_factor_default_partial",
    "Props.Closed.C23_load_factor_exceeded_by_rounding",
    "Props.Closed.C23_load_factor_exceeded_after_copy_assignment"
   ],
   "note": "The property as stated is false (two negative theorems: float rounding; copy assignment propagating an unequal allocator). Proved: after every insertion (single, hinted, range, merge, node), and at all times of any program that sets max load factors on empty containers only (copies, moves, swaps, rehash, reserve included), size() <= mlf*bucket_count()*(1+1/(2^23-1)) below 2^38*mlf elements, and size() <= bucket_count() exactly for the default factor up to 2^24 elements; both excluding copy assignments that propagate an unequal allocator."
  },
  {
   "property": "C24",
   "status": "proved",
   "theorems": [
    "Props.Closed.C24_equality_unique",
    "Props.Closed.C24_equality_multi",
    "Props.Closed.C24_equality_open"
   ],
   "note": ""
  },
  {
   "property": "C25",
   "status": "partial",
   "theorems": [
    "Props.Exc.C25_programs_with_exceptions_partial",
    "Props.Exc.C25_no_leak_partial",
    "Props.Exc.C25_insert_throws",
    "Props.Exc.C25_move_assign_corrupts_source",
    "Props.Exc.C25_merge_loses_element"
   ],
   "note": "Proved for all programs over all container operations, all throw points and all subsets of throwing calls, except move assignment between containers with unequal non-propagating allocators when allocation can throw: there the guarantee is false (C25_move_assign_corrupts_source). Single insertion itself is fully proved; merge loses an element (C25_merge_loses_element)."
  },
  {
   "property": "C26",
   "status": "proved",
   "theorems": [
    "Props.ClosedExc.C26_programs_with_exceptions",
    "Props.ClosedExc.C26_no_leak",
    "Props.ClosedExc.C26_call_throws",
    "Props.ClosedExc.C26_rehash_throws",
    "Props.ClosedExc.C26_insert_unique_throws",
    "Props.ClosedExc.C26_insert_multi_throws",
    "Props.ClosedExc.C26_multi_merge_loses_element",
    "Props.ClosedExc.C26_copy_assign_changes_max_load_factor"
   ],
   "note": "Every throw point of every call (hash, equality, allocation, node/element construction, predicate, function-object copy) of unordered_map/set/multimap/multiset. Rehash: usable container, ledgers exact, strong if hashing does not throw. Preconditions are those of C19/C20 (excludes propagating copy assignment with unequal allocators and the self-merge of multi containers). Two limits proved on concrete runs: multi merge loses the element in transit; a throwing copy assignment changes max_load_factor()."
  },
  {
   "property": "C27",
   "status": "proved",
   "theorems": [
    "Props.ConcLock.C27_mutual_exclusion",
    "Props.ConcLock.C27_word_exact",
    "Props.ConcLock.C27_unlock",
    "Props.ConcLock.C27_unlock_shared",
    "Props.ConcLock.C27_writer_acquires",
    "Props.ConcLock.C27_reader_acquires",
    "Props.ConcLock.C27_pending_has_waiter",
    "Props.ConcLock.C27_no_lost_waiters",
    "Props.ConcLock.C27_no_overtaking",
    "Props.ConcLock.C27_never_shut_out",
    "Props.ConcLock.C27_writer_can_starve"
   ],
   "note": "Any number of threads, all interleavings of atomic accesses, stale relaxed loads, spurious weak failures. C27_writer_can_starve shows the limit: writers may overtake a writer for ever."
  },
  {
   "property": "C28",
   "status": "proved",
   "theorems": [
    "Props.ConcDeadlock.C28_no_deadlock",
    "Props.ConcDeadlock.C28_everyone_can_finish",
    "Props.ConcDeadlock.C28_exclusive_section",
    "Props.ConcDeadlock.C28_nested_visits_deadlock"
   ],
   "note": "Any number of threads and containers; every acquisition runs the spinlock model of C27 access by access. Callbacks do not call container operations: with nested calls deadlock is reachable (C28_nested_visits_deadlock)."
  },
  {
   "property": "C29",
   "status": "partial",
   "theorems": [
    "Props.ConcTable.C29_no_undefined_behaviour",
    "Props.ConcTable.C29_no_duplicates_partial",
    "Props.ConcTable.C29_one_insertion_succeeds_partial",
    "Props.ConcProgress.C29_duplicates_after_counter_wrap"
   ],
   "note": "Proved for all interleavings in which no insertion is overtaken by 2^32 others through the same group between recording and comparing the 32-bit insertion counter. The statement without this proviso is false of the code as modelled: C29_duplicates_after_counter_wrap exhibits a reachable state with a duplicate."
  },
  {
   "property": "C30",
   "status": "proved",
   "theorems": [
    "Props.ConcTable.C30_lookup"
   ],
   "note": "corollary of linearizability"
  },
  {
   "property": "C31",
   "status": "proved",
   "theorems": [
    "Props.ConcTable.C31_no_overcommitment",
    "Props.ConcTable.C31_granted_slot_exists",
    "Props.ConcTable.C31_size_when_quiet"
   ],
   "note": ""
  },
  {
   "property": "C32",
   "status": "proved",
   "theorems": [
    "Props.ConcBulk.C32_bulk_visit",
    "Props.ConcBulk.C32_bulk_effect",
    "Props.ConcBulk.C32_bulk_exact",
    "Props.ConcTable.C44_present_visited_once",
    "Props.ConcTable.C44_pass_effect",
    "Props.ConcTable.C44_pass_answer"
   ],
   "note": "Bulk visits of any length interleaved with any other operations: per-key answers, callback called exactly once per found key occurrence, result is their sum; whole-table passes are C44. Simplifications of Conc/Table.lean and Conc/Bulk.lean (sequential consistency, no throwing callbacks)."
  },
  {
   "property": "C33",
   "status": "proved",
   "theorems": [
    "Props.Ser.C33_programs_with_archives",
    "Props.Ser.C33_closed_programs_with_archives",
    "Props.Ser.C33_load_rejects_duplicates",
    "Props.Ser.C33_round_trip",
    "Props.Ser.C33_closed_round_trip"
   ],
   "note": "Flat, node, concurrent and closed-addressing containers; programs that save, load saved archives and load arbitrary (forged) archives; iterator tracking for open addressing. Version numbers and throwing constructors are not modelled."
  },
  {
   "property": "C34",
   "status": "proved",
   "theorems": [
    "Node.Props.C34_node_map_one_owner",
    "Node.Props.C34_node_map_destroyed_once",
    "Node.Props.C34_node_map_extract_insert",
    "Node.Props.C34_closed_one_owner",
    "Node.Props.C34_closed_destroyed_once",
    "Node.Props.C34_closed_extract_insert"
   ],
   "note": "For unordered_node_map/set and for unordered_map/set/multimap/multiset: any program of container and handle operations (construct, emplace, erase, clear, extract, insert(node), hinted insert(node), handle move/assign/self-assign/swap/destroy, key/mapped change through a handle, merge, swap, move assignment that transfers memory) that respects the preconditions has no undefined behaviour, refines the ownership specification, keeps exactly one owner per live node with the right allocator, and frees each node exactly once."
  },
  {
   "property": "C35",
   "status": "proved",
   "theorems": [
    "Props.Fns.C35_functions_replaced_atomically",
    "Props.Fns.C35_copy_assign_throws"
   ],
   "note": "Byte-level model of class functions (two slots, current_ byte, all assertions) and of its uses in constructors, assign, move_assign, swap; every throw point; element work abstracted to uses of the current pair."
  },
  {
   "property": "C36",
   "status": "proved",
   "theorems": [
    "Props.C36_blocks_freed_exactly_once",
    "Props.C36_memory_matches_allocator"
   ],
   "note": "Open-addressing containers: heap model in which every block carries its allocator and size; any program of any length runs without a faulty deallocation, live blocks are exactly those of the containers, destruction frees everything. The closed-addressing arrays and nodes are not in this property."
  },
  {
   "property": "C37",
   "status": "proved",
   "theorems": [
    "Props.C37_erase_max_load",
    "Props.C37_insert_max_load",
    "Props.C37_clear_rehash_max_load",
    "Props.C37_drift_bounded"
   ],
   "note": ""
  },
  {
   "property": "C38",
   "status": "proved",
   "theorems": [
    "Props.Arith.C38_xmx64_injective",
    "Props.Arith.C38_xmx32_injective"
   ],
   "note": ""
  },
  {
   "property": "C39",
   "status": "proved",
   "theorems": [
    "Props.Closed.C39_buckets_partition"
   ],
   "note": ""
  },
  {
   "property": "C40",
   "status": "proved",
   "theorems": [
    "Props.Closed.C40_erase_at",
    "Props.Closed.C40_erase_range",
    "Props.Closed.C40_erase_if"
   ],
   "note": ""
  },
  {
   "property": "C41",
   "status": "partial",
   "theorems": [
    "Props.Closed.C41_erase_by_stored_key",
    "Props.Closed.C41_erase_by_stored_key_use_after_free"
   ],
   "note": "The property is false of the code: exact condition under which the call reads freed memory proved (another node follows in the bucket), with a reachable two-element witness; when the condition does not hold, the call equals erasing by a copy of the key."
  },
  {
   "property": "C42",
   "status": "proved",
   "theorems": [
    "Props.ConcTable.C42_linearizable",
    "Props.ConcTable.C42_container_operations",
    "Props.ConcAssign.C42_assign_list",
    "Props.ConcAssign.C42_assign_list_size"
   ],
   "note": "sequentially consistent memory; see DESIGN.md. Assignment of an initializer list is a sequence of calls under the exclusive lock (C42_assign_list)."
  },
  {
   "property": "C43",
   "status": "proved",
   "theorems": [
    "Props.ConcTable.C43_no_conflicting_access"
   ],
   "note": ""
  },
  {
   "property": "C44",
   "status": "proved",
   "theorems": [
    "Props.ConcTable.C44_present_visited_once",
    "Props.ConcTable.C44_pass_effect",
    "Props.ConcTable.C44_pass_answer",
    "Props.ConcTable.C44_pass_stops"
   ],
   "note": ""
  },
  {
   "property": "C45",
   "status": "proved",
   "theorems": [
    "Props.ConcProgress.C45_bounded_steps"
   ],
   "note": ""
  },
  {
   "property": "C46",
   "status": "partial",
   "theorems": [
    "Props.ConcProgress.C46_insertions_can_starve_each_other",
    "Props.ConcProgress.C46_alone_completes_partial"
   ],
   "note": "Lock-freedom is false of the code (livelock run exhibited); what is proved is that an operation that is not interfered with completes."
  },
  {
   "property": "C47",
   "status": "partial",
   "theorems": [
    "Props.Closed.C47_reserve_then_insert_no_rehash_partial",
    "Props.Closed.C47_node_insertion_rehashes_after_reserve",
    "Props.Closed.C47_forward_range_rehashes_after_reserve"
   ],
   "note": "proved for insertions of elements one at a time mixed with erasures and reads, any max_load_factor; false for node insertion, merge and forward ranges of multimap/multiset (witness theorems)"
  },
  {
   "property": "C48",
   "status": "partial",
   "theorems": [
    "Props.C48_elements_inside_aligned_and_apart",
    "Props.C48_constructor_builds_each_once",
    "Props.C48_destructor_is_undefined",
    "Props.C48_destructor_leaves_buffer",
    "Props.C48_first_element_never_destroyed",
    "Props.C48_storage_partial"
   ],
   "note": "Layout and construction hold for all addresses and types. Destruction is false of the code: the destructor visits index N (no object there) and never index 0; proved for every non-empty array."
  },
  {
   "property": "C49",
   "status": "partial",
   "theorems": [
    "Props.ConcWeak.C49_no_undefined_behaviour",
    "Props.ConcWeak.C49_no_duplicates_partial",
    "Props.ConcWeak.C49_no_conflicting_access",
    "Props.ConcWeak.C49_no_overcommitment",
    "Props.ConcWeak.C49_granted_slot_exists",
    "Props.ConcWeak.C49_size_when_quiet",
    "Props.ConcWeak.C49_linearizable",
    "Props.ConcWeak.C49_lookup",
    "Props.ConcWeak.C49_synchronized_lookup",
    "Props.ConcWeak.C49_one_insertion_succeeds_partial",
    "Props.ConcWeak.C49_includes_sequential_executions",
    "Props.ConcWeak.C49_unsynchronized_lookup_may_miss"
   ],
   "note": "Under a view machine (no load buffering), as long as no insertion counter wraps 2^32 during one insertion; without happens-before a lookup may miss a completed insertion (witness)."
  },
  {
   "property": "C50",
   "status": "partial",
   "theorems": [
    "Props.ConcExc.C50_no_undefined_behaviour",
    "Props.ConcExc.C50_no_duplicates_partial",
    "Props.ConcExc.C50_no_conflicting_access",
    "Props.ConcExc.C50_no_overcommitment",
    "Props.ConcExc.C50_nothing_leaked",
    "Props.ConcExc.C50_linearizable",
    "Props.ConcExc.C50_left",
    "Props.ConcExc.C50_strong_guarantee",
    "Props.ConcExc.C50_lookup",
    "Props.ConcExc.C50_container_operations",
    "Props.ConcExc.C50_growth_throws",
    "Props.ConcExc.C50_pass_once",
    "Props.ConcExc.C50_pass_effect",
    "Props.ConcExc.C50_unwinding_never_blocks",
    "Props.ConcExc.C50_unwinding_ends",
    "Props.ConcExc.C50_includes_nonthrowing"
   ],
   "note": "All proved for executions in which no 32-bit insertion counter wraps around during one insertion (as C29): C50_no_duplicates_partial; the other theorems range over the same executions."
  },
  {
   "property": "C51",
   "status": "proved",
   "theorems": [
    "Props.Storage.C51_blocks_freed_exactly_once",
    "Props.Storage.C51_static_arrays",
    "Props.Storage.C51_exception_changes_nothing",
    "Props.Storage.C51_throwing_assignment",
    "Props.Storage.C51_no_spurious_exception",
    "Props.Storage.C51_conversion_takes_over_the_elements",
    "Props.Storage.C51_to_plain_allocates_nothing"
   ],
   "note": "Storage level: the contents of the arrays are left out, the number of slots a call asks for is an arbitrary input. Locks taken around the calls are left out (C28, C42)."
  },
  {
   "property": "C52",
   "status": "proved",
   "theorems": [
    "Props.ConcMulti.C52_no_undefined_behaviour",
    "Props.ConcMulti.C52_no_duplicates",
    "Props.ConcMulti.C52_no_conflicting_access",
    "Props.ConcMulti.C52_size",
    "Props.ConcMulti.C52_whole_container_operations",
    "Props.ConcMulti.C52_contents_of_quiet_container",
    "Props.ConcMulti.C52_goes_through",
    "Props.ConcMulti.C52_nothing_lost",
    "Props.ConcMulti.C52_linearizable",
    "Props.ConcMulti.C52_present_visited_once"
   ],
   "note": "Any number of threads and containers. Exclusive sections are single steps (C28); merge needs equal key equalities; no insertion counter wraps during one insertion."
  },
  {
   "property": "C53",
   "status": "partial",
   "theorems": [
    "Props.C53_statistics",
    "Props.C53_statistics_invisible",
    "Props.C53_lookup_data_partial",
    "Props.C53_probe_length_wrong",
    "Props.C53_compares_elements",
    "Props.C53_insertion_data",
    "Props.C53_order_irrelevant"
   ],
   "note": "Everything but the probe length of lookups is proved in full; that part is false of the code when a lookup exhausts a fully overflowed table (negative theorem with a reachable witness), the partial theorem says exactly when and by how much. Doubles are exact rationals; the standard deviation is not modelled; the concurrent statistics are covered through atomic (locked) adds and order independence."
  },
  {
   "property": "C54",
   "status": "proved",
   "theorems": [
    "Props.ConcReentry.C54_reentrancy_check",
    "Props.ConcReentry.C54_fails_iff_inside",
    "Props.ConcReentry.C54_no_lock_twice",
    "Props.ConcReentry.C54_one_container_no_deadlock",
    "Props.ConcReentry.C54_unchecked_self_deadlock"
   ],
   "note": "All programs of nested operations; deadlock freedom on one container through C28. Functions run by worker threads of parallel algorithms are outside the check (thread-local list)."
  },
  {
   "property": "C55",
   "status": "proved",
   "theorems": [
    "Props.FcaStorage.C55_blocks_freed_exactly_once",
    "Props.FcaStorage.C55_no_array_no_buckets",
    "Props.FcaStorage.C55_throwing_constructor",
    "Props.FcaStorage.C55_throwing_insertion",
    "Props.FcaStorage.C55_throwing_assignment",
    "Props.FcaStorage.C55_growth_keeps_nodes",
    "Props.FcaStorage.C55_move_hands_over",
    "Props.FcaStorage.C55_merge_keeps_nodes",
    "Props.FcaStorage.C55_copy",
    "Props.FcaStorage.C55_handles_carry_nodes",
    "Props.FcaStorage.C55_no_allocation",
    "Props.FcaStorage.C55_never_throws"
   ],
   "note": "Which keys are equivalent and when a table grows are arbitrary inputs of the model, so all behaviours of the hash table are covered."
  },
  {
   "property": "C56",
   "status": "partial",
   "theorems": [
    "Props.SerIter.C56_iterators_restored",
    "Props.SerIter.C56_stray_iterator_rejected",
    "Props.SerAny.C56_any_archive",
    "Props.SerIterC.C56_closed_iterators_restored_partial",
    "Props.SerIterC.C56_closed_stray_iterator_rejected",
    "Props.SerAny.C56_closed_any_archive",
    "Props.SerIterC.C56_closed_iterator_wrong_bucket"
   ],
   "note": "Proved for open addressing. For closed addressing the property is false of the code (negative theorem with witness); proved that *it is right always and that the iterator is fully usable if bucket count and hash function are those of the saved container."
  },
  {
   "property": "C57",
   "status": "proved",
   "theorems": [
    "Props.Cost.C57_foa_growth_amortized",
    "Props.Cost.C57_foa_insertions_move_twice",
    "Props.Cost.C57_foa_growths_apart",
    "Props.Cost.C57_fca_growth_amortized"
   ],
   "note": "Closed addressing: default maximum load factor 1, containers reached without the copy assignment of finding 1. Probing is not counted."
  },
  {
   "property": "C58",
   "status": "proved",
   "theorems": [
    "Props.Addr.C58_references",
    "Props.Addr.C58_iterators",
    "Props.Addr.C58_room_keeps_buckets",
    "Props.Addr.C58_room_keeps_iterators",
    "Props.Addr.C58_handed_over",
    "Props.Addr.C58_same_count_same_buckets"
   ],
   "note": "Over all programs; node address carried as payload tag; nodes themselves being handed over (not copied) is C55; array replacement beyond the largest bucket count not covered by the last theorem"
  },
  {
   "property": "C59",
   "status": "proved",
   "theorems": [
    "Props.HetP.open_het_calls",
    "Props.HetP.open_plain_calls",
    "Props.HetP.open_het_contents",
    "Props.HetP.closed_het_calls",
    "Props.HetP.closed_plain_calls"
   ],
   "note": "Sequential containers; transparent overloads of the concurrent containers are not modelled."
  },
  {
   "property": "C60",
   "status": "proved",
   "theorems": [
    "Props.ConcNested.C60_no_deadlock",
    "Props.ConcNested.C60_everyone_can_finish",
    "Props.ConcNested.C60_address_order",
    "Props.ConcNested.C60_exclusive_section",
    "Props.ConcNested.C60_exclusive_group",
    "Props.ConcNested.C60_against_addresses_deadlocks"
   ],
   "note": "Deadlock freedom of nested operations under level order; the last theorem shows the address condition is needed (finding 18)."
  },
  {
   "property": "C61",
   "status": "proved",
   "theorems": [
    "Props.Args.C61_foa_emplace",
    "Props.Args.C61_foa_emplace_general",
    "Props.Args.C61_foa_insert_or_assign",
    "Props.Args.C61_concurrent_emplace",
    "Props.Args.C61_fca_emplace",
    "Props.Args.C61_fca_try_emplace",
    "Props.Args.C61_fca_try_emplace_copies_key",
    "Props.Args.C61_fca_hint",
    "Props.Args.C61_fca_emplace_general",
    "Props.Args.C61_fca_emplace_converting",
    "Props.Args.C61_fca_insert_or_assign",
    "Props.Args.C61_fca_multi"
   ],
   "note": "For arbitrary memory, arguments aliasing elements, rehash by move, copy or pointers. Exceptions are not part of this model. The exception of closed-addressing try_emplace is finding 19."
  },
  {
   "property": "C62",
   "status": "proved",
   "theorems": [
    "Props.AddrO.C62_flat_addresses_stay",
    "Props.AddrO.C62_growth_moves_everything",
    "Props.AddrO.C62_node_addresses_stay"
   ],
   "note": "Flat: addresses in the heap model of C36, after every program and for every call that is not asked to move or remove the element; converse for growth. Node: the key carries the node address; elements survive in their nodes whatever happens to the table."
  },
  {
   "property": "C63",
   "status": "proved",
   "theorems": [
    "Props.Printers.C63_gdb_open_addressing",
    "Props.Printers.C63_has_memory",
    "Props.Printers.C63_gdb_closed_addressing"
   ],
   "note": "Statistics and iterator printers not modelled; raw pointers."
  },
  {
   "property": "C64",
   "status": "partial",
   "theorems": [
    "Props.Printers.C64_natvis_open_addressing",
    "Props.Printers.C64_natvis_closed_addressing_partial",
    "Props.Printers.C64_natvis_reads_null_buckets"
   ],
   "note": "False for closed-addressing containers without a bucket array: the visualizer reads the first bucket through a null pointer (negation proved)."
  },
  {
   "property": "C65",
   "status": "partial",
   "theorems": [
    "Props.Closed.C65_forward_range_partial",
    "Props.Closed.C65_forward_range_assertion_fails",
    "Props.Closed.C65_move_assign_partial",
    "Props.Closed.C65_move_assign_assertion_fails",
    "Props.Closed.C65_copy_construct",
    "Props.Closed.C65_copy_assign",
    "Props.Closed.C65_move_construct_alloc"
   ],
   "note": "False for more than 2^24 elements because bucket requests are computed in float (negations proved at 201326612 elements); proved below that bound. Copying and move construction: no restriction."
  },
  {
   "property": "C66",
   "status": "proved",
   "theorems": [
    "Props.ConcWhile.C66_answer",
    "Props.ConcWhile.C66_stops_at_false",
    "Props.ConcWhile.C66_true_means_all",
    "Props.ConcWhile.C66_never_twice",
    "Props.ConcWhile.C66_effect"
   ],
   "note": "The parallel-policy overloads are not modelled."
  },
  {
   "property": "C67",
   "status": "partial",
   "theorems": [
    "Props.FoaLoad.C67_bucket_counts",
    "Props.FoaLoad.C67_load_factor",
    "Props.FoaLoad.C67_concurrent_load_factor",
    "Props.FoaLoad.C67_weak_load_factor",
    "Props.FoaLoad.C67_rehash",
    "Props.FoaLoad.C67_small_sizes_may_fill",
    "Props.FoaLoad.C67_max_load_partial",
    "Props.FoaLoad.C67_max_load_claim_false"
   ],
   "note": "All of it but the last sentence; that one is false as written (59 buckets: 51 < 51.625; a rehash that changes nothing), refuted, and proved rounded down"
  },
  {
   "property": "C68",
   "status": "proved",
   "theorems": [
    "Props.ConcInterop.C68_to_concurrent",
    "Props.ConcInterop.C68_to_sequential",
    "Props.ConcInterop.C68_programs",
    "Props.ConcInterop.C68_concurrent_sound",
    "Props.ConcInterop.C68_linearizable"
   ],
   "note": "WReach includes NoWrap: no insertion is overtaken by 2^32 others between two of its steps (as in C29)."
  },
  {
   "property": "C69",
   "status": "partial",
   "theorems": [
    "Props.ConcOverloads.C69_arguments",
    "Props.ConcOverloads.C69_insert_or_assign",
    "Props.ConcOverloads.C69_range_insert",
    "Props.ConcOverloads.C69_range_visit_partial",
    "Props.ConcOverloads.C69_range_visit_claim_false"
   ],
   "note": "Partial because the claim is false of the code: the range overloads with callbacks return the length of the range (C69_range_visit_claim_false); the exact relation to the number of elements inserted is proved. Everything else is proved in full (runs without counter wrap-around, as in C29)."
  },
  {
   "property": "C70",
   "status": "proved",
   "theorems": [
    "Props.ConcNodes.C70_no_undefined_behaviour",
    "Props.ConcNodes.C70_one_owner",
    "Props.ConcNodes.C70_handles",
    "Props.ConcNodes.C70_insert_node",
    "Props.ConcNodes.C70_extract",
    "Props.ConcNodes.C70_table_runs",
    "Props.ConcNodes.C70_emplace",
    "Props.ConcNodes.C70_visit",
    "Props.ConcNodes.C70_erase",
    "Props.ConcNodes.C70_whole",
    "Props.ConcNodes.C70_handle_operations",
    "Props.ConcNodes.C70_lifetime",
    "Props.ConcNodes.C70_pass_effect",
    "Props.ConcNodes.C70_present_visited_once",
    "Props.ConcNodes.C70_pass_stops"
   ],
   "note": "Every interleaving; executable runs of two threads racing to extract one key, and of one thread using every operation, as instances"
  },
  {
   "property": "C71",
   "status": "partial",
   "theorems": [
    "Props.ConcNodesExc.C71_thrown",
    "Props.ConcNodesExc.C71_answered",
    "Props.ConcNodesExc.C71_handle_usable_partial",
    "Props.ConcNodesExc.C71_handle_left_half_empty",
    "Props.ConcNodesExc.C71_half_empty_not_destroyed"
   ],
   "note": "Full except the last sentence, which is false of the code (finding 24): proved if callbacks do not throw, its negation proved on a run in which one does"
  }
 ]
}