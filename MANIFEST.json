{
 "claims": [
  {
   "property": "C01",
   "status": "proved",
   "theorems": [
    "Arc.C01_canonical"
   ],
   "note": ""
  },
  {
   "property": "C02",
   "status": "proved",
   "theorems": [
    "Arc.C02_no_use_after_free",
    "Arc.C02_handles_valid"
   ],
   "note": ""
  },
  {
   "property": "C03",
   "status": "proved",
   "theorems": [
    "Arc.C03_refcount_exact"
   ],
   "note": ""
  },
  {
   "property": "C04",
   "status": "proved",
   "theorems": [
    "Arc.C04_no_leak"
   ],
   "note": ""
  },
  {
   "property": "C05",
   "status": "proved",
   "theorems": [
    "Arc.C05_table_exact",
    "Arc.C05_quiescent_size"
   ],
   "note": ""
  },
  {
   "property": "C06",
   "status": "proved",
   "theorems": [
    "Arc.C06_new_returns",
    "Arc.C06_new_returns_live_equal"
   ],
   "note": ""
  },
  {
   "property": "C07",
   "status": "proved",
   "theorems": [
    "Arc.C07_value_stable"
   ],
   "note": ""
  },
  {
   "property": "C08",
   "status": "proved",
   "theorems": [
    "Arc.C08_refines_atomic",
    "Arc.C08_new_once",
    "Arc.C08_clone_once",
    "Arc.C08_drop_once"
   ],
   "note": ""
  },
  {
   "property": "C09",
   "status": "proved",
   "theorems": [
    "Arc.C09_values_conserved",
    "Arc.C09_quiescent_values",
    "Arc.C09_boxes_owned_once"
   ],
   "note": ""
  },
  {
   "property": "C10",
   "status": "proved",
   "theorems": [
    "Arc.C10_deadlock_free",
    "Arc.C10_blocked_only_by_runnable",
    "Arc.C10_no_lock_in_destructors"
   ],
   "note": ""
  },
  {
   "property": "C100",
   "status": "proved",
   "theorems": [
    "Client.Copy.C100_pool",
    "Client.Copy.C100_new",
    "Client.Copy.C100_pool_settles",
    "Client.Copy.C100_new_settles"
   ],
   "note": "Infinite executions of the functions as written. Calls of the program do not panic: derived Hash and Eq of nodes, no poisoned mutex. Fairness is an assumption about the operating system and the locks (strong for steps inside calls, as in C85 and C87; weak for the program's own steps)."
  },
  {
   "property": "C101",
   "status": "proved",
   "theorems": [
    "Client.C101_pool",
    "Client.C101_new",
    "Client.C101_pool_settles",
    "Client.C101_new_settles"
   ],
   "note": "Infinite executions of the functions as written, one pool, arena or typearena table per program. Calls of the program do not panic. Fairness is an assumption about the operating system and the locks (strong fairness, as in C85 and C87)."
  },
  {
   "property": "C102",
   "status": "proved",
   "theorems": [
    "Client.C102_pools",
    "Client.C102_new",
    "Client.C102_pools_settles",
    "Client.C102_new_settles"
   ],
   "note": "Infinite executions of the functions as written. Calls of the program do not panic. Fairness is an assumption about the operating system and the locks (strong fairness, as in C85 and C87)."
  },
  {
   "property": "C11",
   "status": "proved",
   "theorems": [
    "Arc.C11_completable",
    "Arc.C11_completable_any_addresses"
   ],
   "note": "the second: whatever addresses the allocator returns"
  },
  {
   "property": "C12",
   "status": "proved",
   "theorems": [
    "Arc.C12_solo_hit",
    "Arc.C12_solo_miss",
    "Arc.C12_solo"
   ],
   "note": "C12_solo: the two cases are all there is"
  },
  {
   "property": "C13",
   "status": "proved",
   "theorems": [
    "Arc.C13_len_bounds",
    "Arc.C13_range_bounds"
   ],
   "note": ""
  },
  {
   "property": "C14",
   "status": "proved",
   "theorems": [
    "Cont.C14_same_container",
    "Cont.C14_distinct_containers",
    "Cont.C14_typed_no_panic",
    "Cont.C14_no_deadlock",
    "Cont.C14_exclusive"
   ],
   "note": ""
  },
  {
   "property": "C15",
   "status": "proved",
   "theorems": [
    "Arc.C15_hash_consing"
   ],
   "note": ""
  },
  {
   "property": "C16",
   "status": "proved",
   "theorems": [
    "Arc.C16_nested_exact",
    "Arc.C02_no_use_after_free",
    "Arc.C10_no_lock_in_destructors",
    "Arc.C11_completable"
   ],
   "note": "transitive dropping is exact (C16_nested_exact), frees nothing with another handle (C02), takes no lock while a destructor runs and can always complete (C10, C11)"
  },
  {
   "property": "C17",
   "status": "proved",
   "theorems": [
    "Arc.C17_access_before_free",
    "Arc.C17_init_before_access",
    "Arc.C17_freed_once",
    "Arc.C17_no_race",
    "Arc.C17_no_race_of",
    "Arc.C17_free_traced",
    "Arc.C17_live_traced",
    "Arc.C17_needs_release"
   ],
   "note": "events and happens-before edges in Verif/Arc/Trace.lean; the fence after the last decrement is not needed; handles are assumed to move between threads with happens-before, as safe Rust guarantees"
  },
  {
   "property": "C18",
   "status": "proved",
   "theorems": [
    "Arc.C18_overflow_use_after_free",
    "Arc.C18_below_overflow"
   ],
   "note": "negative finding: concrete use-after-free history for every counter width; below the bound everything holds"
  },
  {
   "property": "C19",
   "status": "proved",
   "theorems": [
    "Arc.C19_panic_in_insert_use_after_free",
    "Arc.C19_other_panics_safe"
   ],
   "note": "negative finding: concrete use-after-free execution"
  },
  {
   "property": "C20",
   "status": "proved",
   "theorems": [
    "Arc.C20_no_intern_while_dying",
    "Arc.C20_new_does_not_return",
    "Arc.C20_stalled_drop_is_dying",
    "Arc.C20_panicked_drop_is_dying_forever",
    "Arc.C20_panicked_drop_blocks_forever",
    "Arc.C20_others_unaffected"
   ],
   "note": ""
  },
  {
   "property": "C21",
   "status": "proved",
   "theorems": [
    "Dst.C21_layout",
    "Dst.C21_panics_iff"
   ],
   "note": ""
  },
  {
   "property": "C22",
   "status": "proved",
   "theorems": [
    "Dst.C22_copy_faithful",
    "Dst.C22_null_written",
    "Dst.C22_str"
   ],
   "note": "the null case is a negative finding: from_slice writes through a null pointer"
  },
  {
   "property": "C23",
   "status": "proved",
   "theorems": [
    "Dst.C23_same_handle",
    "Dst.C23_comparisons",
    "Dst.C23_compare_like_handles"
   ],
   "note": ""
  },
  {
   "property": "C24",
   "status": "proved",
   "theorems": [
    "Pool.C24_pointer_eq_iff_value_eq",
    "Closures.Container.C24_end_to_end"
   ],
   "note": ""
  },
  {
   "property": "C25",
   "status": "proved",
   "theorems": [
    "Pool.C25_never_freed_or_changed",
    "Closures.Container.C25_end_to_end"
   ],
   "note": ""
  },
  {
   "property": "C26",
   "status": "proved",
   "theorems": [
    "Pool.C26_len_counts_distinct",
    "Pool.C26_len_monotone",
    "Pool.C26_unaffected",
    "Closures.Container.C26_end_to_end"
   ],
   "note": ""
  },
  {
   "property": "C27",
   "status": "proved",
   "theorems": [
    "Pool.C27_is_interned_exact",
    "Pool.C27_borrowed",
    "Pool.C27_no_effect",
    "Closures.Container.C27_end_to_end"
   ],
   "note": ""
  },
  {
   "property": "C28",
   "status": "proved",
   "theorems": [
    "TypeMap.C28_history",
    "TypeMap.C28_in_progress",
    "TypeMap.C28_isolated",
    "TypeMap.C28_one_table",
    "TypeMap.C28_table_stays",
    "TypeMap.C28_no_internal_panic",
    "TypeMap.C28_progress"
   ],
   "note": ""
  },
  {
   "property": "C29",
   "status": "proved",
   "theorems": [
    "TypeMap.C29_in_bounds",
    "TypeMap.C29_shard_exists",
    "TypeMap.C29_same_on_all_targets",
    "TypeMap.C29_last_u64_wins",
    "TypeMap.C29_split_writes",
    "TypeMap.C29_same_shard_every_time"
   ],
   "note": ""
  },
  {
   "property": "C30",
   "status": "proved",
   "theorems": [
    "Pool.C30_panic",
    "Pool.C30_panic_possible",
    "Pool.C30_usable_after_panic",
    "Pool.C30_handles_survive"
   ],
   "note": ""
  },
  {
   "property": "C31",
   "status": "proved",
   "theorems": [
    "Pool.C31_from_ref_agrees",
    "Pool.C31_disagreement_breaks_canonicality",
    "Arc.C01_canonical"
   ],
   "note": "Arc.C01_canonical is the clause on ArcIntern::from_ref"
  },
  {
   "property": "C32",
   "status": "proved",
   "theorems": [
    "Reentrant.C32_same_shard_blocks_forever",
    "Reentrant.C32_other_shards_complete",
    "Reentrant.C32_opposite_order_deadlock",
    "Reentrant.C32_ordered_nesting_deadlock_free"
   ],
   "note": "a call is abstracted to the mutex it takes and the calls nested under it"
  },
  {
   "property": "C33",
   "status": "proved",
   "theorems": [
    "Pool.C33_slices",
    "Pool.C33_sized",
    "Pool.C33_proviso_needed"
   ],
   "note": ""
  },
  {
   "property": "C34",
   "status": "proved",
   "theorems": [
    "Pool.C34_linearizable",
    "Pool.C34_effect_under_lock",
    "Pool.C34_deadlock_free",
    "Pool.C34_call_terminates",
    "Pool.C34_holder_releases"
   ],
   "note": ""
  },
  {
   "property": "C35",
   "status": "proved",
   "theorems": [
    "Pool.C35_pointer_eq_iff_value_eq"
   ],
   "note": ""
  },
  {
   "property": "C36",
   "status": "proved",
   "theorems": [
    "Pool.C36_valid_until_dropped",
    "Pool.C36_no_use_after_free",
    "Pool.C36_calls_never_ub",
    "Pool.C36_drop_frees_exactly"
   ],
   "note": ""
  },
  {
   "property": "C37",
   "status": "proved",
   "theorems": [
    "Pool.C37_disagreeing_from_dangles",
    "Pool.C37_inconsistent_hash_dangles",
    "Pool.C37_intern_only_leaks"
   ],
   "note": "negative finding: concrete dangling-handle executions"
  },
  {
   "property": "C38",
   "status": "proved",
   "theorems": [
    "Pool.C38_independent",
    "Pool.C38_handles_of_different_arenas"
   ],
   "note": ""
  },
  {
   "property": "C39",
   "status": "proved",
   "theorems": [
    "Pool.C39_arena_shared_iff_send",
    "Pool.C39_others_need_sync",
    "Pool.C39_arena_race"
   ],
   "note": "negative finding: unordered accesses to one object of a non-Sync type"
  },
  {
   "property": "C40",
   "status": "proved",
   "theorems": [
    "Traits.C40_arc",
    "Traits.C40_intern",
    "Traits.C40_arena",
    "Closures.NewTables.C40_newintern"
   ],
   "note": ""
  },
  {
   "property": "C41",
   "status": "proved",
   "theorems": [
    "Fits64.C41_round_trip",
    "Fits64.C41_injective",
    "Fits64.C41_codes_identify_values",
    "Closures.NewTables.C41_newintern"
   ],
   "note": ""
  },
  {
   "property": "C42",
   "status": "proved",
   "theorems": [
    "Fits64.C42_codes_small"
   ],
   "note": ""
  },
  {
   "property": "C43",
   "status": "proved",
   "theorems": [
    "Fits64.Heap.C43_heap_location_unique",
    "Fits64.Heap.C43_wait_free"
   ],
   "note": ""
  },
  {
   "property": "C44",
   "status": "proved",
   "theorems": [
    "Serde.C44_arc",
    "Serde.C44_arc_str",
    "Serde.C44_intern",
    "Closures.NewTables.C44_newintern"
   ],
   "note": ""
  },
  {
   "property": "C45",
   "status": "proved",
   "theorems": [
    "Serde.C45_bytes_rejected",
    "Serde.C45_only_bytes",
    "Serde.C45_missing_method"
   ],
   "note": "negative finding"
  },
  {
   "property": "C46",
   "status": "proved",
   "theorems": [
    "TypeArena.C46_uses_first",
    "TypeArena.C46_same_table",
    "TypeArena.C46_same_table_forever",
    "TypeArena.C46_never_unreachable",
    "TypeArena.C46_history",
    "TypeArena.C46_history_none"
   ],
   "note": ""
  },
  {
   "property": "C47",
   "status": "proved",
   "theorems": [
    "TypeArena.C47_poisoned_iff_panicked",
    "TypeArena.C47_panicked",
    "TypeArena.C47_poisoned_forever",
    "TypeArena.C47_call_panics",
    "TypeArena.C47_whole_call_panics",
    "TypeArena.C47_other_types_work"
   ],
   "note": ""
  },
  {
   "property": "C48",
   "status": "proved",
   "theorems": [
    "DeepSize.C48_each_value_once",
    "DeepSize.C48_duplicates_free",
    "DeepSize.C48_new_value_adds",
    "DeepSize.C48_arc_each_value_once"
   ],
   "note": "for shared allocations see C72; for ArcIntern the size is taken while nothing else runs"
  },
  {
   "property": "C49",
   "status": "proved",
   "theorems": [
    "Pool.C49_clear_breaks_canonicality",
    "Pool.C24_pointer_eq_iff_value_eq"
   ],
   "note": "negative finding; C24 is the guarantee that holds without clear"
  },
  {
   "property": "C50",
   "status": "proved",
   "theorems": [
    "Pool.C50_creation_before_use",
    "Pool.C50_tables_race_free"
   ],
   "note": ""
  },
  {
   "property": "C51",
   "status": "proved",
   "theorems": [
    "Closures.NewTables.C51_pointer_eq_iff_value_eq",
    "Closures.NewTables.C51_never_changes"
   ],
   "note": ""
  },
  {
   "property": "C52",
   "status": "proved",
   "theorems": [
    "Closures.NewTables.C52_counts_distinct"
   ],
   "note": ""
  },
  {
   "property": "C53",
   "status": "proved",
   "theorems": [
    "Pool.C53_memory",
    "Pool.C53_arena_never_leaks",
    "Pool.C53_only_new_values_allocate"
   ],
   "note": ""
  },
  {
   "property": "C54",
   "status": "proved",
   "theorems": [
    "Arc.C54_fair_termination",
    "Arc.C54_weak_fairness_is_not_enough",
    "Arc.C54_starvation_possible"
   ],
   "note": "strong fairness; finitely many calls; (b) and (c) are negative results showing both provisos are needed"
  },
  {
   "property": "C55",
   "status": "proved",
   "theorems": [
    "Pool.C55_starvation_free",
    "TypeMap.C55_with_starvation_free"
   ],
   "note": "strong fairness of scheduler and locks"
  },
  {
   "property": "C56",
   "status": "proved",
   "theorems": [
    "Arc.C56_memory_bound",
    "Arc.C56_no_allocation_when_live"
   ],
   "note": "RefCount boxes only; the DashMap's own storage is not modelled"
  },
  {
   "property": "C57",
   "status": "proved",
   "theorems": [
    "Nested.C57_destructors_may_intern",
    "Nested.C57_bounded_steps",
    "Nested.C57_tame_completes",
    "Nested.C57_arc_eq_blocks",
    "Nested.C57_arc_drop_eq_blocks",
    "Nested.C57_intern_destructor_blocks"
   ],
   "note": "locking skeleton of the calls; the discipline Tame is the hypothesis of the positive part"
  },
  {
   "property": "C58",
   "status": "proved",
   "theorems": [
    "Arc.C58_refcount_was_exact",
    "Arc.C58_refcount_exact_when_ordered",
    "Arc.C58_current_possible",
    "Arc.C58_stale"
   ],
   "note": "the load may return any value coherence allows; C58_stale is the negative part"
  },
  {
   "property": "C59",
   "status": "proved",
   "theorems": [
    "Arc.Multi.C59_typed",
    "Arc.Multi.C59_canonical",
    "Arc.Multi.C59_lookup",
    "Arc.Multi.C59_waits_for_own_type",
    "Arc.Multi.C59_len_own_type",
    "Arc.Multi.C59_new_own_type",
    "Arc.Multi.C59_len_quiescent",
    "Arc.Multi.cfg_valid"
   ],
   "note": "cfg_valid: the ArcIntern model is instantiated with all types of the program, so C01-C13, C16-C20, C54, C56 and C58 apply to it"
  },
  {
   "property": "C60",
   "status": "proved",
   "theorems": [
    "Arc.C60_stack_is_todo",
    "Arc.C60_depth_bound",
    "Arc.C60_flat",
    "Arc.C60_depth_unbounded"
   ],
   "note": "counts destructors running inside each other, not bytes of stack; C60_depth_unbounded is a negative finding"
  },
  {
   "property": "C61",
   "status": "proved",
   "theorems": [
    "Pool.C61_all_user_code_covered",
    "Pool.C61_intern_handles_live_for_ever",
    "Pool.C61_intern_no_ub",
    "Pool.Unequal.C61_intern_duplicates",
    "Pool.Loose.C61_intern_conflates",
    "Arc.C61_arc_unlawful_eq_dangles",
    "Arc.C61_arc_interior_mutability_dangles"
   ],
   "note": "positive for Intern; the ArcIntern parts are negative findings: use after free from safe code"
  },
  {
   "property": "C62",
   "status": "proved",
   "theorems": [
    "Arc.C62_arbitrary_lookups_no_ub",
    "Arc.C62_arbitrary_lookups_handles_live",
    "Arc.C62_insertion_lookups_matter",
    "Arc.C62_self_removal_suffices",
    "Arc.C62_partial_equivalence_safe",
    "Arc.C62_not_reflexive_ub_anywhere",
    "Arc.C62_not_reflexive_ub"
   ],
   "note": "panics inside a table insertion excluded as in C19; C62_insertion_lookups_matter and the last two are negative findings that rest on what VacantEntry::insert of dashmap 5 does (DESIGN.md, section 1); the case where the removal finds another object is C61"
  },
  {
   "property": "C63",
   "status": "proved",
   "theorems": [
    "TypeArena.C63_starvation_free",
    "TypeArena.C63_returns",
    "TypeArena.C63_lookup_wait_free"
   ],
   "note": "strong fairness of scheduler and locks; the vector append_only_vec is modelled by its specification"
  },
  {
   "property": "C64",
   "status": "proved",
   "theorems": [
    "TypeArena.C64_at_most_one_table_per_thread",
    "TypeArena.C64_never_again",
    "TypeArena.C64_spare_tables_unused",
    "TypeArena.C64_current_loads_coherent"
   ],
   "note": "the first two need read-read coherence of the vector's length; an example shows that they fail without it"
  },
  {
   "property": "C65",
   "status": "proved",
   "theorems": [
    "Constructors.C65_intern",
    "Constructors.C65_arena",
    "Constructors.C65_newintern"
   ],
   "note": "conversions of the standard library between owned, boxed and borrowed forms are taken to keep the content"
  },
  {
   "property": "C66",
   "status": "proved",
   "theorems": [
    "Arc.Weak.C66_only_interleavings",
    "Arc.Weak.C66_no_ub",
    "Arc.Weak.C66_all_interleavings"
   ],
   "note": "read-modify-writes and lock acquisitions read the newest value (atomicity); the steps of an execution are totally ordered"
  },
  {
   "property": "C67",
   "status": "proved",
   "theorems": [
    "Pool.Weak.C67_only_interleavings",
    "Pool.Weak.C67_no_ub",
    "Pool.Weak.C67_reads",
    "Pool.Weak.C67_all_interleavings"
   ],
   "note": "locking a mutex reads its newest state; the steps of an execution are totally ordered; dropping an arena has exclusive access"
  },
  {
   "property": "C68",
   "status": "proved",
   "theorems": [
    "TypeArena.Trace.C68_no_races",
    "TypeArena.Trace.C68_initialised",
    "TypeArena.Trace.C68_results",
    "TypeArena.Weak.C68_reads",
    "TypeArena.Weak.C68_only_interleavings",
    "TypeArena.Weak.C68_no_bug",
    "TypeArena.Weak.C68_all_interleavings",
    "TypeArena.Weak.C68_handles",
    "TypeArena.Weak.stale_possible"
   ],
   "note": "append_only_vec synchronises a push with a load of a length that counts it; a set and the values it owns are one location; the steps of an execution are totally ordered; stale_possible shows that a thread that has not synchronised may see outdated values"
  },
  {
   "property": "C69",
   "status": "proved",
   "theorems": [
    "Alias.C69_intern",
    "Alias.C69_arena_tree",
    "Alias.C69_arena_rejected",
    "Alias.C69_arena_set_rejected",
    "Alias.C69_arc_rejected",
    "Alias.C69_arc_drop_rejected",
    "Alias.C69_arc_once",
    "Alias.C69_arc_hit_rejected",
    "Alias.C69_pointers_known"
   ],
   "note": "negative finding for ArcIntern and Arena; the aliasing rules of Rust are not settled, the three sets of rules are candidates; zero-sized values are not restricted by them"
  },
  {
   "property": "C70",
   "status": "proved",
   "theorems": [
    "Closures.C70_any_user_code",
    "Closures.NewTablesAny.C70_newintern_handles_live_for_ever",
    "Closures.NewTablesAny.C70_newintern_no_dangling",
    "Closures.ContainerAny.C70_intern_handles_live_for_ever",
    "Closures.ContainerAny.C70_intern_no_dangling",
    "Closures.Demo.WN.C70_newintern_duplicates"
   ],
   "note": "Closures run under the lock of the type table of container.rs or typearena.rs; lookups answer with any element of the set or with nothing. The negative part is an execution. C61 has the same for Intern without the type table, and for ArcIntern; C37 for Arena."
  },
  {
   "property": "C71",
   "status": "proved",
   "theorems": [
    "Closures.NewTablesAny.C71_newintern_handles",
    "Closures.NewTablesAny.C71_newintern_count",
    "Closures.NewTablesAny.C71_newintern_value",
    "Closures.ContainerAny.C71_intern_handles",
    "Closures.ContainerAny.C71_intern_count",
    "Closures.ContainerAny.C71_intern_value",
    "Closures.ContainerAny.C71_intern_query"
   ],
   "note": "The order of the calls of a type is the order in which they hold the lock."
  },
  {
   "property": "C72",
   "status": "proved",
   "theorems": [
    "DeepSize.C72_shared_once",
    "DeepSize.C72_order_irrelevant",
    "DeepSize.C72_arc_shared_per_value",
    "DeepSize.C72_arc_overcounts",
    "DeepSize.C72_handles_inside"
   ],
   "note": "negative finding: deep_size_of_arc_interned starts a new deepsize Context for every element; the sizes are read while nothing else runs (ArcIntern) or under the lock (others)"
  },
  {
   "property": "C73",
   "status": "proved",
   "theorems": [
    "Pool.C73_hash_irrelevant",
    "Arc.C73_arc_one_thread",
    "Arc.C73_arc_one_shard",
    "Arc.C73_arc_calm",
    "Arc.C73_arc_concurrent",
    "Arc.C73_arc_histories"
   ],
   "note": "lockstep simulation (same schedule), and for all ArcIntern executions a simulation with the same visible history; num_objects_interned and shrink_to_fit of ArcIntern take a number of steps that depends on the number of shards and are left out of the executions compared"
  },
  {
   "property": "C74",
   "status": "proved",
   "theorems": [
    "Arc.C74_scan_safe",
    "Arc.C74_scan_bounds",
    "Arc.C74_scan_calm"
   ],
   "note": "the walk reads shard by shard, entry by entry, under read locks; user code in deep_size_of that itself interns is not considered; the capacity is an arbitrary number"
  },
  {
   "property": "C75",
   "status": "proved",
   "theorems": [
    "Pool.C75_destructor_holds_no_lock",
    "Pool.C75_destructor_may_intern",
    "Pool.C75_intern_destructor_locks",
    "Pool.C75_destructor_ends",
    "Pool.C75_destructor_panic",
    "Pool.C75_linearizable",
    "Pool.C75_handles",
    "Pool.C75_no_use_after_free",
    "Pool.C75_deadlock_free"
   ],
   "note": "destructors are sequences of interning calls, each lawful; other user code (Hash, Eq, From) runs under the lock and is covered by C32"
  },
  {
   "property": "C76",
   "status": "proved",
   "theorems": [
    "Pool.C76_conserved",
    "Pool.C76_at_most_once",
    "Pool.C76_returned",
    "Pool.C76_arena_quiescent",
    "Pool.C76_arena_dropped",
    "Pool.C76_quiescent",
    "Pool.C76_intern_kept",
    "Pool.C76_all_user_code_covered"
   ],
   "note": "a destructor that panics counts as run; panics in destructors of elements while an arena is being dropped are not modelled"
  },
  {
   "property": "C77",
   "status": "proved",
   "theorems": [
    "Mix.C77_owned",
    "Mix.C77_alive",
    "Mix.C77_no_use_after_free",
    "Mix.C77_refcount",
    "Mix.C77_reclaimed",
    "Mix.C77_nothing_leaks",
    "Mix.C77_intern_pins",
    "Mix.C77_hash_consing",
    "Mix.C77_no_call_left_out"
   ],
   "note": "composition of the ArcIntern model with the Intern/Arena model; only ownership of handles connects them"
  },
  {
   "property": "C78",
   "status": "proved",
   "theorems": [
    "Arc.C78_lawful_same_step",
    "Arc.C78_lawful_same_executions",
    "Arc.C78_lawful_insertion",
    "Arc.C78_panic"
   ],
   "note": "C78_panic is a negative finding; rests on what VacantEntry::insert of dashmap 5 does (DESIGN.md, section 1)"
  },
  {
   "property": "C79",
   "status": "proved",
   "theorems": [
    "Arc.Re.C79_extends",
    "Arc.Re.C79_no_use_after_free",
    "Arc.Re.C79_handles",
    "Arc.Re.C79_canonical",
    "Arc.Re.C79_value_stable",
    "Arc.Re.C79_new_returns_equal",
    "Arc.Re.C79_reclaimed",
    "Arc.Re.C79_deadlock_free",
    "Arc.Re.C79_completable"
   ],
   "note": "the memory of a destroyed value is released before its destructor runs (in the code after it); a destructor that panics counts as one that returns"
  },
  {
   "property": "C80",
   "status": "proved",
   "theorems": [
    "Src.ArcCode.C80_no_ub",
    "Src.ArcCode.C80_canonical",
    "Src.ArcCode.C80_count_covers",
    "Src.ArcCode.C80_quiet_exact",
    "Src.ArcCode.C80_no_leak",
    "Src.ArcCode.C80_locks_released",
    "Src.ArcCode.C80_no_lock_in_destructor",
    "Src.ArcCode.C80_deadlock_free",
    "Src.ArcCode.C80_new_returns",
    "Src.ArcCode.C80_completable",
    "Src.ArcCode.C80_insert_panic"
   ],
   "note": "clone is a single step; num_objects_interned and shrink_to_fit are left out; destructors of values may panic but do nothing else (C79 is about what else they do); if the destructor of the argument of new panics the handle that new was to return counts as one that a client has forgotten"
  },
  {
   "property": "C81",
   "status": "proved",
   "theorems": [
    "Src.PoolCode.C81_no_ub",
    "Src.PoolCode.C81_handle_valid",
    "Src.PoolCode.C81_canonical",
    "Src.PoolCode.C81_handle_stable",
    "Src.PoolCode.C81_linearizable",
    "Src.PoolCode.C81_returns",
    "Src.PoolCode.C81_locks_released",
    "Src.PoolCode.C81_arena_unlocks_first",
    "Src.PoolCode.C81_intern_destructor_deadlock",
    "Src.PoolCode.C81_deadlock_free",
    "Src.PoolCode.C81_terminates",
    "Src.PoolCode.C81_completes",
    "Src.PoolCode.C81_values_conserved",
    "Src.PoolCode.C81_quiet_clean",
    "Src.PoolCode.C81_arena_exact",
    "Src.PoolCode.C81_dropped"
   ],
   "note": "intern_destructor_deadlock is a negative finding; the benchmarking-only clear is left out; a panic that leaves a call is caught by the user code that made it (which may then panic itself); if a destructor of an element panics while an arena is dropped the other elements are leaked, as hashbrown does"
  },
  {
   "property": "C82",
   "status": "proved",
   "theorems": [
    "Src.ArcNest.C82_no_ub",
    "Src.ArcNest.C82_canonical",
    "Src.ArcNest.C82_count_covers",
    "Src.ArcNest.C82_quiet_exact",
    "Src.ArcNest.C82_no_leak",
    "Src.ArcNest.C82_user_code_holds_no_lock",
    "Src.ArcNest.C82_lock_holder",
    "Src.ArcNest.C82_deadlock_free",
    "Src.ArcNest.C82_linearizable",
    "Src.ArcNest.C82_new_returns",
    "Src.ArcNest.C82_value_stable",
    "Src.ArcNest.C82_completable",
    "Src.ArcNest.C82_hash_can_block"
   ],
   "note": "hash_can_block is a negative finding; user code is its calls, its moves of handles and its panics; a panic that leaves a call is caught by the user code that made it (which may then panic itself); calls made under a lock (by Eq, and by Hash when a shard hashes the key again) are C57 and C88"
  },
  {
   "property": "C83",
   "status": "proved",
   "theorems": [
    "Src.ArcNest.C83_values_conserved",
    "Src.ArcNest.C83_table_account",
    "Src.ArcNest.C83_call_account",
    "Src.ArcNest.C83_ended_call",
    "Src.ArcNest.C83_new_argument",
    "Src.ArcNest.C83_one_owner",
    "Src.ArcNest.C83_quiet",
    "Src.ArcNest.C83_destroyed_once",
    "Src.ArcNest.C83_handles_safe",
    "Src.ArcNest.C83_all_destroyed"
   ],
   "note": "different values are told apart as elements of the model's value type: destroyed_once and the last part of handles_safe assume that no two values given are identical; values_conserved counts them otherwise"
  },
  {
   "property": "C84",
   "status": "proved",
   "theorems": [
    "Src.ArcNest.C84_fair_termination",
    "Src.ArcNest.C84_released",
    "Src.ArcNest.C84_weak_fairness_is_not_enough",
    "Src.ArcNest.C84_hash_waits_for_ever"
   ],
   "note": "strong fairness; that only destructors make inner calls is a hypothesis about all states (ByDestructors); the last two are negative findings"
  },
  {
   "property": "C85",
   "status": "proved",
   "theorems": [
    "Src.PoolCode.C85_starvation_free",
    "Src.PoolCode.C85_finite_hierarchy",
    "Src.PoolCode.C85_flat",
    "Src.PoolCode.C85_unlocked",
    "Src.PoolCode.C85_weak_fairness_is_not_enough",
    "Src.PoolCode.C85_hierarchy_needed"
   ],
   "note": "strong fairness; that calls inside calls respect a hierarchy of locks is a hypothesis about all states (Ranked); the last two are negative findings with infinite executions"
  },
  {
   "property": "C86",
   "status": "proved",
   "theorems": [
    "Src.NewCode.C86_no_ub",
    "Src.NewCode.C86_handle_valid",
    "Src.NewCode.C86_canonical",
    "Src.NewCode.C86_handle_stable",
    "Src.NewCode.C86_linearizable",
    "Src.NewCode.C86_returns",
    "Src.NewCode.C86_locks_released",
    "Src.NewCode.C86_poison_rule",
    "Src.NewCode.C86_no_poison_while_unwinding",
    "Src.NewCode.C86_new_table",
    "Src.NewCode.C86_one_table",
    "Src.NewCode.C86_poison_final",
    "Src.NewCode.C86_poison_refuses",
    "Src.NewCode.C86_poison_blame",
    "Src.NewCode.C86_values_conserved",
    "Src.NewCode.C86_quiet_clean",
    "Src.NewCode.C86_deadlock_free",
    "Src.NewCode.C86_destructor_deadlock",
    "Src.NewCode.C86_terminates",
    "Src.NewCode.C86_completes"
   ],
   "note": "a search looks at the visible elements of a vector in one step (C68 has the loads one by one); a thread that locks a mutex it holds waits for ever (std also allows a panic); destructor_deadlock and no_poison_while_unwinding are findings with concrete executions"
  },
  {
   "property": "C87",
   "status": "proved",
   "theorems": [
    "Src.NewCode.C87_starvation_free",
    "Src.NewCode.C87_finite_hierarchy",
    "Src.NewCode.C87_every_call_ends",
    "Src.NewCode.C87_poisoned_calls_panic",
    "Src.NewCode.C87_flat",
    "Src.NewCode.C87_weak_fairness_is_not_enough",
    "Src.NewCode.C87_hierarchy_needed"
   ],
   "note": "Infinite executions of the code of C86 with arbitrary calls inside calls. The last two theorems show that fair mutexes and the hierarchy cannot be dropped."
  },
  {
   "property": "C88",
   "status": "proved",
   "theorems": [
    "Src.ArcHeld.C88_no_ub",
    "Src.ArcHeld.C88_canonical",
    "Src.ArcHeld.C88_count_covers",
    "Src.ArcHeld.C88_quiet_exact",
    "Src.ArcHeld.C88_no_leak",
    "Src.ArcHeld.C88_lock_unique",
    "Src.ArcHeld.C88_entries_protected",
    "Src.ArcHeld.C88_deadlock_free",
    "Src.ArcHeld.C88_needs_hierarchy",
    "Src.ArcHeld.C88_linearizable",
    "Src.ArcHeld.C88_new_returns",
    "Src.ArcHeld.C88_value_stable",
    "Src.ArcHeld.C88_values_conserved",
    "Src.ArcHeld.C88_ended_call"
   ],
   "note": "needs_hierarchy is a negative finding; the hierarchy (Ordered) is a hypothesis on the state; panics inside the table insertion are C19 and C78, the other limits are those of C82; termination under fair scheduling with calls from destructors is C84"
  },
  {
   "property": "C89",
   "status": "proved",
   "theorems": [
    "Src.ArcHeld.C89_fair_termination",
    "Src.ArcHeld.C89_released",
    "Src.ArcHeld.C89_outside_locks",
    "Src.ArcHeld.C89_self_waits_for_ever",
    "Src.ArcHeld.C89_removal_counts"
   ],
   "note": "Strong fairness of scheduler and shard locks, finitely many calls, no panic in a removal; the hierarchy counts a removal before it takes its lock. Panics inside the table insertion are not modelled. The last two are the negative results."
  },
  {
   "property": "C90",
   "status": "proved",
   "theorems": [
    "Client.C90_arc_refines",
    "Client.C90_arc_result",
    "Client.C90_arc_usable",
    "Client.C90_pool_refines",
    "Client.C90_pool_result",
    "Client.C90_pool_usable",
    "Client.C90_new_refines",
    "Client.C90_new_result",
    "Client.C90_new_usable",
    "Client.C90_distinguishing"
   ],
   "note": "A refinement: every execution of a program with handles is one of the same program with values. That calls end is C54, C85, C87, C89. A thread of the program that panics goes no further in the model. The last theorem is a negative result."
  },
  {
   "property": "C91",
   "status": "proved",
   "theorems": [
    "Client.C91_refines",
    "Client.C91_result",
    "Client.C91_usable"
   ],
   "note": "As C90, for two types of ArcIntern and any number of types of the others, side by side. Values of one ArcIntern that contain handles of another interner are values of a type with lawful Hash and Eq here; that their destructor drops those handles is a call inside a call."
  },
  {
   "property": "C92",
   "status": "proved",
   "theorems": [
    "Client.C92_arc",
    "Client.C92_pools",
    "Client.C92_newInterns",
    "Client.C92_everything",
    "Client.C92_result"
   ],
   "note": "The execution with handles that is constructed runs each call without interruption. Values in an ArcIntern contain no handles here. N bounds the handles that the program owns at a time, so that counters do not overflow (C18); the Copy interners need no bound."
  },
  {
   "property": "C93",
   "status": "proved",
   "theorems": [
    "Client.Term.C93_refines",
    "Client.Term.C93_result",
    "Client.Term.C93_equal",
    "Client.Term.C93_readable"
   ],
   "note": "Labels are compared by an == that is identity. Ordering of terms is not among the operations of the programs here; it is for values in C90. If building a node panics the thread stops there, on both sides."
  },
  {
   "property": "C94",
   "status": "proved",
   "theorems": [
    "Src.ArcHeld.C94_shared",
    "Src.ArcHeld.C94_exact",
    "Src.ArcHeld.C94_no_garbage"
   ],
   "note": "The number of entries of the table is what num_objects_interned() adds up (C13). A panic in the removal of a drop leaks the object (C20) and is excluded in the second and third theorem."
  },
  {
   "property": "C95",
   "status": "proved",
   "theorems": [
    "Client.Term.C95_cmp",
    "Client.Term.C95_write",
    "Client.Term.C95_consistent",
    "Client.Term.C95_order",
    "Client.Term.C95_read"
   ],
   "note": "cmp and fmt/serialize recurse through handles; every read sees memory at its own time of an execution of the functions as written. Deserialization is a program in the sense of C93. The traits of nodes are those that #[derive] makes."
  },
  {
   "property": "C96",
   "status": "proved",
   "theorems": [
    "Client.Copy.C96_pool_refines",
    "Client.Copy.C96_pool_result",
    "Client.Copy.C96_pool_equal",
    "Client.Copy.C96_new_refines",
    "Client.Copy.C96_new_result",
    "Client.Copy.C96_new_equal"
   ],
   "note": "Over the functions as written (Verif/Src/PoolCode.lean, Verif/Src/NewCode.lean). Nodes have derived PartialEq, Eq and Hash; the layout hypothesis is that of C90."
  },
  {
   "property": "C97",
   "status": "proved",
   "theorems": [
    "Client.Copy.C97_pool",
    "Client.Copy.C97_pool_result",
    "Client.Copy.C97_new",
    "Client.Copy.C97_new_result"
   ],
   "note": "Executions of the functions as written. The allocator is assumed to find room for every node."
  },
  {
   "property": "C98",
   "status": "proved",
   "theorems": [
    "Client.Copy.C98_pool_cmp",
    "Client.Copy.C98_pool_write",
    "Client.Copy.C98_pool_consistent",
    "Client.Copy.C98_pool_read",
    "Client.Copy.C98_new_cmp",
    "Client.Copy.C98_new_write",
    "Client.Copy.C98_new_consistent",
    "Client.Copy.C98_new_read"
   ],
   "note": "The pool theorems hold for arenas as well, but ArenaIntern has neither Ord nor serde. A node is read at once."
  },
  {
   "property": "C99",
   "status": "proved",
   "theorems": [
    "Client.Term.C99_counted",
    "Client.Term.C99_achieves",
    "Client.Term.C99_result",
    "Client.Term.C99_exactly"
   ],
   "note": "Executions of the functions as written (Verif/Src/ArcCode.lean), with drops of children nested in drops. The allocator is assumed to find room for every node."
  }
 ]
}