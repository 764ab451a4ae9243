import Verif.All
/-! Axioms of every theorem named in MANIFEST.json (printed during the build). -/
#print axioms Arc.C01_canonical
#print axioms Arc.C02_no_use_after_free
#print axioms Arc.C02_handles_valid
#print axioms Arc.C03_refcount_exact
#print axioms Arc.C04_no_leak
#print axioms Arc.C05_table_exact
#print axioms Arc.C05_quiescent_size
#print axioms Arc.C06_new_returns
#print axioms Arc.C06_new_returns_live_equal
#print axioms Arc.C07_value_stable
#print axioms Arc.C08_refines_atomic
#print axioms Arc.C08_new_once
#print axioms Arc.C08_clone_once
#print axioms Arc.C08_drop_once
#print axioms Arc.C09_values_conserved
#print axioms Arc.C09_quiescent_values
#print axioms Arc.C09_boxes_owned_once
#print axioms Arc.C10_deadlock_free
#print axioms Arc.C10_blocked_only_by_runnable
#print axioms Arc.C10_no_lock_in_destructors
#print axioms Client.Copy.C100_pool
#print axioms Client.Copy.C100_new
#print axioms Client.Copy.C100_pool_settles
#print axioms Client.Copy.C100_new_settles
#print axioms Client.C101_pool
#print axioms Client.C101_new
#print axioms Client.C101_pool_settles
#print axioms Client.C101_new_settles
#print axioms Client.C102_pools
#print axioms Client.C102_new
#print axioms Client.C102_pools_settles
#print axioms Client.C102_new_settles
#print axioms Arc.C11_completable
#print axioms Arc.C11_completable_any_addresses
#print axioms Arc.C12_solo_hit
#print axioms Arc.C12_solo_miss
#print axioms Arc.C12_solo
#print axioms Arc.C13_len_bounds
#print axioms Arc.C13_range_bounds
#print axioms Cont.C14_same_container
#print axioms Cont.C14_distinct_containers
#print axioms Cont.C14_typed_no_panic
#print axioms Cont.C14_no_deadlock
#print axioms Cont.C14_exclusive
#print axioms Arc.C15_hash_consing
#print axioms Arc.C16_nested_exact
#print axioms Arc.C17_access_before_free
#print axioms Arc.C17_init_before_access
#print axioms Arc.C17_freed_once
#print axioms Arc.C17_no_race
#print axioms Arc.C17_no_race_of
#print axioms Arc.C17_free_traced
#print axioms Arc.C17_live_traced
#print axioms Arc.C17_needs_release
#print axioms Arc.C18_overflow_use_after_free
#print axioms Arc.C18_below_overflow
#print axioms Arc.C19_panic_in_insert_use_after_free
#print axioms Arc.C19_other_panics_safe
#print axioms Arc.C20_no_intern_while_dying
#print axioms Arc.C20_new_does_not_return
#print axioms Arc.C20_stalled_drop_is_dying
#print axioms Arc.C20_panicked_drop_is_dying_forever
#print axioms Arc.C20_panicked_drop_blocks_forever
#print axioms Arc.C20_others_unaffected
#print axioms Dst.C21_layout
#print axioms Dst.C21_panics_iff
#print axioms Dst.C22_copy_faithful
#print axioms Dst.C22_null_written
#print axioms Dst.C22_str
#print axioms Dst.C23_same_handle
#print axioms Dst.C23_comparisons
#print axioms Dst.C23_compare_like_handles
#print axioms Pool.C24_pointer_eq_iff_value_eq
#print axioms Closures.Container.C24_end_to_end
#print axioms Pool.C25_never_freed_or_changed
#print axioms Closures.Container.C25_end_to_end
#print axioms Pool.C26_len_counts_distinct
#print axioms Pool.C26_len_monotone
#print axioms Pool.C26_unaffected
#print axioms Closures.Container.C26_end_to_end
#print axioms Pool.C27_is_interned_exact
#print axioms Pool.C27_borrowed
#print axioms Pool.C27_no_effect
#print axioms Closures.Container.C27_end_to_end
#print axioms TypeMap.C28_history
#print axioms TypeMap.C28_in_progress
#print axioms TypeMap.C28_isolated
#print axioms TypeMap.C28_one_table
#print axioms TypeMap.C28_table_stays
#print axioms TypeMap.C28_no_internal_panic
#print axioms TypeMap.C28_progress
#print axioms TypeMap.C29_in_bounds
#print axioms TypeMap.C29_shard_exists
#print axioms TypeMap.C29_same_on_all_targets
#print axioms TypeMap.C29_last_u64_wins
#print axioms TypeMap.C29_split_writes
#print axioms TypeMap.C29_same_shard_every_time
#print axioms Pool.C30_panic
#print axioms Pool.C30_panic_possible
#print axioms Pool.C30_usable_after_panic
#print axioms Pool.C30_handles_survive
#print axioms Pool.C31_from_ref_agrees
#print axioms Pool.C31_disagreement_breaks_canonicality
#print axioms Reentrant.C32_same_shard_blocks_forever
#print axioms Reentrant.C32_other_shards_complete
#print axioms Reentrant.C32_opposite_order_deadlock
#print axioms Reentrant.C32_ordered_nesting_deadlock_free
#print axioms Pool.C33_slices
#print axioms Pool.C33_sized
#print axioms Pool.C33_proviso_needed
#print axioms Pool.C34_linearizable
#print axioms Pool.C34_effect_under_lock
#print axioms Pool.C34_deadlock_free
#print axioms Pool.C34_call_terminates
#print axioms Pool.C34_holder_releases
#print axioms Pool.C35_pointer_eq_iff_value_eq
#print axioms Pool.C36_valid_until_dropped
#print axioms Pool.C36_no_use_after_free
#print axioms Pool.C36_calls_never_ub
#print axioms Pool.C36_drop_frees_exactly
#print axioms Pool.C37_disagreeing_from_dangles
#print axioms Pool.C37_inconsistent_hash_dangles
#print axioms Pool.C37_intern_only_leaks
#print axioms Pool.C38_independent
#print axioms Pool.C38_handles_of_different_arenas
#print axioms Pool.C39_arena_shared_iff_send
#print axioms Pool.C39_others_need_sync
#print axioms Pool.C39_arena_race
#print axioms Traits.C40_arc
#print axioms Traits.C40_intern
#print axioms Traits.C40_arena
#print axioms Closures.NewTables.C40_newintern
#print axioms Fits64.C41_round_trip
#print axioms Fits64.C41_injective
#print axioms Fits64.C41_codes_identify_values
#print axioms Closures.NewTables.C41_newintern
#print axioms Fits64.C42_codes_small
#print axioms Fits64.Heap.C43_heap_location_unique
#print axioms Fits64.Heap.C43_wait_free
#print axioms Serde.C44_arc
#print axioms Serde.C44_arc_str
#print axioms Serde.C44_intern
#print axioms Closures.NewTables.C44_newintern
#print axioms Serde.C45_bytes_rejected
#print axioms Serde.C45_only_bytes
#print axioms Serde.C45_missing_method
#print axioms TypeArena.C46_uses_first
#print axioms TypeArena.C46_same_table
#print axioms TypeArena.C46_same_table_forever
#print axioms TypeArena.C46_never_unreachable
#print axioms TypeArena.C46_history
#print axioms TypeArena.C46_history_none
#print axioms TypeArena.C47_poisoned_iff_panicked
#print axioms TypeArena.C47_panicked
#print axioms TypeArena.C47_poisoned_forever
#print axioms TypeArena.C47_call_panics
#print axioms TypeArena.C47_whole_call_panics
#print axioms TypeArena.C47_other_types_work
#print axioms DeepSize.C48_each_value_once
#print axioms DeepSize.C48_duplicates_free
#print axioms DeepSize.C48_new_value_adds
#print axioms DeepSize.C48_arc_each_value_once
#print axioms Pool.C49_clear_breaks_canonicality
#print axioms Pool.C50_creation_before_use
#print axioms Pool.C50_tables_race_free
#print axioms Closures.NewTables.C51_pointer_eq_iff_value_eq
#print axioms Closures.NewTables.C51_never_changes
#print axioms Closures.NewTables.C52_counts_distinct
#print axioms Pool.C53_memory
#print axioms Pool.C53_arena_never_leaks
#print axioms Pool.C53_only_new_values_allocate
#print axioms Arc.C54_fair_termination
#print axioms Arc.C54_weak_fairness_is_not_enough
#print axioms Arc.C54_starvation_possible
#print axioms Pool.C55_starvation_free
#print axioms TypeMap.C55_with_starvation_free
#print axioms Arc.C56_memory_bound
#print axioms Arc.C56_no_allocation_when_live
#print axioms Nested.C57_destructors_may_intern
#print axioms Nested.C57_bounded_steps
#print axioms Nested.C57_tame_completes
#print axioms Nested.C57_arc_eq_blocks
#print axioms Nested.C57_arc_drop_eq_blocks
#print axioms Nested.C57_intern_destructor_blocks
#print axioms Arc.C58_refcount_was_exact
#print axioms Arc.C58_refcount_exact_when_ordered
#print axioms Arc.C58_current_possible
#print axioms Arc.C58_stale
#print axioms Arc.Multi.C59_typed
#print axioms Arc.Multi.C59_canonical
#print axioms Arc.Multi.C59_lookup
#print axioms Arc.Multi.C59_waits_for_own_type
#print axioms Arc.Multi.C59_len_own_type
#print axioms Arc.Multi.C59_new_own_type
#print axioms Arc.Multi.C59_len_quiescent
#print axioms Arc.Multi.cfg_valid
#print axioms Arc.C60_stack_is_todo
#print axioms Arc.C60_depth_bound
#print axioms Arc.C60_flat
#print axioms Arc.C60_depth_unbounded
#print axioms Pool.C61_all_user_code_covered
#print axioms Pool.C61_intern_handles_live_for_ever
#print axioms Pool.C61_intern_no_ub
#print axioms Pool.Unequal.C61_intern_duplicates
#print axioms Pool.Loose.C61_intern_conflates
#print axioms Arc.C61_arc_unlawful_eq_dangles
#print axioms Arc.C61_arc_interior_mutability_dangles
#print axioms Arc.C62_arbitrary_lookups_no_ub
#print axioms Arc.C62_arbitrary_lookups_handles_live
#print axioms Arc.C62_insertion_lookups_matter
#print axioms Arc.C62_self_removal_suffices
#print axioms Arc.C62_partial_equivalence_safe
#print axioms Arc.C62_not_reflexive_ub_anywhere
#print axioms Arc.C62_not_reflexive_ub
#print axioms TypeArena.C63_starvation_free
#print axioms TypeArena.C63_returns
#print axioms TypeArena.C63_lookup_wait_free
#print axioms TypeArena.C64_at_most_one_table_per_thread
#print axioms TypeArena.C64_never_again
#print axioms TypeArena.C64_spare_tables_unused
#print axioms TypeArena.C64_current_loads_coherent
#print axioms Constructors.C65_intern
#print axioms Constructors.C65_arena
#print axioms Constructors.C65_newintern
#print axioms Arc.Weak.C66_only_interleavings
#print axioms Arc.Weak.C66_no_ub
#print axioms Arc.Weak.C66_all_interleavings
#print axioms Pool.Weak.C67_only_interleavings
#print axioms Pool.Weak.C67_no_ub
#print axioms Pool.Weak.C67_reads
#print axioms Pool.Weak.C67_all_interleavings
#print axioms TypeArena.Trace.C68_no_races
#print axioms TypeArena.Trace.C68_initialised
#print axioms TypeArena.Trace.C68_results
#print axioms TypeArena.Weak.C68_reads
#print axioms TypeArena.Weak.C68_only_interleavings
#print axioms TypeArena.Weak.C68_no_bug
#print axioms TypeArena.Weak.C68_all_interleavings
#print axioms TypeArena.Weak.C68_handles
#print axioms TypeArena.Weak.stale_possible
#print axioms Alias.C69_intern
#print axioms Alias.C69_arena_tree
#print axioms Alias.C69_arena_rejected
#print axioms Alias.C69_arena_set_rejected
#print axioms Alias.C69_arc_rejected
#print axioms Alias.C69_arc_drop_rejected
#print axioms Alias.C69_arc_once
#print axioms Alias.C69_arc_hit_rejected
#print axioms Alias.C69_pointers_known
#print axioms Closures.C70_any_user_code
#print axioms Closures.NewTablesAny.C70_newintern_handles_live_for_ever
#print axioms Closures.NewTablesAny.C70_newintern_no_dangling
#print axioms Closures.ContainerAny.C70_intern_handles_live_for_ever
#print axioms Closures.ContainerAny.C70_intern_no_dangling
#print axioms Closures.Demo.WN.C70_newintern_duplicates
#print axioms Closures.NewTablesAny.C71_newintern_handles
#print axioms Closures.NewTablesAny.C71_newintern_count
#print axioms Closures.NewTablesAny.C71_newintern_value
#print axioms Closures.ContainerAny.C71_intern_handles
#print axioms Closures.ContainerAny.C71_intern_count
#print axioms Closures.ContainerAny.C71_intern_value
#print axioms Closures.ContainerAny.C71_intern_query
#print axioms DeepSize.C72_shared_once
#print axioms DeepSize.C72_order_irrelevant
#print axioms DeepSize.C72_arc_shared_per_value
#print axioms DeepSize.C72_arc_overcounts
#print axioms DeepSize.C72_handles_inside
#print axioms Pool.C73_hash_irrelevant
#print axioms Arc.C73_arc_one_thread
#print axioms Arc.C73_arc_one_shard
#print axioms Arc.C73_arc_calm
#print axioms Arc.C73_arc_concurrent
#print axioms Arc.C73_arc_histories
#print axioms Arc.C74_scan_safe
#print axioms Arc.C74_scan_bounds
#print axioms Arc.C74_scan_calm
#print axioms Pool.C75_destructor_holds_no_lock
#print axioms Pool.C75_destructor_may_intern
#print axioms Pool.C75_intern_destructor_locks
#print axioms Pool.C75_destructor_ends
#print axioms Pool.C75_destructor_panic
#print axioms Pool.C75_linearizable
#print axioms Pool.C75_handles
#print axioms Pool.C75_no_use_after_free
#print axioms Pool.C75_deadlock_free
#print axioms Pool.C76_conserved
#print axioms Pool.C76_at_most_once
#print axioms Pool.C76_returned
#print axioms Pool.C76_arena_quiescent
#print axioms Pool.C76_arena_dropped
#print axioms Pool.C76_quiescent
#print axioms Pool.C76_intern_kept
#print axioms Pool.C76_all_user_code_covered
#print axioms Mix.C77_owned
#print axioms Mix.C77_alive
#print axioms Mix.C77_no_use_after_free
#print axioms Mix.C77_refcount
#print axioms Mix.C77_reclaimed
#print axioms Mix.C77_nothing_leaks
#print axioms Mix.C77_intern_pins
#print axioms Mix.C77_hash_consing
#print axioms Mix.C77_no_call_left_out
#print axioms Arc.C78_lawful_same_step
#print axioms Arc.C78_lawful_same_executions
#print axioms Arc.C78_lawful_insertion
#print axioms Arc.C78_panic
#print axioms Arc.Re.C79_extends
#print axioms Arc.Re.C79_no_use_after_free
#print axioms Arc.Re.C79_handles
#print axioms Arc.Re.C79_canonical
#print axioms Arc.Re.C79_value_stable
#print axioms Arc.Re.C79_new_returns_equal
#print axioms Arc.Re.C79_reclaimed
#print axioms Arc.Re.C79_deadlock_free
#print axioms Arc.Re.C79_completable
#print axioms Src.ArcCode.C80_no_ub
#print axioms Src.ArcCode.C80_canonical
#print axioms Src.ArcCode.C80_count_covers
#print axioms Src.ArcCode.C80_quiet_exact
#print axioms Src.ArcCode.C80_no_leak
#print axioms Src.ArcCode.C80_locks_released
#print axioms Src.ArcCode.C80_no_lock_in_destructor
#print axioms Src.ArcCode.C80_deadlock_free
#print axioms Src.ArcCode.C80_new_returns
#print axioms Src.ArcCode.C80_completable
#print axioms Src.ArcCode.C80_insert_panic
#print axioms Src.PoolCode.C81_no_ub
#print axioms Src.PoolCode.C81_handle_valid
#print axioms Src.PoolCode.C81_canonical
#print axioms Src.PoolCode.C81_handle_stable
#print axioms Src.PoolCode.C81_linearizable
#print axioms Src.PoolCode.C81_returns
#print axioms Src.PoolCode.C81_locks_released
#print axioms Src.PoolCode.C81_arena_unlocks_first
#print axioms Src.PoolCode.C81_intern_destructor_deadlock
#print axioms Src.PoolCode.C81_deadlock_free
#print axioms Src.PoolCode.C81_terminates
#print axioms Src.PoolCode.C81_completes
#print axioms Src.PoolCode.C81_values_conserved
#print axioms Src.PoolCode.C81_quiet_clean
#print axioms Src.PoolCode.C81_arena_exact
#print axioms Src.PoolCode.C81_dropped
#print axioms Src.ArcNest.C82_no_ub
#print axioms Src.ArcNest.C82_canonical
#print axioms Src.ArcNest.C82_count_covers
#print axioms Src.ArcNest.C82_quiet_exact
#print axioms Src.ArcNest.C82_no_leak
#print axioms Src.ArcNest.C82_user_code_holds_no_lock
#print axioms Src.ArcNest.C82_lock_holder
#print axioms Src.ArcNest.C82_deadlock_free
#print axioms Src.ArcNest.C82_linearizable
#print axioms Src.ArcNest.C82_new_returns
#print axioms Src.ArcNest.C82_value_stable
#print axioms Src.ArcNest.C82_completable
#print axioms Src.ArcNest.C82_hash_can_block
#print axioms Src.ArcNest.C83_values_conserved
#print axioms Src.ArcNest.C83_table_account
#print axioms Src.ArcNest.C83_call_account
#print axioms Src.ArcNest.C83_ended_call
#print axioms Src.ArcNest.C83_new_argument
#print axioms Src.ArcNest.C83_one_owner
#print axioms Src.ArcNest.C83_quiet
#print axioms Src.ArcNest.C83_destroyed_once
#print axioms Src.ArcNest.C83_handles_safe
#print axioms Src.ArcNest.C83_all_destroyed
#print axioms Src.ArcNest.C84_fair_termination
#print axioms Src.ArcNest.C84_released
#print axioms Src.ArcNest.C84_weak_fairness_is_not_enough
#print axioms Src.ArcNest.C84_hash_waits_for_ever
#print axioms Src.PoolCode.C85_starvation_free
#print axioms Src.PoolCode.C85_finite_hierarchy
#print axioms Src.PoolCode.C85_flat
#print axioms Src.PoolCode.C85_unlocked
#print axioms Src.PoolCode.C85_weak_fairness_is_not_enough
#print axioms Src.PoolCode.C85_hierarchy_needed
#print axioms Src.NewCode.C86_no_ub
#print axioms Src.NewCode.C86_handle_valid
#print axioms Src.NewCode.C86_canonical
#print axioms Src.NewCode.C86_handle_stable
#print axioms Src.NewCode.C86_linearizable
#print axioms Src.NewCode.C86_returns
#print axioms Src.NewCode.C86_locks_released
#print axioms Src.NewCode.C86_poison_rule
#print axioms Src.NewCode.C86_no_poison_while_unwinding
#print axioms Src.NewCode.C86_new_table
#print axioms Src.NewCode.C86_one_table
#print axioms Src.NewCode.C86_poison_final
#print axioms Src.NewCode.C86_poison_refuses
#print axioms Src.NewCode.C86_poison_blame
#print axioms Src.NewCode.C86_values_conserved
#print axioms Src.NewCode.C86_quiet_clean
#print axioms Src.NewCode.C86_deadlock_free
#print axioms Src.NewCode.C86_destructor_deadlock
#print axioms Src.NewCode.C86_terminates
#print axioms Src.NewCode.C86_completes
#print axioms Src.NewCode.C87_starvation_free
#print axioms Src.NewCode.C87_finite_hierarchy
#print axioms Src.NewCode.C87_every_call_ends
#print axioms Src.NewCode.C87_poisoned_calls_panic
#print axioms Src.NewCode.C87_flat
#print axioms Src.NewCode.C87_weak_fairness_is_not_enough
#print axioms Src.NewCode.C87_hierarchy_needed
#print axioms Src.ArcHeld.C88_no_ub
#print axioms Src.ArcHeld.C88_canonical
#print axioms Src.ArcHeld.C88_count_covers
#print axioms Src.ArcHeld.C88_quiet_exact
#print axioms Src.ArcHeld.C88_no_leak
#print axioms Src.ArcHeld.C88_lock_unique
#print axioms Src.ArcHeld.C88_entries_protected
#print axioms Src.ArcHeld.C88_deadlock_free
#print axioms Src.ArcHeld.C88_needs_hierarchy
#print axioms Src.ArcHeld.C88_linearizable
#print axioms Src.ArcHeld.C88_new_returns
#print axioms Src.ArcHeld.C88_value_stable
#print axioms Src.ArcHeld.C88_values_conserved
#print axioms Src.ArcHeld.C88_ended_call
#print axioms Src.ArcHeld.C89_fair_termination
#print axioms Src.ArcHeld.C89_released
#print axioms Src.ArcHeld.C89_outside_locks
#print axioms Src.ArcHeld.C89_self_waits_for_ever
#print axioms Src.ArcHeld.C89_removal_counts
#print axioms Client.C90_arc_refines
#print axioms Client.C90_arc_result
#print axioms Client.C90_arc_usable
#print axioms Client.C90_pool_refines
#print axioms Client.C90_pool_result
#print axioms Client.C90_pool_usable
#print axioms Client.C90_new_refines
#print axioms Client.C90_new_result
#print axioms Client.C90_new_usable
#print axioms Client.C90_distinguishing
#print axioms Client.C91_refines
#print axioms Client.C91_result
#print axioms Client.C91_usable
#print axioms Client.C92_arc
#print axioms Client.C92_pools
#print axioms Client.C92_newInterns
#print axioms Client.C92_everything
#print axioms Client.C92_result
#print axioms Client.Term.C93_refines
#print axioms Client.Term.C93_result
#print axioms Client.Term.C93_equal
#print axioms Client.Term.C93_readable
#print axioms Src.ArcHeld.C94_shared
#print axioms Src.ArcHeld.C94_exact
#print axioms Src.ArcHeld.C94_no_garbage
#print axioms Client.Term.C95_cmp
#print axioms Client.Term.C95_write
#print axioms Client.Term.C95_consistent
#print axioms Client.Term.C95_order
#print axioms Client.Term.C95_read
#print axioms Client.Copy.C96_pool_refines
#print axioms Client.Copy.C96_pool_result
#print axioms Client.Copy.C96_pool_equal
#print axioms Client.Copy.C96_new_refines
#print axioms Client.Copy.C96_new_result
#print axioms Client.Copy.C96_new_equal
#print axioms Client.Copy.C97_pool
#print axioms Client.Copy.C97_pool_result
#print axioms Client.Copy.C97_new
#print axioms Client.Copy.C97_new_result
#print axioms Client.Copy.C98_pool_cmp
#print axioms Client.Copy.C98_pool_write
#print axioms Client.Copy.C98_pool_consistent
#print axioms Client.Copy.C98_pool_read
#print axioms Client.Copy.C98_new_cmp
#print axioms Client.Copy.C98_new_write
#print axioms Client.Copy.C98_new_consistent
#print axioms Client.Copy.C98_new_read
#print axioms Client.Term.C99_counted
#print axioms Client.Term.C99_achieves
#print axioms Client.Term.C99_result
#print axioms Client.Term.C99_exactly
