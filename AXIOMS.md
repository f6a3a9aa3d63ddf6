# Axioms per property theorem

Output of `#print axioms` for every theorem of `MANIFEST.json`, grouped by the axioms used.

## Classical.choice, Quot.sound, propext (494 theorems)

* `C01_characters_are_utf8`
* `C01_token_characters_are_kept`
* `C01_tokens_are_maximal_runs`
* `C05_idempotent`
* `C05_output_characters`
* `C08_search_case_insensitive`
* `C08_tokens_case_insensitive`
* `C09_por_que_can_be_removed`
* `C09_por_que_is_dead`
* `C100_hits_lawful`
* `C100_like_memory_index`
* `C100_linear_any_index`
* `C100_linear_lawful`
* `C100_linear_panics`
* `C100_linear_sorted_lists`
* `C100_nil_or_empty`
* `C101_any_index`
* `C101_exchange_exact`
* `C101_exclusive`
* `C101_no_crash_without_rename`
* `C101_no_deadlock`
* `C101_same_methods`
* `C101_search_sees_puts`
* `C101_searches_overlap`
* `C101_who_panics`
* `C102_distinct_ids_partial`
* `C102_exact`
* `C102_exact_any_index`
* `C102_nothing_found`
* `C102_refuted`
* `C102_refuted_32`
* `C103_both`
* `C103_copy_exact`
* `C103_deep_copy`
* `C103_fields_exact`
* `C103_put_exact`
* `C103_refuted`
* `C103_safe_exact`
* `C103_snapshot_partial`
* `C104_afterwards`
* `C104_afterwards_concurrent`
* `C104_put_exact`
* `C104_put_keeps`
* `C104_put_keeps_concurrent`
* `C104_refuted`
* `C104_search_exact`
* `C104_search_partial`
* `C104_thread`
* `C105_guard_exact`
* `C105_into_used`
* `C105_into_used_search`
* `C105_round_trip_partial`
* `C105_search_exact`
* `C105_tokens_valid`
* `C106_constructed_partial`
* `C106_guard_exact`
* `C106_literal_lost`
* `C106_no_tokens`
* `C106_refuted`
* `C106_search_exact`
* `C107_loaded_literal`
* `C107_nil_map_loses`
* `C107_put_panics`
* `C107_puts_partial`
* `C107_refuted`
* `C107_sound_kept`
* `C107_stays_partial`
* `C107_works_exact`
* `C10_in_repository`
* `C11_in_repository`
* `C11_in_repository_goroutines`
* `C11_inverted_index_exact`
* `C14_repository`
* `C14_repository_equivalent_statements`
* `C15_linear_search_exact`
* `C15_linear_search_payload`
* `C16_guard_exact`
* `C16_hits_search_exact_partial`
* `C16_refuted_duplicate_id`
* `C18_engines_agree_partial`
* `C18_guard_exact`
* `C18_query_guard_exact`
* `C18_refuted`
* `C19_independent_of_sort`
* `C20_document_order_refuted`
* `C21_asymmetric`
* `C21_incomparable`
* `C22_hits`
* `C22_hits_refuted`
* `C22_linear_hits`
* `C22_order_is_by_id`
* `C23_hits_query_order_partial`
* `C23_hits_refuted`
* `C23_linear_query_order`
* `C24_guard_exact`
* `C24_hits_narrowing_partial`
* `C24_linear_narrowing`
* `C25_guard_exact`
* `C25_hits_sublist_partial`
* `C25_linear_prefix`
* `C26_guard_exact`
* `C26_hits_unknown_token`
* `C26_linear_unknown_token`
* `C27_no_panic`
* `C28_commutative`
* `C28_positions`
* `C28_sound`
* `C28_strictly_increasing`
* `C28_with_repetitions`
* `C30_calls_refine_specification`
* `C30_crash_exact`
* `C30_guarded_calls_complete`
* `C30_hang_exact`
* `C30_package_engines_safe`
* `C31_listAliases_agrees_with_hasAlias`
* `C31_list_agrees_with_has`
* `C32_alias_contract`
* `C33_last_entry`
* `C33_remove_entry`
* `C33_remove_whole_alias`
* `C34_false_always_leaks`
* `C34_guard_exact`
* `C34_leaked_reader_blocks`
* `C34_leaked_writer_blocks`
* `C34_refuted`
* `C34_refuted_statement`
* `C34_whole_alias_partial`
* `C35_rename_moves`
* `C35_rename_observed`
* `C35_rename_unknown`
* `C36_count_exact`
* `C36_guard_exact`
* `C36_overwrite`
* `C36_refuted`
* `C36_refuted_statement`
* `C36_rename_to_free_name_partial`
* `C36_rename_to_itself`
* `C37_drop`
* `C37_drop_deletes_unrelated_empty_alias`
* `C37_drop_observed`
* `C37_drop_unknown`
* `C38_dangling_needs_self_rename`
* `C38_guard_exact`
* `C38_no_dangling_partial`
* `C38_no_nil_index`
* `C38_refuted`
* `C38_rows_exist_partial`
* `C39_entries_distinct_partial`
* `C39_guard_exact`
* `C39_once_partial`
* `C39_refuted`
* `C39_repetition_needs_merge`
* `C39_rows_distinct_partial`
* `C40_put_resolution`
* `C40_search_resolution`
* `C41_alias_search_merges`
* `C41_goroutines_progress`
* `C41_goroutines_result`
* `C41_goroutines_sequential`
* `C41_single_index_alias`
* `C42_guard_exact`
* `C42_refuted`
* `C42_same_results`
* `C42_single_index_partial`
* `C43_goroutines_disjoint`
* `C43_goroutines_each_once`
* `C43_goroutines_progress`
* `C43_goroutines_state`
* `C43_goroutines_terminate`
* `C43_put_any_interleaving`
* `C43_put_through_alias`
* `C44_guard_exact`
* `C44_put_is_found_partial`
* `C44_refuted`
* `C44_refuted_statement`
* `C45_isolation`
* `C46_reads_change_nothing`
* `C46_returned_unseen`
* `C46_unseen`
* `C47_concurrent_snapshot_partial`
* `C47_concurrent_table_partial`
* `C47_goroutines_snapshot_partial`
* `C47_guard_exact`
* `C47_moment`
* `C47_only_rename_rewrites`
* `C47_refuted`
* `C47_rename_rewrites`
* `C47_rows_follow_renames`
* `C47_rows_follow_renames_goroutines`
* `C47_snapshot_partial`
* `C47_table_follows_renames_goroutines`
* `C47_torn`
* `C48_goroutine_sees_whole_puts`
* `C48_search_sees_whole_puts`
* `C49_calls_complete`
* `C49_calls_terminate`
* `C49_no_deadlock`
* `C49_quiescence_reached`
* `C49_who_leaks`
* `C49_who_leaks_goroutines`
* `C50_false_leaks`
* `C50_false_leaks_goroutines`
* `C50_lock_never_released`
* `C50_lock_never_released_goroutines`
* `C50_reader_leak_blocks`
* `C50_reader_leak_blocks_goroutines`
* `C50_writer_leak_blocks`
* `C50_writer_leak_blocks_goroutines`
* `C51_methods_every`
* `C51_methods_exact`
* `C51_only_rename_unalias`
* `C51_race_free_partial`
* `C51_refuted`
* `C51_refuted_every`
* `C52_lone_put_kept_goroutines_partial`
* `C52_lone_put_kept_partial`
* `C52_lost_to`
* `C52_puts_kept_goroutines_partial`
* `C52_puts_kept_partial`
* `C52_refuted`
* `C52_refuted_every`
* `C52_search_sees_puts_goroutines_partial`
* `C52_search_sees_puts_partial`
* `C53_drop_true_removed_partial`
* `C53_one_of_two_goroutines_partial`
* `C53_one_of_two_partial`
* `C53_refuted`
* `C53_refuted_by_rename`
* `C53_refuted_by_rename_every`
* `C53_refuted_every`
* `C53_removed_itself_partial`
* `C53_somebody_removed`
* `C54_actions_succeed`
* `C54_no_crash_without_rename`
* `C54_no_crash_without_rename_goroutines`
* `C54_no_dangling_without_rename`
* `C54_no_dangling_without_rename_goroutines`
* `C54_rename_unAlias_dangles`
* `C54_who_panics`
* `C54_who_panics_goroutines`
* `C58_order`
* `C58_order_inside`
* `C59_alone`
* `C59_atomic_without_rename`
* `C59_atomic_without_unAlias`
* `C59_real_time`
* `C59_real_time_goroutines`
* `C59_real_time_rows`
* `C59_real_time_rows_goroutines`
* `C59_rest_without_rename`
* `C59_rest_without_rename_goroutines`
* `C59_rest_without_unAlias`
* `C59_rest_without_unAlias_goroutines`
* `C60_executions`
* `C60_executions_converse`
* `C60_nothing_lost`
* `C60_nothing_new`
* `C60_same_final_states`
* `C60_same_outcomes`
* `C61_methods_every`
* `C61_methods_exact`
* `C61_only_rename_unalias`
* `C61_race_free`
* `C61_rename_unalias_race`
* `C61_started_goroutines_never_race`
* `C62_calls_complete`
* `C62_goroutines_terminate`
* `C62_no_deadlock`
* `C62_waiting_moves`
* `C63_empty_index`
* `C63_only_order_varies`
* `C63_string_shows_index`
* `C64_string_always_returns`
* `C64_string_sees_whole_puts`
* `C64_string_sees_whole_puts_goroutines`
* `C64_string_shows_every_index`
* `C65_guard_exact`
* `C65_label_is_name_goroutines_partial`
* `C65_label_is_name_partial`
* `C65_refuted`
* `C65_rename_keeps_label`
* `C65_shown_under_first_name`
* `C65_shown_under_its_name_partial`
* `C65_shown_under_name_of_object`
* `C66_crash_exact`
* `C66_hang_exact`
* `C66_returns_exact`
* `C66_text_exact`
* `C66_text_exact_calls`
* `C67_contract`
* `C67_hits_search`
* `C67_insertion_sort`
* `C68_always_unwinds`
* `C68_calls`
* `C68_no_deadlock`
* `C68_no_lock_left`
* `C68_no_trace`
* `C68_state`
* `C68_unwinds`
* `C68_who_leaks`
* `C69_linear_steps`
* `C70_space_partial`
* `C70_space_refuted`
* `C70_table_exact`
* `C70_time_refuted`
* `C71_after_the_first`
* `C71_asks_prefix`
* `C71_linear_time`
* `C71_linear_time_all`
* `C71_stops_early`
* `C73_fields_exist`
* `C73_guard_exact`
* `C74_guard_exact`
* `C74_ids_collapse`
* `C74_output`
* `C74_refuted`
* `C74_round_trip_partial`
* `C74_text_round_trip`
* `C75_any_text`
* `C75_same_tokens`
* `C76_hits_search`
* `C76_linear_search`
* `C76_put_then_hits_search`
* `C76_put_then_linear_search`
* `C76_readme`
* `C76_token_count`
* `C77_name_lost`
* `C77_only_appended`
* `C77_only_appended_goroutines`
* `C77_put_stored`
* `C77_stays_stored`
* `C77_stays_stored_goroutines`
* `C77_stored_is_found`
* `C77_stored_is_found_goroutines`
* `C78_append_exact`
* `C78_append_harmless_partial`
* `C78_append_refuted`
* `C78_still_consistent`
* `C78_write_changes_alias`
* `C78_write_crashes`
* `C78_write_exact`
* `C78_write_races`
* `C78_write_refuted`
* `C79_aliases_every`
* `C79_aliases_exact`
* `C79_aliases_goroutines_every`
* `C79_aliases_goroutines_exact`
* `C79_completion_every`
* `C79_completion_exact`
* `C79_completion_goroutines`
* `C79_completion_goroutines_every`
* `C79_completion_goroutines_exact`
* `C79_labels_every`
* `C79_labels_exact`
* `C79_labels_goroutines_every`
* `C79_panics_every`
* `C79_panics_exact`
* `C79_panics_goroutines_every`
* `C79_panics_goroutines_exact`
* `C79_rows_every`
* `C79_rows_exact`
* `C79_rows_goroutines_every`
* `C80_alone_hangs`
* `C80_alone_hangs_exact`
* `C80_alone_put_hangs`
* `C80_alone_returns`
* `C80_calls_exact`
* `C80_nested_forever`
* `C80_no_deadlock_partial`
* `C80_races`
* `C80_refuted`
* `C80_under_write_forever`
* `C80_without_calls`
* `C81_appends`
* `C81_slice_text`
* `C82_apart_partial`
* `C82_linear_search_partial`
* `C84_bound`
* `C84_cells_exact`
* `C84_intersection`
* `C84_one_token`
* `C84_space_partial`
* `C84_space_refuted`
* `C85_append_copies`
* `C85_append_overwrites`
* `C85_views`
* `C85_write`
* `C86_adding_words`
* `C86_fixed_partial`
* `C86_lost`
* `C86_mixed`
* `C86_mixed_hits`
* `C86_slice`
* `C86_still_found`
* `C87_every_call_ends`
* `C87_every_call_returns`
* `C87_goroutines`
* `C87_leak_starves`
* `C87_methods_exact`
* `C87_methods_goroutines_exact`
* `C87_no_new_readers`
* `C88_growth`
* `C88_positions_at_most_tokens`
* `C88_size`
* `C89_at_least`
* `C89_build_cost`
* `C89_free_iff`
* `C89_put_cost`
* `C89_put_cost_partial`
* `C89_quadratic`
* `C89_refuted`
* `C89_squares`
* `C90_documents_do_not_matter`
* `C90_goroutines`
* `C90_package_engines`
* `C90_same_ends`
* `C91_drops_every`
* `C91_methods_every`
* `C91_methods_exact`
* `C91_methods_goroutines_every`
* `C91_new_names_every`
* `C91_one_look_goroutines_partial`
* `C91_one_look_partial`
* `C91_one_look_rows_goroutines_partial`
* `C91_one_look_rows_partial`
* `C91_order`
* `C91_refuted`
* `C91_refuted_by_alias`
* `C91_refuted_by_drops`
* `C91_refuted_by_new_names`
* `C91_refuted_by_rename`
* `C91_refuted_by_unalias`
* `C91_settled_goroutines_partial`
* `C91_settled_partial`
* `C91_unalias_every`
* `C92_ends_as_specified`
* `C92_locks_goroutines`
* `C92_lone_call`
* `C92_one_caller_goes_on`
* `C92_state`
* `C92_state_goroutines`
* `C93_may_need_rename`
* `C93_no_new_answers`
* `C93_no_new_answers_goroutines`
* `C93_no_new_states`
* `C93_no_new_states_goroutines`
* `C94_any_aliases`
* `C94_states`
* `C94_states_concurrent`
* `C94_states_goroutines`
* `C94_states_without_rename`
* `C94_states_without_unAlias`
* `C95_cells`
* `C95_methods_every`
* `C95_methods_exact`
* `C95_no_race_goroutines_partial`
* `C95_no_race_partial`
* `C95_only_rename_writes`
* `C95_refuted`
* `C95_refuted_every`
* `C96_kept_mutex`
* `C96_real_time`
* `C96_real_time_goroutines`
* `C96_realised`
* `C96_results_exact`
* `C96_results_exact_rename`
* `C96_results_goroutines_exact`
* `C96_results_rename_goroutines_exact`
* `C97_answers_exact`
* `C97_answers_exact_rename`
* `C97_answers_goroutines_exact`
* `C97_answers_rename_goroutines_exact`
* `C97_same_answers`
* `C97_same_answers_goroutines`
* `C97_same_answers_rename`
* `C97_same_answers_rename_goroutines`
* `C98_indices`
* `C98_methods_every`
* `C98_methods_exact`
* `C98_only_rename_unalias`
* `C98_ordered_partial`
* `C98_race_unordered`
* `C98_refuted`
* `C98_refuted_every`
* `C99_executions`
* `C99_fork_join`
* `C99_indices`
* `C99_methods_every`
* `C99_methods_exact`
* `C99_only_rename_unalias`
* `C99_race_unordered`
* `C99_same_call`
* `C99_started`
* `C99_unordered`

## Quot.sound, propext (111 theorems)

* `C02_characters_cover_the_text`
* `C02_concatenated_tokens`
* `C02_keep_everything`
* `C03_determined_by_kept`
* `C03_no_predicate`
* `C03_order_irrelevant`
* `C03_union`
* `C04_last_filter_last`
* `C04_nesting`
* `C05_lowercases_each_character`
* `C06_idempotent`
* `C06_multiplicity`
* `C06_order_kept`
* `C06_removes_exactly_the_stop_words`
* `C09_entries_lower_case`
* `C09_entries_take_effect`
* `C100_contract_needed`
* `C100_hits_any_index`
* `C100_hits_panics`
* `C100_noop_all`
* `C100_noop_all_panics`
* `C101_returned_index_ignored`
* `C102_small_partial`
* `C103_only_put`
* `C105_load_exact`
* `C105_refuted`
* `C106_content`
* `C107_filed`
* `C107_no_tokenizer`
* `C107_put_leaves`
* `C107_tokenizer_fixed`
* `C10_documents_never_change`
* `C10_one_document_per_put`
* `C10_put_appends`
* `C12_index_unaffected`
* `C12_indexed_returns_positions`
* `C12_results_are_fresh`
* `C12_slices_keep_contents`
* `C12_slices_stay`
* `C13_lookups_report_all_copies`
* `C13_put_never_replaces`
* `C14_accessors`
* `C14_documents_depend_on_contents`
* `C14_engines_blind`
* `C14_equivalent_statements`
* `C14_matching_depends_on_statements`
* `C16_query_guard_exact`
* `C16_refuted_collision`
* `C17_entry_hits`
* `C17_hits_search_behaviour`
* `C19_independent_of_copy`
* `C20_result_order`
* `C21_irreflexive`
* `C21_transitive`
* `C22_guard_exact`
* `C22_hits_at_least`
* `C22_query_guard_exact`
* `C22_repeated_token_counts_twice`
* `C23_guard_exact`
* `C24_hits_refuted`
* `C25_hits_refuted`
* `C26_hits_empty_query`
* `C26_hits_unknown_token_refuted`
* `C26_noop_all`
* `C28_unsorted_wrong`
* `C29_collision`
* `C29_common_suffix`
* `C29_function_of_the_id`
* `C29_one_byte_difference`
* `C29_published_fnv`
* `C41_goroutines_panic`
* `C41_goroutines_terminate`
* `C55_offsets_in_range`
* `C55_r1_and_r2`
* `C55_region_means`
* `C55_suffixes`
* `C56_guard_exact`
* `C56_rv_exact`
* `C56_rv_partial`
* `C57_round_trip`
* `C58_absent_kept`
* `C58_decoding`
* `C58_inner_fields`
* `C58_last_hits`
* `C58_last_strings`
* `C58_null_ignored`
* `C58_unknown_ignored`
* `C59_two_steps`
* `C67_only_rearranges`
* `C69_hits_steps`
* `C69_other_steps`
* `C69_same_results`
* `C70_steps_exact`
* `C70_time_partial`
* `C71_intersection_iterations`
* `C72_accepts_exactly`
* `C72_trailing`
* `C73_left_by_object`
* `C73_left_exactly`
* `C76_tokens_are_terms`
* `C81_one_value`
* `C81_slice_round_trip`
* `C81_slices`
* `C82_engines`
* `C82_half_put_seen`
* `C82_overlap_loses`
* `C82_overlap_races`
* `C82_refuted`
* `C82_search_panics_later`
* `C86_refuted`
* `C89_same_index`

## none (10 theorems)

* `C04_first_filter_first`
* `C04_no_filter`
* `C106_every_request`
* `C106_text_fixed`
* `C107_load_leaves`
* `C14_constructors`
* `C26_linear_empty_query`
* `C26_noop_zero`
* `C67_accessors`
* `C83_stem_is_nil`

## propext (16 theorems)

* `C01_alphanumeric_keeps`
* `C05_one_to_one`
* `C07_flag_never_removes`
* `C07_one_output_per_token`
* `C07_pointwise`
* `C43_repeated_index_races`
* `C56_rv_refuted`
* `C57_writes_json`
* `C67_in_range`
* `C67_swap_exact`
* `C73_refuted`
* `C73_unnamed_kept_partial`
* `C75_white_space`
* `C81_after_error`
* `C81_at_start`
* `C86_arguments`
