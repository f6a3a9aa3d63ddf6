{
 "claims": [
  {
   "property": "C01",
   "status": "proved",
   "theorems": [
    "Visigoth.C01_tokens_are_maximal_runs",
    "Visigoth.C01_token_characters_are_kept",
    "Visigoth.C01_alphanumeric_keeps",
    "Visigoth.C01_characters_are_utf8"
   ],
   "note": ""
  },
  {
   "property": "C02",
   "status": "proved",
   "theorems": [
    "Visigoth.C02_concatenated_tokens",
    "Visigoth.C02_characters_cover_the_text",
    "Visigoth.C02_keep_everything"
   ],
   "note": ""
  },
  {
   "property": "C03",
   "status": "proved",
   "theorems": [
    "Visigoth.C03_union",
    "Visigoth.C03_determined_by_kept",
    "Visigoth.C03_no_predicate",
    "Visigoth.C03_order_irrelevant"
   ],
   "note": ""
  },
  {
   "property": "C04",
   "status": "proved",
   "theorems": [
    "Visigoth.C04_no_filter",
    "Visigoth.C04_first_filter_first",
    "Visigoth.C04_last_filter_last",
    "Visigoth.C04_nesting"
   ],
   "note": ""
  },
  {
   "property": "C05",
   "status": "proved",
   "theorems": [
    "Visigoth.C05_one_to_one",
    "Visigoth.C05_lowercases_each_character",
    "Visigoth.C05_output_characters",
    "Visigoth.C05_idempotent"
   ],
   "note": ""
  },
  {
   "property": "C06",
   "status": "proved",
   "theorems": [
    "Visigoth.C06_removes_exactly_the_stop_words",
    "Visigoth.C06_multiplicity",
    "Visigoth.C06_order_kept",
    "Visigoth.C06_idempotent"
   ],
   "note": ""
  },
  {
   "property": "C07",
   "status": "proved",
   "theorems": [
    "Visigoth.C07_one_output_per_token",
    "Visigoth.C07_flag_never_removes",
    "Visigoth.C07_pointwise"
   ],
   "note": ""
  },
  {
   "property": "C08",
   "status": "proved",
   "theorems": [
    "Visigoth.C08_tokens_case_insensitive",
    "Visigoth.C08_search_case_insensitive"
   ],
   "note": ""
  },
  {
   "property": "C09",
   "status": "proved",
   "theorems": [
    "Visigoth.C09_entries_take_effect",
    "Visigoth.C09_entries_lower_case",
    "Visigoth.C09_por_que_is_dead",
    "Visigoth.C09_por_que_can_be_removed"
   ],
   "note": ""
  },
  {
   "property": "C10",
   "status": "proved",
   "theorems": [
    "Visigoth.C10_one_document_per_put",
    "Visigoth.C10_documents_never_change",
    "Visigoth.C10_put_appends",
    "Visigoth.C10_in_repository"
   ],
   "note": ""
  },
  {
   "property": "C11",
   "status": "proved",
   "theorems": [
    "Visigoth.C11_inverted_index_exact",
    "Visigoth.C11_in_repository",
    "Visigoth.C11_in_repository_goroutines"
   ],
   "note": ""
  },
  {
   "property": "C12",
   "status": "proved",
   "theorems": [
    "Visigoth.C12_index_unaffected",
    "Visigoth.C12_indexed_returns_positions",
    "Visigoth.C12_slices_stay",
    "Visigoth.C12_slices_keep_contents",
    "Visigoth.C12_results_are_fresh"
   ],
   "note": ""
  },
  {
   "property": "C13",
   "status": "proved",
   "theorems": [
    "Visigoth.C13_put_never_replaces",
    "Visigoth.C13_lookups_report_all_copies"
   ],
   "note": ""
  },
  {
   "property": "C14",
   "status": "proved",
   "theorems": [
    "Visigoth.C14_repository",
    "Visigoth.C14_engines_blind",
    "Visigoth.C14_repository_equivalent_statements",
    "Visigoth.C14_matching_depends_on_statements",
    "Visigoth.C14_documents_depend_on_contents",
    "Visigoth.C14_equivalent_statements",
    "Visigoth.C14_constructors",
    "Visigoth.C14_accessors"
   ],
   "note": ""
  },
  {
   "property": "C15",
   "status": "proved",
   "theorems": [
    "Visigoth.C15_linear_search_exact",
    "Visigoth.C15_linear_search_payload"
   ],
   "note": ""
  },
  {
   "property": "C16",
   "status": "partial",
   "theorems": [
    "Visigoth.C16_hits_search_exact_partial",
    "Visigoth.C16_refuted_duplicate_id",
    "Visigoth.C16_refuted_collision",
    "Visigoth.C16_query_guard_exact",
    "Visigoth.C16_guard_exact"
   ],
   "note": "False for indexes with repeated or colliding IDs (two refutations); proved when ID hashes are distinct. The exact guards are proved as equivalences: for one query, documents sharing a hash must together contain fewer tokens than the query; for all queries, documents sharing a hash must have no tokens."
  },
  {
   "property": "C17",
   "status": "proved",
   "theorems": [
    "Visigoth.C17_hits_search_behaviour",
    "Visigoth.C17_entry_hits"
   ],
   "note": ""
  },
  {
   "property": "C18",
   "status": "partial",
   "theorems": [
    "Visigoth.C18_engines_agree_partial",
    "Visigoth.C18_refuted",
    "Visigoth.C18_query_guard_exact",
    "Visigoth.C18_guard_exact"
   ],
   "note": "False for repeated or colliding IDs; proved when ID hashes are distinct. Exact guards proved as equivalences (as for C16)."
  },
  {
   "property": "C19",
   "status": "proved",
   "theorems": [
    "Visigoth.C19_independent_of_sort",
    "Visigoth.C19_independent_of_copy"
   ],
   "note": ""
  },
  {
   "property": "C20",
   "status": "proved",
   "theorems": [
    "Visigoth.C20_result_order",
    "Visigoth.C20_document_order_refuted"
   ],
   "note": "The order (Hits descending, then ID ascending) is proved; the documented tie-break by document order is refuted."
  },
  {
   "property": "C21",
   "status": "proved",
   "theorems": [
    "Visigoth.C21_irreflexive",
    "Visigoth.C21_asymmetric",
    "Visigoth.C21_transitive",
    "Visigoth.C21_incomparable"
   ],
   "note": ""
  },
  {
   "property": "C22",
   "status": "proved",
   "theorems": [
    "Visigoth.C22_linear_hits",
    "Visigoth.C22_hits",
    "Visigoth.C22_order_is_by_id",
    "Visigoth.C22_hits_at_least",
    "Visigoth.C22_hits_refuted",
    "Visigoth.C22_repeated_token_counts_twice",
    "Visigoth.C22_query_guard_exact",
    "Visigoth.C22_guard_exact"
   ],
   "note": "Proved for LinearSearch for all indexes and for HitsSearch, as the claim says, with distinct ID hashes, with the order of the results. Beyond the claim: without distinct hashes it is refuted for HitsSearch, with the lower bound proved; exact guards proved as equivalences; for all queries: documents sharing a hash have no token in common."
  },
  {
   "property": "C23",
   "status": "partial",
   "theorems": [
    "Visigoth.C23_linear_query_order",
    "Visigoth.C23_hits_query_order_partial",
    "Visigoth.C23_hits_refuted",
    "Visigoth.C23_guard_exact"
   ],
   "note": "Proved for LinearSearch; HitsSearch needs distinct ID hashes (refuted otherwise). Exact guard proved as an equivalence: per hash the first document containing a token is the same for all tokens."
  },
  {
   "property": "C24",
   "status": "partial",
   "theorems": [
    "Visigoth.C24_linear_narrowing",
    "Visigoth.C24_hits_narrowing_partial",
    "Visigoth.C24_hits_refuted",
    "Visigoth.C24_guard_exact"
   ],
   "note": "Proved for LinearSearch; HitsSearch needs distinct ID hashes (refuted otherwise). Exact guard proved as an equivalence."
  },
  {
   "property": "C25",
   "status": "partial",
   "theorems": [
    "Visigoth.C25_linear_prefix",
    "Visigoth.C25_hits_sublist_partial",
    "Visigoth.C25_hits_refuted",
    "Visigoth.C25_guard_exact"
   ],
   "note": "Proved for LinearSearch; HitsSearch needs distinct ID hashes (refuted otherwise). Exact guard proved as an equivalence."
  },
  {
   "property": "C26",
   "status": "proved",
   "theorems": [
    "Visigoth.C26_linear_empty_query",
    "Visigoth.C26_hits_empty_query",
    "Visigoth.C26_linear_unknown_token",
    "Visigoth.C26_hits_unknown_token",
    "Visigoth.C26_hits_unknown_token_refuted",
    "Visigoth.C26_noop_zero",
    "Visigoth.C26_noop_all",
    "Visigoth.C26_guard_exact"
   ],
   "note": "Proved. Beyond the claim: without distinct ID hashes the unknown-token part is refuted for HitsSearch; exact guard proved as an equivalence: documents sharing a hash have no token in common."
  },
  {
   "property": "C27",
   "status": "proved",
   "theorems": [
    "Visigoth.C27_no_panic"
   ],
   "note": ""
  },
  {
   "property": "C28",
   "status": "proved",
   "theorems": [
    "Visigoth.C28_with_repetitions",
    "Visigoth.C28_strictly_increasing",
    "Visigoth.C28_commutative",
    "Visigoth.C28_unsorted_wrong",
    "Visigoth.C28_sound",
    "Visigoth.C28_positions"
   ],
   "note": ""
  },
  {
   "property": "C29",
   "status": "proved",
   "theorems": [
    "Visigoth.C29_published_fnv",
    "Visigoth.C29_function_of_the_id",
    "Visigoth.C29_one_byte_difference",
    "Visigoth.C29_common_suffix",
    "Visigoth.C29_collision"
   ],
   "note": ""
  },
  {
   "property": "C30",
   "status": "proved",
   "theorems": [
    "Visigoth.C30_calls_refine_specification",
    "Visigoth.C30_guarded_calls_complete",
    "Visigoth.C30_hang_exact",
    "Visigoth.C30_crash_exact",
    "Visigoth.C30_package_engines_safe"
   ],
   "note": ""
  },
  {
   "property": "C31",
   "status": "proved",
   "theorems": [
    "Visigoth.C31_list_agrees_with_has",
    "Visigoth.C31_listAliases_agrees_with_hasAlias"
   ],
   "note": ""
  },
  {
   "property": "C32",
   "status": "proved",
   "theorems": [
    "Visigoth.C32_alias_contract"
   ],
   "note": ""
  },
  {
   "property": "C33",
   "status": "proved",
   "theorems": [
    "Visigoth.C33_remove_whole_alias",
    "Visigoth.C33_remove_entry",
    "Visigoth.C33_last_entry"
   ],
   "note": ""
  },
  {
   "property": "C34",
   "status": "partial",
   "theorems": [
    "Visigoth.C34_refuted",
    "Visigoth.C34_refuted_statement",
    "Visigoth.C34_whole_alias_partial",
    "Visigoth.C34_false_always_leaks",
    "Visigoth.C34_leaked_reader_blocks",
    "Visigoth.C34_leaked_writer_blocks",
    "Visigoth.C34_guard_exact"
   ],
   "note": "False: a false return with a non-empty index always leaks a lock (C34_false_always_leaks), after which calls hang (C34_refuted, C34_leaked_*_blocks). Proved for index = \"\". Exact guard proved as an equivalence (C34_guard_exact)."
  },
  {
   "property": "C35",
   "status": "proved",
   "theorems": [
    "Visigoth.C35_rename_moves",
    "Visigoth.C35_rename_unknown",
    "Visigoth.C35_rename_observed"
   ],
   "note": ""
  },
  {
   "property": "C36",
   "status": "partial",
   "theorems": [
    "Visigoth.C36_refuted",
    "Visigoth.C36_refuted_statement",
    "Visigoth.C36_rename_to_free_name_partial",
    "Visigoth.C36_rename_to_itself",
    "Visigoth.C36_overwrite",
    "Visigoth.C36_guard_exact",
    "Visigoth.C36_count_exact"
   ],
   "note": "False for Rename onto an existing index or onto itself; proved when the new name is free. The number of indices is kept exactly when the new name is free (C36_count_exact). Exact for the searches: when the new name is taken, the contents are kept only if another index looks the same to every search as the one that had it (C36_guard_exact)."
  },
  {
   "property": "C37",
   "status": "proved",
   "theorems": [
    "Visigoth.C37_drop",
    "Visigoth.C37_drop_unknown",
    "Visigoth.C37_drop_deletes_unrelated_empty_alias",
    "Visigoth.C37_drop_observed"
   ],
   "note": ""
  },
  {
   "property": "C38",
   "status": "partial",
   "theorems": [
    "Visigoth.C38_refuted",
    "Visigoth.C38_no_dangling_partial",
    "Visigoth.C38_no_nil_index",
    "Visigoth.C38_rows_exist_partial",
    "Visigoth.C38_guard_exact",
    "Visigoth.C38_dangling_needs_self_rename"
   ],
   "note": "False after Rename(x,x); proved for every history without such a Rename. Exact: a call leaves a dangling alias iff it renames an existing aliased index to itself (C38_guard_exact, C38_dangling_needs_self_rename)."
  },
  {
   "property": "C39",
   "status": "partial",
   "theorems": [
    "Visigoth.C39_refuted",
    "Visigoth.C39_entries_distinct_partial",
    "Visigoth.C39_guard_exact",
    "Visigoth.C39_repetition_needs_merge",
    "Visigoth.C39_rows_distinct_partial",
    "Visigoth.C39_once_partial"
   ],
   "note": "False after Rename onto an existing index of the same alias; proved for guarded histories. Exact: a call makes an entry appear twice iff it renames an existing index onto another entry of the same alias (C39_guard_exact, C39_repetition_needs_merge)."
  },
  {
   "property": "C40",
   "status": "proved",
   "theorems": [
    "Visigoth.C40_search_resolution",
    "Visigoth.C40_put_resolution"
   ],
   "note": ""
  },
  {
   "property": "C41",
   "status": "proved",
   "theorems": [
    "Visigoth.C41_goroutines_result",
    "Visigoth.C41_goroutines_sequential",
    "Visigoth.C41_goroutines_panic",
    "Visigoth.C41_goroutines_progress",
    "Visigoth.C41_goroutines_terminate",
    "Visigoth.C41_alias_search_merges",
    "Visigoth.C41_single_index_alias"
   ],
   "note": ""
  },
  {
   "property": "C42",
   "status": "partial",
   "theorems": [
    "Visigoth.C42_refuted",
    "Visigoth.C42_single_index_partial",
    "Visigoth.C42_same_results",
    "Visigoth.C42_guard_exact"
   ],
   "note": "False for aliases with several indices (goroutine order); proved when the name resolves to at most one index, and up to permutation in general. Exact: the result is unique iff the contributions of any two listed indices commute (C42_guard_exact)."
  },
  {
   "property": "C43",
   "status": "proved",
   "theorems": [
    "Visigoth.C43_goroutines_each_once",
    "Visigoth.C43_goroutines_state",
    "Visigoth.C43_goroutines_progress",
    "Visigoth.C43_goroutines_terminate",
    "Visigoth.C43_goroutines_disjoint",
    "Visigoth.C43_put_any_interleaving",
    "Visigoth.C43_repeated_index_races",
    "Visigoth.C43_put_through_alias"
   ],
   "note": ""
  },
  {
   "property": "C44",
   "status": "partial",
   "theorems": [
    "Visigoth.C44_refuted",
    "Visigoth.C44_refuted_statement",
    "Visigoth.C44_put_is_found_partial",
    "Visigoth.C44_guard_exact"
   ],
   "note": "False for an alias that lists no index; proved in all other cases. Exact guard proved as an equivalence (C44_guard_exact)."
  },
  {
   "property": "C45",
   "status": "proved",
   "theorems": [
    "Visigoth.C45_isolation"
   ],
   "note": ""
  },
  {
   "property": "C46",
   "status": "proved",
   "theorems": [
    "Visigoth.C46_unseen",
    "Visigoth.C46_returned_unseen",
    "Visigoth.C46_reads_change_nothing"
   ],
   "note": ""
  },
  {
   "property": "C47",
   "status": "partial",
   "theorems": [
    "Visigoth.C47_rows_follow_renames_goroutines",
    "Visigoth.C47_table_follows_renames_goroutines",
    "Visigoth.C47_refuted",
    "Visigoth.C47_snapshot_partial",
    "Visigoth.C47_guard_exact",
    "Visigoth.C47_rename_rewrites",
    "Visigoth.C47_moment",
    "Visigoth.C47_only_rename_rewrites",
    "Visigoth.C47_rows_follow_renames",
    "Visigoth.C47_concurrent_snapshot_partial",
    "Visigoth.C47_concurrent_table_partial",
    "Visigoth.C47_goroutines_snapshot_partial",
    "Visigoth.C47_torn"
   ],
   "note": "False: Rename writes into slices already returned; proved for histories without Rename. Exact: the next call changes a row iff it renames an existing index listed in it to another name (C47_guard_exact); later renames rewrite it iff an alias still uses its array (C47_rename_rewrites). With any number of calls at once: the rows are the alias table of one moment of the call, and their entries change only by calls of Rename that have been under way since (C47_moment, C47_rows_follow_renames); while one is under way the rows may be half renamed (C47_torn)."
  },
  {
   "property": "C48",
   "status": "proved",
   "theorems": [
    "Visigoth.C48_search_sees_whole_puts",
    "Visigoth.C48_goroutine_sees_whole_puts"
   ],
   "note": ""
  },
  {
   "property": "C49",
   "status": "proved",
   "theorems": [
    "Visigoth.C49_no_deadlock",
    "Visigoth.C49_calls_terminate",
    "Visigoth.C49_calls_complete",
    "Visigoth.C49_quiescence_reached",
    "Visigoth.C49_who_leaks",
    "Visigoth.C49_who_leaks_goroutines"
   ],
   "note": ""
  },
  {
   "property": "C50",
   "status": "proved",
   "theorems": [
    "Visigoth.C50_lock_never_released",
    "Visigoth.C50_false_leaks",
    "Visigoth.C50_reader_leak_blocks",
    "Visigoth.C50_writer_leak_blocks",
    "Visigoth.C50_reader_leak_blocks_goroutines",
    "Visigoth.C50_writer_leak_blocks_goroutines",
    "Visigoth.C50_lock_never_released_goroutines",
    "Visigoth.C50_false_leaks_goroutines"
   ],
   "note": ""
  },
  {
   "property": "C51",
   "status": "partial",
   "theorems": [
    "Visigoth.C51_refuted",
    "Visigoth.C51_only_rename_unalias",
    "Visigoth.C51_race_free_partial",
    "Visigoth.C51_methods_every",
    "Visigoth.C51_refuted_every",
    "Visigoth.C51_methods_exact"
   ],
   "note": "False: Rename uses the alias table without its mutex and races with UnAlias (C51_refuted); proved that this is the only race, and that a set of methods can be used without races exactly if it lacks Put, Rename or UnAlias (C51_methods_exact)."
  },
  {
   "property": "C52",
   "status": "partial",
   "theorems": [
    "Visigoth.C52_refuted",
    "Visigoth.C52_puts_kept_partial",
    "Visigoth.C52_search_sees_puts_partial",
    "Visigoth.C52_lone_put_kept_partial",
    "Visigoth.C52_refuted_every",
    "Visigoth.C52_puts_kept_goroutines_partial",
    "Visigoth.C52_search_sees_puts_goroutines_partial",
    "Visigoth.C52_lone_put_kept_goroutines_partial",
    "Visigoth.C52_lost_to"
   ],
   "note": "False: two Puts that both find no index create it twice and one document is lost (C52_refuted, using Put calls only); proved for every execution, goroutines interleaved, from any point at which the index exists and no running call puts to the name, drops or renames it, as long as it is not dropped or renamed; and for a Put that creates the index, if it overlaps no other call that binds or unbinds its name and the name is no alias (C52_lone_put_kept_partial). C52_lost_to says for every execution how a document can get out of reach: its name was dropped or renamed, or taken by a Put that had looked the name up while it stood for nothing."
  },
  {
   "property": "C53",
   "status": "partial",
   "theorems": [
    "Visigoth.C53_refuted",
    "Visigoth.C53_refuted_by_rename",
    "Visigoth.C53_drop_true_removed_partial",
    "Visigoth.C53_somebody_removed",
    "Visigoth.C53_removed_itself_partial",
    "Visigoth.C53_one_of_two_partial",
    "Visigoth.C53_refuted_every",
    "Visigoth.C53_refuted_by_rename_every",
    "Visigoth.C53_one_of_two_goroutines_partial"
   ],
   "note": "False: two overlapping Drops both return true (C53_refuted), a Drop returns true while Rename moves the index away (C53_refuted_by_rename); proved of every execution: while a Drop that returns true was running, it or an overlapping Drop or Rename took the index away (C53_somebody_removed), so it removed the index itself if no overlapping call did; and of two Drops that do not overlap only one returns true."
  },
  {
   "property": "C54",
   "status": "proved",
   "theorems": [
    "Visigoth.C54_no_crash_without_rename",
    "Visigoth.C54_no_dangling_without_rename",
    "Visigoth.C54_rename_unAlias_dangles",
    "Visigoth.C54_no_crash_without_rename_goroutines",
    "Visigoth.C54_no_dangling_without_rename_goroutines",
    "Visigoth.C54_who_panics",
    "Visigoth.C54_who_panics_goroutines",
    "Visigoth.C54_actions_succeed"
   ],
   "note": ""
  },
  {
   "property": "C55",
   "status": "proved",
   "theorems": [
    "Visigoth.C55_r1_and_r2",
    "Visigoth.C55_region_means",
    "Visigoth.C55_suffixes",
    "Visigoth.C55_offsets_in_range"
   ],
   "note": ""
  },
  {
   "property": "C56",
   "status": "partial",
   "theorems": [
    "Visigoth.C56_rv_exact",
    "Visigoth.C56_rv_refuted",
    "Visigoth.C56_rv_partial",
    "Visigoth.C56_guard_exact"
   ],
   "note": "False as stated (C56_rv_refuted: \"crear\"); proved when R1 is non-empty, with the exact result for every word (C56_rv_exact) and exactness of the guard (C56_guard_exact)."
  },
  {
   "property": "C57",
   "status": "proved",
   "theorems": [
    "Visigoth.C57_writes_json",
    "Visigoth.C57_round_trip"
   ],
   "note": ""
  },
  {
   "property": "C58",
   "status": "proved",
   "theorems": [
    "Visigoth.C58_decoding",
    "Visigoth.C58_order",
    "Visigoth.C58_order_inside",
    "Visigoth.C58_unknown_ignored",
    "Visigoth.C58_null_ignored",
    "Visigoth.C58_inner_fields",
    "Visigoth.C58_absent_kept",
    "Visigoth.C58_last_hits",
    "Visigoth.C58_last_strings"
   ],
   "note": ""
  },
  {
   "property": "C59",
   "status": "proved",
   "theorems": [
    "Visigoth.C59_atomic_without_rename",
    "Visigoth.C59_atomic_without_unAlias",
    "Visigoth.C59_real_time",
    "Visigoth.C59_real_time_rows",
    "Visigoth.C59_rest_without_rename",
    "Visigoth.C59_rest_without_unAlias",
    "Visigoth.C59_two_steps",
    "Visigoth.C59_alone",
    "Visigoth.C59_real_time_goroutines",
    "Visigoth.C59_real_time_rows_goroutines",
    "Visigoth.C59_rest_without_rename_goroutines",
    "Visigoth.C59_rest_without_unAlias_goroutines"
   ],
   "note": ""
  },
  {
   "property": "C60",
   "status": "proved",
   "theorems": [
    "Visigoth.C60_nothing_new",
    "Visigoth.C60_nothing_lost",
    "Visigoth.C60_same_outcomes",
    "Visigoth.C60_same_final_states",
    "Visigoth.C60_executions",
    "Visigoth.C60_executions_converse"
   ],
   "note": ""
  },
  {
   "property": "C61",
   "status": "proved",
   "theorems": [
    "Visigoth.C61_methods_every",
    "Visigoth.C61_only_rename_unalias",
    "Visigoth.C61_started_goroutines_never_race",
    "Visigoth.C61_race_free",
    "Visigoth.C61_rename_unalias_race",
    "Visigoth.C61_methods_exact"
   ],
   "note": ""
  },
  {
   "property": "C62",
   "status": "proved",
   "theorems": [
    "Visigoth.C62_no_deadlock",
    "Visigoth.C62_goroutines_terminate",
    "Visigoth.C62_calls_complete",
    "Visigoth.C62_waiting_moves"
   ],
   "note": ""
  },
  {
   "property": "C63",
   "status": "proved",
   "theorems": [
    "Visigoth.C63_string_shows_index",
    "Visigoth.C63_only_order_varies",
    "Visigoth.C63_empty_index"
   ],
   "note": ""
  },
  {
   "property": "C64",
   "status": "proved",
   "theorems": [
    "Visigoth.C64_string_sees_whole_puts_goroutines",
    "Visigoth.C64_string_shows_every_index",
    "Visigoth.C64_string_always_returns",
    "Visigoth.C64_string_sees_whole_puts"
   ],
   "note": ""
  },
  {
   "property": "C65",
   "status": "partial",
   "theorems": [
    "Visigoth.C65_label_is_name_goroutines_partial",
    "Visigoth.C65_shown_under_first_name",
    "Visigoth.C65_guard_exact",
    "Visigoth.C65_shown_under_name_of_object",
    "Visigoth.C65_refuted",
    "Visigoth.C65_rename_keeps_label",
    "Visigoth.C65_label_is_name_partial",
    "Visigoth.C65_shown_under_its_name_partial"
   ],
   "note": "False: Rename leaves MemoryIndex.name unchanged, so String prints the old name (C65_refuted). Proved under the guard that no call renamed an index to that name, for one caller and for all interleavings. Exact: an index is shown under the name it was first put under, which the calls determine, so under its own name iff the two agree (C65_guard_exact)."
  },
  {
   "property": "C66",
   "status": "proved",
   "theorems": [
    "Visigoth.C66_hang_exact",
    "Visigoth.C66_crash_exact",
    "Visigoth.C66_returns_exact",
    "Visigoth.C66_text_exact",
    "Visigoth.C66_text_exact_calls"
   ],
   "note": ""
  },
  {
   "property": "C67",
   "status": "proved",
   "theorems": [
    "Visigoth.C67_only_rearranges",
    "Visigoth.C67_swap_exact",
    "Visigoth.C67_in_range",
    "Visigoth.C67_contract",
    "Visigoth.C67_insertion_sort",
    "Visigoth.C67_hits_search",
    "Visigoth.C67_accessors"
   ],
   "note": ""
  },
  {
   "property": "C68",
   "status": "proved",
   "theorems": [
    "Visigoth.C68_always_unwinds",
    "Visigoth.C68_unwinds",
    "Visigoth.C68_no_lock_left",
    "Visigoth.C68_no_trace",
    "Visigoth.C68_state",
    "Visigoth.C68_calls",
    "Visigoth.C68_no_deadlock",
    "Visigoth.C68_who_leaks"
   ],
   "note": ""
  },
  {
   "property": "C69",
   "status": "proved",
   "theorems": [
    "Visigoth.C69_same_results",
    "Visigoth.C69_hits_steps",
    "Visigoth.C69_linear_steps",
    "Visigoth.C69_other_steps"
   ],
   "note": ""
  },
  {
   "property": "C70",
   "status": "partial",
   "theorems": [
    "Visigoth.C70_steps_exact",
    "Visigoth.C70_time_refuted",
    "Visigoth.C70_time_partial",
    "Visigoth.C70_table_exact",
    "Visigoth.C70_space_refuted",
    "Visigoth.C70_space_partial"
   ],
   "note": "False: phase 2 visits every document of the index, so no constant works for the time, and the table has an entry for every document containing some query token, so none works for the space (both refuted for every constant). Exact step count and exact table proved; the bounds are proved when every document contains a query token (time) and for one-token queries with distinct hashes (space)."
  },
  {
   "property": "C71",
   "status": "proved",
   "theorems": [
    "Visigoth.C71_intersection_iterations",
    "Visigoth.C71_linear_time",
    "Visigoth.C71_asks_prefix",
    "Visigoth.C71_linear_time_all",
    "Visigoth.C71_stops_early",
    "Visigoth.C71_after_the_first"
   ],
   "note": "After the first token the search stops only if Indexed returned nil, which the repository's code leaves to vago slices.Copy; from the second token on the condition is exact."
  },
  {
   "property": "C72",
   "status": "proved",
   "theorems": [
    "Visigoth.C72_accepts_exactly",
    "Visigoth.C72_trailing"
   ],
   "note": "Token level; json.Valid of the standard library, which decides about skipped values, is assumed to accept exactly JSON."
  },
  {
   "property": "C73",
   "status": "partial",
   "theorems": [
    "Visigoth.C73_refuted",
    "Visigoth.C73_unnamed_kept_partial",
    "Visigoth.C73_left_exactly",
    "Visigoth.C73_fields_exist",
    "Visigoth.C73_left_by_object",
    "Visigoth.C73_guard_exact"
   ],
   "note": "False: fields before the error have been stored, and a field of the wrong type is overwritten with zero (refuted for every json.Valid). Proved: what is left behind exactly, for every token sequence and receiver (C73_left_exactly, with C73_fields_exist giving the fields of every text), the exact condition on a text under which the receiver is kept (C73_guard_exact), and that what the text does not name is kept."
  },
  {
   "property": "C74",
   "status": "partial",
   "theorems": [
    "Visigoth.C74_text_round_trip",
    "Visigoth.C74_guard_exact",
    "Visigoth.C74_round_trip_partial",
    "Visigoth.C74_refuted",
    "Visigoth.C74_ids_collapse",
    "Visigoth.C74_output"
   ],
   "note": "False for IDs or contents that are not UTF-8: easyjson replaces each bad byte by U+FFFD (C74_refuted), so different IDs can become equal (C74_ids_collapse). Exact result for every value (C74_text_round_trip); the round trip is exact iff both strings are UTF-8 (C74_guard_exact). The text written is UTF-8 without control characters (C74_output). Hits in the range of int."
  },
  {
   "property": "C75",
   "status": "proved",
   "theorems": [
    "Visigoth.C75_any_text",
    "Visigoth.C75_same_tokens",
    "Visigoth.C75_white_space"
   ],
   "note": "For texts without lexical errors; the lexer of easyjson is modelled from its source, it is not in the repository."
  },
  {
   "property": "C76",
   "status": "proved",
   "theorems": [
    "Visigoth.C76_tokens_are_terms",
    "Visigoth.C76_token_count",
    "Visigoth.C76_linear_search",
    "Visigoth.C76_hits_search",
    "Visigoth.C76_put_then_linear_search",
    "Visigoth.C76_put_then_hits_search",
    "Visigoth.C76_readme"
   ],
   "note": "Snowball and the unicode tables are parameters; assumed of them is only CaseTable (and, for the README program, the class of the letters it uses)."
  },
  {
   "property": "C77",
   "status": "proved",
   "theorems": [
    "Visigoth.C77_stays_stored_goroutines",
    "Visigoth.C77_stored_is_found_goroutines",
    "Visigoth.C77_only_appended",
    "Visigoth.C77_put_stored",
    "Visigoth.C77_stays_stored",
    "Visigoth.C77_stored_is_found",
    "Visigoth.C77_name_lost",
    "Visigoth.C77_only_appended_goroutines"
   ],
   "note": "All executions of the interleaving model, Rename and UnAlias included; that objects only grow also with interleaved goroutines."
  },
  {
   "property": "C78",
   "status": "partial",
   "theorems": [
    "Visigoth.C78_write_exact",
    "Visigoth.C78_append_exact",
    "Visigoth.C78_still_consistent",
    "Visigoth.C78_write_changes_alias",
    "Visigoth.C78_write_crashes",
    "Visigoth.C78_write_races",
    "Visigoth.C78_write_refuted",
    "Visigoth.C78_append_refuted",
    "Visigoth.C78_append_harmless_partial"
   ],
   "note": "False of the code: ListAliases returns the slices of the alias table themselves (C78_write_refuted, C78_append_refuted). Exactly what a write or an append changes is C78_write_exact and C78_append_exact; appending is harmless while Alias has not been called (C78_append_harmless_partial)."
  },
  {
   "property": "C79",
   "status": "proved",
   "theorems": [
    "Visigoth.C79_panics_every",
    "Visigoth.C79_aliases_every",
    "Visigoth.C79_completion_every",
    "Visigoth.C79_rows_every",
    "Visigoth.C79_labels_every",
    "Visigoth.C79_panics_goroutines_every",
    "Visigoth.C79_aliases_goroutines_every",
    "Visigoth.C79_completion_goroutines_every",
    "Visigoth.C79_rows_goroutines_every",
    "Visigoth.C79_labels_goroutines_every",
    "Visigoth.C79_panics_exact",
    "Visigoth.C79_aliases_exact",
    "Visigoth.C79_completion_exact",
    "Visigoth.C79_rows_exact",
    "Visigoth.C79_labels_exact",
    "Visigoth.C79_panics_goroutines_exact",
    "Visigoth.C79_aliases_goroutines_exact",
    "Visigoth.C79_completion_goroutines",
    "Visigoth.C79_completion_goroutines_exact"
   ],
   "note": ""
  },
  {
   "property": "C80",
   "status": "partial",
   "theorems": [
    "Visigoth.C80_without_calls",
    "Visigoth.C80_nested_forever",
    "Visigoth.C80_under_write_forever",
    "Visigoth.C80_no_deadlock_partial",
    "Visigoth.C80_races",
    "Visigoth.C80_calls_exact",
    "Visigoth.C80_refuted",
    "Visigoth.C80_alone_hangs",
    "Visigoth.C80_alone_hangs_exact",
    "Visigoth.C80_alone_returns",
    "Visigoth.C80_alone_put_hangs"
   ],
   "note": "False of the code: the index mutex is held while the engine and the tokenizer run (C80_refuted). No deadlock if the calls leave it alone (C80_no_deadlock_partial), and only then (C80_calls_exact). One caller: C80_alone_hangs_exact, C80_alone_put_hangs, C80_alone_returns."
  },
  {
   "property": "C81",
   "status": "proved",
   "theorems": [
    "Visigoth.C81_appends",
    "Visigoth.C81_one_value",
    "Visigoth.C81_after_error",
    "Visigoth.C81_at_start",
    "Visigoth.C81_slices",
    "Visigoth.C81_slice_round_trip",
    "Visigoth.C81_slice_text"
   ],
   "note": ""
  },
  {
   "property": "C82",
   "status": "partial",
   "theorems": [
    "Visigoth.C82_refuted",
    "Visigoth.C82_search_panics_later",
    "Visigoth.C82_half_put_seen",
    "Visigoth.C82_overlap_races",
    "Visigoth.C82_overlap_loses",
    "Visigoth.C82_apart_partial",
    "Visigoth.C82_engines",
    "Visigoth.C82_linear_search_partial"
   ],
   "note": "False: two overlapping Puts lose a document (C82_refuted), leave an index on which a later search panics (C82_search_panics_later), and a search sees a Put half done (C82_half_put_seen); in general, whenever two Puts overlap from the start a document can get lost (C82_overlap_loses), and a Put before its assignment of Docs can race with any call about to access Docs (C82_overlap_races). Proved of every execution in which no Put overlaps another call."
  },
  {
   "property": "C83",
   "status": "proved",
   "theorems": [
    "Visigoth.C83_stem_is_nil"
   ],
   "note": "The function is a stub; the filter calls the snowball library instead (C07)."
  },
  {
   "property": "C84",
   "status": "partial",
   "theorems": [
    "Visigoth.C84_intersection",
    "Visigoth.C84_cells_exact",
    "Visigoth.C84_space_refuted",
    "Visigoth.C84_space_partial",
    "Visigoth.C84_one_token",
    "Visigoth.C84_bound"
   ],
   "note": "False for every constant (C84_space_refuted); exact count in C84_cells_exact. Partial: O(I) where the query tokens occur only together; missing: queries with tokens that also occur apart. That slices.Copy allocates exactly what it copies is assumed."
  },
  {
   "property": "C85",
   "status": "proved",
   "theorems": [
    "Visigoth.C85_views",
    "Visigoth.C85_write",
    "Visigoth.C85_append_overwrites",
    "Visigoth.C85_append_copies"
   ],
   "note": "Byte slices with backing array, offset, length and capacity; contents proved equal to those of C55 and C56."
  },
  {
   "property": "C86",
   "status": "partial",
   "theorems": [
    "Visigoth.C86_refuted",
    "Visigoth.C86_fixed_partial",
    "Visigoth.C86_arguments",
    "Visigoth.C86_slice",
    "Visigoth.C86_mixed",
    "Visigoth.C86_mixed_hits",
    "Visigoth.C86_adding_words",
    "Visigoth.C86_still_found",
    "Visigoth.C86_lost"
   ],
   "note": "Refuted for words added, words removed and filters replaced (C86_refuted, C86_lost). Partial: memory the tokenizer reads is left alone; missing: tokenizers whose memory is changed, for which C86_mixed says exactly what LinearSearch finds."
  },
  {
   "property": "C87",
   "status": "proved",
   "theorems": [
    "Visigoth.C87_every_call_ends",
    "Visigoth.C87_goroutines",
    "Visigoth.C87_every_call_returns",
    "Visigoth.C87_no_new_readers",
    "Visigoth.C87_leak_starves",
    "Visigoth.C87_methods_exact",
    "Visigoth.C87_methods_goroutines_exact"
   ],
   "note": "Fairness is a hypothesis (Spec/Fair.lean); an endless fair history with endless calls is given as an example. C87_leak_starves shows that the condition on leaked locks is needed."
  },
  {
   "property": "C88",
   "status": "proved",
   "theorems": [
    "Visigoth.C88_size",
    "Visigoth.C88_positions_at_most_tokens",
    "Visigoth.C88_growth"
   ],
   "note": "Counts documents, map entries and positions; capacities of slices and the memory of strings are not counted."
  },
  {
   "property": "C89",
   "status": "partial",
   "theorems": [
    "Visigoth.C89_same_index",
    "Visigoth.C89_put_cost",
    "Visigoth.C89_build_cost",
    "Visigoth.C89_refuted",
    "Visigoth.C89_put_cost_partial",
    "Visigoth.C89_at_least",
    "Visigoth.C89_free_iff",
    "Visigoth.C89_quadratic",
    "Visigoth.C89_squares"
   ],
   "note": "False for every constant (C89_refuted); exact count in C89_put_cost and C89_build_cost. Partial: bounded document frequencies; missing: tokens shared by arbitrarily many documents, for which C89_at_least shows the claim false."
  },
  {
   "property": "C90",
   "status": "proved",
   "theorems": [
    "Visigoth.C90_documents_do_not_matter",
    "Visigoth.C90_same_ends",
    "Visigoth.C90_goroutines",
    "Visigoth.C90_package_engines"
   ],
   "note": "Engines that panic are excluded (an example shows that a panic leaves a lock behind). A call still running may be further ahead in the other execution."
  },
  {
   "property": "C91",
   "status": "partial",
   "theorems": [
    "Visigoth.C91_new_names_every",
    "Visigoth.C91_drops_every",
    "Visigoth.C91_unalias_every",
    "Visigoth.C91_methods_every",
    "Visigoth.C91_settled_goroutines_partial",
    "Visigoth.C91_one_look_rows_goroutines_partial",
    "Visigoth.C91_one_look_goroutines_partial",
    "Visigoth.C91_methods_goroutines_every",
    "Visigoth.C91_order",
    "Visigoth.C91_settled_partial",
    "Visigoth.C91_one_look_rows_partial",
    "Visigoth.C91_one_look_partial",
    "Visigoth.C91_refuted_by_new_names",
    "Visigoth.C91_refuted_by_drops",
    "Visigoth.C91_refuted_by_rename",
    "Visigoth.C91_refuted_by_alias",
    "Visigoth.C91_refuted",
    "Visigoth.C91_refuted_by_unalias",
    "Visigoth.C91_methods_exact"
   ],
   "note": "False of the code in five ways, each refuted from a state at rest by a small set of calls: Puts of a new name; Drops of one index; a Rename with Puts of existing indices; an Alias with Puts of that alias; an UnAlias with a Rename of its index. As to sets of methods the answer is exact (C91_methods_exact): no Put, no Drop, and not both Rename and UnAlias. Proved, step by step, when Puts name existing indices or aliases that no call changes and there is no Drop and no Rename (from every state at rest, whatever was called before), and for Alias, Rename and the reading methods alone. Without Rename the rows of ListAliases are compared with their contents, with Rename by alias name only."
  },
  {
   "property": "C92",
   "status": "proved",
   "theorems": [
    "Visigoth.C92_locks_goroutines",
    "Visigoth.C92_state",
    "Visigoth.C92_state_goroutines",
    "Visigoth.C92_lone_call",
    "Visigoth.C92_one_caller_goes_on",
    "Visigoth.C92_ends_as_specified"
   ],
   "note": ""
  },
  {
   "property": "C93",
   "status": "proved",
   "theorems": [
    "Visigoth.C93_no_new_answers_goroutines",
    "Visigoth.C93_no_new_states",
    "Visigoth.C93_no_new_states_goroutines",
    "Visigoth.C93_no_new_answers",
    "Visigoth.C93_may_need_rename"
   ],
   "note": ""
  },
  {
   "property": "C94",
   "status": "proved",
   "theorems": [
    "Visigoth.C94_states_goroutines",
    "Visigoth.C94_states",
    "Visigoth.C94_states_without_rename",
    "Visigoth.C94_states_without_unAlias",
    "Visigoth.C94_any_aliases",
    "Visigoth.C94_states_concurrent"
   ],
   "note": ""
  },
  {
   "property": "C95",
   "status": "partial",
   "theorems": [
    "Visigoth.C95_methods_every",
    "Visigoth.C95_refuted_every",
    "Visigoth.C95_cells",
    "Visigoth.C95_only_rename_writes",
    "Visigoth.C95_no_race_partial",
    "Visigoth.C95_no_race_goroutines_partial",
    "Visigoth.C95_refuted",
    "Visigoth.C95_methods_exact"
   ],
   "note": ""
  },
  {
   "property": "C96",
   "status": "proved",
   "theorems": [
    "Visigoth.C96_results_goroutines_exact",
    "Visigoth.C96_results_rename_goroutines_exact",
    "Visigoth.C96_realised",
    "Visigoth.C96_real_time",
    "Visigoth.C96_real_time_goroutines",
    "Visigoth.C96_results_exact",
    "Visigoth.C96_results_exact_rename",
    "Visigoth.C96_kept_mutex"
   ],
   "note": ""
  },
  {
   "property": "C97",
   "status": "proved",
   "theorems": [
    "Visigoth.C97_same_answers_goroutines",
    "Visigoth.C97_answers_goroutines_exact",
    "Visigoth.C97_same_answers_rename_goroutines",
    "Visigoth.C97_answers_rename_goroutines_exact",
    "Visigoth.C97_same_answers",
    "Visigoth.C97_answers_exact",
    "Visigoth.C97_same_answers_rename",
    "Visigoth.C97_answers_exact_rename"
   ],
   "note": ""
  },
  {
   "property": "C98",
   "status": "partial",
   "theorems": [
    "Visigoth.C98_methods_every",
    "Visigoth.C98_refuted_every",
    "Visigoth.C98_race_unordered",
    "Visigoth.C98_refuted",
    "Visigoth.C98_only_rename_unalias",
    "Visigoth.C98_indices",
    "Visigoth.C98_ordered_partial",
    "Visigoth.C98_methods_exact"
   ],
   "note": "False: nothing orders the accesses of Rename to the alias table and those of UnAlias (C98_refuted); proved that every other pair of conflicting accesses is ordered (C98_only_rename_unalias, C98_indices), and for which sets of methods all are (C98_methods_exact). The goroutines of Put and Search run within their calls here; C99 has them interleaved."
  },
  {
   "property": "C99",
   "status": "proved",
   "theorems": [
    "Visigoth.C99_methods_every",
    "Visigoth.C99_executions",
    "Visigoth.C99_only_rename_unalias",
    "Visigoth.C99_started",
    "Visigoth.C99_indices",
    "Visigoth.C99_same_call",
    "Visigoth.C99_fork_join",
    "Visigoth.C99_unordered",
    "Visigoth.C99_race_unordered",
    "Visigoth.C99_methods_exact"
   ],
   "note": "Proved for every access to the index map, indices and results and for everything that a started goroutine accesses (C99_started, C99_indices, C99_same_call, C99_fork_join); for the alias table with the one exception stated (C99_only_rename_unalias, C99_unordered); C99_methods_exact gives the sets of methods. C99_executions: the executions with events are those of C60-C64."
  },
  {
   "property": "C100",
   "status": "proved",
   "theorems": [
    "Visigoth.C100_linear_any_index",
    "Visigoth.C100_linear_sorted_lists",
    "Visigoth.C100_linear_lawful",
    "Visigoth.C100_hits_any_index",
    "Visigoth.C100_like_memory_index",
    "Visigoth.C100_hits_lawful",
    "Visigoth.C100_noop_all",
    "Visigoth.C100_hits_panics",
    "Visigoth.C100_linear_panics",
    "Visigoth.C100_noop_all_panics",
    "Visigoth.C100_nil_or_empty",
    "Visigoth.C100_contract_needed"
   ],
   "note": ""
  },
  {
   "property": "C101",
   "status": "proved",
   "theorems": [
    "Visigoth.C101_same_methods",
    "Visigoth.C101_any_index",
    "Visigoth.C101_exchange_exact",
    "Visigoth.C101_exclusive",
    "Visigoth.C101_searches_overlap",
    "Visigoth.C101_search_sees_puts",
    "Visigoth.C101_who_panics",
    "Visigoth.C101_no_crash_without_rename",
    "Visigoth.C101_no_deadlock",
    "Visigoth.C101_returned_index_ignored"
   ],
   "note": ""
  },
  {
   "property": "C102",
   "status": "partial",
   "theorems": [
    "Visigoth.C102_exact_any_index",
    "Visigoth.C102_exact",
    "Visigoth.C102_distinct_ids_partial",
    "Visigoth.C102_small_partial",
    "Visigoth.C102_nothing_found",
    "Visigoth.C102_refuted",
    "Visigoth.C102_refuted_32"
   ],
   "note": "False as stated: C102_refuted, C102_refuted_32. The exact condition is C102_exact (C102_exact_any_index for any Indexer); C102_distinct_ids_partial and C102_small_partial are the claim under guards."
  },
  {
   "property": "C103",
   "status": "partial",
   "theorems": [
    "Visigoth.C103_put_exact",
    "Visigoth.C103_only_put",
    "Visigoth.C103_copy_exact",
    "Visigoth.C103_snapshot_partial",
    "Visigoth.C103_both",
    "Visigoth.C103_deep_copy",
    "Visigoth.C103_fields_exact",
    "Visigoth.C103_safe_exact",
    "Visigoth.C103_refuted"
   ],
   "note": "False as stated: C103_refuted. C103_copy_exact gives the exact condition; C103_snapshot_partial is the claim for new documents that have no token of the query."
  },
  {
   "property": "C104",
   "status": "partial",
   "theorems": [
    "Visigoth.C104_put_exact",
    "Visigoth.C104_search_exact",
    "Visigoth.C104_search_partial",
    "Visigoth.C104_put_keeps",
    "Visigoth.C104_refuted",
    "Visigoth.C104_afterwards",
    "Visigoth.C104_thread",
    "Visigoth.C104_put_keeps_concurrent",
    "Visigoth.C104_afterwards_concurrent"
   ],
   "note": "False as stated: C104_refuted (true exactly if nothing panics). C104_search_partial is the half about Search; C104_put_exact gives exactly what a panicking Put leaves behind."
  },
  {
   "property": "C105",
   "status": "partial",
   "theorems": [
    "Visigoth.C105_load_exact",
    "Visigoth.C105_guard_exact",
    "Visigoth.C105_round_trip_partial",
    "Visigoth.C105_search_exact",
    "Visigoth.C105_refuted",
    "Visigoth.C105_tokens_valid",
    "Visigoth.C105_into_used",
    "Visigoth.C105_into_used_search"
   ],
   "note": "False as stated: C105_refuted. C105_guard_exact gives the exact condition (all names, contents and tokens are UTF-8), C105_round_trip_partial the claim under it. The bytes of the saved text are not modelled; encoding/json is not in the repository."
  },
  {
   "property": "C106",
   "status": "partial",
   "theorems": [
    "Visigoth.C106_every_request",
    "Visigoth.C106_text_fixed",
    "Visigoth.C106_content",
    "Visigoth.C106_search_exact",
    "Visigoth.C106_guard_exact",
    "Visigoth.C106_constructed_partial",
    "Visigoth.C106_refuted",
    "Visigoth.C106_no_tokens",
    "Visigoth.C106_literal_lost"
   ],
   "note": "False as stated: C106_refuted (a literal, whose text cannot be set outside the package). C106_guard_exact gives the exact condition, C106_constructed_partial the claim for requests made by a constructor whose content is not assigned to."
  },
  {
   "property": "C107",
   "status": "partial",
   "theorems": [
    "Visigoth.C107_put_panics",
    "Visigoth.C107_put_leaves",
    "Visigoth.C107_tokenizer_fixed",
    "Visigoth.C107_works_exact",
    "Visigoth.C107_filed",
    "Visigoth.C107_sound_kept",
    "Visigoth.C107_stays_partial",
    "Visigoth.C107_puts_partial",
    "Visigoth.C107_no_tokenizer",
    "Visigoth.C107_refuted",
    "Visigoth.C107_loaded_literal",
    "Visigoth.C107_load_leaves",
    "Visigoth.C107_nil_map_loses"
   ],
   "note": "False as stated: C107_refuted (a literal). C107_works_exact gives the exact condition, C107_stays_partial the claim under it, for all further Puts. Positions assigned by a user are taken to be non-negative."
  }
 ]
}