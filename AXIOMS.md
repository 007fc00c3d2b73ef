# Axioms of the claimed theorems

Output of `#print axioms` (`tools/mkaxioms.py`), grouped by axiom set.

## propext

* `BletArgs.C02_takeArg_split`
* `BletArgs.C02_takeArg_whole`
* `BletArgs.C02_takeArg_rebuild`
* `BletArgs.C52_flat_is_concat`

## propext, Classical.choice, Quot.sound

* `BletArgs.C01_token_classes`
* `BletArgs.C03_names_wellformed`
* `BletArgs.C03_flag_syntax`
* `BletArgs.C04_registry`
* `BletArgs.C05_exception`
* `BletArgs.C05_add_refused`
* `BletArgs.C06_add_effect`
* `BletArgs.C07_shared_flag`
* `BletArgs.C07_flag_unique`
* `BletArgs.C07_reused_flag`
* `BletArgs.C08_exception`
* `BletArgs.C08_flag_refused`
* `BletArgs.C08_flag_effect`
* `BletArgs.C09_remove_effect`
* `BletArgs.C10_remove_outcome`
* `BletArgs.C11_positional_queues`
* `BletArgs.C11_positionals_listed`
* `BletArgs.C11_strict_weak`
* `BletArgs.C11_sort_unique`
* `BletArgs.C11_listing_order`
* `BletArgs.C11_insertion_order`
* `BletArgs.C11_order_by_required_call`
* `BletArgs.C11_calls_are_stable`
* `BletArgs.C12_clear_is_fresh`
* `BletArgs.C12_references`
* `BletArgs.C12_returned`
* `BletArgs.C13_lookup`
* `BletArgs.C13_lookup_unique`
* `BletArgs.C14_action`
* `BletArgs.C14_nargs`
* `BletArgs.C15_not_idempotent`
* `BletArgs.C15_nargs_twice`
* `BletArgs.C15_action_twice`
* `BletArgs.C16_at_most_one`
* `BletArgs.C16_second_help_refused`
* `BletArgs.C16_second_version_refused`
* `BletArgs.C16_two_help_options`
* `BletArgs.C16_ignored_exception`
* `BletArgs.C17_defaults_outcome`
* `BletArgs.C17_defaults_value`
* `BletArgs.C18_parse_terminates`
* `BletArgs.C18_no_bound`
* `BletArgs.C18_calls_terminate`
* `BletArgs.C18_endless`
* `BletArgs.C18_endless_reachable`
* `BletArgs.C18_ignored_exception`
* `BletArgs.C19_only_by_misuse`
* `BletArgs.C19_no_undefined_behaviour`
* `BletArgs.C19_calls_conclude`
* `BletArgs.C19_dead_reference`
* `BletArgs.C19_misuses_reach_ub`
* `BletArgs.C19_reference`
* `BletArgs.C20_reference`
* `BletArgs.C20_unique_derivation`
* `BletArgs.C20_accepts_iff`
* `BletArgs.C20_records`
* `BletArgs.C20_shows`
* `BletArgs.C21_end_marker`
* `BletArgs.C21_options_unaffected`
* `BletArgs.C22_surplus`
* `BletArgs.C22_strict`
* `BletArgs.C22_nothing_lost`
* `BletArgs.C22_otherwise`
* `BletArgs.C23_unknown_option`
* `BletArgs.C24_booleans`
* `BletArgs.C25_last_wins`
* `BletArgs.C26_accumulates`
* `BletArgs.C27_too_few`
* `BletArgs.C27_arity`
* `BletArgs.C27_positional_values`
* `BletArgs.C28_count`
* `BletArgs.C29_other_flag`
* `BletArgs.C29_value_in_token`
* `BletArgs.C30_cluster`
* `BletArgs.C31_alternative`
* `BletArgs.C31_otherwise`
* `BletArgs.C32_help`
* `BletArgs.C32_version`
* `BletArgs.C33_required`
* `BletArgs.C33_missing`
* `BletArgs.C34_accepted`
* `BletArgs.C34_returned`
* `BletArgs.C34_accepts_iff`
* `BletArgs.C34_rejected`
* `BletArgs.C35_absent_reads_defaults`
* `BletArgs.C35_stale_default`
* `BletArgs.C35_only_first_parse`
* `BletArgs.C36_same_reading`
* `BletArgs.C36_fresh_marks`
* `BletArgs.C36_lists_not_restored`
* `BletArgs.C36_lists_emptied`
* `BletArgs.C36_absent_texts`
* `BletArgs.C36_same_values`
* `BletArgs.C36_same_untouched`
* `BletArgs.C37_positional_order`
* `BletArgs.C38_option_list`
* `BletArgs.C38_positional_list`
* `BletArgs.C38_list_after_end`
* `BletArgs.C39_choise_accept`
* `BletArgs.C39_choise_reject`
* `BletArgs.C40_minmax_accept`
* `BletArgs.C40_minmax_reject`
* `BletArgs.C40_incomparable`
* `BletArgs.C41_number_accept`
* `BletArgs.C41_number_reject`
* `BletArgs.C42_path_accept`
* `BletArgs.C42_path_reject`
* `BletArgs.C43_wrap_preserves`
* `BletArgs.C43_wrap_characters`
* `BletArgs.C44_wrap_width`
* `BletArgs.C44_wrap_single_lines`
* `BletArgs.C45_custom_usage`
* `BletArgs.C45_header`
* `BletArgs.C46_usage_text`
* `BletArgs.C46_every_argument`
* `BletArgs.C47_usage_line`
* `BletArgs.C47_no_overflow`
* `BletArgs.C47_overflow`
* `BletArgs.C48_scalar`
* `BletArgs.C49_vector`
* `BletArgs.C49_callback`
* `BletArgs.C49_vector_careful`
* `BletArgs.C50_dest_keeps_configuration`
* `BletArgs.C51_bool_to_array`
* `BletArgs.C52_getString_list`
* `BletArgs.C52_getString_groups`
* `BletArgs.C52_single`
* `BletArgs.C52_boolean`
* `BletArgs.C53_validators_freed_once`
* `BletArgs.C54_objects_freed_once`
* `BletArgs.C55_as_if_added`
* `BletArgs.C55_early_return`
* `BletArgs.C55_early_return_reachable`
* `BletArgs.C55_auto_help`
* `BletArgs.C55_no_second_help`
* `BletArgs.C56_fault_throws`
* `BletArgs.C56_names_culprit`
* `BletArgs.C57_parse_config`
* `BletArgs.C58_removal`
* `BletArgs.C58_reference_stays`
* `BletArgs.C58_reference_ends`
* `BletArgs.C59_numbers`
* `BletArgs.C59_stale_number`
* `BletArgs.C60_single`
* `BletArgs.C60_boolean`
* `BletArgs.C60_list`
* `BletArgs.C60_dangling`
* `BletArgs.C60_groups`
* `BletArgs.C61_setters`
* `BletArgs.C61_return`
* `BletArgs.C62_settings`
* `BletArgs.C63_classes`
* `BletArgs.C63_exit`
* `BletArgs.C63_lookup`
* `BletArgs.C64_list`
* `BletArgs.C64_groups`
* `BletArgs.C64_single`
* `BletArgs.C64_valueless`
* `BletArgs.C64_numbers`
* `BletArgs.C65_use`
* `BletArgs.C65_reads`
* `BletArgs.C65_attached_equals`
* `BletArgs.C66_interleaving`
* `BletArgs.C66_exchange`
* `BletArgs.C67_lists_up_to_culprit`
* `BletArgs.C67_other_calls`
* `BletArgs.C67_untouched`
* `BletArgs.C67_up_to_culprit`
* `BletArgs.C68_unused_options`
* `BletArgs.C68_added_option`
* `BletArgs.C69_written`
* `BletArgs.C69_options`
* `BletArgs.C69_sayable`
* `BletArgs.C69_flags`
* `BletArgs.C69_any_text`
* `BletArgs.C70_exchange`
* `BletArgs.C70_any_order`
* `BletArgs.C71_no_trace`
* `BletArgs.C71_as_if_never_declared`
* `BletArgs.C72_texts_do_not_matter`
* `BletArgs.C72_same_readings`
* `BletArgs.C73_callback`
* `BletArgs.C74_no_influence`
* `BletArgs.C75_snapshot`
* `BletArgs.C75_copies_are_apart`
* `BletArgs.C75_validators_of_copies`
* `BletArgs.C75_validators_apart`
* `BletArgs.C75_deleted_twice`
* `BletArgs.C75_flag_on_copy`
* `BletArgs.C76_one_parse`
* `BletArgs.C76_no_new_behaviour`
* `BletArgs.C77_calls`
* `BletArgs.C77_refused`
* `BletArgs.C78_fits`
* `BletArgs.C78_fits_iff`
* `BletArgs.C79_usage_kept`
* `BletArgs.C79_usage_settled`
* `BletArgs.C80_sources`
* `BletArgs.C80_negative`
* `BletArgs.C80_sum`
* `BletArgs.C80_sum_new`
* `BletArgs.C80_call`
* `BletArgs.C80_history`
* `BletArgs.C80_twice`
* `BletArgs.C80_defaults_number`
* `BletArgs.C81_one_parse`
* `BletArgs.C81_no_new_behaviour`
* `BletArgs.C81_seen`
* `BletArgs.C82_any_allocator`
* `BletArgs.C82_references`
* `BletArgs.C82_memory`
* `BletArgs.C82_stale_help`
* `BletArgs.C83_reading`
* `BletArgs.C83_others`
* `BletArgs.C83_forgotten`
* `BletArgs.C83_kept`
* `BletArgs.C83_behind`
* `BletArgs.C84_one_end`
* `BletArgs.C84_no_calls`
* `BletArgs.C84_consistent`
* `BletArgs.C84_in_place`
* `BletArgs.C84_keeping_is_safe`
* `BletArgs.C84_recursion`
* `BletArgs.C84_hazards`
* `BletArgs.C84_removed_by_callback`
* `BletArgs.C85_registry`
* `BletArgs.C85_objects`
* `BletArgs.C85_others_untouched`
* `BletArgs.C85_all_or_nothing`
* `BletArgs.C85_never_interrupted`
* `BletArgs.C85_parse_keeps_configuration`
* `BletArgs.C85_only_by_misuse`
* `BletArgs.C85_no_undefined_behaviour`
* `BletArgs.C85_order_restored`
* `BletArgs.C85_validators`
* `BletArgs.C85_new_names`
* `BletArgs.C85_called_again`
* `BletArgs.C85_first_word_lost`
* `BletArgs.C85_flag_not_registered`
* `BletArgs.C85_bounds_reached`
* `BletArgs.C85_terminates`
* `BletArgs.C85_ready`
* `BletArgs.C85_parse_again`
* `BletArgs.C86_anytime`
* `BletArgs.C86_setters`
* `BletArgs.C87_checks_only`
* `BletArgs.C87_returned`
* `BletArgs.C87_library`
* `BletArgs.C88_reading`
* `BletArgs.C88_accepts`
* `BletArgs.C88_refuses`
* `BletArgs.C88_effect`
* `BletArgs.C89_values`
* `BletArgs.C89_extend`
* `BletArgs.C89_append_43`
* `BletArgs.C89_positional`
* `BletArgs.C89_brackets`
* `BletArgs.C89_shown_works`
* `BletArgs.C89_working_is_shown`
* `BletArgs.C90_calls`
* `BletArgs.C90_program`
* `BletArgs.C91_reading`
* `BletArgs.C91_others`
* `BletArgs.C91_given`
* `BletArgs.C91_absent`
* `BletArgs.C91_behind`
* `BletArgs.C92_reading`
* `BletArgs.C92_after_end`
* `BletArgs.C92_errors`
* `BletArgs.C92_kept`
* `BletArgs.C92_accepts`
* `BletArgs.C93_replaced`
* `BletArgs.C93_others`
* `BletArgs.C93_outcome`
* `BletArgs.C93_words`
* `BletArgs.C94_destinations`
* `BletArgs.C94_statement`
* `BletArgs.C94_program`
* `BletArgs.C94_defaults`
* `BletArgs.C94_exceptions`
* `BletArgs.C95_parts`
* `BletArgs.C95_nothing_else`
* `BletArgs.C95_added`
* `BletArgs.C96_replay`
* `BletArgs.C97_reading`
* `BletArgs.C97_accepts`
* `BletArgs.C97_effect`
* `BletArgs.C97_spelling`
* `BletArgs.C98_list`
* `BletArgs.C98_text`
* `BletArgs.C98_kept`
* `BletArgs.C98_empty`
* `BletArgs.C99_reading`
* `BletArgs.C99_accepts`
* `BletArgs.C99_effect`
* `BletArgs.C99_rename`
* `BletArgs.C100_statement`
* `BletArgs.C100_program`
* `BletArgs.C100_removals`
* `BletArgs.C101_answers_do_not_matter`
* `BletArgs.C101_parse`
* `BletArgs.C101_strict`
* `BletArgs.C102_reading`
* `BletArgs.C102_effect`
* `BletArgs.C102_shared`
* `BletArgs.C102_strict`
* `BletArgs.C103_unreached`
* `BletArgs.C103_no_surplus`
* `BletArgs.C103_added`
* `BletArgs.C104_reading`
* `BletArgs.C104_effect`

## propext, Quot.sound

* `BletArgs.C11_comparator`
* `BletArgs.C18_groups_of_zero`
* `BletArgs.C44_wrap_greedy`
* `BletArgs.C51_string_to_array`
