{
 "claims": [
  {
   "property": "C01",
   "status": "proved",
   "theorems": [
    "BletArgs.C01_token_classes"
   ],
   "note": "Token classes"
  },
  {
   "property": "C02",
   "status": "proved",
   "theorems": [
    "BletArgs.C02_takeArg_split",
    "BletArgs.C02_takeArg_whole",
    "BletArgs.C02_takeArg_rebuild"
   ],
   "note": "'name=value' splitting"
  },
  {
   "property": "C03",
   "status": "proved",
   "theorems": [
    "BletArgs.C03_names_wellformed",
    "BletArgs.C03_flag_syntax"
   ],
   "note": "Accepted flag syntax"
  },
  {
   "property": "C04",
   "status": "proved",
   "theorems": [
    "BletArgs.C04_registry"
   ],
   "note": "Registry consistency"
  },
  {
   "property": "C05",
   "status": "proved",
   "theorems": [
    "BletArgs.C05_exception",
    "BletArgs.C05_add_refused"
   ],
   "note": "addArgument refuses atomically"
  },
  {
   "property": "C06",
   "status": "proved",
   "theorems": [
    "BletArgs.C06_add_effect"
   ],
   "note": "addArgument effect"
  },
  {
   "property": "C07",
   "status": "proved",
   "theorems": [
    "BletArgs.C07_shared_flag",
    "BletArgs.C07_flag_unique",
    "BletArgs.C07_reused_flag"
   ],
   "note": "True only as long as no used flag is handed to addArgument (C07_flag_unique); exact effect when one is (C07_reused_flag) and a reachable counterexample (C07_shared_flag)."
  },
  {
   "property": "C08",
   "status": "proved",
   "theorems": [
    "BletArgs.C08_exception",
    "BletArgs.C08_flag_refused",
    "BletArgs.C08_flag_effect"
   ],
   "note": "flag() on an option"
  },
  {
   "property": "C09",
   "status": "proved",
   "theorems": [
    "BletArgs.C09_remove_effect"
   ],
   "note": "removeArguments effect"
  },
  {
   "property": "C10",
   "status": "proved",
   "theorems": [
    "BletArgs.C10_remove_outcome"
   ],
   "note": "removeArguments is all-or-nothing"
  },
  {
   "property": "C11",
   "status": "proved",
   "theorems": [
    "BletArgs.C11_positional_queues",
    "BletArgs.C11_positionals_listed",
    "BletArgs.C11_comparator",
    "BletArgs.C11_strict_weak",
    "BletArgs.C11_sort_unique",
    "BletArgs.C11_listing_order",
    "BletArgs.C11_insertion_order",
    "BletArgs.C11_order_by_required_call",
    "BletArgs.C11_calls_are_stable"
   ],
   "note": "Listing order"
  },
  {
   "property": "C12",
   "status": "proved",
   "theorems": [
    "BletArgs.C12_clear_is_fresh",
    "BletArgs.C12_references",
    "BletArgs.C12_returned"
   ],
   "note": "clear() restores a fresh object"
  },
  {
   "property": "C13",
   "status": "proved",
   "theorems": [
    "BletArgs.C13_lookup",
    "BletArgs.C13_lookup_unique"
   ],
   "note": "Lookup"
  },
  {
   "property": "C14",
   "status": "proved",
   "theorems": [
    "BletArgs.C14_action",
    "BletArgs.C14_nargs"
   ],
   "note": "Kind of argument from action and nargs"
  },
  {
   "property": "C15",
   "status": "proved",
   "theorems": [
    "BletArgs.C15_not_idempotent",
    "BletArgs.C15_nargs_twice",
    "BletArgs.C15_action_twice"
   ],
   "note": "False in general (C15_not_idempotent); C15_nargs_twice and C15_action_twice give the exact set of exceptions as an equivalence."
  },
  {
   "property": "C16",
   "status": "proved",
   "theorems": [
    "BletArgs.C16_at_most_one",
    "BletArgs.C16_second_help_refused",
    "BletArgs.C16_second_version_refused",
    "BletArgs.C16_two_help_options",
    "BletArgs.C16_ignored_exception"
   ],
   "note": "Proved for histories that swallow no exception of action()/nargs(), give HELP/VERSION to options that take values and do not call dest() on the registered one; C16_two_help_options and C16_ignored_exception show that these conditions are needed."
  },
  {
   "property": "C17",
   "status": "proved",
   "theorems": [
    "BletArgs.C17_defaults_outcome",
    "BletArgs.C17_defaults_value"
   ],
   "note": "Default values"
  },
  {
   "property": "C18",
   "status": "proved",
   "theorems": [
    "BletArgs.C18_parse_terminates",
    "BletArgs.C18_no_bound",
    "BletArgs.C18_calls_terminate",
    "BletArgs.C18_endless",
    "BletArgs.C18_endless_reachable",
    "BletArgs.C18_ignored_exception",
    "BletArgs.C18_groups_of_zero"
   ],
   "note": "parse_terminates/calls_terminate for every disciplined history; no_bound shows that no fixed bound is involved; endless, endless_reachable, groups_of_zero, ignored_exception prove divergence outside the range."
  },
  {
   "property": "C19",
   "status": "proved",
   "theorems": [
    "BletArgs.C19_only_by_misuse",
    "BletArgs.C19_no_undefined_behaviour",
    "BletArgs.C19_calls_conclude",
    "BletArgs.C19_dead_reference",
    "BletArgs.C19_misuses_reach_ub",
    "BletArgs.C19_reference"
   ],
   "note": "only_by_misuse and no_undefined_behaviour quantify over every history; misuses_reach_ub shows that each excluded misuse does reach undefined behaviour."
  },
  {
   "property": "C20",
   "status": "proved",
   "theorems": [
    "BletArgs.C20_reference",
    "BletArgs.C20_unique_derivation",
    "BletArgs.C20_accepts_iff",
    "BletArgs.C20_records",
    "BletArgs.C20_shows"
   ],
   "note": "Grammar in Spec/Grammar.lean, independent of indices and loops. unique_derivation: exactly one derivation; accepts_iff: the call throws exactly the derived error; records/shows: the final parser shows exactly the derived events."
  },
  {
   "property": "C21",
   "status": "proved",
   "theorems": [
    "BletArgs.C21_end_marker",
    "BletArgs.C21_options_unaffected"
   ],
   "note": "'--' ends option processing"
  },
  {
   "property": "C22",
   "status": "proved",
   "theorems": [
    "BletArgs.C22_surplus",
    "BletArgs.C22_strict",
    "BletArgs.C22_nothing_lost",
    "BletArgs.C22_otherwise"
   ],
   "note": "Surplus words"
  },
  {
   "property": "C23",
   "status": "proved",
   "theorems": [
    "BletArgs.C23_unknown_option"
   ],
   "note": "Unknown options are rejected"
  },
  {
   "property": "C24",
   "status": "proved",
   "theorems": [
    "BletArgs.C24_booleans"
   ],
   "note": "Booleans"
  },
  {
   "property": "C25",
   "status": "proved",
   "theorems": [
    "BletArgs.C25_last_wins"
   ],
   "note": "Last occurrence wins"
  },
  {
   "property": "C26",
   "status": "proved",
   "theorems": [
    "BletArgs.C26_accumulates"
   ],
   "note": "APPEND and EXTEND accumulate"
  },
  {
   "property": "C27",
   "status": "proved",
   "theorems": [
    "BletArgs.C27_too_few",
    "BletArgs.C27_arity",
    "BletArgs.C27_positional_values"
   ],
   "note": "Arity"
  },
  {
   "property": "C28",
   "status": "proved",
   "theorems": [
    "BletArgs.C28_count"
   ],
   "note": "count()"
  },
  {
   "property": "C29",
   "status": "proved",
   "theorems": [
    "BletArgs.C29_other_flag",
    "BletArgs.C29_value_in_token"
   ],
   "note": "Equivalent spellings"
  },
  {
   "property": "C30",
   "status": "proved",
   "theorems": [
    "BletArgs.C30_cluster"
   ],
   "note": "Clusters"
  },
  {
   "property": "C31",
   "status": "proved",
   "theorems": [
    "BletArgs.C31_alternative",
    "BletArgs.C31_otherwise"
   ],
   "note": "Alternative mode"
  },
  {
   "property": "C32",
   "status": "proved",
   "theorems": [
    "BletArgs.C32_help",
    "BletArgs.C32_version"
   ],
   "note": "Help and version take precedence"
  },
  {
   "property": "C33",
   "status": "proved",
   "theorems": [
    "BletArgs.C33_required",
    "BletArgs.C33_missing"
   ],
   "note": "Required arguments"
  },
  {
   "property": "C34",
   "status": "proved",
   "theorems": [
    "BletArgs.C34_accepted",
    "BletArgs.C34_returned",
    "BletArgs.C34_accepts_iff",
    "BletArgs.C34_rejected"
   ],
   "note": "Validators are enforced"
  },
  {
   "property": "C35",
   "status": "proved",
   "theorems": [
    "BletArgs.C35_absent_reads_defaults",
    "BletArgs.C35_stale_default",
    "BletArgs.C35_only_first_parse"
   ],
   "note": "For careful histories (Careful); C35_stale_default and C35_only_first_parse show what goes wrong otherwise."
  },
  {
   "property": "C36",
   "status": "proved",
   "theorems": [
    "BletArgs.C36_same_reading",
    "BletArgs.C36_fresh_marks",
    "BletArgs.C36_lists_not_restored",
    "BletArgs.C36_lists_emptied",
    "BletArgs.C36_absent_texts",
    "BletArgs.C36_same_values",
    "BletArgs.C36_same_untouched"
   ],
   "note": "fresh_marks for isExists/count/booleans; same_values/same_untouched for values; C36_lists_not_restored is the counterexample for lists of absent arguments."
  },
  {
   "property": "C37",
   "status": "proved",
   "theorems": [
    "BletArgs.C37_positional_order"
   ],
   "note": "Positional order"
  },
  {
   "property": "C38",
   "status": "proved",
   "theorems": [
    "BletArgs.C38_option_list",
    "BletArgs.C38_positional_list",
    "BletArgs.C38_list_after_end"
   ],
   "note": "Infinite lists stop at options"
  },
  {
   "property": "C39",
   "status": "proved",
   "theorems": [
    "BletArgs.C39_choise_accept",
    "BletArgs.C39_choise_reject"
   ],
   "note": "ValidChoise"
  },
  {
   "property": "C40",
   "status": "proved",
   "theorems": [
    "BletArgs.C40_minmax_accept",
    "BletArgs.C40_minmax_reject",
    "BletArgs.C40_incomparable"
   ],
   "note": "Over an abstract comparison; C40_incomparable: values that compare with neither bound (NaN) pass."
  },
  {
   "property": "C41",
   "status": "proved",
   "theorems": [
    "BletArgs.C41_number_accept",
    "BletArgs.C41_number_reject"
   ],
   "note": "ValidNumber"
  },
  {
   "property": "C42",
   "status": "proved",
   "theorems": [
    "BletArgs.C42_path_accept",
    "BletArgs.C42_path_reject"
   ],
   "note": "ValidPath"
  },
  {
   "property": "C43",
   "status": "proved",
   "theorems": [
    "BletArgs.C43_wrap_preserves",
    "BletArgs.C43_wrap_characters"
   ],
   "note": "Wrapping loses nothing"
  },
  {
   "property": "C44",
   "status": "proved",
   "theorems": [
    "BletArgs.C44_wrap_width",
    "BletArgs.C44_wrap_single_lines",
    "BletArgs.C44_wrap_greedy"
   ],
   "note": "Wrapping width"
  },
  {
   "property": "C45",
   "status": "proved",
   "theorems": [
    "BletArgs.C45_custom_usage",
    "BletArgs.C45_header"
   ],
   "note": "Usage header"
  },
  {
   "property": "C46",
   "status": "proved",
   "theorems": [
    "BletArgs.C46_usage_text",
    "BletArgs.C46_every_argument"
   ],
   "note": "Usage lists every argument"
  },
  {
   "property": "C47",
   "status": "proved",
   "theorems": [
    "BletArgs.C47_usage_line",
    "BletArgs.C47_no_overflow",
    "BletArgs.C47_overflow"
   ],
   "note": "Usage line width"
  },
  {
   "property": "C48",
   "status": "proved",
   "theorems": [
    "BletArgs.C48_scalar"
   ],
   "note": "Scalar destination"
  },
  {
   "property": "C49",
   "status": "proved",
   "theorems": [
    "BletArgs.C49_vector",
    "BletArgs.C49_callback",
    "BletArgs.C49_vector_careful"
   ],
   "note": "Vector destination"
  },
  {
   "property": "C50",
   "status": "proved",
   "theorems": [
    "BletArgs.C50_dest_keeps_configuration"
   ],
   "note": "dest() keeps the configuration"
  },
  {
   "property": "C51",
   "status": "proved",
   "theorems": [
    "BletArgs.C51_string_to_array",
    "BletArgs.C51_bool_to_array"
   ],
   "note": "char[N] destinations"
  },
  {
   "property": "C52",
   "status": "proved",
   "theorems": [
    "BletArgs.C52_getString_list",
    "BletArgs.C52_getString_groups",
    "BletArgs.C52_flat_is_concat",
    "BletArgs.C52_single",
    "BletArgs.C52_boolean"
   ],
   "note": "Reading values"
  },
  {
   "property": "C53",
   "status": "proved",
   "theorems": [
    "BletArgs.C53_validators_freed_once"
   ],
   "note": "Validators are freed once"
  },
  {
   "property": "C54",
   "status": "proved",
   "theorems": [
    "BletArgs.C54_objects_freed_once"
   ],
   "note": "Argument objects are freed once"
  },
  {
   "property": "C55",
   "status": "proved",
   "theorems": [
    "BletArgs.C55_as_if_added",
    "BletArgs.C55_early_return",
    "BletArgs.C55_early_return_reachable",
    "BletArgs.C55_auto_help",
    "BletArgs.C55_no_second_help"
   ],
   "note": "Automatic help"
  },
  {
   "property": "C56",
   "status": "proved",
   "theorems": [
    "BletArgs.C56_fault_throws",
    "BletArgs.C56_names_culprit"
   ],
   "note": "Errors name the culprit"
  },
  {
   "property": "C57",
   "status": "proved",
   "theorems": [
    "BletArgs.C57_parse_config"
   ],
   "note": "Parsing leaves the configuration alone"
  },
  {
   "property": "C58",
   "status": "proved",
   "theorems": [
    "BletArgs.C58_removal",
    "BletArgs.C58_reference_stays",
    "BletArgs.C58_reference_ends"
   ],
   "note": "References stay valid"
  },
  {
   "property": "C59",
   "status": "proved",
   "theorems": [
    "BletArgs.C59_numbers",
    "BletArgs.C59_stale_number"
   ],
   "note": "Over an abstract scanner of numbers; C59_stale_number: getNumber after defaults() without parse is stale."
  },
  {
   "property": "C60",
   "status": "proved",
   "theorems": [
    "BletArgs.C60_single",
    "BletArgs.C60_boolean",
    "BletArgs.C60_list",
    "BletArgs.C60_dangling",
    "BletArgs.C60_groups"
   ],
   "note": "Over abstract doubles; C60_dangling: a vector of const char* dangles."
  },
  {
   "property": "C61",
   "status": "proved",
   "theorems": [
    "BletArgs.C61_setters",
    "BletArgs.C61_return"
   ],
   "note": "Setters are local"
  },
  {
   "property": "C62",
   "status": "proved",
   "theorems": [
    "BletArgs.C62_settings"
   ],
   "note": "Settings change only by their setters"
  },
  {
   "property": "C63",
   "status": "proved",
   "theorems": [
    "BletArgs.C63_classes",
    "BletArgs.C63_exit",
    "BletArgs.C63_lookup"
   ],
   "note": "Exception classes"
  },
  {
   "property": "C64",
   "status": "proved",
   "theorems": [
    "BletArgs.C64_list",
    "BletArgs.C64_groups",
    "BletArgs.C64_single",
    "BletArgs.C64_valueless",
    "BletArgs.C64_numbers"
   ],
   "note": "Reading element by element"
  },
  {
   "property": "C65",
   "status": "proved",
   "theorems": [
    "BletArgs.C65_use",
    "BletArgs.C65_reads",
    "BletArgs.C65_attached_equals"
   ],
   "note": "Values are verbatim"
  },
  {
   "property": "C66",
   "status": "proved",
   "theorems": [
    "BletArgs.C66_interleaving",
    "BletArgs.C66_exchange"
   ],
   "note": "exchange for neighbours in any ready parser; interleaving for parsers whose positional arguments take one word each (a positional list is ended by an option, so there the interleaving matters)."
  },
  {
   "property": "C67",
   "status": "proved",
   "theorems": [
    "BletArgs.C67_lists_up_to_culprit",
    "BletArgs.C67_other_calls",
    "BletArgs.C67_untouched",
    "BletArgs.C67_up_to_culprit"
   ],
   "note": "What a failing parse writes"
  },
  {
   "property": "C68",
   "status": "proved",
   "theorems": [
    "BletArgs.C68_unused_options",
    "BletArgs.C68_added_option"
   ],
   "note": "Unused options change nothing"
  },
  {
   "property": "C69",
   "status": "proved",
   "theorems": [
    "BletArgs.C69_written",
    "BletArgs.C69_options",
    "BletArgs.C69_sayable",
    "BletArgs.C69_flags",
    "BletArgs.C69_any_text"
   ],
   "note": "Everything can be written"
  },
  {
   "property": "C70",
   "status": "proved",
   "theorems": [
    "BletArgs.C70_exchange",
    "BletArgs.C70_any_order"
   ],
   "note": "Order of declarations"
  },
  {
   "property": "C71",
   "status": "proved",
   "theorems": [
    "BletArgs.C71_no_trace",
    "BletArgs.C71_as_if_never_declared"
   ],
   "note": "Removing undoes declaring"
  },
  {
   "property": "C72",
   "status": "proved",
   "theorems": [
    "BletArgs.C72_texts_do_not_matter",
    "BletArgs.C72_same_readings"
   ],
   "note": "Texts of the usage change nothing else"
  },
  {
   "property": "C73",
   "status": "proved",
   "theorems": [
    "BletArgs.C73_callback"
   ],
   "note": "Callbacks that throw"
  },
  {
   "property": "C74",
   "status": "proved",
   "theorems": [
    "BletArgs.C74_no_influence"
   ],
   "note": "Destinations do not influence the parse"
  },
  {
   "property": "C75",
   "status": "proved",
   "theorems": [
    "BletArgs.C75_snapshot",
    "BletArgs.C75_copies_are_apart",
    "BletArgs.C75_validators_of_copies",
    "BletArgs.C75_validators_apart",
    "BletArgs.C75_deleted_twice",
    "BletArgs.C75_flag_on_copy"
   ],
   "note": "Copies of arguments"
  },
  {
   "property": "C76",
   "status": "proved",
   "theorems": [
    "BletArgs.C76_one_parse",
    "BletArgs.C76_no_new_behaviour"
   ],
   "note": "User code with a state"
  },
  {
   "property": "C77",
   "status": "proved",
   "theorems": [
    "BletArgs.C77_calls",
    "BletArgs.C77_refused"
   ],
   "note": "What user code is called with"
  },
  {
   "property": "C78",
   "status": "proved",
   "theorems": [
    "BletArgs.C78_fits",
    "BletArgs.C78_fits_iff"
   ],
   "note": "The usage text fits"
  },
  {
   "property": "C79",
   "status": "proved",
   "theorems": [
    "BletArgs.C79_usage_kept",
    "BletArgs.C79_usage_settled"
   ],
   "note": "Usage is independent of parsing"
  },
  {
   "property": "C80",
   "status": "proved",
   "theorems": [
    "BletArgs.C80_sources",
    "BletArgs.C80_negative",
    "BletArgs.C80_sum",
    "BletArgs.C80_sum_new",
    "BletArgs.C80_call",
    "BletArgs.C80_history",
    "BletArgs.C80_twice",
    "BletArgs.C80_defaults_number"
   ],
   "note": "Lists of strings"
  },
  {
   "property": "C81",
   "status": "proved",
   "theorems": [
    "BletArgs.C81_one_parse",
    "BletArgs.C81_no_new_behaviour",
    "BletArgs.C81_seen"
   ],
   "note": "User code that consults the parser"
  },
  {
   "property": "C82",
   "status": "proved",
   "theorems": [
    "BletArgs.C82_any_allocator",
    "BletArgs.C82_references",
    "BletArgs.C82_memory",
    "BletArgs.C82_stale_help"
   ],
   "note": "Any memory allocator"
  },
  {
   "property": "C83",
   "status": "proved",
   "theorems": [
    "BletArgs.C83_reading",
    "BletArgs.C83_others",
    "BletArgs.C83_forgotten",
    "BletArgs.C83_kept",
    "BletArgs.C83_behind"
   ],
   "note": "Elements put in by the user"
  },
  {
   "property": "C84",
   "status": "proved",
   "theorems": [
    "BletArgs.C84_one_end",
    "BletArgs.C84_no_calls",
    "BletArgs.C84_consistent",
    "BletArgs.C84_in_place",
    "BletArgs.C84_keeping_is_safe",
    "BletArgs.C84_recursion",
    "BletArgs.C84_hazards",
    "BletArgs.C84_removed_by_callback"
   ],
   "note": "User code that calls the parser"
  },
  {
   "property": "C85",
   "status": "proved",
   "theorems": [
    "BletArgs.C85_registry",
    "BletArgs.C85_objects",
    "BletArgs.C85_others_untouched",
    "BletArgs.C85_all_or_nothing",
    "BletArgs.C85_never_interrupted",
    "BletArgs.C85_parse_keeps_configuration",
    "BletArgs.C85_only_by_misuse",
    "BletArgs.C85_no_undefined_behaviour",
    "BletArgs.C85_order_restored",
    "BletArgs.C85_validators",
    "BletArgs.C85_new_names",
    "BletArgs.C85_called_again",
    "BletArgs.C85_first_word_lost",
    "BletArgs.C85_flag_not_registered",
    "BletArgs.C85_bounds_reached",
    "BletArgs.C85_terminates",
    "BletArgs.C85_ready",
    "BletArgs.C85_parse_again"
   ],
   "note": "Memory running out"
  },
  {
   "property": "C86",
   "status": "proved",
   "theorems": [
    "BletArgs.C86_anytime",
    "BletArgs.C86_setters"
   ],
   "note": "Settings can be made at any time"
  },
  {
   "property": "C87",
   "status": "proved",
   "theorems": [
    "BletArgs.C87_checks_only",
    "BletArgs.C87_returned",
    "BletArgs.C87_library"
   ],
   "note": "Validators check and do nothing else"
  },
  {
   "property": "C88",
   "status": "proved",
   "theorems": [
    "BletArgs.C88_reading",
    "BletArgs.C88_accepts",
    "BletArgs.C88_refuses",
    "BletArgs.C88_effect"
   ],
   "note": "Making an argument required only adds a check"
  },
  {
   "property": "C89",
   "status": "proved",
   "theorems": [
    "BletArgs.C89_values",
    "BletArgs.C89_extend",
    "BletArgs.C89_append_43",
    "BletArgs.C89_positional",
    "BletArgs.C89_brackets",
    "BletArgs.C89_shown_works",
    "BletArgs.C89_working_is_shown"
   ],
   "note": "The usage tells the truth"
  },
  {
   "property": "C90",
   "status": "proved",
   "theorems": [
    "BletArgs.C90_calls",
    "BletArgs.C90_program"
   ],
   "note": "Order of the calls in a statement"
  },
  {
   "property": "C91",
   "status": "proved",
   "theorems": [
    "BletArgs.C91_reading",
    "BletArgs.C91_others",
    "BletArgs.C91_given",
    "BletArgs.C91_absent",
    "BletArgs.C91_behind"
   ],
   "note": "Defaults matter only for values not given"
  },
  {
   "property": "C92",
   "status": "proved",
   "theorems": [
    "BletArgs.C92_reading",
    "BletArgs.C92_after_end",
    "BletArgs.C92_errors",
    "BletArgs.C92_kept",
    "BletArgs.C92_accepts"
   ],
   "note": "Command lines compose"
  },
  {
   "property": "C93",
   "status": "proved",
   "theorems": [
    "BletArgs.C93_replaced",
    "BletArgs.C93_others",
    "BletArgs.C93_outcome",
    "BletArgs.C93_words"
   ],
   "note": "A use of an option touches nothing else"
  },
  {
   "property": "C94",
   "status": "proved",
   "theorems": [
    "BletArgs.C94_destinations",
    "BletArgs.C94_statement",
    "BletArgs.C94_program",
    "BletArgs.C94_defaults",
    "BletArgs.C94_exceptions"
   ],
   "note": "Only the last of repeated calls counts"
  },
  {
   "property": "C95",
   "status": "proved",
   "theorems": [
    "BletArgs.C95_parts",
    "BletArgs.C95_nothing_else",
    "BletArgs.C95_added"
   ],
   "note": "The parts of the usage are independent"
  },
  {
   "property": "C96",
   "status": "proved",
   "theorems": [
    "BletArgs.C96_replay"
   ],
   "note": "A parse can be saved and repeated"
  },
  {
   "property": "C97",
   "status": "proved",
   "theorems": [
    "BletArgs.C97_reading",
    "BletArgs.C97_accepts",
    "BletArgs.C97_effect",
    "BletArgs.C97_spelling"
   ],
   "note": "A new flag is one more spelling of an option, and nothing else"
  },
  {
   "property": "C98",
   "status": "proved",
   "theorems": [
    "BletArgs.C98_list",
    "BletArgs.C98_text",
    "BletArgs.C98_kept",
    "BletArgs.C98_empty"
   ],
   "note": "What getDefault() and getDefaults() tell"
  },
  {
   "property": "C99",
   "status": "proved",
   "theorems": [
    "BletArgs.C99_reading",
    "BletArgs.C99_accepts",
    "BletArgs.C99_effect",
    "BletArgs.C99_rename"
   ],
   "note": "Removing some flags of options takes away those spellings only"
  },
  {
   "property": "C100",
   "status": "proved",
   "theorems": [
    "BletArgs.C100_statement",
    "BletArgs.C100_program",
    "BletArgs.C100_removals"
   ],
   "note": "It does not matter in which calls names are given or withdrawn"
  },
  {
   "property": "C101",
   "status": "proved",
   "theorems": [
    "BletArgs.C101_answers_do_not_matter",
    "BletArgs.C101_parse",
    "BletArgs.C101_strict"
   ],
   "note": "What the modes change"
  },
  {
   "property": "C102",
   "status": "proved",
   "theorems": [
    "BletArgs.C102_reading",
    "BletArgs.C102_effect",
    "BletArgs.C102_shared",
    "BletArgs.C102_strict"
   ],
   "note": "A new positional argument takes surplus words only"
  },
  {
   "property": "C103",
   "status": "proved",
   "theorems": [
    "BletArgs.C103_unreached",
    "BletArgs.C103_no_surplus",
    "BletArgs.C103_added"
   ],
   "note": "Arguments a command line does not reach change nothing"
  },
  {
   "property": "C104",
   "status": "proved",
   "theorems": [
    "BletArgs.C104_reading",
    "BletArgs.C104_effect",
    "BletArgs.C104_strict"
   ],
   "note": "A new positional list collects the surplus words"
  }
 ]
}