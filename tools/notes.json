{
"C07": {"note": "True only as long as no used flag is handed to addArgument (C07_flag_unique); exact effect when one is (C07_reused_flag) and a reachable counterexample (C07_shared_flag)."},
"C15": {"note": "False in general (C15_not_idempotent); C15_nargs_twice and C15_action_twice give the exact set of exceptions as an equivalence."},
"C16": {"note": "Proved for histories that swallow no exception of action()/nargs(), give HELP/VERSION to options that take values and do not call dest() on the registered one; C16_two_help_options and C16_ignored_exception show that these conditions are needed."},
"C18": {"note": "parse_terminates/calls_terminate for every disciplined history; no_bound shows that no fixed bound is involved; endless, endless_reachable, groups_of_zero, ignored_exception prove divergence outside the range."},
"C19": {"note": "only_by_misuse and no_undefined_behaviour quantify over every history; misuses_reach_ub shows that each excluded misuse does reach undefined behaviour."},
"C20": {"note": "Grammar in Spec/Grammar.lean, independent of indices and loops. unique_derivation: exactly one derivation; accepts_iff: the call throws exactly the derived error; records/shows: the final parser shows exactly the derived events."},
"C35": {"note": "For careful histories (Careful); C35_stale_default and C35_only_first_parse show what goes wrong otherwise."},
"C36": {"note": "fresh_marks for isExists/count/booleans; same_values/same_untouched for values; C36_lists_not_restored is the counterexample for lists of absent arguments."},
"C40": {"note": "Over an abstract comparison; C40_incomparable: values that compare with neither bound (NaN) pass."},
"C59": {"note": "Over an abstract scanner of numbers; C59_stale_number: getNumber after defaults() without parse is stale."},
"C60": {"note": "Over abstract doubles; C60_dangling: a vector of const char* dangles."},
"C66": {"note": "exchange for neighbours in any ready parser; interleaving for parsers whose positional arguments take one word each (a positional list is ended by an option, so there the interleaving matters)."}
}
