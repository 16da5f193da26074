{
 "claims": [
  {
   "property": "C01",
   "status": "proved",
   "theorems": [
    "Syntree.C01_literal_round_trip",
    "Syntree.C01_literal_overflow",
    "Syntree.C01_literal_values"
   ],
   "note": ""
  },
  {
   "property": "C02",
   "status": "proved",
   "theorems": [
    "Syntree.C02_histories_refine",
    "Syntree.C02_covered",
    "Syntree.C02_dead_is_swallowed",
    "Syntree.C02_covered_without_close_at"
   ],
   "note": ""
  },
  {
   "property": "C03",
   "status": "proved",
   "theorems": [
    "Syntree.C03_histories_refine"
   ],
   "note": ""
  },
  {
   "property": "C04",
   "status": "proved",
   "theorems": [
    "Syntree.C04_ids_dense"
   ],
   "note": ""
  },
  {
   "property": "C05",
   "status": "proved",
   "theorems": [
    "Syntree.C05_balance_exact"
   ],
   "note": ""
  },
  {
   "property": "C06",
   "status": "proved",
   "theorems": [
    "Syntree.C06_walk_once_in_order"
   ],
   "note": ""
  },
  {
   "property": "C07",
   "status": "proved",
   "theorems": [
    "Syntree.C07_walk_events_bracketed"
   ],
   "note": ""
  },
  {
   "property": "C08",
   "status": "proved",
   "theorems": [
    "Syntree.C08_depth_is_number_of_ancestors"
   ],
   "note": ""
  },
  {
   "property": "C09",
   "status": "proved",
   "theorems": [
    "Syntree.C09_node_walk_is_suffix"
   ],
   "note": ""
  },
  {
   "property": "C10",
   "status": "proved",
   "theorems": [
    "Syntree.C10_walk_from_skips_subtree"
   ],
   "note": ""
  },
  {
   "property": "C11",
   "status": "proved",
   "theorems": [
    "Syntree.C11_inside_is_subtree"
   ],
   "note": ""
  },
  {
   "property": "C12",
   "status": "proved",
   "theorems": [
    "Syntree.C12_children_in_order"
   ],
   "note": ""
  },
  {
   "property": "C13",
   "status": "partial",
   "theorems": [
    "Syntree.C13_double_ended_modified_partial",
    "Syntree.C13_double_ended_partial",
    "Syntree.C13_fails_after_close_at",
    "Syntree.C13_double_ended_iff"
   ],
   "note": "Proved for builder histories in which no close_at wraps several siblings or at the root level, and for every tree returned by modify; for every other tree C13_double_ended_iff says exactly when it holds. False in general: C13_fails_after_close_at."
  },
  {
   "property": "C14",
   "status": "partial",
   "theorems": [
    "Syntree.C14_last_modified_partial",
    "Syntree.C14_last_partial",
    "Syntree.C14_last_on_right_edge_partial",
    "Syntree.C14_fails_after_close_at",
    "Syntree.C14_last_exact",
    "Syntree.C14_last_iff"
   ],
   "note": "Exact for the same trees as C13; for every tree C14_last_exact says which node last() returns and C14_last_iff when it is the last child. False in general: C14_fails_after_close_at."
  },
  {
   "property": "C15",
   "status": "proved",
   "theorems": [
    "Syntree.C15_siblings"
   ],
   "note": ""
  },
  {
   "property": "C16",
   "status": "proved",
   "theorems": [
    "Syntree.C16_ancestors"
   ],
   "note": ""
  },
  {
   "property": "C17",
   "status": "proved",
   "theorems": [
    "Syntree.C17_links_match_place",
    "Syntree.C17_links_inverse"
   ],
   "note": ""
  },
  {
   "property": "C18",
   "status": "proved",
   "theorems": [
    "Syntree.C18_skip_tokens_both_ends",
    "Syntree.C18_children_both_ends",
    "Syntree.C18_finds_in_a_row",
    "Syntree.C18_finds_on_trees",
    "Syntree.C18_skip_tokens_filters",
    "Syntree.C18_skip_tokens_on_trees"
   ],
   "note": ""
  },
  {
   "property": "C19",
   "status": "proved",
   "theorems": [
    "Syntree.C19_fused",
    "Syntree.C19_default_is_empty"
   ],
   "note": ""
  },
  {
   "property": "C20",
   "status": "proved",
   "theorems": [
    "Syntree.C20_any_tree",
    "Syntree.C20_find_preceding"
   ],
   "note": ""
  },
  {
   "property": "C21",
   "status": "proved",
   "theorems": [
    "Syntree.C21_close_at_wraps",
    "Syntree.C21_close_at_wraps_tree"
   ],
   "note": ""
  },
  {
   "property": "C22",
   "status": "proved",
   "theorems": [
    "Syntree.C22_other_level_rejected",
    "Syntree.C22_any_history"
   ],
   "note": ""
  },
  {
   "property": "C23",
   "status": "partial",
   "theorems": [
    "Syntree.C23_not_a_sibling_rejected_partial",
    "Syntree.C23_swallowed_is_accepted",
    "Syntree.C23_fails",
    "Syntree.C23_spent",
    "Syntree.C23_accepted"
   ],
   "note": "Rejection is proved for every checkpoint of another level; false for swallowed checkpoints: C23_fails, C23_swallowed_is_accepted. In every history: rejected or a node is made, the latter only on the level the checkpoint was taken at (C23_accepted), and rejected for good once rejected there (C23_spent)."
  },
  {
   "property": "C24",
   "status": "proved",
   "theorems": [
    "Syntree.C24_reuse",
    "Syntree.C24_interchangeable"
   ],
   "note": ""
  },
  {
   "property": "C25",
   "status": "partial",
   "theorems": [
    "Syntree.C25_failed_call_is_noop_partial",
    "Syntree.C25_fails_token",
    "Syntree.C25_failed_call_exact_partial",
    "Syntree.C25_fails_foreign_unlinks",
    "Syntree.C25_fails_foreign"
   ],
   "note": "Proved for every call and error except pointer exhaustion in token and MissingNode; false for these: C25_fails_token, C25_fails_foreign, C25_fails_foreign_unlinks; what exactly happens in these cases, for every program with any number of builders: C25_failed_call_exact_partial."
  },
  {
   "property": "C26",
   "status": "proved",
   "theorems": [
    "Syntree.C26_capacity_exact"
   ],
   "note": ""
  },
  {
   "property": "C27",
   "status": "proved",
   "theorems": [
    "Syntree.C27_index_overflow_exact"
   ],
   "note": ""
  },
  {
   "property": "C28",
   "status": "proved",
   "theorems": [
    "Syntree.C28_terminates_no_spurious_missing",
    "Syntree.C28_results_exact",
    "Syntree.C28_own_checkpoints_never_missing"
   ],
   "note": ""
  },
  {
   "property": "C29",
   "status": "proved",
   "theorems": [
    "Syntree.C29_leaf_span",
    "Syntree.C29_inner_span"
   ],
   "note": ""
  },
  {
   "property": "C30",
   "status": "proved",
   "theorems": [
    "Syntree.C30_cursor_is_total_length"
   ],
   "note": ""
  },
  {
   "property": "C31",
   "status": "proved",
   "theorems": [
    "Syntree.C31_siblings_tile",
    "Syntree.C31_roots_tile"
   ],
   "note": ""
  },
  {
   "property": "C32",
   "status": "proved",
   "theorems": [
    "Syntree.C32_lossless"
   ],
   "note": ""
  },
  {
   "property": "C33",
   "status": "partial",
   "theorems": [
    "Syntree.C33_explicit_spans_kept_partial",
    "Syntree.C33_parents_cover_partial",
    "Syntree.C33_spans_exact",
    "Syntree.C33_ends_exact",
    "Syntree.C33_fails"
   ],
   "note": "The statement is false in general (C33_fails). Proved: the statement for histories in order (Spec/Spans InOrder); and, for all histories, the exact rule for the span of every node (C33_spans_exact, C33_ends_exact)."
  },
  {
   "property": "C34",
   "status": "proved",
   "theorems": [
    "Syntree.C34_join",
    "Syntree.C34_queries"
   ],
   "note": ""
  },
  {
   "property": "C35",
   "status": "proved",
   "theorems": [
    "Syntree.C35_search_contract",
    "Syntree.C35_nearest_enclosing"
   ],
   "note": ""
  },
  {
   "property": "C36",
   "status": "proved",
   "theorems": [
    "Syntree.C36_none_iff_outside"
   ],
   "note": ""
  },
  {
   "property": "C37",
   "status": "partial",
   "theorems": [
    "Syntree.C37_contains_range_partial",
    "Syntree.C37_contains_range_iff",
    "Syntree.C37_fails"
   ],
   "note": "Proved for non-empty ranges inside of a root on cursor-driven trees, and exactly when the answer contains the range on such a tree: C37_contains_range_iff; false in general: C37_fails."
  },
  {
   "property": "C38",
   "status": "partial",
   "theorems": [
    "Syntree.C38_modified_exact_partial",
    "Syntree.C38_token_with_exact_partial",
    "Syntree.C38_fails_token_with",
    "Syntree.C38_fails_modify"
   ],
   "note": "False in general: C38_fails_token_with, C38_fails_modify. What is answered instead, for every modified tree (without inverted spans) and every token_with history with increasing starts: C38_modified_exact_partial, C38_token_with_exact_partial."
  },
  {
   "property": "C39",
   "status": "proved",
   "theorems": [
    "Syntree.C39_any_trees",
    "Syntree.C39_eq_iff_same_forest",
    "Syntree.C39_eq_iff_same_listing",
    "Syntree.C39_equivalence",
    "Syntree.C39_equals_its_literal"
   ],
   "note": ""
  },
  {
   "property": "C40",
   "status": "proved",
   "theorems": [
    "Syntree.C40_replace_value",
    "Syntree.C40_replace_frame",
    "Syntree.C40_replace_listing"
   ],
   "note": ""
  },
  {
   "property": "C41",
   "status": "partial",
   "theorems": [
    "Syntree.C41_copy",
    "Syntree.C41_copy_new",
    "Syntree.C41_identity_partial",
    "Syntree.C41_identity_iff",
    "Syntree.C41_fails",
    "Syntree.C41_copy_idempotent"
   ],
   "note": "The exact result is proved for every tree (C41_copy); equality with the input holds iff C41_identity_iff; false in general: C41_fails."
  },
  {
   "property": "C42",
   "status": "partial",
   "theorems": [
    "Syntree.C42_one_removal_exact",
    "Syntree.C42_removes_subtree_partial",
    "Syntree.C42_removes_subtree_relaid_partial",
    "Syntree.C42_fails_last_child",
    "Syntree.C42_fails",
    "Syntree.C42_fails_after_close_at",
    "Syntree.C42_one_after_another"
   ],
   "note": "The exact result is proved for every tree (C42_one_removal_exact), and for any sequence of removals one after the other (C42_one_after_another); it is the claimed one for roots and nodes with a next sibling if ids are in document order; false otherwise: C42_fails_last_child, C42_fails, C42_fails_after_close_at."
  },
  {
   "property": "C43",
   "status": "partial",
   "theorems": [
    "Syntree.C43_fails",
    "Syntree.C43_only_the_set_matters",
    "Syntree.C43_remove_many_partial",
    "Syntree.C43_last_first_partial"
   ],
   "note": "Only the set of ids matters; several nodes can be removed by registering shifted ids (C43_remove_many_partial), or by their own ids one after the other, the last one first, if none is a last child (C43_last_first_partial); false for the ids of the nodes: C43_fails. What happens instead, for every set: C51_modify_exact."
  },
  {
   "property": "C44",
   "status": "proved",
   "theorems": [
    "Syntree.C44_modify_terminates",
    "Syntree.C44_paths_from_input"
   ],
   "note": ""
  },
  {
   "property": "C45",
   "status": "proved",
   "theorems": [
    "Syntree.C45_new_some_iff",
    "Syntree.C45_round_trip",
    "Syntree.C45_injective",
    "Syntree.C45_surjective",
    "Syntree.C45_default",
    "Syntree.C45_id_is_checked",
    "Syntree.C45_id_world",
    "Syntree.C45_id_after_modify"
   ],
   "note": ""
  },
  {
   "property": "C46",
   "status": "proved",
   "theorems": [
    "Syntree.C46_print_with_source",
    "Syntree.C46_print",
    "Syntree.C46_line_count"
   ],
   "note": ""
  },
  {
   "property": "C47",
   "status": "proved",
   "theorems": [
    "Syntree.C47_spans_empty",
    "Syntree.C47_token_never_overflows_index",
    "Syntree.C47_no_range_queries",
    "Syntree.C47_span_index_is_separate",
    "Syntree.C47_structure_unaffected"
   ],
   "note": ""
  },
  {
   "property": "C48",
   "status": "partial",
   "theorems": [
    "Syntree.C48_clone_independent_partial",
    "Syntree.C48_fails_shared_checkpoint",
    "Syntree.C48_fails_old_checkpoint",
    "Syntree.C48_clone_alone_partial",
    "Syntree.C48_clone_partial",
    "Syntree.C48_fails_common_checkpoint",
    "Syntree.C48_programs_partial"
   ],
   "note": "Proved for every interleaving of calls on a builder and its clone if the checkpoint cached at the time of the clone is out of date and, of the checkpoints from before the clone, each is used by at most one of the two and is not the last one (C48_clone_partial, C48_clone_alone_partial; checkpoints taken after the clone are used by the builder that took them): each behaves exactly like a lone continuation of the builder that was cloned; and for whole programs with any number of builders, clones, and clones of clones under the same conditions at every clone (C48_programs_partial). Each condition is needed: C48_fails_shared_checkpoint, C48_fails_old_checkpoint, C48_fails_common_checkpoint."
  },
  {
   "property": "C49",
   "status": "proved",
   "theorems": [
    "Syntree.C49_tree_walks_end",
    "Syntree.C49_node_walks_end",
    "Syntree.C49_children_end",
    "Syntree.C49_siblings_ancestors_end",
    "Syntree.C49_skip_tokens_end",
    "Syntree.C49_queries_end",
    "Syntree.C49_print_eq_end"
   ],
   "note": ""
  },
  {
   "property": "C50",
   "status": "proved",
   "theorems": [
    "Syntree.C50_modify_repairs"
   ],
   "note": ""
  },
  {
   "property": "C51",
   "status": "proved",
   "theorems": [
    "Syntree.C51_any_tree",
    "Syntree.C51_modify_exact"
   ],
   "note": ""
  },
  {
   "property": "C52",
   "status": "proved",
   "theorems": [
    "Syntree.Calc.C52_lexer",
    "Syntree.Calc.C52_unique",
    "Syntree.Calc.C52_classes"
   ],
   "note": ""
  },
  {
   "property": "C53",
   "status": "proved",
   "theorems": [
    "Syntree.Calc.C53_parse",
    "Syntree.Calc.C53_too_long"
   ],
   "note": ""
  },
  {
   "property": "C54",
   "status": "partial",
   "theorems": [
    "Syntree.Calc.C54_exact",
    "Syntree.Calc.C54_value_partial",
    "Syntree.Calc.C54_fails",
    "Syntree.Calc.C54_power_and_division",
    "Syntree.Calc.C54_numbers"
   ],
   "note": "What the program computes is proved for every well-formed expression (C54_exact); it is the value of the expression unless a parenthesis starts with whitespace or with a parenthesis enclosing all of its content; false for these: C54_fails."
  },
  {
   "property": "C55",
   "status": "proved",
   "theorems": [
    "Syntree.Calc.C55_run_total",
    "Syntree.Calc.C55_too_long"
   ],
   "note": ""
  },
  {
   "property": "C56",
   "status": "proved",
   "theorems": [
    "Syntree.Math.C56_lexer",
    "Syntree.Math.C56_unique",
    "Syntree.Math.C56_classes"
   ],
   "note": ""
  },
  {
   "property": "C57",
   "status": "proved",
   "theorems": [
    "Syntree.Math.C57_parse",
    "Syntree.Math.C57_any",
    "Syntree.Math.C57_unique"
   ],
   "note": ""
  },
  {
   "property": "C58",
   "status": "proved",
   "theorems": [
    "Syntree.Math.C58_expression"
   ],
   "note": ""
  },
  {
   "property": "C59",
   "status": "proved",
   "theorems": [
    "Syntree.Synth.C59_pieces",
    "Syntree.Synth.C59_run",
    "Syntree.Synth.C59_too_long",
    "Syntree.Synth.C59_found",
    "Syntree.Synth.C59_classes"
   ],
   "note": ""
  },
  {
   "property": "C60",
   "status": "proved",
   "theorems": [
    "Syntree.C60_any_tree",
    "Syntree.C60_forward",
    "Syntree.C60_both_ends",
    "Syntree.C60_walk_with_depth"
   ],
   "note": ""
  },
  {
   "property": "C61",
   "status": "proved",
   "theorems": [
    "Syntree.C61_reads_last_write"
   ],
   "note": ""
  },
  {
   "property": "C62",
   "status": "partial",
   "theorems": [
    "Syntree.C62_inside_midway_partial",
    "Syntree.C62_childless_exact",
    "Syntree.C62_fails",
    "Syntree.C62_tree_inside"
   ],
   "note": "Proved for nodes with children or without a next sibling; for the others C62_childless_exact says what happens instead; false for these: C62_fails."
  },
  {
   "property": "C63",
   "status": "proved",
   "theorems": [
    "Syntree.C63_no_failure_no_difference",
    "Syntree.C63_before_first_failure",
    "Syntree.C63_fails_exactly",
    "Syntree.C63_attempts",
    "Syntree.C63_reliable_storage",
    "Syntree.C63_no_storage_needed"
   ],
   "note": ""
  },
  {
   "property": "C64",
   "status": "partial",
   "theorems": [
    "Syntree.C64_failed_call_partial",
    "Syntree.C64_open_keeps_tree_partial",
    "Syntree.C64_fails_next_node_is_lost",
    "Syntree.C64_fails_close_at",
    "Syntree.C64_fails_cycle"
   ],
   "note": "What exactly a failing call leaves behind is proved for every state, call and failure (C64_failed_call_partial; tree untouched for open, open_with, token_empty: C64_open_keeps_tree_partial). The full statement is false: C64_fails_next_node_is_lost, C64_fails_close_at, C64_fails_cycle."
  },
  {
   "property": "C65",
   "status": "partial",
   "theorems": [
    "Syntree.C65_fixed_capacity_partial",
    "Syntree.C65_fails_when_full_partial",
    "Syntree.C65_fails_after_close_at",
    "Syntree.C65_fails_span"
   ],
   "note": "Proved for every history in which no close_at or close_at_with is refused by the storage, for everything except the span of the whole tree and the cursor; false otherwise: C65_fails_after_close_at, C65_fails_span."
  },
  {
   "property": "C66",
   "status": "proved",
   "theorems": [
    "Syntree.C66_modify_conserves",
    "Syntree.C66_modify_fits"
   ],
   "note": ""
  },
  {
   "property": "C67",
   "status": "proved",
   "theorems": [
    "Syntree.C67_print_identifies"
   ],
   "note": ""
  },
  {
   "property": "C68",
   "status": "proved",
   "theorems": [
    "Syntree.C68_debug",
    "Syntree.C68_pretty",
    "Syntree.C68_debug_identifies"
   ],
   "note": ""
  },
  {
   "property": "C69",
   "status": "proved",
   "theorems": [
    "Syntree.C69_first_difference",
    "Syntree.C69_larger_is_the_same",
    "Syntree.C69_smaller_is_the_same",
    "Syntree.C69_modify"
   ],
   "note": ""
  },
  {
   "property": "C70",
   "status": "proved",
   "theorems": [
    "Syntree.C70_values_are_final",
    "Syntree.C70_tokens_are_final",
    "Syntree.C70_values_in_clones"
   ],
   "note": ""
  },
  {
   "property": "C71",
   "status": "proved",
   "theorems": [
    "Syntree.C71_subtrees_are_final",
    "Syntree.C71_seen"
   ],
   "note": ""
  },
  {
   "property": "C72",
   "status": "proved",
   "theorems": [
    "Syntree.C72_same_in_any_context"
   ],
   "note": ""
  },
  {
   "property": "C73",
   "status": "proved",
   "theorems": [
    "Syntree.C73_results",
    "Syntree.C73_builds",
    "Syntree.C73_covers_nest",
    "Syntree.C73_walks",
    "Syntree.C73_node",
    "Syntree.C73_children",
    "Syntree.C73_close_at_wraps_in_place"
   ],
   "note": ""
  },
  {
   "property": "C74",
   "status": "proved",
   "theorems": [
    "Syntree.C74_read_as_written",
    "Syntree.C74_nothing_else_compiles",
    "Syntree.C74_one_reading",
    "Syntree.C74_pairs"
   ],
   "note": ""
  },
  {
   "property": "C75",
   "status": "proved",
   "theorems": [
    "Syntree.C75_no_overflow",
    "Syntree.C75_ends",
    "Syntree.C75_tree_depths",
    "Syntree.C75_node_depths",
    "Syntree.C75_first_is_a_root",
    "Syntree.C75_print"
   ],
   "note": ""
  },
  {
   "property": "C76",
   "status": "proved",
   "theorems": [
    "Syntree.C76_same_tree",
    "Syntree.C76_same_results"
   ],
   "note": ""
  },
  {
   "property": "C77",
   "status": "proved",
   "theorems": [
    "Syntree.C77_listing_determines_links",
    "Syntree.C77_same_answers"
   ],
   "note": ""
  },
  {
   "property": "C78",
   "status": "proved",
   "theorems": [
    "Syntree.C78_same_tree",
    "Syntree.C78_same_results"
   ],
   "note": ""
  },
  {
   "property": "C79",
   "status": "proved",
   "theorems": [
    "Syntree.C79_alike",
    "Syntree.C79_printed_alike",
    "Syntree.C79_modified_alike",
    "Syntree.C79_found_alike",
    "Syntree.C79_replaced_alike",
    "Syntree.C79_last_differs"
   ],
   "note": ""
  },
  {
   "property": "C80",
   "status": "proved",
   "theorems": [
    "Syntree.C80_ids_and_order",
    "Syntree.C80_ids_are_positions"
   ],
   "note": ""
  },
  {
   "property": "C81",
   "status": "proved",
   "theorems": [
    "Syntree.C81_rebuild",
    "Syntree.C81_rebuilt_is_equal"
   ],
   "note": ""
  },
  {
   "property": "C82",
   "status": "proved",
   "theorems": [
    "Syntree.C82_spelled_out",
    "Syntree.C82_equal",
    "Syntree.C82_lookup_differs"
   ],
   "note": ""
  },
  {
   "property": "C83",
   "status": "proved",
   "theorems": [
    "Syntree.C83_nested_or_apart",
    "Syntree.C83_overlap",
    "Syntree.C83_modified",
    "Syntree.C83_modified_fails"
   ],
   "note": ""
  },
  {
   "property": "C84",
   "status": "proved",
   "theorems": [
    "Syntree.C84_span_order",
    "Syntree.C84_tokens_sorted",
    "Syntree.C84_span_shown",
    "Syntree.C84_error_shown"
   ],
   "note": ""
  },
  {
   "property": "C85",
   "status": "proved",
   "theorems": [
    "Syntree.C85_any_tree",
    "Syntree.C85_asked_once_any_tree",
    "Syntree.C85_find_preceding",
    "Syntree.C85_asked_once",
    "Syntree.C85_skip_tokens_find",
    "Syntree.C85_without_memory"
   ],
   "note": ""
  },
  {
   "property": "C86",
   "status": "proved",
   "theorems": [
    "Syntree.C86_any_tree",
    "Syntree.C86_counts",
    "Syntree.C86_building_is_linear",
    "Syntree.C86_close_at_visits",
    "Syntree.C86_swallowed_fails",
    "Syntree.C86_swallowed_is_quadratic",
    "Syntree.C86_no_linear_bound",
    "Syntree.C86_building_is_quadratic",
    "Syntree.C86_walk_is_linear",
    "Syntree.C86_inside_is_local",
    "Syntree.C86_query_climbs"
   ],
   "note": ""
  },
  {
   "property": "C87",
   "status": "proved",
   "theorems": [
    "Syntree.C87_bounded_growth",
    "Syntree.C87_no_growth",
    "Syntree.C87_growth_is_reached",
    "Syntree.C87_modify_rounds",
    "Syntree.C87_counts"
   ],
   "note": ""
  },
  {
   "property": "C88",
   "status": "proved",
   "theorems": [
    "Syntree.C88_pieces"
   ],
   "note": ""
  },
  {
   "property": "C89",
   "status": "proved",
   "theorems": [
    "Syntree.Bench.C89_wrap",
    "Syntree.Bench.C89_cycled",
    "Syntree.Bench.C89_build",
    "Syntree.Bench.C89_tree"
   ],
   "note": ""
  },
  {
   "property": "C90",
   "status": "proved",
   "theorems": [
    "Syntree.C90_with_alloc",
    "Syntree.C90_results",
    "Syntree.C90_close_fails",
    "Syntree.C90_nothing_kept",
    "Syntree.C90_all_equal",
    "Syntree.C90_literals",
    "Syntree.C90_text_alike"
   ],
   "note": ""
  },
  {
   "property": "C91",
   "status": "proved",
   "theorems": [
    "Syntree.C91_declarations",
    "Syntree.C91_storage_ignored",
    "Syntree.C91_defaults",
    "Syntree.C91_limits",
    "Syntree.C91_no_alloc"
   ],
   "note": ""
  },
  {
   "property": "C92",
   "status": "proved",
   "theorems": [
    "Syntree.C92_empty_tree",
    "Syntree.C92_empty_node",
    "Syntree.C92_links_go_back",
    "Syntree.C92_parents_differ"
   ],
   "note": ""
  },
  {
   "property": "C93",
   "status": "proved",
   "theorems": [
    "Syntree.C93_set_of_ids",
    "Syntree.C93_only_reached_ids",
    "Syntree.C93_bound_sharp"
   ],
   "note": ""
  },
  {
   "property": "C94",
   "status": "proved",
   "theorems": [
    "Syntree.C94_any_trees",
    "Syntree.C94_asked",
    "Syntree.C94_same_shape",
    "Syntree.C94_equivalence",
    "Syntree.C94_with_equality"
   ],
   "note": ""
  },
  {
   "property": "C95",
   "status": "proved",
   "theorems": [
    "Syntree.C95_print_to",
    "Syntree.C95_determined",
    "Syntree.C95_small_trees",
    "Syntree.C95_to_vec",
    "Syntree.C95_to_buffer",
    "Syntree.C95_depth",
    "Syntree.C95_bound_sharp"
   ],
   "note": ""
  },
  {
   "property": "C96",
   "status": "proved",
   "theorems": [
    "Syntree.C96_any_storage",
    "Syntree.C96_ids_distinct",
    "Syntree.C96_two_slices_fails"
   ],
   "note": ""
  },
  {
   "property": "C97",
   "status": "proved",
   "theorems": [
    "Syntree.Calc.C97_errors",
    "Syntree.Calc.C97_operator"
   ],
   "note": ""
  },
  {
   "property": "C98",
   "status": "proved",
   "theorems": [
    "Syntree.C98_skip_tokens",
    "Syntree.C98_library",
    "Syntree.C98_lower_dropped"
   ],
   "note": ""
  },
  {
   "property": "C99",
   "status": "proved",
   "theorems": [
    "Syntree.Calc.C99_parser_frames",
    "Syntree.Calc.C99_ancestors",
    "Syntree.Calc.C99_evaluator_frames",
    "Syntree.Calc.C99_parser_sharp",
    "Syntree.Calc.C99_ancestors_sharp",
    "Syntree.Calc.C99_evaluator_sharp"
   ],
   "note": ""
  },
  {
   "property": "C100",
   "status": "proved",
   "theorems": [
    "Syntree.C100_enough_room",
    "Syntree.C100_nothing_allocated",
    "Syntree.C100_grows_when_full",
    "Syntree.C100_modify_capacity",
    "Syntree.C100_copy_never_grows",
    "Syntree.C100_moves_are_linear"
   ],
   "note": ""
  },
  {
   "property": "C101",
   "status": "proved",
   "theorems": [
    "Syntree.C101_innermost",
    "Syntree.C101_monotone",
    "Syntree.C101_one_start",
    "Syntree.C101_monotone_fails"
   ],
   "note": ""
  },
  {
   "property": "C102",
   "status": "proved",
   "theorems": [
    "Syntree.C102_span_eq",
    "Syntree.C102_span_hash",
    "Syntree.C102_span_ord",
    "Syntree.C102_pointers"
   ],
   "note": ""
  }
 ]
}