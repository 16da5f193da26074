import Verif.Props.Address
import Verif.Props.Alike
import Verif.Props.Anyhow
import Verif.Props.Apart
import Verif.Props.Asking
import Verif.Props.Bench
import Verif.Props.Calc
import Verif.Props.CalcError
import Verif.Props.CalcStack
import Verif.Props.Capacity
import Verif.Props.Comparing
import Verif.Props.Context
import Verif.Props.Cost
import Verif.Props.Declared
import Verif.Props.Depth
import Verif.Props.Edit
import Verif.Props.EditRow
import Verif.Props.EditSet
import Verif.Props.Emptiness
import Verif.Props.Empty
import Verif.Props.Equal
import Verif.Props.Fault
import Verif.Props.Final
import Verif.Props.Growth
import Verif.Props.Hint
import Verif.Props.History
import Verif.Props.Innermost
import Verif.Props.Keys
import Verif.Props.Late
import Verif.Props.Levels
import Verif.Props.Loose
import Verif.Props.Macro
import Verif.Props.Math
import Verif.Props.Misuse
import Verif.Props.Order
import Verif.Props.Output
import Verif.Props.Pieces
import Verif.Props.Queries
import Verif.Props.Range
import Verif.Props.Reading
import Verif.Props.Replay
import Verif.Props.Session
import Verif.Props.SkipEnds
import Verif.Props.Small
import Verif.Props.Spans
import Verif.Props.Spelled
import Verif.Props.Storeless
import Verif.Props.Synth
import Verif.Props.Traverse
import Verif.Props.Unused
import Verif.Props.Value
import Verif.Props.Wider
import Verif.Props.Writing
import Verif.Props.Written

/-! The axioms of every property theorem, printed at build time. -/

#print axioms Syntree.C01_literal_round_trip
#print axioms Syntree.C01_literal_overflow
#print axioms Syntree.C01_literal_values
#print axioms Syntree.C02_histories_refine
#print axioms Syntree.C02_covered
#print axioms Syntree.C02_dead_is_swallowed
#print axioms Syntree.C02_covered_without_close_at
#print axioms Syntree.C03_histories_refine
#print axioms Syntree.C04_ids_dense
#print axioms Syntree.C05_balance_exact
#print axioms Syntree.C06_walk_once_in_order
#print axioms Syntree.C07_walk_events_bracketed
#print axioms Syntree.C08_depth_is_number_of_ancestors
#print axioms Syntree.C09_node_walk_is_suffix
#print axioms Syntree.C10_walk_from_skips_subtree
#print axioms Syntree.C11_inside_is_subtree
#print axioms Syntree.C12_children_in_order
#print axioms Syntree.C13_double_ended_modified_partial
#print axioms Syntree.C13_double_ended_partial
#print axioms Syntree.C13_fails_after_close_at
#print axioms Syntree.C13_double_ended_iff
#print axioms Syntree.C14_last_modified_partial
#print axioms Syntree.C14_last_partial
#print axioms Syntree.C14_last_on_right_edge_partial
#print axioms Syntree.C14_fails_after_close_at
#print axioms Syntree.C14_last_exact
#print axioms Syntree.C14_last_iff
#print axioms Syntree.C15_siblings
#print axioms Syntree.C16_ancestors
#print axioms Syntree.C17_links_match_place
#print axioms Syntree.C17_links_inverse
#print axioms Syntree.C18_skip_tokens_both_ends
#print axioms Syntree.C18_children_both_ends
#print axioms Syntree.C18_finds_in_a_row
#print axioms Syntree.C18_finds_on_trees
#print axioms Syntree.C18_skip_tokens_filters
#print axioms Syntree.C18_skip_tokens_on_trees
#print axioms Syntree.C19_fused
#print axioms Syntree.C19_default_is_empty
#print axioms Syntree.C20_any_tree
#print axioms Syntree.C20_find_preceding
#print axioms Syntree.C21_close_at_wraps
#print axioms Syntree.C21_close_at_wraps_tree
#print axioms Syntree.C22_other_level_rejected
#print axioms Syntree.C22_any_history
#print axioms Syntree.C23_not_a_sibling_rejected_partial
#print axioms Syntree.C23_swallowed_is_accepted
#print axioms Syntree.C23_fails
#print axioms Syntree.C23_spent
#print axioms Syntree.C23_accepted
#print axioms Syntree.C24_reuse
#print axioms Syntree.C24_interchangeable
#print axioms Syntree.C25_failed_call_is_noop_partial
#print axioms Syntree.C25_fails_token
#print axioms Syntree.C25_failed_call_exact_partial
#print axioms Syntree.C25_fails_foreign_unlinks
#print axioms Syntree.C25_fails_foreign
#print axioms Syntree.C26_capacity_exact
#print axioms Syntree.C27_index_overflow_exact
#print axioms Syntree.C28_terminates_no_spurious_missing
#print axioms Syntree.C28_results_exact
#print axioms Syntree.C28_own_checkpoints_never_missing
#print axioms Syntree.C29_leaf_span
#print axioms Syntree.C29_inner_span
#print axioms Syntree.C30_cursor_is_total_length
#print axioms Syntree.C31_siblings_tile
#print axioms Syntree.C31_roots_tile
#print axioms Syntree.C32_lossless
#print axioms Syntree.C33_explicit_spans_kept_partial
#print axioms Syntree.C33_parents_cover_partial
#print axioms Syntree.C33_spans_exact
#print axioms Syntree.C33_ends_exact
#print axioms Syntree.C33_fails
#print axioms Syntree.C34_join
#print axioms Syntree.C34_queries
#print axioms Syntree.C35_search_contract
#print axioms Syntree.C35_nearest_enclosing
#print axioms Syntree.C36_none_iff_outside
#print axioms Syntree.C37_contains_range_partial
#print axioms Syntree.C37_contains_range_iff
#print axioms Syntree.C37_fails
#print axioms Syntree.C38_modified_exact_partial
#print axioms Syntree.C38_token_with_exact_partial
#print axioms Syntree.C38_fails_token_with
#print axioms Syntree.C38_fails_modify
#print axioms Syntree.C39_any_trees
#print axioms Syntree.C39_eq_iff_same_forest
#print axioms Syntree.C39_eq_iff_same_listing
#print axioms Syntree.C39_equivalence
#print axioms Syntree.C39_equals_its_literal
#print axioms Syntree.C40_replace_value
#print axioms Syntree.C40_replace_frame
#print axioms Syntree.C40_replace_listing
#print axioms Syntree.C41_copy
#print axioms Syntree.C41_copy_new
#print axioms Syntree.C41_identity_partial
#print axioms Syntree.C41_identity_iff
#print axioms Syntree.C41_fails
#print axioms Syntree.C41_copy_idempotent
#print axioms Syntree.C42_one_removal_exact
#print axioms Syntree.C42_removes_subtree_partial
#print axioms Syntree.C42_removes_subtree_relaid_partial
#print axioms Syntree.C42_fails_last_child
#print axioms Syntree.C42_fails
#print axioms Syntree.C42_fails_after_close_at
#print axioms Syntree.C42_one_after_another
#print axioms Syntree.C43_fails
#print axioms Syntree.C43_only_the_set_matters
#print axioms Syntree.C43_remove_many_partial
#print axioms Syntree.C43_last_first_partial
#print axioms Syntree.C44_modify_terminates
#print axioms Syntree.C44_paths_from_input
#print axioms Syntree.C45_new_some_iff
#print axioms Syntree.C45_round_trip
#print axioms Syntree.C45_injective
#print axioms Syntree.C45_surjective
#print axioms Syntree.C45_default
#print axioms Syntree.C45_id_is_checked
#print axioms Syntree.C45_id_world
#print axioms Syntree.C45_id_after_modify
#print axioms Syntree.C46_print_with_source
#print axioms Syntree.C46_print
#print axioms Syntree.C46_line_count
#print axioms Syntree.C47_spans_empty
#print axioms Syntree.C47_token_never_overflows_index
#print axioms Syntree.C47_no_range_queries
#print axioms Syntree.C47_span_index_is_separate
#print axioms Syntree.C47_structure_unaffected
#print axioms Syntree.C48_clone_independent_partial
#print axioms Syntree.C48_fails_shared_checkpoint
#print axioms Syntree.C48_fails_old_checkpoint
#print axioms Syntree.C48_clone_alone_partial
#print axioms Syntree.C48_clone_partial
#print axioms Syntree.C48_fails_common_checkpoint
#print axioms Syntree.C48_programs_partial
#print axioms Syntree.C49_tree_walks_end
#print axioms Syntree.C49_node_walks_end
#print axioms Syntree.C49_children_end
#print axioms Syntree.C49_siblings_ancestors_end
#print axioms Syntree.C49_skip_tokens_end
#print axioms Syntree.C49_queries_end
#print axioms Syntree.C49_print_eq_end
#print axioms Syntree.C50_modify_repairs
#print axioms Syntree.C51_any_tree
#print axioms Syntree.C51_modify_exact
#print axioms Syntree.Calc.C52_lexer
#print axioms Syntree.Calc.C52_unique
#print axioms Syntree.Calc.C52_classes
#print axioms Syntree.Calc.C53_parse
#print axioms Syntree.Calc.C53_too_long
#print axioms Syntree.Calc.C54_exact
#print axioms Syntree.Calc.C54_value_partial
#print axioms Syntree.Calc.C54_fails
#print axioms Syntree.Calc.C54_power_and_division
#print axioms Syntree.Calc.C54_numbers
#print axioms Syntree.Calc.C55_run_total
#print axioms Syntree.Calc.C55_too_long
#print axioms Syntree.Math.C56_lexer
#print axioms Syntree.Math.C56_unique
#print axioms Syntree.Math.C56_classes
#print axioms Syntree.Math.C57_parse
#print axioms Syntree.Math.C57_any
#print axioms Syntree.Math.C57_unique
#print axioms Syntree.Math.C58_expression
#print axioms Syntree.Synth.C59_pieces
#print axioms Syntree.Synth.C59_run
#print axioms Syntree.Synth.C59_too_long
#print axioms Syntree.Synth.C59_found
#print axioms Syntree.Synth.C59_classes
#print axioms Syntree.C60_any_tree
#print axioms Syntree.C60_forward
#print axioms Syntree.C60_both_ends
#print axioms Syntree.C60_walk_with_depth
#print axioms Syntree.C61_reads_last_write
#print axioms Syntree.C62_inside_midway_partial
#print axioms Syntree.C62_childless_exact
#print axioms Syntree.C62_fails
#print axioms Syntree.C62_tree_inside
#print axioms Syntree.C63_no_failure_no_difference
#print axioms Syntree.C63_before_first_failure
#print axioms Syntree.C63_fails_exactly
#print axioms Syntree.C63_attempts
#print axioms Syntree.C63_reliable_storage
#print axioms Syntree.C63_no_storage_needed
#print axioms Syntree.C64_failed_call_partial
#print axioms Syntree.C64_open_keeps_tree_partial
#print axioms Syntree.C64_fails_next_node_is_lost
#print axioms Syntree.C64_fails_close_at
#print axioms Syntree.C64_fails_cycle
#print axioms Syntree.C65_fixed_capacity_partial
#print axioms Syntree.C65_fails_when_full_partial
#print axioms Syntree.C65_fails_after_close_at
#print axioms Syntree.C65_fails_span
#print axioms Syntree.C66_modify_conserves
#print axioms Syntree.C66_modify_fits
#print axioms Syntree.C67_print_identifies
#print axioms Syntree.C68_debug
#print axioms Syntree.C68_pretty
#print axioms Syntree.C68_debug_identifies
#print axioms Syntree.C69_first_difference
#print axioms Syntree.C69_larger_is_the_same
#print axioms Syntree.C69_smaller_is_the_same
#print axioms Syntree.C69_modify
#print axioms Syntree.C70_values_are_final
#print axioms Syntree.C70_tokens_are_final
#print axioms Syntree.C70_values_in_clones
#print axioms Syntree.C71_subtrees_are_final
#print axioms Syntree.C71_seen
#print axioms Syntree.C72_same_in_any_context
#print axioms Syntree.C73_results
#print axioms Syntree.C73_builds
#print axioms Syntree.C73_covers_nest
#print axioms Syntree.C73_walks
#print axioms Syntree.C73_node
#print axioms Syntree.C73_children
#print axioms Syntree.C73_close_at_wraps_in_place
#print axioms Syntree.C74_read_as_written
#print axioms Syntree.C74_nothing_else_compiles
#print axioms Syntree.C74_one_reading
#print axioms Syntree.C74_pairs
#print axioms Syntree.C75_no_overflow
#print axioms Syntree.C75_ends
#print axioms Syntree.C75_tree_depths
#print axioms Syntree.C75_node_depths
#print axioms Syntree.C75_first_is_a_root
#print axioms Syntree.C75_print
#print axioms Syntree.C76_same_tree
#print axioms Syntree.C76_same_results
#print axioms Syntree.C77_listing_determines_links
#print axioms Syntree.C77_same_answers
#print axioms Syntree.C78_same_tree
#print axioms Syntree.C78_same_results
#print axioms Syntree.C79_alike
#print axioms Syntree.C79_printed_alike
#print axioms Syntree.C79_modified_alike
#print axioms Syntree.C79_found_alike
#print axioms Syntree.C79_replaced_alike
#print axioms Syntree.C79_last_differs
#print axioms Syntree.C80_ids_and_order
#print axioms Syntree.C80_ids_are_positions
#print axioms Syntree.C81_rebuild
#print axioms Syntree.C81_rebuilt_is_equal
#print axioms Syntree.C82_spelled_out
#print axioms Syntree.C82_equal
#print axioms Syntree.C82_lookup_differs
#print axioms Syntree.C83_nested_or_apart
#print axioms Syntree.C83_overlap
#print axioms Syntree.C83_modified
#print axioms Syntree.C83_modified_fails
#print axioms Syntree.C84_span_order
#print axioms Syntree.C84_tokens_sorted
#print axioms Syntree.C84_span_shown
#print axioms Syntree.C84_error_shown
#print axioms Syntree.C85_any_tree
#print axioms Syntree.C85_asked_once_any_tree
#print axioms Syntree.C85_find_preceding
#print axioms Syntree.C85_asked_once
#print axioms Syntree.C85_skip_tokens_find
#print axioms Syntree.C85_without_memory
#print axioms Syntree.C86_any_tree
#print axioms Syntree.C86_counts
#print axioms Syntree.C86_building_is_linear
#print axioms Syntree.C86_close_at_visits
#print axioms Syntree.C86_swallowed_fails
#print axioms Syntree.C86_swallowed_is_quadratic
#print axioms Syntree.C86_no_linear_bound
#print axioms Syntree.C86_building_is_quadratic
#print axioms Syntree.C86_walk_is_linear
#print axioms Syntree.C86_inside_is_local
#print axioms Syntree.C86_query_climbs
#print axioms Syntree.C87_bounded_growth
#print axioms Syntree.C87_no_growth
#print axioms Syntree.C87_growth_is_reached
#print axioms Syntree.C87_modify_rounds
#print axioms Syntree.C87_counts
#print axioms Syntree.C88_pieces
#print axioms Syntree.Bench.C89_wrap
#print axioms Syntree.Bench.C89_cycled
#print axioms Syntree.Bench.C89_build
#print axioms Syntree.Bench.C89_tree
#print axioms Syntree.C90_with_alloc
#print axioms Syntree.C90_results
#print axioms Syntree.C90_close_fails
#print axioms Syntree.C90_nothing_kept
#print axioms Syntree.C90_all_equal
#print axioms Syntree.C90_literals
#print axioms Syntree.C90_text_alike
#print axioms Syntree.C91_declarations
#print axioms Syntree.C91_storage_ignored
#print axioms Syntree.C91_defaults
#print axioms Syntree.C91_limits
#print axioms Syntree.C91_no_alloc
#print axioms Syntree.C92_empty_tree
#print axioms Syntree.C92_empty_node
#print axioms Syntree.C92_links_go_back
#print axioms Syntree.C92_parents_differ
#print axioms Syntree.C93_set_of_ids
#print axioms Syntree.C93_only_reached_ids
#print axioms Syntree.C93_bound_sharp
#print axioms Syntree.C94_any_trees
#print axioms Syntree.C94_asked
#print axioms Syntree.C94_same_shape
#print axioms Syntree.C94_equivalence
#print axioms Syntree.C94_with_equality
#print axioms Syntree.C95_print_to
#print axioms Syntree.C95_determined
#print axioms Syntree.C95_small_trees
#print axioms Syntree.C95_to_vec
#print axioms Syntree.C95_to_buffer
#print axioms Syntree.C95_depth
#print axioms Syntree.C95_bound_sharp
#print axioms Syntree.C96_any_storage
#print axioms Syntree.C96_ids_distinct
#print axioms Syntree.C96_two_slices_fails
#print axioms Syntree.Calc.C97_errors
#print axioms Syntree.Calc.C97_operator
#print axioms Syntree.C98_skip_tokens
#print axioms Syntree.C98_library
#print axioms Syntree.C98_lower_dropped
#print axioms Syntree.Calc.C99_parser_frames
#print axioms Syntree.Calc.C99_ancestors
#print axioms Syntree.Calc.C99_evaluator_frames
#print axioms Syntree.Calc.C99_parser_sharp
#print axioms Syntree.Calc.C99_ancestors_sharp
#print axioms Syntree.Calc.C99_evaluator_sharp
#print axioms Syntree.C100_enough_room
#print axioms Syntree.C100_nothing_allocated
#print axioms Syntree.C100_grows_when_full
#print axioms Syntree.C100_modify_capacity
#print axioms Syntree.C100_copy_never_grows
#print axioms Syntree.C100_moves_are_linear
#print axioms Syntree.C101_innermost
#print axioms Syntree.C101_monotone
#print axioms Syntree.C101_one_start
#print axioms Syntree.C101_monotone_fails
#print axioms Syntree.C102_span_eq
#print axioms Syntree.C102_span_hash
#print axioms Syntree.C102_span_ord
#print axioms Syntree.C102_pointers
