{"Adapton.C01_from_scratch_consistency": ["Classical.choice", "Quot.sound", "propext"], "Adapton.Means_unique": ["Classical.choice", "Quot.sound", "propext"], "Adapton.C02_terminates_without_panic": ["Classical.choice", "Quot.sound", "propext"], "Adapton.C03_clean_reuse": ["Quot.sound", "propext"], "Adapton.C04_set_same": ["propext"], "Adapton.C04_cell_same": ["Quot.sound", "propext"], "Adapton.C05_set_then_force": ["Classical.choice", "Quot.sound", "propext"], "Adapton.C05_cell_then_force": ["Classical.choice", "Quot.sound", "propext"], "Adapton.C05_until_next_mutation": ["Quot.sound", "propext"], "Adapton.C05_set_then_force_upto": ["Classical.choice", "Quot.sound", "propext"], "Adapton.C05_cell_then_force_upto": ["Classical.choice", "Quot.sound", "propext"], "Adapton.C06_edits_are_lazy": ["Classical.choice", "Quot.sound", "propext"], "Adapton.C07_dirtying_terminates": ["Classical.choice", "Quot.sound", "propext"], "Adapton.C08_only_dirty_bits": ["Classical.choice", "Quot.sound", "propext"], "Adapton.C09_dirty_is_transitive": ["Classical.choice", "Quot.sound", "propext"], "Adapton.C10_edge_symmetry": ["Classical.choice", "Quot.sound", "propext"], "Adapton.C11_early_cutoff": ["Quot.sound", "propext"], "Adapton.C12_deps_of_last_run": ["Classical.choice", "Quot.sound", "propext"], "Adapton.C12_edit_reaches_dependents_only": ["propext"], "Adapton.C12_unread_inputs_do_not_trigger": ["Classical.choice", "Quot.sound", "propext"], "Adapton.C13_force_map_is_map": ["Classical.choice", "Quot.sound", "propext"], "Adapton.C14_force_map_prunes": ["Classical.choice", "Quot.sound", "propext"], "Adapton.Dev.C15_map_then_force_is_stale": ["Quot.sound", "propext"], "Adapton.Dev.C15_two_maps_are_stale": ["Quot.sound", "propext"], "Adapton.Dev.C15_force_then_map_is_tracked": ["Quot.sound", "propext"], "Adapton.Dev.C16_structural_caller_is_stale": ["Quot.sound", "propext"], "Adapton.C17_force_abs_never_dirtied": ["Classical.choice", "Quot.sound", "propext"], "Adapton.Dev.C17_force_abs_is_stale": ["Quot.sound", "propext"], "Adapton.C18_cell_over_thunk_keeps_thunk": ["Classical.choice", "Quot.sound", "propext"], "Adapton.Dev.C18_cell_over_thunk_is_lost": ["Quot.sound", "propext"], "Adapton.C19_thunk_over_cell_forgets_observers": ["Classical.choice", "Quot.sound", "propext"], "Adapton.Dev.C19_thunk_over_cell_loses_observers": ["Quot.sound", "propext"], "Adapton.C20_unexpected_cycle": ["Quot.sound", "propext"], "Adapton.C21_expected_cycle": ["Quot.sound", "propext"], "Adapton.C21_no_cycle": ["Quot.sound", "propext"], "Adapton.Dev.C22_self_cycle_poisons_edits": ["Quot.sound", "propext"], "Adapton.C23_set_is_editor_only": ["propext"], "Adapton.C24_type_errors_detected": ["Quot.sound", "propext"], "Adapton.C25_prog_pt_mismatch": ["propext"], "Adapton.C26_memo_match": ["Quot.sound", "propext"], "Adapton.C26_memo_mismatch": ["Classical.choice", "Quot.sound", "propext"], "Adapton.C27_scoped": ["Quot.sound", "propext"], "Adapton.C27_session_scoped": ["Quot.sound", "propext"], "Adapton.C28_locations_persist": ["Quot.sound", "propext"], "Adapton.C28_cell_exists": ["Quot.sound", "propext"], "Adapton.C28_thunk_exists": ["Quot.sound", "propext"], "Adapton.C29_art_identity": ["propext"], "Adapton.C29_structural_identity": ["propext"], "Adapton.C29_structural_thunk_identity": ["propext"], "Adapton.C30_panic_leaves_thunk_running": ["Quot.sound", "propext"], "Adapton.C30_poisoned_for_ever": ["Quot.sound", "propext"], "Adapton.C31_trace_bracketed": ["Classical.choice", "Quot.sound", "propext"], "Adapton.C31_no_nesting": ["propext"], "Adapton.C32_use_engine": [], "Adapton.C32_new_engine_flags": ["propext"], "Adapton.C32_switch_back": ["propext"], "Adapton.C32_no_switch_inside": ["propext"], "Adapton.C33_fork": ["Classical.choice", "Quot.sound", "propext"], "Adapton.C33_fork3": ["Classical.choice", "Quot.sound", "propext"], "Adapton.C33_fork4": ["Classical.choice", "Quot.sound", "propext"], "Adapton.C33_fork_tree": ["Quot.sound", "propext"], "Adapton.C33_forko": [], "Adapton.C34_pair": ["Classical.choice", "Quot.sound", "propext"], "Adapton.C34_leaves": ["propext"], "Adapton.C35_counter_names_distinct": ["Quot.sound", "propext"], "Adapton.C35_counter_arts_distinct": ["Quot.sound", "propext"], "Adapton.C35_counter_names_are_usize_names": ["Quot.sound", "propext"], "Adapton.Coll.vec_list_round_trip": ["Quot.sound", "propext"], "Adapton.Coll.vec_of_list_items": ["Quot.sound", "propext"], "Adapton.Coll.list_demand_zero": ["Quot.sound", "propext"], "Adapton.Coll.list_map_elems": ["propext"], "Adapton.Coll.list_map_lazy_items": ["propext"], "Adapton.Coll.list_map_eager_items": ["propext"], "Adapton.Coll.list_map_eager2_items": ["propext"], "Adapton.Coll.list_filter_elems": ["propext"], "Adapton.Coll.list_filter_eager_items": ["propext"], "Adapton.Coll.list_reverse_elems": ["propext"], "Adapton.Coll.list_reverse_items": ["propext"], "Adapton.Coll.list_fold_eq": ["propext"], "Adapton.Coll.list_append_elems": ["propext"], "Adapton.Coll.list_append_items": ["propext"], "Adapton.Coll.list_is_empty_iff": ["propext"], "Adapton.Coll.list_pop_push": ["propext"], "Adapton.Coll.list_merge_elems": ["Quot.sound", "propext"], "Adapton.Coll.list_merge_perm": ["Quot.sound", "propext"], "Adapton.Coll.list_merge_ascending": ["Quot.sound", "propext"], "Adapton.Coll.mergesort1_sorts": ["Quot.sound", "propext"], "Adapton.Coll.mergesort2_sorts": ["Quot.sound", "propext"], "Adapton.Coll.mergesort3_sorts": ["Quot.sound", "propext"], "Adapton.Coll.tree_of_list_items": ["Classical.choice", "Quot.sound", "propext"], "Adapton.Coll.list_of_tree_items": ["Quot.sound", "propext"], "Adapton.Coll.list_tree_round_trip": ["Classical.choice", "Quot.sound", "propext"], "Adapton.Coll.tree_of_list_canonical": ["Classical.choice", "Quot.sound", "propext"], "Adapton.Coll.monoid_of_tree_eq": ["Quot.sound", "propext"], "Adapton.Coll.tree_fold_seq_order": ["Quot.sound", "propext"], "Adapton.Coll.filter_tree_leaves": ["propext"], "Adapton.Coll.eager_tree_eq": ["propext"], "Adapton.Coll.prune_tree_spec": ["propext"], "Adapton.Coll.tree_is_empty_iff": ["propext"], "Adapton.Coll.list_gen_empty": ["Quot.sound", "propext"], "Adapton.Coll.list_gen_not_generating": ["Quot.sound", "propext"], "Adapton.Coll.filter_list_of_tree_elems": ["Quot.sound", "propext"], "Adapton.Coll.filter_list_of_tree_items": ["Quot.sound", "propext"], "Adapton.Coll.is_name_swapped": ["Quot.sound", "propext"], "Adapton.Coll.filter_list_of_tree_no_name": ["Quot.sound", "propext"], "Adapton.Coll.map_find_update": [], "Adapton.Coll.map_find_eq": ["Quot.sound", "propext"], "Adapton.Coll.map_find_empty": [], "Adapton.Coll.map_fold_eq": ["propext"], "Adapton.Coll.set_is_mem_iff": ["Quot.sound", "propext"], "Adapton.Coll.set_add_iff": ["Quot.sound", "propext"], "Adapton.Coll.set_inter_iff": ["Quot.sound", "propext"], "Adapton.Bits.pow_eq": ["Classical.choice", "Quot.sound", "propext"], "Adapton.Bits.flip_toggles": ["Classical.choice", "Quot.sound", "propext"], "Adapton.Bits.is_set_reads": ["Classical.choice", "Quot.sound", "propext"], "Adapton.Bits.prepend_spec": ["Classical.choice", "Quot.sound", "propext"], "Adapton.Bits.prepend_value": ["Classical.choice", "Quot.sound", "propext"], "Adapton.Bits.shift_left_spec": ["Classical.choice", "Quot.sound", "propext"], "Adapton.Bits.shift_left_value": ["Classical.choice", "Quot.sound", "propext"], "Adapton.Bits.max_len_supported": [], "Adapton.Bits.pow_negative": ["Classical.choice", "Quot.sound", "propext"], "Adapton.TrieM.find_iff": ["Classical.choice", "Quot.sound", "propext"], "Adapton.TrieM.find_placed": ["Classical.choice", "Quot.sound", "propext"], "Adapton.TrieM.mem_placed": ["Classical.choice", "Quot.sound", "propext"], "Adapton.TrieM.find_absent": ["Classical.choice", "Quot.sound", "propext"], "Adapton.TrieM.split_atomic_leaf": ["Classical.choice", "Quot.sound", "propext"], "Adapton.TrieM.split_atomic_other": ["Quot.sound", "propext"], "Adapton.TrieM.fold_eq": ["Quot.sound", "propext"], "Adapton.TrieM.is_empty_iff": [], "Adapton.TrieM.empty_spec": [], "Adapton.TrieM.empty_depth": ["Quot.sound", "propext"], "Adapton.Reflect.parse_val_terminates": ["Classical.choice", "Quot.sound", "propext"], "Adapton.Reflect.parse_val_round_trip": ["Classical.choice", "Quot.sound", "propext"], "Adapton.Reflect.parse_val_art": ["Classical.choice", "Quot.sound", "propext"], "Adapton.Reflect.name_readers_agree": ["Quot.sound", "propext"], "Adapton.C48_changes_have_reasons": ["Classical.choice", "Quot.sound", "propext"], "Adapton.C49_clean_is_current": ["Classical.choice", "Quot.sound", "propext"], "Adapton.Dev.C50_cycle_by_edit_is_silent": ["Quot.sound", "propext"], "Adapton.Coll.filter_tree_drops_names": ["propext"], "Adapton.Coll.filter_tree_names_counterexample": ["Classical.choice", "Quot.sound", "propext"], "Adapton.Coll.filter_tree_noNil": ["propext"], "Adapton.TrieM.trie_insertion_panics": ["propext"], "Adapton.Reflect.string_reflection": ["Classical.choice", "Quot.sound", "propext"], "Adapton.Reflect.string_with_quote_panics": ["Classical.choice", "Quot.sound", "propext"], "Adapton.Reflect.quoted_string_splits": ["Classical.choice", "Quot.sound", "propext"], "Adapton.Reflect.parse_val_panics_iff": ["Classical.choice", "Quot.sound", "propext"], "Adapton.Reflect.structural_art_panics": ["Classical.choice", "Quot.sound", "propext"], "Adapton.Reflect.isize_name_panics": ["Classical.choice", "Quot.sound", "propext"], "Adapton.Reflect.hash64_conflated": ["Classical.choice", "Quot.sound", "propext"], "Adapton.Reflect.user_constructor_taken_for_name": ["Classical.choice", "Quot.sound", "propext"], "Adapton.Reflect.big_number_panics": ["Classical.choice", "Quot.sound", "propext"], "Adapton.Trace.C54_trace_count": ["Classical.choice", "Quot.sound", "propext"], "Adapton.Trace.C54_debug_extent": ["propext"], "Adapton.C55_structural_cell_immutable": ["Quot.sound", "propext"], "Adapton.C55_hash_collision": ["Quot.sound", "propext"], "Adapton.C56_no_observation_cycle": ["Classical.choice", "Quot.sound", "propext"], "Adapton.C57_checker_passes": ["Classical.choice", "Quot.sound", "propext"], "Adapton.C57_checker_sound": ["Quot.sound", "propext"], "Adapton.C58_hash_identifies_name": ["Classical.choice", "Quot.sound", "propext"], "Adapton.C58_usize_isize_collide": ["propext"], "Adapton.C59_programs_agree": ["Classical.choice", "Quot.sound", "propext"], "Adapton.C59_naive_set_panics": [], "Adapton.C59_demands_agree": ["Classical.choice", "Quot.sound", "propext"], "Adapton.UserEq.C60_right_up_to_equality": ["Classical.choice", "Quot.sound", "propext"], "Adapton.UserEq.C60_equal_edit_is_dropped": ["Quot.sound", "propext"], "Adapton.ArtEq.C61_art_equality": ["Classical.choice", "Quot.sound", "propext"], "Adapton.ArtEq.C61_naive_thunk_equality": ["propext"], "Adapton.ArtEq.C61_thunk_map_maps": ["propext"], "Adapton.ArtEq.C61_thunk_maps_all_equal": ["propext"], "Adapton.ArtEq.C61_set_to_other_map_is_dropped": ["Quot.sound", "propext"], "Adapton.ArtEq.C61_memo_match_on_other_map": ["Classical.choice", "Quot.sound", "propext"], "Adapton.ArtEq.C61_force_does_not_respect_equality": ["propext"], "Adapton.Coll.C62_merge_names": ["Quot.sound", "propext"], "Adapton.Coll.C62_merge_keeps_names": ["Quot.sound", "propext"], "Adapton.Coll.C62_mergesort_names": ["Classical.choice", "Quot.sound", "propext"], "Adapton.Coll.C62_mergesort3_names": ["Classical.choice", "Quot.sound", "propext"], "Adapton.Coll.C62_plain_names": ["Quot.sound", "propext"], "Adapton.Coll.C62_mergesort2_repeats_name": ["Quot.sound", "propext"], "Adapton.Coll.C62_mergesort2_repeats_alloc": ["Quot.sound", "propext"], "Adapton.SortProg.C63_sort_session": ["Classical.choice", "Quot.sound", "propext"], "Adapton.SortProg.Example63.meets": ["propext"], "Adapton.SortProg.Example63.C63_mergesort2_does_not_sort": ["propext"], "Adapton.RDcg.C64_locations": ["propext"], "Adapton.RDcg.C64_faithful": ["Quot.sound", "propext"], "Adapton.RDcg.C64_order": ["Quot.sound", "propext"], "Adapton.RDcg.C64_panics_iff": ["Quot.sound", "propext"], "Adapton.RDcg.C64_reflected_invariants": ["Classical.choice", "Quot.sound", "propext"], "Adapton.RDcg.C64_edge_values_missing": ["Quot.sound", "propext"], "Adapton.RDcg.Example64.C64_hash_names_collide": ["Quot.sound", "propext"], "Adapton.RDcg.Example64.C64_duplicate_edges_differ": ["propext"], "Adapton.Dev.C65_mode_is_forgotten": ["Quot.sound", "propext"], "Adapton.C66_each_thunk_at_most_once": ["Classical.choice", "Quot.sound", "propext"], "Adapton.C66_second_demand_is_free": ["Classical.choice", "Quot.sound", "propext"], "Adapton.C67_strings_identify": ["Classical.choice", "Quot.sound", "propext"], "Adapton.C67_different_names_same_string": ["Classical.choice", "Quot.sound", "propext"], "Adapton.C67_different_locations_same_string": ["Classical.choice", "Quot.sound", "propext"], "Adapton.SortProg.Pipe.C68_pipeline_session": ["Classical.choice", "Quot.sound", "propext"], "Adapton.SortProg.Pipe.Example68.C68_repeated_name_panics": ["propext"], "Adapton.C69_runs_only_what_is_needed": ["Classical.choice", "Quot.sound", "propext"], "Adapton.C69_undemanded_is_not_run": ["Classical.choice", "Quot.sound", "propext"], "Adapton.C69_division_example": ["Classical.choice", "Quot.sound", "propext"], "Adapton.C69_division_not_run": ["Classical.choice", "Quot.sound", "propext"], "Adapton.C69_switching_example": ["Classical.choice", "Quot.sound", "propext"], "Adapton.C70_code_is_ignored": ["Quot.sound", "propext"], "Adapton.C70_memo_point_ignores_its_body": ["Classical.choice", "Quot.sound", "propext"], "Adapton.C70_let_memo_keeps_the_first_body": ["Classical.choice", "Quot.sound", "propext"], "Adapton.C70_new_engine_runs_the_body": ["Quot.sound", "propext"], "Adapton.C70_captured_variable_is_stale": ["Quot.sound", "propext"], "Adapton.C70_argument_is_tracked": ["Quot.sound", "propext"], "Adapton.C70_other_function_panics": ["Quot.sound", "propext"], "Adapton.C71_unnamed_panics": ["propext"], "Adapton.C71_naive_memo_is_a_call": [], "Adapton.C71_ordinary_call": ["propext"], "Adapton.Firewall.C72_answers": ["Classical.choice", "Quot.sound", "propext"], "Adapton.Firewall.C72_edit_does_not_dirty_h": ["Classical.choice", "Quot.sound", "propext"], "Adapton.Firewall.C72_demand_runs": ["Classical.choice", "Quot.sound", "propext"], "Adapton.Firewall.C72_without_firewall": ["Classical.choice", "Quot.sound", "propext"], "Adapton.Cyc.C73_first_search": ["Classical.choice", "Quot.sound", "propext"], "Adapton.Cyc.C73_all_histories": ["Classical.choice", "Quot.sound", "propext"], "Adapton.Cyc.C73_later_demand_is_truncated": ["Quot.sound", "propext"], "Adapton.Cyc.C73_plain_recursion_diverges": ["propext"], "Adapton.Cyc.C73_documentation": ["Quot.sound", "propext"], "Adapton.C74_current_is_not_run": ["Quot.sound", "propext"], "Adapton.C74_unseen_edits_run_nothing": ["Classical.choice", "Quot.sound", "propext"], "Adapton.C74_undone_edits_run_nothing": ["Classical.choice", "Quot.sound", "propext"], "Adapton.ListProg.C75_list_session": ["Classical.choice", "Quot.sound", "propext"], "Adapton.ListProg.C75_spec_is_model": ["propext"], "Adapton.FoldProg.C76_fold_session": ["Classical.choice", "Quot.sound", "propext"], "Adapton.FoldProg.C76_results": ["Quot.sound", "propext"], "Adapton.FoldProg.Prune.C77_prune_is_stale": ["propext"], "Adapton.FoldProg.Prune.C77_prune_stays_stale": ["propext"], "Adapton.ListProg.C78_edits_are_local": ["Classical.choice", "Quot.sound", "propext"], "Adapton.ListProg.Example78.C78_bound_attained": ["propext"], "Adapton.FoldProg.C79_edits_are_local": ["Classical.choice", "Quot.sound", "propext"], "Adapton.FoldProg.C79_early_cutoff": ["Classical.choice", "Quot.sound", "propext"], "Adapton.FoldProg.Example79.C79_bound_attained": ["propext"], "Adapton.TrieProg.C80_trie_session": ["Classical.choice", "Quot.sound", "propext"], "Adapton.TrieProg.C80_answers": ["Classical.choice", "Quot.sound", "propext"], "Adapton.TrieProg.C80_trie_fold_of_empty_never_returns": ["Classical.choice", "Quot.sound", "propext"], "Adapton.TrieProg.Example80.C80_trie_fold_of_empty_panics": ["propext"], "Adapton.TrieProg.Example80.C80_repeated_name_panics": ["propext"], "Adapton.MergeProg.C81_mergesort3_session": ["Classical.choice", "Quot.sound", "propext"], "Adapton.MergeProg.C81_answers": ["Classical.choice", "Quot.sound", "propext"], "Adapton.MergeProg.Example81.C81_repeated_name_panics": ["propext"], "Adapton.MergeProg.Example81.C81_repeated_name_panics'": ["propext"], "Adapton.MergeProg.Example81.C81_given_name_in_tree_repeats_elements": ["propext"], "Adapton.Coll.C82_cost_model_sorts": ["Quot.sound", "propext"], "Adapton.Coll.C82_total_comparisons": ["Quot.sound", "propext"], "Adapton.Coll.C82_n_log_n_when_balanced": ["Classical.choice", "Quot.sound", "propext"], "Adapton.Coll.C82_last_element_is_free": ["Quot.sound", "propext"], "Adapton.Coll.C82_first_and_next_elements": ["Classical.choice", "Quot.sound", "propext"], "Adapton.Coll.C82_quadratic_on_unbalanced_trees": ["Quot.sound", "propext"], "Adapton.MemoCount.C83_memo_calls": ["Classical.choice", "Quot.sound", "propext"], "Adapton.MemoCount.C83_fresh_is_number_of_names": ["Classical.choice", "Quot.sound", "propext"], "Adapton.ForceMapCount.C84_force_map": ["Classical.choice", "Quot.sound", "propext"], "Adapton.ForceMapCount.C84_same_projection": ["Quot.sound", "propext"], "Adapton.ListProg.C85_reverse_is_incremental": ["Classical.choice", "Quot.sound", "propext"], "Adapton.ListProg.Example85.C85_bound_attained": ["propext"], "Adapton.ListProg.Example85.C85_fails_without_the_cells": ["propext"], "Adapton.C86_only_what_is_used_is_run": ["Classical.choice", "Quot.sound", "propext"], "Adapton.C86_division_example": ["Classical.choice", "Quot.sound", "propext"], "Adapton.PureEx.C86_purity_hides": ["propext"], "Adapton.ListProg.C87_lazy_stage_is_lazy": ["Classical.choice", "Quot.sound", "propext"], "Adapton.ListProg.C87_rest_costs_nothing": ["Classical.choice", "Quot.sound", "propext"], "Adapton.ListProg.Example87.C87_only_what_is_needed": ["propext"], "Adapton.ListProg.Example87.C87_eager_is_not_lazy": ["propext"], "Adapton.ListProg.Example87.C87_two_stages_not_lazy": ["propext"], "Adapton.C88_editor_actions": ["Classical.choice", "Quot.sound", "propext"], "Adapton.C88_one_meaning": ["Classical.choice", "Quot.sound", "propext"], "Adapton.C88_code_at_top_level": ["Classical.choice", "Quot.sound", "propext"], "Adapton.EditSession.C88_catalog_at_top_level": ["Classical.choice", "Quot.sound", "propext"], "Adapton.ListProg.C88_lists": ["Classical.choice", "Quot.sound", "propext"], "Adapton.FoldProg.C88_folds": ["Classical.choice", "Quot.sound", "propext"], "Adapton.TrieProg.C88_tries": ["Classical.choice", "Quot.sound", "propext"], "Adapton.RecProg.C88_level_trees": ["Classical.choice", "Quot.sound", "propext"], "Adapton.MergeProg.C88_mergesort3": ["Classical.choice", "Quot.sound", "propext"], "Adapton.RecProg.C89_level_trees": ["Classical.choice", "Quot.sound", "propext"], "Adapton.RecProg.C89_fold_monoid": ["Quot.sound", "propext"], "Adapton.RecProg.C89_unnamed_panics": ["propext"], "Adapton.RecProg.Example89.C89_repeated_name_panics": ["propext"], "Adapton.RecProg.C90_edits_are_local": ["Classical.choice", "Quot.sound", "propext"], "Adapton.RecProg.C90_early_cutoff": ["Classical.choice", "Quot.sound", "propext"], "Adapton.RecProg.Example90.C90_bound_attained": ["propext"], "Adapton.C91_amortised_dirtying": ["Classical.choice", "Quot.sound", "propext"], "Adapton.C91_amortised_from_start": ["Classical.choice", "Quot.sound", "propext"], "Adapton.C91_batch_of_sets": ["Classical.choice", "Quot.sound", "propext"], "Adapton.Param.C92_representation_independence": ["Quot.sound", "propext"], "Adapton.Param.C92_same_work": ["Quot.sound", "propext"], "Adapton.Param.C92_hash_function_of_names": ["Quot.sound", "propext"], "Adapton.C93_cost_of_cleaning": ["Classical.choice", "Quot.sound", "propext"], "Adapton.C93_from_start": ["Classical.choice", "Quot.sound", "propext"], "Adapton.C93_nothing_dirty": ["Classical.choice", "Quot.sound", "propext"], "Adapton.C93_change_propagation": ["Classical.choice", "Quot.sound", "propext"], "Adapton.CycleCostEx.C93_needs_meaning": ["propext"], "Adapton.C94_edges_bounded": ["Quot.sound", "propext"], "Adapton.C94_nodes_bounded": ["Classical.choice", "Quot.sound", "propext"], "Adapton.C94_no_stale_records": ["Classical.choice", "Quot.sound", "propext"], "Adapton.C94_space_bounded": ["Classical.choice", "Quot.sound", "propext"], "Adapton.SpaceEx.C94_needs_meaning": ["propext"], "Adapton.C95_cost_of_running": ["Classical.choice", "Quot.sound", "propext"], "Adapton.C95_from_start": ["Classical.choice", "Quot.sound", "propext"], "Adapton.C95_runs_are_paid_for": ["Classical.choice", "Quot.sound", "propext"], "Adapton.C95_nothing_to_run": ["Classical.choice", "Quot.sound", "propext"], "Adapton.EvalEx.C95_needs_meaning": ["propext"], "Adapton.MapProg.C96_maps_and_sets": ["Classical.choice", "Quot.sound", "propext"], "Adapton.MapProg.C96_find": ["Quot.sound", "propext"], "Adapton.MapProg.C96_find_update": ["propext"], "Adapton.MapProg.C96_inter": ["Quot.sound", "propext"], "Adapton.MapProg.C96_unimplemented": ["propext"], "Adapton.MapProg.C97_rerun_iff_read_changed": ["Classical.choice", "Quot.sound", "propext"], "Adapton.MapProg.C97_find_stops_at_first": ["Classical.choice", "Quot.sound", "propext"], "Adapton.MapProg.C98_list_of_vec": ["Classical.choice", "Quot.sound", "propext"], "Adapton.MapProg.C98_repeated_name": ["Quot.sound", "propext"], "Adapton.TrieProg.C99_rerun_iff_on_the_way": ["Classical.choice", "Quot.sound", "propext"], "Adapton.TrieProg.C99_off_the_way_runs_nothing": ["Classical.choice", "Quot.sound", "propext"], "Adapton.TrieProg.C99_agrees": ["Quot.sound", "propext"], "Adapton.ListProg.C100_rerun_iff_before_the_limit": ["Classical.choice", "Quot.sound", "propext"], "Adapton.ListProg.C100_behind_the_limit_runs_nothing": ["Classical.choice", "Quot.sound", "propext"], "Adapton.ListProg.C100_demand_is_answered": ["Quot.sound", "propext"], "Adapton.C101_changed_owner_runs_again": ["Classical.choice", "Quot.sound", "propext"], "Adapton.OwnersEx.C101_two_owners_never_agree": ["propext"], "Adapton.Indep.C102_demands_do_not_interfere": ["Quot.sound", "propext"], "Adapton.Indep.C102_engine": ["Classical.choice", "Quot.sound", "propext"], "Adapton.IndepEx.C102_needs_own_answers": ["propext"], "Adapton.Arith.C103_infix_expressions_are_evaluated": ["Classical.choice", "Quot.sound", "propext"], "Adapton.Arith.C103_postfix_of_infix": ["Quot.sound", "propext"], "Adapton.Arith.C103_evaluate_postfix": ["Quot.sound", "propext"], "Adapton.Arith.C103_postfix_panics_iff": ["Classical.choice", "Quot.sound", "propext"], "Adapton.Arith.C103_not_only_infix": ["Quot.sound", "propext"], "Adapton.Arith.C104_tokens_are_right_iff": ["Classical.choice", "Quot.sound", "propext"], "Adapton.Arith.C104_number_is_right_iff": ["Classical.choice", "Quot.sound", "propext"], "Adapton.Arith.C104_misread_le": ["Quot.sound", "propext"], "Adapton.Arith.C104_tok_of_char": ["Classical.choice", "Quot.sound", "propext"], "Adapton.Arith.C104_strings_are_evaluated": ["Classical.choice", "Quot.sound", "propext"], "Adapton.Arith.C104_single_number": ["Classical.choice", "Quot.sound", "propext"], "Adapton.C105_the_runs_of_a_demand": ["Classical.choice", "Quot.sound", "propext"], "Adapton.C105_exactly_those_with_a_cause": ["Classical.choice", "Quot.sound", "propext"], "Adapton.C105_every_cause_is_sufficient": ["Classical.choice", "Quot.sound", "propext"], "Adapton.C105_cached_results_come_from_runs": ["Classical.choice", "Quot.sound", "propext"], "Adapton.C105_every_result_was_computed": ["Classical.choice", "Quot.sound", "propext"]}