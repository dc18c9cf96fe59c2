#!/usr/bin/env python3
# writes /verif/MANIFEST.json ; entries: property, status, theorems, note
import json,os
C=[]
def c(p,st,th,note): C.append(dict(property=p,status=st,theorems=th,note=note))
c("C01","proved",["Adapton.C01_from_scratch_consistency","Adapton.Means_unique"],"simulation against the cache-free reference semantics Verif/Engine/Spec.lean; all sessions, all depths, nominal and structural naming, both purity settings")
c("C02","proved",["Adapton.C02_terminates_without_panic"],"same simulation: termination and absence of panics")
c("C07","proved",["Adapton.C07_dirtying_terminates"],"all states, all graphs; visits bounded by the clean edges")
c("C08","proved",["Adapton.C08_only_dirty_bits"],"all states, normal return and panic")
c("C14","proved",["Adapton.C14_force_map_prunes"],"all states")
c("C27","proved",["Adapton.C27_scoped","Adapton.C27_session_scoped"],"all programs, states, depths")
c("C28","proved",["Adapton.C28_locations_persist","Adapton.C28_cell_exists","Adapton.C28_thunk_exists"],"all programs, including panicking ones")
c("C29","proved",["Adapton.C29_art_identity","Adapton.C29_structural_identity","Adapton.C29_structural_thunk_identity"],"all states")
c("C31","proved",["Adapton.C31_trace_bracketed","Adapton.C31_no_nesting"],"all programs; recorder modelled in Verif/Trace/Model.lean")
c("C03","proved",["Adapton.C03_clean_reuse"],"all states")
c("C04","proved",["Adapton.C04_set_same","Adapton.C04_cell_same"],"all states")
c("C05","proved",["Adapton.C05_set_then_force","Adapton.C05_cell_then_force","Adapton.C05_until_next_mutation","Adapton.C05_set_then_force_upto","Adapton.C05_cell_then_force_upto"],"all states and intervening programs")
c("C06","proved",["Adapton.C06_edits_are_lazy"],"all states")
c("C23","proved",["Adapton.C23_set_is_editor_only"],"all states")
c("C24","proved",["Adapton.C24_type_errors_detected"],"all states")
c("C25","proved",["Adapton.C25_prog_pt_mismatch"],"all states")
c("C26","proved",["Adapton.C26_memo_match","Adapton.C26_memo_mismatch"],"all states")
c("C48","proved",["Adapton.C48_changes_have_reasons"],"all programs, including panicking ones")
c("C11","proved",["Adapton.C11_early_cutoff"],"all states and dependency trees")
c("C12","proved",["Adapton.C12_deps_of_last_run","Adapton.C12_edit_reaches_dependents_only","Adapton.C12_unread_inputs_do_not_trigger"],"all states, all runs")
c("C13","proved",["Adapton.C13_force_map_is_map"],"all states")
c("C20","proved",["Adapton.C20_unexpected_cycle"],"all states in which the thunk is being evaluated")
c("C21","proved",["Adapton.C21_expected_cycle","Adapton.C21_no_cycle"],"all states")
c("C09","proved",["Adapton.C09_dirty_is_transitive"],"all meaningful sessions, all depths")
c("C10","proved",["Adapton.C10_edge_symmetry"],"all meaningful sessions, all depths")
c("C49","proved",["Adapton.C49_clean_is_current"],"all meaningful sessions, all depths")
c("C15","proved",["Adapton.Dev.C15_map_then_force_is_stale","Adapton.Dev.C15_two_maps_are_stale","Adapton.Dev.C15_force_then_map_is_tracked"],"the expected property is refuted; the statement says what the code does; all values, maps, depths")
c("C16","proved",["Adapton.Dev.C16_structural_caller_is_stale"],"the expected property is refuted for the default setting, for all values")
c("C17","proved",["Adapton.C17_force_abs_never_dirtied","Adapton.Dev.C17_force_abs_is_stale"],"the expected property is refuted, for all states and values")
c("C18","proved",["Adapton.C18_cell_over_thunk_keeps_thunk","Adapton.Dev.C18_cell_over_thunk_is_lost"],"the expected property is refuted, for all states and values")
c("C19","proved",["Adapton.C19_thunk_over_cell_forgets_observers","Adapton.Dev.C19_thunk_over_cell_loses_observers"],"the expected property is refuted, for all states and values")
c("C22","proved",["Adapton.Dev.C22_self_cycle_poisons_edits"],"the expected property is refuted, for all values")
c("C30","proved",["Adapton.C30_panic_leaves_thunk_running","Adapton.C30_poisoned_for_ever"],"the expected property is refuted, for all states and all later programs")
c("C50","proved",["Adapton.Dev.C50_cycle_by_edit_is_silent"],"the expected property is refuted, for all values")
c("C32","proved",["Adapton.C32_use_engine","Adapton.C32_new_engine_flags","Adapton.C32_switch_back","Adapton.C32_no_switch_inside"],"all engines and command sequences")
c("C33","proved",["Adapton.C33_fork","Adapton.C33_fork3","Adapton.C33_fork4","Adapton.C33_fork_tree","Adapton.C33_forko"],"all names, all hash functions")
c("C34","proved",["Adapton.C34_pair","Adapton.C34_leaves"],"all names, all hash functions; usize/isize/String abstracted to Nat/Int/String")
c("C35","proved",["Adapton.C35_counter_names_distinct","Adapton.C35_counter_arts_distinct","Adapton.C35_counter_names_are_usize_names"],"all counts up to 2^64")
A="Adapton.Coll."
c("C36","proved",[A+"vec_list_round_trip",A+"vec_of_list_items",A+"list_demand_zero"],"all vectors and lists; articulations by their contents")
c("C37","proved",[A+"list_map_elems",A+"list_map_lazy_items",A+"list_map_eager_items",A+"list_map_eager2_items",A+"list_filter_elems",A+"list_filter_eager_items",A+"list_reverse_elems",A+"list_reverse_items",A+"list_fold_eq",A+"list_append_elems",A+"list_append_items",A+"list_is_empty_iff",A+"list_pop_push"],"all lists, all functions; articulations by their contents")
c("C38","proved",[A+"list_merge_elems",A+"list_merge_perm",A+"list_merge_ascending"],"all lists, orders and names; articulations by their contents")
c("C39","proved",[A+"mergesort1_sorts",A+"mergesort2_sorts",A+"mergesort3_sorts"],"all trees and total orders; stability included")
c("C40","proved",[A+"tree_of_list_items",A+"list_of_tree_items",A+"list_tree_round_trip",A+"tree_of_list_canonical"],"all lists, all hash functions")
c("C41","proved",[A+"monoid_of_tree_eq",A+"tree_fold_seq_order",A+"filter_tree_leaves",A+"eager_tree_eq",A+"prune_tree_spec",A+"tree_is_empty_iff"],"all trees, monoids and predicates")
c("C42","proved",[A+"list_gen_empty",A+"list_gen_not_generating"],"the expected property is refuted for every length at least one")
c("C43","proved",[A+"filter_list_of_tree_elems",A+"filter_list_of_tree_items",A+"is_name_swapped",A+"filter_list_of_tree_no_name"],"elements: proved; names: the expected property is refuted and the exact result given; all trees and predicates")
c("C44","proved",[A+"map_find_update",A+"map_find_eq",A+"map_find_empty",A+"map_fold_eq",A+"set_is_mem_iff",A+"set_add_iff",A+"set_inter_iff"],"all maps and keys")
c("C51","proved",[A+"filter_tree_drops_names",A+"filter_tree_names_counterexample",A+"filter_tree_noNil"],"the expected property is refuted, for all trees")
B="Adapton.Bits."
c("C45","proved",[B+x for x in "pow_eq flip_toggles is_set_reads prepend_spec prepend_value shift_left_spec shift_left_value max_len_supported pow_negative".split()],"all lengths up to the limit, all i64 values; i64 overflow is a panic of the model")
T="Adapton.TrieM."
c("C46","proved",[T+x for x in "find_iff find_placed mem_placed find_absent split_atomic_leaf split_atomic_other fold_eq is_empty_iff empty_spec empty_depth".split()],"all tries and hash functions; articulations by their contents")
c("C52","proved",[T+"trie_insertion_panics"],"the expected property is refuted, for all arguments")
R="Adapton.Reflect."
c("C47","proved",[R+x for x in "parse_val_terminates parse_val_round_trip parse_val_art name_readers_agree".split()],"all values of any depth, all name hash functions; termination for all byte strings")
c("C53","proved",[R+x for x in "string_reflection string_with_quote_panics quoted_string_splits parse_val_panics_iff structural_art_panics isize_name_panics hash64_conflated user_constructor_taken_for_name big_number_panics".split()],"the expected property is refuted; the statements say what the code does")
c("C54","proved",["Adapton.Trace.C54_trace_count","Adapton.Trace.C54_debug_extent"],"all sessions that end without panic, from any state")
c("C55","proved",["Adapton.C55_structural_cell_immutable","Adapton.C55_hash_collision"],"all histories of programs that return or panic")
c("C56","proved",["Adapton.C56_no_observation_cycle"],"states between editor programs of sessions with a reference meaning")
c("C57","proved",["Adapton.C57_checker_passes","Adapton.C57_checker_sound"],"passes: states between editor programs of sessions with a reference meaning; sound: all states")
c("C58","proved",["Adapton.C58_hash_identifies_name","Adapton.C58_usize_isize_collide"],"all names, all hash functions; that Rust hashes isize and usize alike is a hypothesis of the second theorem")
c("C59","proved",["Adapton.C59_programs_agree","Adapton.C59_naive_set_panics","Adapton.C59_demands_agree"],"programs without set and force_abs; sessions with a reference meaning")
c("C60","proved",["Adapton.UserEq.C60_right_up_to_equality","Adapton.UserEq.C60_equal_edit_is_dropped"],"engine parametric in the equality; via the engine on the quotient type")
c("C61","proved",["Adapton.ArtEq.C61_art_equality","Adapton.ArtEq.C61_naive_thunk_equality","Adapton.ArtEq.C61_thunk_map_maps","Adapton.ArtEq.C61_thunk_maps_all_equal","Adapton.ArtEq.C61_set_to_other_map_is_dropped","Adapton.ArtEq.C61_memo_match_on_other_map","Adapton.ArtEq.C61_force_does_not_respect_equality"],"the property is violated by the code; the theorems prove the violation for all maps and contents, and the part that holds")
c("C62","proved",["Adapton.Coll.C62_merge_names","Adapton.Coll.C62_merge_keeps_names","Adapton.Coll.C62_mergesort_names","Adapton.Coll.C62_mergesort3_names","Adapton.Coll.C62_plain_names","Adapton.Coll.C62_mergesort2_repeats_name","Adapton.Coll.C62_mergesort2_repeats_alloc"],
  "Positive for list_merge, mergesort_list_of_tree and mergesort_list_of_tree3; the last two theorems are the violation by mergesort_list_of_tree2.")
c("C63","proved",["Adapton.SortProg.C63_sort_session","Adapton.SortProg.Example63.meets","Adapton.SortProg.Example63.C63_mergesort2_does_not_sort"],
  "The catalog functions as programs of the engine model, shown to have a from-scratch meaning for every session (no name clash, no cycle), then C01/C02 and the correctness of the sort. The refutation is a concrete run of the engine on mergesort_list_of_tree2.")
c("C64","proved",["Adapton.RDcg.C64_locations","Adapton.RDcg.C64_faithful","Adapton.RDcg.C64_order","Adapton.RDcg.C64_panics_iff","Adapton.RDcg.C64_reflected_invariants","Adapton.RDcg.C64_edge_values_missing","Adapton.RDcg.Example64.C64_hash_names_collide","Adapton.RDcg.Example64.C64_duplicate_edges_differ"],
  "parse_val is a parameter (its own correctness is C47/C53). The last three theorems are the violations.")
c("C65","proved",["Adapton.Dev.C65_mode_is_forgotten"],
  "the expected property is refuted, for all values")
c("C66","proved",["Adapton.C66_each_thunk_at_most_once","Adapton.C66_second_demand_is_free"],
  "The log of runs is a ghost component of the modelled state (appended to where loc_produce calls the producer). The causes are an inductive relation between the states before and after the demand, stated with the table and recorded edges only.")
c("C67","proved",["Adapton.C67_strings_identify","Adapton.C67_different_names_same_string","Adapton.C67_different_locations_same_string"],
  "The first theorem is the positive part; the other two give the violations for all parameters.")
c("C68","proved",["Adapton.SortProg.Pipe.C68_pipeline_session","Adapton.SortProg.Pipe.Example68.C68_repeated_name_panics"],
  "The second theorem is one list, which shows that the hypothesis on names is needed.")
c("C69","proved",["Adapton.C69_runs_only_what_is_needed","Adapton.C69_undemanded_is_not_run","Adapton.C69_division_example","Adapton.C69_division_not_run","Adapton.C69_switching_example"],
  "That a thunk is not needed is said with the reference semantics: the demand has a meaning although forcing that thunk has none.")
c("C70","proved",["Adapton.C70_code_is_ignored","Adapton.C70_memo_point_ignores_its_body","Adapton.C70_let_memo_keeps_the_first_body","Adapton.C70_new_engine_runs_the_body","Adapton.C70_captured_variable_is_stale","Adapton.C70_argument_is_tracked","Adapton.C70_other_function_panics"],
  "the expected property is refuted, for all histories with a meaning; the tracked half is proved for bodies that return at once, and in general by C01")
c("C71","proved",["Adapton.C71_unnamed_panics","Adapton.C71_naive_memo_is_a_call","Adapton.C71_ordinary_call"],
  "the expected property is refuted for the DCG engine and proved for the naive one")
c("C72","proved",["Adapton.Firewall.C72_answers","Adapton.Firewall.C72_edit_does_not_dirty_h","Adapton.Firewall.C72_demand_runs","Adapton.Firewall.C72_without_firewall"],
  "")
c("C73", "proved", ["Adapton.Cyc.C73_first_search", "Adapton.Cyc.C73_all_histories", "Adapton.Cyc.C73_later_demand_is_truncated", "Adapton.Cyc.C73_plain_recursion_diverges", "Adapton.Cyc.C73_documentation"], "The engine is shown to follow a memoised depth-first search on every graph; violated part: a later demand returns the value truncated at the cycle.")
c("C74", "proved", ["Adapton.C74_current_is_not_run", "Adapton.C74_unseen_edits_run_nothing", "Adapton.C74_undone_edits_run_nothing"], "The first theorem holds in every state; the other two for every session with a meaning. Edits of cells allocated inside a thunk are excluded: dirty_alloc flags the allocation edge and its check always reports a change.")
c("C75", "proved", ["Adapton.ListProg.C75_list_session", "Adapton.ListProg.C75_spec_is_model"], "Maps and filters are one program with a body X -> Option X. Element type X -> X only (the input and output types of the source may differ). The hypotheses on names and namespaces are needed: C75_repeated_name_panics, C75_repeated_stage_panics.")
c("C76", "proved", ["Adapton.FoldProg.C76_fold_session", "Adapton.FoldProg.C76_results"], "The functions passed are pure (they return values, allocate nothing), except those that list_of_tree, filter_list_of_tree and filter_tree_of_tree pass. The hypotheses on names and namespaces are needed: C76_repeated_name_panics, C76_repeated_stage_panics, C76_fork_name_loses_leaf (Example76).")
c("C77", "proved", ["Adapton.FoldProg.Prune.C77_prune_is_stale", "Adapton.FoldProg.Prune.C77_prune_stays_stale"], "the expected property is refuted, for all numbers in the leaves; the fix that filter_tree_of_tree has (ns(name_unit(), ...)) makes it true: C76")
c("C78", "proved", ["Adapton.ListProg.C78_edits_are_local", "Adapton.ListProg.Example78.C78_bound_attained"], "stages are list_map_eager and list_filter_eager with distinct names in the list; the work inside the demanded thunk (vec_of_list reads the whole result) is not counted; the thunks of the stages record at most three dependencies each")
c("C79", "proved", ["Adapton.FoldProg.C79_edits_are_local", "Adapton.FoldProg.C79_early_cutoff", "Adapton.FoldProg.Example79.C79_bound_attained"], "the names in the tree are distinct; the functions passed are pure")
c("C80", "proved", ["Adapton.TrieProg.C80_trie_session", "Adapton.TrieProg.C80_answers", "Adapton.TrieProg.C80_trie_fold_of_empty_never_returns", "Adapton.TrieProg.Example80.C80_trie_fold_of_empty_panics", "Adapton.TrieProg.Example80.C80_repeated_name_panics"], "the property as expected fails for trie_fold of Trie::empty in the same namespace; that half is proved as a violation for every state")
c("C81", "proved", ["Adapton.MergeProg.C81_mergesort3_session", "Adapton.MergeProg.C81_answers", "Adapton.MergeProg.Example81.C81_repeated_name_panics", "Adapton.MergeProg.Example81.C81_repeated_name_panics'", "Adapton.MergeProg.Example81.C81_given_name_in_tree_repeats_elements"], "Specification: Unfolds, Demands, answer in Props/MergeEngine.lean; sortedness by SortOf (Props/Sorting.lean), independence of names by Independent (Props/SortNames.lean). The last three show on concrete trees that the condition on names is needed. mergesort_list_of_tree2, which fails even where this condition holds, is in C63.")
c("C82", "proved", ["Adapton.Coll.C82_cost_model_sorts", "Adapton.Coll.C82_total_comparisons", "Adapton.Coll.C82_n_log_n_when_balanced", "Adapton.Coll.C82_last_element_is_free", "Adapton.Coll.C82_first_and_next_elements", "Adapton.Coll.C82_quadratic_on_unbalanced_trees"], "Comparisons of a sort from scratch, each thunk run once, when it is first forced (C66, C69). The documented O(n log n) is refuted for unbalanced trees and proved, with n times height, for all trees. The first-element bound is proved for trees all of whose inner nodes are named: the documentation says that the output is lazy only as far as the tree contains names.")
c("C83","proved",["Adapton.MemoCount.C83_memo_calls","Adapton.MemoCount.C83_fresh_is_number_of_names"],"For all sequences of calls, on the engine itself; the four calls of the documentation are the example beside it.")
c("C84","proved",["Adapton.ForceMapCount.C84_force_map","Adapton.ForceMapCount.C84_same_projection"],"For all histories, on the engine itself. The reading of reeval_nochange (it counts re-evaluations that change the result) is part of the theorem.")
c("C85","proved",["Adapton.ListProg.C85_reverse_is_incremental","Adapton.ListProg.Example85.C85_bound_attained","Adapton.ListProg.Example85.C85_fails_without_the_cells"],"names are distinct and are not the names rev pairs of list_reverse itself (GoodNames), stage names are distinct; the functions passed are pure")
c("C86","proved",["Adapton.C86_only_what_is_used_is_run","Adapton.C86_division_example","Adapton.PureEx.C86_purity_hides"],"For all programs with a meaning (Ref.Means). The exception for the purity optimisation is necessary (C86_purity_hides).")
c("C87","proved",["Adapton.ListProg.C87_lazy_stage_is_lazy","Adapton.ListProg.C87_rest_costs_nothing","Adapton.ListProg.Example87.C87_only_what_is_needed","Adapton.ListProg.Example87.C87_eager_is_not_lazy","Adapton.ListProg.Example87.C87_two_stages_not_lazy"],"names are distinct (GoodNames); the functions passed are pure. Laziness of two lazy stages is refuted by an example.")
c("C88","proved",["Adapton.C88_editor_actions","Adapton.C88_one_meaning","Adapton.C88_code_at_top_level","Adapton.EditSession.C88_catalog_at_top_level","Adapton.ListProg.C88_lists","Adapton.FoldProg.C88_folds","Adapton.TrieProg.C88_tries","Adapton.RecProg.C88_level_trees","Adapton.MergeProg.C88_mergesort3"],"Act (Engine/Act.lean) is a more permissive specification of editor code than that of C01 (Ref.Means.acts: C01's meaning is an instance); StaleEx is a session with an Act meaning and without a C01 meaning. The catalog programs that are right in demanded thunks are right when called by the editor.")
c("C89","proved",["Adapton.RecProg.C89_level_trees","Adapton.RecProg.C89_fold_monoid","Adapton.RecProg.C89_unnamed_panics","Adapton.RecProg.Example89.C89_repeated_name_panics"],"the functions passed are pure, and art does not use the articulation it is passed. Without a name of its own for each binary node the fold panics (shown).")
c("C90","proved",["Adapton.RecProg.C90_edits_are_local","Adapton.RecProg.C90_early_cutoff","Adapton.RecProg.Example90.C90_bound_attained"],"the functions passed are pure; each binary node has a name of its own (otherwise the fold panics, C89)")
c("C91","proved",["Adapton.C91_amortised_dirtying","Adapton.C91_amortised_from_start","Adapton.C91_batch_of_sets"],"Potential argument for every program and every state (clean edges in the table plus edges on the frames of running thunks); the counts are of trace events; the concrete history at the end of Props/Amortised.lean meets the bounds with equality.")
c("C92","proved",["Adapton.Param.C92_representation_independence","Adapton.Param.C92_same_work","Adapton.Param.C92_hash_function_of_names"],"Logical relation between two runs, for every program. The example at the end of Props/Parametric.lean is a session with nominal, forked and structural names, shown to behave the same for every hash function; merged_differs shows that one-to-one is needed. Hashes that identify structural articulations must correspond one-to-one as well: collisions there are visible (C58).")
c("C93","proved",["Adapton.C93_cost_of_cleaning","Adapton.C93_from_start","Adapton.C93_nothing_dirty","Adapton.C93_change_propagation","Adapton.CycleCostEx.C93_needs_meaning"],"The inequality is part of the postcondition of every engine operation in the consistency proof (Post.cost, Engine/State.lean): cleaning is followed edge by edge, through nested cleanings, re-runs and their dirtying. Counts are of trace events and of dirty edges in the table, specified with countP. The example history meets the bound with equality; C93_needs_meaning is a cyclic program that breaks it.")
c("C94","proved",["Adapton.C94_edges_bounded","Adapton.C94_nodes_bounded","Adapton.C94_no_stale_records","Adapton.C94_space_bounded","Adapton.SpaceEx.C94_needs_meaning"],"Demands (Engine/Space.lean) is a syntactic bound on one run of a program. That records and edges agree in number for each pair of locations is part of the graph invariant of the consistency proof (Graph.cnt); the totals follow by double counting. The engine never frees a node (there is no collection), so the number of locations is that of all locations ever used. C94_needs_meaning: a cyclic program that leaves records behind.")
c("C95","proved",["Adapton.C95_cost_of_running","Adapton.C95_from_start","Adapton.C95_runs_are_paid_for","Adapton.C95_nothing_to_run","Adapton.EvalEx.C95_needs_meaning"],"Potential argument (Engine/Earn.lean) for every program, as long as no thunk is run twice within one demand; that this is so in a history with a meaning is part of the consistency proof (RunsOK.nodup). The allocation of a structural thunk is not traced, therefore the structurally named locations in the bound. The example history meets the bounds with equality.")
c("C96","proved",["Adapton.MapProg.C96_maps_and_sets","Adapton.MapProg.C96_find","Adapton.MapProg.C96_find_update","Adapton.MapProg.C96_inter","Adapton.MapProg.C96_unimplemented"],"Model Collections/MapProg.lean; specification Walk, Finds, Hits, Answers in Props/MapEngine.lean. Generic part for all read-only queries: Engine/Query.lean.")
c("C97","proved",["Adapton.MapProg.C97_rerun_iff_read_changed","Adapton.MapProg.C97_find_stops_at_first"],"From the general theorem Adapton.Query.query_twice on thunks that only read cells.")
c("C98","proved",["Adapton.MapProg.C98_list_of_vec","Adapton.MapProg.C98_repeated_name"],"Props/ListOfVec.lean. Divergence: the model's recursion is bounded by a depth, and the result is out-of-fuel at every depth.")
c("C99","proved",["Adapton.TrieProg.C99_rerun_iff_on_the_way","Adapton.TrieProg.C99_off_the_way_runs_nothing","Adapton.TrieProg.C99_agrees"],"Props/TrieLookup.lean. Specification: Down, Top, Elems, Looks, LDemands. trie_fold is not in it (it allocates thunks: C80).")
c("C100","proved",["Adapton.ListProg.C100_rerun_iff_before_the_limit","Adapton.ListProg.C100_behind_the_limit_runs_nothing","Adapton.ListProg.C100_demand_is_answered"],"Props/ListDemand.lean. Specification: Passes, Takes, TakesAll. A limit of 0 is never reached (see C36).")
c("C101","proved",["Adapton.C101_changed_owner_runs_again","Adapton.OwnersEx.C101_two_owners_never_agree"],"Engine/Owed.lean, Props/Owners.lean. Specification: Allocated, Overwrites. The second theorem is for one concrete pair of thunks and any number of demands.")
c("C102","proved",["Adapton.Indep.C102_demands_do_not_interfere","Adapton.Indep.C102_engine","Adapton.IndepEx.C102_needs_own_answers"],"Props/Independence.lean. Specification: NoDemand, Op, Fits, Result, Alone.")
c("C103","proved",["Adapton.Arith.C103_infix_expressions_are_evaluated","Adapton.Arith.C103_postfix_of_infix","Adapton.Arith.C103_evaluate_postfix","Adapton.Arith.C103_postfix_panics_iff","Adapton.Arith.C103_not_only_infix"],"Grammar, value and postfix form are specified at the top of Props/Arith.lean. Content model of lists and trees (C36, C40).")
c("C104","proved",["Adapton.Arith.C104_tokens_are_right_iff","Adapton.Arith.C104_number_is_right_iff","Adapton.Arith.C104_misread_le","Adapton.Arith.C104_tok_of_char","Adapton.Arith.C104_strings_are_evaluated","Adapton.Arith.C104_single_number"],"Violation: the exact condition under which numbers are read correctly. For strings shorter than 2^56 (no overflow).")
c("C105","proved",["Adapton.C105_the_runs_of_a_demand","Adapton.C105_exactly_those_with_a_cause","Adapton.C105_every_cause_is_sufficient","Adapton.C105_cached_results_come_from_runs","Adapton.C105_every_result_was_computed"],"The equivalence is for thunks whose last run has allocated only cells and named thunks: for an allocation of a thunk without a name, nothing can be overwritten, but that its flag is never set is not part of the invariant; sufficiency needs no such restriction.")
C.sort(key=lambda x:int(x['property'][1:]))
json.dump({"claims":C},open(os.path.join(os.path.dirname(__file__),'..','MANIFEST.json'),'w'),indent=1)
