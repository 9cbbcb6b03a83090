# Axioms per theorem

| theorem | axioms |
|---|---|
| `CL.C01_add_edge_faithful_partial` | propext, Quot.sound |
| `CL.C01_circle_tail_violated` | propext |
| `CL.C02_adjacency_symmetric` | propext, Classical.choice, Quot.sound |
| `CL.C03_remove_undoes_add` | propext, Classical.choice, Quot.sound |
| `CL.C04_ancestor_sound_partial` | propext, Classical.choice, Quot.sound |
| `CL.C04_ancestor_sound_general_partial` | propext, Classical.choice, Quot.sound |
| `CL.C04_ancestor_incomplete_violated` | propext |
| `CL.C04_ancestor_stale_violated` | propext |
| `CL.C04_ancestor_exact_sinkward_partial` | propext, Classical.choice, Quot.sound |
| `CL.C05_path_query_exact` | propext, Classical.choice, Quot.sound |
| `CL.C05_cycles_never_reported_violated` | propext, Classical.choice, Quot.sound |
| `CL.C05_three_cycle_violated` | propext, Classical.choice, Quot.sound |
| `CL.C06_edge_list_exact` | propext, Classical.choice, Quot.sound |
| `CL.C07_parent_child_partial` | propext, Classical.choice, Quot.sound |
| `CL.C07_degrees_partial` | propext, Quot.sound |
| `CL.C07_doubled_violated` | propext |
| `CL.C07_degree_violated` | propext |
| `CL.C08_eq_same_sorted_partial` | propext, Classical.choice, Quot.sound |
| `CL.C08_names_ignored_violated` | propext, Quot.sound |
| `CL.C08_comparison_mutates_violated` | propext, Quot.sound |
| `CL.C08_comparison_misaligns_violated` | propext, Quot.sound |
| `CL.C09_causal_order_topological` | propext, Classical.choice, Quot.sound |
| `CL.C09_cyclic_diverges` | propext, Classical.choice, Quot.sound |
| `CL.C10_dconnected_correct_partial` | propext, Classical.choice, Quot.sound |
| `CL.C10_nontermination_violated` | propext, Classical.choice, Quot.sound |
| `CL.Gen.C11_enumerates` | propext, Classical.choice, Quot.sound |
| `CL.Gen.C12_enumerates` | propext, Classical.choice, Quot.sound |
| `CL.Gen.C12_after_end_raises` | propext, Quot.sound |
| `CL.PQ.C13_refines_ideal_queue` | propext, Classical.choice, Quot.sound |
| `CL.PQ.C13_repush_violated` | propext, Classical.choice, Quot.sound |
| `CL.C14_stable_order_independent` | propext, Classical.choice, Quot.sound |
| `CL.C14_eager_is_order_dependent` | propext, Classical.choice, Quot.sound |
| `CL.C15_deletions_justified` | propext, Classical.choice, Quot.sound |
| `CL.C15_remaining_edges_tested` | propext, Classical.choice, Quot.sound |
| `CL.C15_exact_skeleton` | propext, Classical.choice, Quot.sound |
| `CL.C16_stable_banned_not_adjacent` | propext, Classical.choice, Quot.sound |
| `CL.C16_eager_violated` | propext, Classical.choice, Quot.sound |
| `CL.C17_recorded_sets_partial` | propext, Classical.choice, Quot.sound |
| `CL.C17_stable_violated` | propext, Classical.choice, Quot.sound |
| `CL.C17_eager_violated` | propext, Classical.choice, Quot.sound |
| `CL.C18_orient_obeys_knowledge` | propext, Classical.choice, Quot.sound |
| `CL.C19_only_accepted_triples` | propext, Classical.choice, Quot.sound |
| `CL.C19_faithful_exact` | propext, Classical.choice, Quot.sound |
| `CL.C20_meek` | propext, Classical.choice, Quot.sound |
| `CL.C20_definite_meek` | propext, Classical.choice, Quot.sound |
| `CL.C21_pc_correct` | propext, Classical.choice, Quot.sound |
| `CL.C21_directed_edges_invariant` | propext, Classical.choice, Quot.sound |
| `CL.C21_double_ban_violated` | propext, Classical.choice, Quot.sound |
| `CL.BK.C22_is_forbidden` | propext, Classical.choice, Quot.sound |
| `CL.BK.C22_is_required` | propext, Classical.choice, Quot.sound |
| `CL.BK.C22_is_in_which_tier` | propext, Classical.choice, Quot.sound |
| `CL.BK.C22_tiers_never_forbid_both` | propext, Classical.choice, Quot.sound |
| `CL.BK.C22_remove_from_other_tier_violated` | propext |
| `CL.C23_consistent_extension` | propext, Classical.choice, Quot.sound |
| `CL.C23_roundtrip` | propext, Classical.choice, Quot.sound |
| `CL.C24_terminates_iff_extendable` | propext, Classical.choice, Quot.sound |
| `CL.C25_essential_graph` | propext, Classical.choice, Quot.sound |
| `CL.C25_colliders_directed` | propext, Classical.choice, Quot.sound |
| `CL.C26_mec_check_exact` | propext, Classical.choice, Quot.sound |
| `CL.C27_rules_only_refine_circles` | propext, Classical.choice, Quot.sound |
| `CL.C27_every_rule_graph_qualifies` | propext, Classical.choice, Quot.sound |
| `CL.C28_change_removes_circles` | propext, Classical.choice, Quot.sound |
| `CL.C28_each_rule_removes_circles` | propext, Classical.choice, Quot.sound |
| `CL.C28_orientation_loop_terminates` | propext, Classical.choice, Quot.sound |
| `CL.C28_fci_returns` | propext, Classical.choice, Quot.sound |
| `CL.C28_inner_loops_terminate` | propext, Classical.choice, Quot.sound |
| `CL.Fci.C29_search_partial` | propext, Classical.choice, Quot.sound |
| `CL.Fci.C29_every_set_partial` | propext, Classical.choice, Quot.sound |
| `CL.C29_prefix_never_tested_violated` | propext, Classical.choice, Quot.sound |
| `CL.C30_semi_directed_exact` | propext, Classical.choice, Quot.sound |
| `CL.C30_semi_directed_path_exact` | propext, Classical.choice, Quot.sound |
| `CL.Exact.C31_query_best` | propext, Classical.choice, Quot.sound |
| `CL.Exact.C32_dp_optimal` | propext, Classical.choice, Quot.sound |
| `CL.Exact.C33_astar_optimal` | propext, Classical.choice, Quot.sound |
| `CL.Exact.C33_any_admissible_heuristic` | propext, Classical.choice, Quot.sound |
| `CL.Exact.C34_kcycle_admissible_partial` | propext, Classical.choice, Quot.sound |
| `CL.Exact.C34_kcycle_violated` | propext, Classical.choice, Quot.sound |
| `CL.Exact.C34_patterns_exact_partial` | propext, Classical.choice, Quot.sound |
| `CL.Exact.C34_right_argument_partial` | propext, Classical.choice, Quot.sound |
| `CL.Exact.C34_repaired_optimal_partial` | propext, Classical.choice, Quot.sound |
| `CL.Exact.C35_path_extension` | propext, Classical.choice, Quot.sound |
| `CL.Exact.C35_same_score` | propext, Classical.choice, Quot.sound |
| `CL.Ges.C36_path_test` | propext, Classical.choice, Quot.sound |
| `CL.Ges.C36_record_transparent` | propext, Classical.choice, Quot.sound |
| `CL.Ges.C36_ges_terminates` | propext, Classical.choice, Quot.sound |
| `CL.Ges.C36_ges_score` | propext, Classical.choice, Quot.sound |
| `CL.Ges.C36_forward_optimal` | propext, Classical.choice, Quot.sound |
| `CL.Ges.C36_backward_optimal` | propext, Classical.choice, Quot.sound |
| `CL.C37_cache_transparent` | propext, Classical.choice, Quot.sound |
| `CL.C37_cache_exact` | propext, Classical.choice, Quot.sound |
| `CL.C37_same_parents_same_answer` | propext, Classical.choice, Quot.sound |
| `CL.Perm.C38_better_mutation` | propext, Classical.choice, Quot.sound |
| `CL.Perm.C38_boss` | propext, Classical.choice, Quot.sound |
| `CL.Perm.C38_boss_local_optimum` | propext, Classical.choice, Quot.sound |
| `CL.C39_key_iff_same_query` | propext, Classical.choice, Quot.sound |
| `CL.C39_multi_key_iff_same_query` | propext, Classical.choice, Quot.sound |
| `CL.C39_key_not_metadata` | propext, Classical.choice, Quot.sound |
| `CL.C40_own_cache_transparent` | propext, Classical.choice, Quot.sound |
| `CL.C40_mismatch_accepted_violated` | propext, Classical.choice, Quot.sound |
| `CL.C40_wrong_answers_violated` | propext, Classical.choice, Quot.sound |
| `CL.C40_other_data_rejected` | propext, Classical.choice, Quot.sound |
| `CL.C41_counts_each_differing_pair_once` | propext, Classical.choice, Quot.sound |
| `CL.C41_zero_iff_same_edges` | propext, Classical.choice, Quot.sound |
| `CL.C41_symmetric` | propext, Classical.choice, Quot.sound |
| `CL.C41_triangle` | propext, Classical.choice, Quot.sound |
| `CL.C42_adjacency_counts_sum` | propext, Quot.sound |
| `CL.C42_adjacency_counts_exact` | propext, Classical.choice, Quot.sound |
| `CL.C42_arrow_counts_exact` | propext, Classical.choice, Quot.sound |
| `CL.C42_arrow_ce_counts_exact` | propext, Classical.choice, Quot.sound |
| `CL.Lingam.C43_direct_lingam` | propext, Classical.choice, Quot.sound |
| `CL.Lingam.C43_returns_without_prior` | propext, Classical.choice, Quot.sound |
| `CL.Lingam.C44_first_fit_obeys_prior_partial` | propext, Classical.choice, Quot.sound |
| `CL.Lingam.C44_returns_if_consistent` | propext, Classical.choice, Quot.sound |
| `CL.Lingam.C44_orders_consumed_violated` | propext, Classical.choice, Quot.sound |
| `CL.Lingam.C44_second_fit_violated` | propext, Quot.sound |
| `CL.Lingam.C44_symmetric_no_path_violated` | propext, Quot.sound |
| `CL.Lingam.C44_second_fit_data_violated` | propext, Classical.choice, Quot.sound |
| `CL.Lingam.C45_find_all_paths_exact` | propext, Classical.choice, Quot.sound |
| `CL.Lingam.C45_same_endpoints_raise` | propext, Quot.sound |
| `CL.Lingam.C46_order_sound` | propext, Classical.choice, Quot.sound |
| `CL.Lingam.C46_order_complete` | propext, Classical.choice, Quot.sound |
| `CL.Lingam.C46_estimate_total` | propext, Classical.choice, Quot.sound |
| `CL.Lingam.C46_single_variable_none` | none |
| `CL.Lingam.C47_direction_counts` | propext, Classical.choice, Quot.sound |
| `CL.Lingam.C47_probability_counts` | propext, Quot.sound |
| `CL.GIN.C48_merge_is_finest_partition` | propext, Classical.choice, Quot.sound |
| `CL.C49_iamb` | propext, Classical.choice, Quot.sound |
| `CL.C49_oracle_exact` | propext, Classical.choice, Quot.sound |
| `CL.C49_and_rule_violated` | propext, Classical.choice, Quot.sound |
| `CL.C49_network_oracle` | propext, Classical.choice, Quot.sound |
| `CL.Txt.C50_roundtrip_partial` | propext, Classical.choice, Quot.sound |
| `CL.Txt.C50_histories_partial` | propext, Classical.choice, Quot.sound |
| `CL.Txt.C50_circle_tail_violated` | propext, Classical.choice, Quot.sound |
| `CL.Txt.C50_empty_violated` | propext, Classical.choice, Quot.sound |
| `CL.C51_deletions_justified` | propext, Classical.choice, Quot.sound |
| `CL.C51_remaining_edges_tested` | propext, Classical.choice, Quot.sound |
| `CL.C51_exact_skeleton` | propext, Classical.choice, Quot.sound |
| `CL.C51_table_both_orders` | propext, Classical.choice, Quot.sound |
| `CL.C51_eager_entry_separates` | propext, Classical.choice, Quot.sound |
| `CL.C51_stable_entry_partial` | propext, Classical.choice, Quot.sound |
| `CL.C51_same_graph_as_pc` | propext, Classical.choice, Quot.sound |
| `CL.C51_stable_violated` | propext, Classical.choice, Quot.sound |
| `CL.C52_index_is_a_source_partial` | propext, Classical.choice, Quot.sound |
| `CL.C52_cdnod_correct` | propext, Classical.choice, Quot.sound |
| `CL.C52_overwrite_violated` | propext, Classical.choice, Quot.sound |
| `CL.C52_bidirected_violated` | propext, Classical.choice, Quot.sound |
| `CL.C52_mvcdnod_violated` | propext, Classical.choice, Quot.sound |
| `CL.C53_remove_nodes_exact` | propext, Classical.choice, Quot.sound |
| `CL.C53_subgraph_partial` | propext, Quot.sound |
| `CL.C53_subgraph_violated` | propext |
| `CL.Lingam.C54_make_prior_knowledge` | propext, Quot.sound |
| `CL.C55_neighbours_and_sound_partial` | propext, Classical.choice, Quot.sound |
| `CL.C55_misses_members_violated` | propext, Classical.choice, Quot.sound |
| `CL.C55_kept_for_a_reason` | propext, Classical.choice, Quot.sound |
| `CL.C55_two_steps_partial` | propext, Classical.choice, Quot.sound |
| `CL.C56_setters_partial` | propext, Classical.choice, Quot.sound |
| `CL.C56_set_endpoint2_violated` | propext |
| `CL.C57_degree_handshake` | propext, Classical.choice, Quot.sound |
| `CL.C58_contains_edge_partial` | propext, Classical.choice, Quot.sound |
| `CL.C58_circle_tail_violated` | propext |
| `CL.C58_collider` | propext, Classical.choice, Quot.sound |
| `CL.C58_nodes_into_out_of` | propext, Classical.choice, Quot.sound |
| `CL.C59_def_noncollider_computes` | propext, Classical.choice, Quot.sound |
| `CL.C59_sound_partial` | propext, Classical.choice, Quot.sound |
| `CL.C59_violated` | propext |
| `CL.Perm.C60_tuck` | propext, Classical.choice, Quot.sound |
| `CL.Perm.C60_grasp_dag` | propext, Classical.choice, Quot.sound |
| `CL.Perm.C60_grasp_score_partial` | propext, Classical.choice, Quot.sound |
| `CL.Perm.C60_grasp_shallow` | propext, Classical.choice, Quot.sound |
| `CL.Perm.C60_grasp_terminates` | propext, Classical.choice, Quot.sound |
| `CL.Perm.C60_round_no_gain_violated` | propext, Classical.choice, Quot.sound |
| `CL.Perm.C61_trace_history` | propext, Classical.choice, Quot.sound |
| `CL.Perm.C61_trace_result` | propext, Classical.choice, Quot.sound |
| `CL.Perm.C62_least_first_violated` | propext, Classical.choice, Quot.sound |
| `CL.Perm.C62_least_first_partial` | propext, Classical.choice, Quot.sound |
| `CL.Ges.C63_last_step_partial` | propext, Classical.choice, Quot.sound |
| `CL.Ges.C63_steps_overwritten_violated` | propext, Classical.choice, Quot.sound |
| `CL.C64_pc_essential_graph` | propext, Classical.choice, Quot.sound |
| `CL.C64_with_knowledge` | propext, Classical.choice, Quot.sound |
| `CL.C65_rule4_missing_violated` | propext, Classical.choice, Quot.sound |
| `CL.C66_result_is_fixpoint_partial` | propext, Classical.choice, Quot.sound |
| `CL.C66_closed_under_R1` | propext, Classical.choice, Quot.sound |
| `CL.C66_closed_under_R2` | propext, Classical.choice, Quot.sound |
| `CL.C66_closed_under_R6` | propext, Classical.choice, Quot.sound |
| `CL.C66_closed_under_R7` | propext, Classical.choice, Quot.sound |
| `CL.C66_closed_under_R8_partial` | propext, Classical.choice, Quot.sound |
| `CL.C66_R8_violated` | propext, Classical.choice, Quot.sound |
| `CL.C66_R4_violated` | propext, Classical.choice, Quot.sound |
| `CL.C66_closed_under_R9` | propext, Classical.choice, Quot.sound |
| `CL.C67_R4_revises_own_mark` | propext, Classical.choice, Quot.sound |
| `CL.C67_R4_only_refines_circles` | propext, Classical.choice, Quot.sound |
| `CL.C67_loop_only_refines_circles` | propext, Classical.choice, Quot.sound |
| `CL.C68_rule0_exact_partial` | propext, Classical.choice, Quot.sound |
| `CL.C68_one_order_violated` | propext, Classical.choice, Quot.sound |
| `CL.C69_inseparable_adjacent` | propext, Classical.choice, Quot.sound |
| `CL.C69_marks_true_partial` | propext, Classical.choice, Quot.sound |
| `CL.C69_dag_partial` | propext, Classical.choice, Quot.sound |
| `CL.C69_r9_violated` | propext, Classical.choice, Quot.sound |
| `CL.C69_r5_violated` | propext, Classical.choice, Quot.sound |
| `CL.C70_returns` | propext, Classical.choice, Quot.sound |
| `CL.C70_adjacent_iff` | propext, Classical.choice, Quot.sound |
| `CL.C70_marks_true_partial` | propext, Classical.choice, Quot.sound |
| `CL.C70_r4_table_violated` | propext, Classical.choice, Quot.sound |
| `CL.C70_r4_selection_violated` | propext, Classical.choice, Quot.sound |
| `CL.C70_r3_violated` | propext, Classical.choice, Quot.sound |
| `CL.C71_knowledge_respected` | propext, Classical.choice, Quot.sound |
| `CL.C71_required_edge_violated` | propext, Classical.choice, Quot.sound |
| `CL.C72_R9_exact` | propext, Classical.choice, Quot.sound |
| `CL.C72_R10_sound` | propext, Classical.choice, Quot.sound |
| `CL.C72_R10_set_order_violated` | propext, Classical.choice, Quot.sound |
| `CL.C72_R10_direct_violated` | propext, Classical.choice, Quot.sound |
| `CL.Chi.C73_textbook_p_value` | propext, Classical.choice, Quot.sound |
| `CL.Chi.C73_symmetric` | propext, Classical.choice, Quot.sound |
| `CL.Chi.C73_sample_order` | propext, Classical.choice, Quot.sound |
| `CL.Chi.C73_category_names` | propext, Classical.choice, Quot.sound |
| `CL.Chi.C73_conditioning_set` | propext, Classical.choice, Quot.sound |
| `CL.Chi.C73_example` | propext, Classical.choice, Quot.sound |
| `CL.Chi.C73_overflow_violated` | propext, Classical.choice, Quot.sound |
| `CL.Score.C74_bic_score_equivalent` | propext, Classical.choice, Quot.sound |
| `CL.Score.C74_bic_parent_order` | propext, Classical.choice, Quot.sound |
| `CL.Score.C74_bdeu_formula` | propext, Classical.choice, Quot.sound |
| `CL.Score.C74_bdeu_score_equivalent` | propext, Classical.choice, Quot.sound |
| `CL.Score.C74_bdeu_parent_order` | propext, Classical.choice, Quot.sound |
| `CL.Score.C74_bdeu_default_states` | propext, Classical.choice, Quot.sound |
| `CL.Score.C74_bic_score_equivalent_real` | propext, Classical.choice, Quot.sound |
| `CL.Score.C74_bic_least_squares` | propext, Classical.choice, Quot.sound |
| `CL.Score.C74_ges_bic_score` | propext, Classical.choice, Quot.sound |
| `CL.Score.C74_example` | propext, Classical.choice, Quot.sound |
| `CL.Calm.C75_acyclic_partial` | propext, Classical.choice, Quot.sound |
| `CL.Calm.C75_seven_variables_partial` | propext, Classical.choice, Quot.sound |
| `CL.Calm.C75_stop_rule` | propext, Classical.choice, Quot.sound |
| `CL.Calm.C75_tolerance_violated` | propext, Classical.choice, Quot.sound |
| `CL.Calm.C75_unconverged_violated` | propext, Classical.choice, Quot.sound |
| `CL.FisherZ.C76_fisherz` | propext, Classical.choice, Quot.sound |
| `CL.FisherZ.C76_symmetric` | propext, Classical.choice, Quot.sound |
| `CL.FisherZ.C76_same_column` | propext, Classical.choice, Quot.sound |
| `CL.FisherZ.C76_range` | propext, Classical.choice, Quot.sound |
| `CL.FisherZ.C76_order` | propext, Classical.choice, Quot.sound |
| `CL.FisherZ.C76_one_iff` | propext, Classical.choice, Quot.sound |
| `CL.FisherZ.C76_no_power` | propext, Classical.choice, Quot.sound |
| `CL.FisherZ.C76_units` | propext, Classical.choice, Quot.sound |
| `CL.FisherZ.C76_testwise_deletion` | propext, Classical.choice, Quot.sound |
| `CL.FisherZ.C76_no_missing` | propext, Classical.choice, Quot.sound |
| `CL.FisherZ.C76_example` | propext, Classical.choice, Quot.sound |
| `CL.FisherZ.C77_dsep_pvalue` | propext, Classical.choice, Quot.sound |
| `CL.FisherZ.C77_pc_fisherz` | propext, Classical.choice, Quot.sound |
| `CL.FisherZ.C77_pc_faithful` | propext, Classical.choice, Quot.sound |
| `CL.FisherZ.C77_example` | propext, Classical.choice, Quot.sound |
| `CL.C78_mec_check_dsep` | propext, Classical.choice, Quot.sound |
| `CL.C78_roundtrip_dsep` | propext, Classical.choice, Quot.sound |
| `CL.C78_cpdag_arrow` | propext, Classical.choice, Quot.sound |
| `CL.C78_pc_arrow` | propext, Classical.choice, Quot.sound |
| `CL.C78_ges_class` | propext, Classical.choice, Quot.sound |
| `CL.Ges.C79_ges_consistent` | propext, Classical.choice, Quot.sound |
| `CL.Exact.C79_dp_consistent` | propext, Classical.choice, Quot.sound |
| `CL.Exact.C79_astar_consistent` | propext, Classical.choice, Quot.sound |
| `CL.Score.C80_bic_residual` | propext, Classical.choice, Quot.sound |
| `CL.Score.C80_bic_change` | propext, Classical.choice, Quot.sound |
| `CL.Score.C80_bic_locally_consistent` | propext, Classical.choice, Quot.sound |
| `CL.Score.C80_ges_bic` | propext, Classical.choice, Quot.sound |
| `CL.Score.C80_repeat_strong` | propext, Classical.choice, Quot.sound |
| `CL.Score.C80_ges_bic_faithful` | propext, Classical.choice, Quot.sound |
| `CL.Score.C80_dp_bic` | propext, Classical.choice, Quot.sound |
| `CL.Perm.C81_trace` | propext, Classical.choice, Quot.sound |
| `CL.Perm.C81_boss` | propext, Classical.choice, Quot.sound |
| `CL.Perm.C81_grasp` | propext, Classical.choice, Quot.sound |
| `CL.Perm.C81_causal_order` | propext, Classical.choice, Quot.sound |
| `CL.Perm.C81_best_order` | propext, Classical.choice, Quot.sound |
| `CL.Perm.C81_boss_bic` | propext, Classical.choice, Quot.sound |
| `CL.Perm.C82_boss_causal_partial` | propext, Classical.choice, Quot.sound |
| `CL.Perm.C82_boss_local_optimum_violated` | propext, Classical.choice, Quot.sound |
| `CL.Rcd.C83_fit` | propext, Classical.choice, Quot.sound |
| `CL.Rcd.C84_acyclic_violated` | propext, Classical.choice, Quot.sound |
| `CL.Rcd.C84_acyclic_partial` | propext, Classical.choice, Quot.sound |
| `CL.Rcd.C85_history_violated` | propext, Classical.choice, Quot.sound |
| `CL.Rcd.C85_history_partial` | propext, Classical.choice, Quot.sound |
| `CL.Camuv.C86_execute` | propext, Classical.choice, Quot.sound |
| `CL.Camuv.C87_acyclic_violated` | propext, Classical.choice, Quot.sound |
| `CL.Camuv.C87_acyclic_partial` | propext, Classical.choice, Quot.sound |
| `CL.Camuv.C88_exhaustive` | propext, Classical.choice, Quot.sound |
| `CL.Parce.C89_fit` | propext, Classical.choice, Quot.sound |
| `CL.Parce.C90_best_partial` | propext, Classical.choice, Quot.sound |
| `CL.Parce.C90_two_violated` | propext, Quot.sound |
| `CL.Parce.C90_prior_violated` | propext, Quot.sound |
| `CL.Parce.C91_first_fit_partial` | propext, Classical.choice, Quot.sound |
| `CL.Parce.C91_second_fit_violated` | propext, Quot.sound |
| `CL.Parce.C91_nan_violated` | propext, Quot.sound |
| `CL.Parce.C91_symmetric_violated` | propext, Quot.sound |
| `CL.Pattern.C92_dag2pattern` | propext, Classical.choice, Quot.sound |
| `CL.Mvpc.C93_detect_any_test` | propext, Classical.choice, Quot.sound |
| `CL.Mvpc.C93_detect_parents` | propext, Classical.choice, Quot.sound |
| `CL.Mvpc.C94_correction_variables` | propext, Classical.choice, Quot.sound |
| `CL.Mvpc.C95_mvpc_partial` | propext, Classical.choice, Quot.sound |
| `CL.Mvpc.C95_with_knowledge_partial` | propext, Classical.choice, Quot.sound |
| `CL.Mvpc.C95_unstable_violated` | propext, Classical.choice, Quot.sound |
| `CL.Effect.C96_causal_order` | propext, Classical.choice, Quot.sound |
| `CL.Effect.C96_within_tolerance` | propext, Classical.choice, Quot.sound |
| `CL.Effect.C97_propagated_effects` | propext, Classical.choice, Quot.sound |
| `CL.Effect.C97_effects_on_prediction` | propext, Classical.choice, Quot.sound |
| `CL.Effect.C97_linear_prediction` | propext, Classical.choice, Quot.sound |
| `CL.Effect.C98_optimal_intervention_partial` | propext, Classical.choice, Quot.sound |
| `CL.Effect.C98_never_stuck` | propext, Classical.choice, Quot.sound |
| `CL.Effect.C98_cancelling_row_violated` | propext, Classical.choice, Quot.sound |
| `CL.TS.C99_structural_equation` | propext, Classical.choice, Quot.sound |
| `CL.TS.C100_varma_partial` | propext, Classical.choice, Quot.sound |
| `CL.TS.C100_omega_violated` | propext, Classical.choice, Quot.sound |
| `CL.TS.C101_refit_partial` | propext, Classical.choice, Quot.sound |
| `CL.TS.C101_coefficients_kept_violated` | propext, Classical.choice, Quot.sound |
| `CL.TS.C101_refit_violated` | propext, Classical.choice, Quot.sound |
| `CL.TS.C102_total_effects_partial` | propext, Classical.choice, Quot.sound |
| `CL.TS.C102_lags_violated` | propext, Classical.choice, Quot.sound |
| `CL.TS.C103_lagged_regressors_partial` | propext, Classical.choice, Quot.sound |
| `CL.TS.C103_future_violated` | propext, Quot.sound |
| `CL.TS.C104_longitudinal_partial` | propext, Classical.choice, Quot.sound |
| `CL.TS.C104_nan_violated` | propext, Classical.choice, Quot.sound |
| `CL.DagC.C105_edge_queries_exact` | propext, Classical.choice, Quot.sound |
| `CL.DagC.C105_triples` | propext, Classical.choice, Quot.sound |
| `CL.DagC.C106_get_ancestors_exact` | propext, Classical.choice, Quot.sound |
| `CL.DagC.C106_get_ancestors_history` | propext, Classical.choice, Quot.sound |
| `CL.DagC.C106_is_ancestor_of_partial` | propext, Classical.choice, Quot.sound |
| `CL.DagC.C106_is_ancestor_of_violated` | propext, Classical.choice, Quot.sound |
| `CL.DagC.C107_causal_ordering_partial` | propext, Classical.choice, Quot.sound |
| `CL.DagC.C107_cycle_violated` | propext, Classical.choice, Quot.sound |
| `CL.DagC.C107_three_cycle_violated` | propext, Classical.choice, Quot.sound |
| `CL.DagC.C108_remove_node_violated` | propext, Classical.choice, Quot.sound |
| `CL.DagC.C108_remove_node_partial` | propext, Classical.choice, Quot.sound |
| `CL.DagC.C108_subgraph_partial` | propext, Classical.choice, Quot.sound |
| `CL.DagC.C108_subgraph_violated` | propext, Classical.choice, Quot.sound |
| `CL.DagC.C109_dag2pag_violated` | propext, Classical.choice, Quot.sound |
| `CL.GIN.C110_gin_output` | propext, Classical.choice, Quot.sound |
| `CL.GIN.C110_gin_graph` | propext, Classical.choice, Quot.sound |
| `CL.GIN.C111_order_partial` | propext, Classical.choice, Quot.sound |
| `CL.GIN.C111_right_columns_partial` | none |
| `CL.GIN.C111_tested_sets_partial` | propext, Quot.sound |
| `CL.GIN.C111_last_two_columns_ignored_violated` | propext, Classical.choice, Quot.sound |
| `CL.GIN.C111_wrong_cluster_violated` | propext, Classical.choice, Quot.sound |
| `CL.GIN.C112_gin_mi` | propext, Classical.choice, Quot.sound |
| `CL.C113_labels` | propext, Classical.choice, Quot.sound |
| `CL.C114_definitely_direct` | propext, Classical.choice, Quot.sound |
| `CL.C114_direct_cause` | propext, Classical.choice, Quot.sound |
| `CL.C115_no_latent_partial` | propext, Classical.choice, Quot.sound |
| `CL.C115_parent_violated` | propext, Classical.choice, Quot.sound |
| `CL.C115_path_violated` | propext, Classical.choice, Quot.sound |
| `CL.Kci.C116_kernel_psd` | propext, Classical.choice, Quot.sound |
| `CL.Kci.C116_gauss_strict` | propext, Classical.choice, Quot.sound |
| `CL.Kci.C116_case` | propext, Classical.choice, Quot.sound |
| `CL.Kci.C117_center` | propext, Classical.choice, Quot.sound |
| `CL.Kci.C117_gram_center` | propext, Classical.choice, Quot.sound |
| `CL.Kci.C117_rbf` | propext, Classical.choice, Quot.sound |
| `CL.Kci.C117_hsic_agree` | propext, Classical.choice, Quot.sound |
| `CL.Kci.C117_hsic_stat` | propext, Classical.choice, Quot.sound |
| `CL.Kci.C118_nonneg` | propext, Classical.choice, Quot.sound |
| `CL.Kci.C118_symmetric` | propext, Classical.choice, Quot.sound |
| `CL.Kci.C118_reorder` | propext, Classical.choice, Quot.sound |
| `CL.Kci.C118_affine_partial` | propext, Classical.choice, Quot.sound |
| `CL.Kci.C118_median_scale_violated` | propext, Classical.choice, Quot.sound |
| `CL.Kci.C119_linear` | propext, Classical.choice, Quot.sound |
| `CL.Kci.C119_linear_zero` | propext, Classical.choice, Quot.sound |
| `CL.Kci.C119_case` | propext, Classical.choice, Quot.sound |
| `CL.Kci.C120_pvalue_partial` | propext, Classical.choice, Quot.sound |
| `CL.Kci.C120_constant_violated` | propext, Classical.choice, Quot.sound |
| `CL.Kci.C120_moments` | propext, Classical.choice, Quot.sound |
| `CL.Kci.C120_moments_case` | propext, Classical.choice, Quot.sound |
| `CL.Kci.C120_simulated` | propext, Classical.choice, Quot.sound |
| `CL.Kci.C121_matrices` | propext, Classical.choice, Quot.sound |
| `CL.Kci.C121_nonneg` | propext, Classical.choice, Quot.sound |
| `CL.Kci.C121_affine` | propext, Classical.choice, Quot.sound |
| `CL.Kci.C121_moments` | propext, Classical.choice, Quot.sound |
| `CL.Kci.C121_scaled` | propext, Classical.choice, Quot.sound |
| `CL.Kci.C121_pvalue_partial` | propext, Classical.choice, Quot.sound |
| `CL.Kci.C121_constant_violated` | propext, Classical.choice, Quot.sound |
| `CL.Kci.C122_symmetric_violated` | propext, Classical.choice, Quot.sound |
| `CL.Kci.C122_symmetric_partial` | propext, Classical.choice, Quot.sound |
| `CL.Kci.C122_kwargs_partial` | propext, Quot.sound |
| `CL.Kci.C122_null_ss_violated` | propext |
| `CL.Lingam.C123_pwling_units` | propext, Classical.choice, Quot.sound |
| `CL.Lingam.C123_kernel_units` | propext, Classical.choice, Quot.sound |
| `CL.Lingam.C124_residual_cov_partial` | propext, Classical.choice, Quot.sound |
| `CL.Lingam.C124_residual_correlated_violated` | propext, Classical.choice, Quot.sound |
| `CL.Lingam.C124_residual_self_violated` | propext, Classical.choice, Quot.sound |
| `CL.Lingam.C125_antisymmetric` | propext, Classical.choice, Quot.sound |
| `CL.Lingam.C125_chosen_minimises` | propext, Classical.choice, Quot.sound |
| `CL.Lingam.C125_dominant_chosen` | propext, Classical.choice, Quot.sound |
| `CL.Lingam.C125_two_variables` | propext, Classical.choice, Quot.sound |
| `CL.Lingam.C125_relabel` | propext, Classical.choice, Quot.sound |
| `CL.Lingam.C126_kernel_nonneg` | propext, Classical.choice, Quot.sound |
| `CL.Lingam.C126_kernel_symmetric` | propext, Classical.choice, Quot.sound |
| `CL.Lingam.C126_kernel_log_det` | propext, Classical.choice, Quot.sound |
| `CL.Lingam.C126_kernel_shift` | propext, Classical.choice, Quot.sound |
| `CL.Lingam.C127_group_order` | propext, Classical.choice, Quot.sound |
| `CL.Lingam.C127_replicate` | propext, Classical.choice, Quot.sound |
| `CL.Lingam.C127_group_units` | propext, Classical.choice, Quot.sound |
| `CL.Lingam.C127_chosen_minimises` | propext, Classical.choice, Quot.sound |
| `CL.Lingam.C127_common_order` | propext, Classical.choice, Quot.sound |
| `CL.Lingam.C127_first_fit_prior_partial` | propext, Classical.choice, Quot.sound |
| `CL.Lingam.C127_second_fit_violated` | propext, Classical.choice, Quot.sound |
| `CL.Granger.C128_off_diagonal_partial` | propext, Classical.choice, Quot.sound |
| `CL.Granger.C128_rounding_violated` | propext, Classical.choice, Quot.sound |
| `CL.Granger.C128_diagonal_violated` | propext, Classical.choice, Quot.sound |
| `CL.Granger.C128_two_dimensional` | propext, Classical.choice, Quot.sound |
| `CL.Granger.C129_design` | propext, Classical.choice, Quot.sound |
| `CL.Granger.C129_coefficients` | propext, Classical.choice, Quot.sound |
| `CL.Granger.C129_no_lag` | none |
| `CL.C130_sepset_none_iff` | propext, Classical.choice, Quot.sound |
| `CL.C130_sepset_sound` | propext, Classical.choice, Quot.sound |
| `CL.C131_latent_violated` | propext, Classical.choice, Quot.sound |
| `CL.C131_type_ignored_violated` | propext, Classical.choice, Quot.sound |
| `CL.Lingam.C132_terminates` | propext, Quot.sound |
| `CL.Lingam.C132_cycle_raises` | propext, Quot.sound |
| `CL.Lingam.C132_cycle_through_source_violated` | propext, Quot.sound |
| `CL.Lingam.C132_longer_cycle_violated` | propext, Quot.sound |
| `CL.C133_triangles_exact` | propext, Classical.choice, Quot.sound |
| `CL.C133_kites_exact` | propext, Classical.choice, Quot.sound |
| `CL.C133_causal_graph_exact` | propext, Classical.choice, Quot.sound |
| `CL.C133_dag_triples_violated` | propext, Classical.choice, Quot.sound |
| `CL.C134_sdh_raises_iff` | propext, Classical.choice, Quot.sound |
| `CL.C134_sdh_value` | propext, Classical.choice, Quot.sound |
| `CL.C134_symmetric_partial` | propext, Classical.choice, Quot.sound |
| `CL.C134_common_gap_raises_violated` | propext, Classical.choice, Quot.sound |
| `CL.C134_reversal_violated` | propext, Classical.choice, Quot.sound |
| `CL.C134_first_node_violated` | propext, Quot.sound |
| `CL.C134_self_violated` | propext |
| `CL.C135_adjacency_fractions` | propext, Classical.choice, Quot.sound |
| `CL.C135_arrow_fractions` | propext, Classical.choice, Quot.sound |
| `CL.C135_common_edge_fractions` | propext, Classical.choice, Quot.sound |
| `CL.Lingam.C136_dag_counts` | propext, Classical.choice, Quot.sound |
| `CL.Lingam.C136_checks` | propext, Classical.choice, Quot.sound |
| `CL.Lingam.C137_total_effects_partial` | propext, Classical.choice, Quot.sound |
| `CL.Lingam.C137_median_violated` | propext, Classical.choice, Quot.sound |
| `CL.Lingam.C138_paths_partial` | propext, Classical.choice, Quot.sound |
| `CL.Lingam.C138_min_effect_violated` | propext, Classical.choice, Quot.sound |
| `CL.Lingam.C139_identifies` | propext, Classical.choice, Quot.sound |
| `CL.Lingam.C139_paths_add_up` | propext, Classical.choice, Quot.sound |
| `CL.Lingam.C139_bootstrap_matrix` | propext, Classical.choice, Quot.sound |
| `CL.Lingam.C140_error_p_values` | propext, Classical.choice, Quot.sound |
| `CL.TsP.C141_var_pruning_partial` | propext, Classical.choice, Quot.sound |
| `CL.TsP.C141_dropped_lags_violated` | propext, Classical.choice, Quot.sound |
| `CL.TsP.C141_more_lags_violated` | propext, Classical.choice, Quot.sound |
| `CL.TsP.C142_varma_pruning_partial` | propext, Classical.choice, Quot.sound |
| `CL.TsP.C142_given_coefs_violated` | propext, Quot.sound |
| `CL.TsP.C142_wrapped_past_violated` | propext, Quot.sound |
| `CL.TsP.C143_total_effect_regressors_partial` | propext, Classical.choice, Quot.sound |
| `CL.TsP.C143_varma_lag_violated` | propext, Classical.choice, Quot.sound |
| `CL.LB.C144_total_effects` | propext, Classical.choice, Quot.sound |
| `CL.LB.C144_direction_counts` | propext, Classical.choice, Quot.sound |
| `CL.LB.C144_probabilities` | propext, Quot.sound |
| `CL.TsP.C145_criterion` | propext, Classical.choice, Quot.sound |
| `CL.Nx.C146_nx_graph_partial` | propext, Classical.choice, Quot.sound |
| `CL.Nx.C146_nx_skeleton` | propext, Classical.choice, Quot.sound |
| `CL.Nx.C146_matrix_diff_partial` | propext, Classical.choice, Quot.sound |
| `CL.Nx.C146_bidirected_violated` | propext |
| `CL.Nx.C146_stale_violated` | propext |
| `CL.Tetrad.C147_roundtrip_partial` | propext, Classical.choice, Quot.sound |
| `CL.Tetrad.C147_one_variable_violated` | propext, Classical.choice, Quot.sound |
| `CL.Tetrad.C148_read_edges` | propext, Classical.choice, Quot.sound |
| `CL.Tetrad.C149_rearrange` | propext, Classical.choice, Quot.sound |
| `CL.Lingam.C150_soft_pwling` | propext, Classical.choice, Quot.sound |
| `CL.Lingam.C150_kernel_ignores_violated` | propext, Classical.choice, Quot.sound |
| `CL.CvScore.C151_fold` | propext, Classical.choice, Quot.sound |
| `CL.CvScore.C151_each_once` | propext, Classical.choice, Quot.sound |
| `CL.CvScore.C151_sizes` | propext, Classical.choice, Quot.sound |
| `CL.CvScore.C152_centred` | propext, Classical.choice, Quot.sound |
| `CL.CvScore.C152_not_centred_violated` | propext, Classical.choice, Quot.sound |
| `CL.CvScore.C152_parents_not_centred_violated` | propext, Classical.choice, Quot.sound |
| `CL.CvScore.C153_defined` | propext, Classical.choice, Quot.sound |
| `CL.CvScore.C153_constant_violated` | propext, Classical.choice, Quot.sound |
| `CL.CvScore.C153_few_samples_violated` | propext, Classical.choice, Quot.sound |
| `CL.CvScore.C154_units` | propext, Classical.choice, Quot.sound |
| `CL.CvScore.C154_parent_order` | propext, Classical.choice, Quot.sound |
| `CL.CvScore.C155_multi_dim_violated` | propext, Quot.sound |
| `CL.CvScore.C155_one_dim` | propext, Classical.choice, Quot.sound |
| `CL.CvScore.C155_no_parents_violated` | propext, Classical.choice, Quot.sound |
| `CL.CvScore.C156_lower_bound` | propext, Classical.choice, Quot.sound |
| `CL.C157_uc_sepset` | propext, Classical.choice, Quot.sound |
| `CL.C157_maxp` | propext, Classical.choice, Quot.sound |
| `CL.C157_definite_maxp` | propext, Classical.choice, Quot.sound |
| `CL.Conf.C158_p_values` | propext, Classical.choice, Quot.sound |
| `CL.Conf.C159_parce` | propext, Classical.choice, Quot.sound |
| `CL.Conf.C159_rcd` | propext, Classical.choice, Quot.sound |
| `CL.Conf.C160_parce_partial` | propext, Classical.choice, Quot.sound |
| `CL.Conf.C160_block_violated` | propext, Classical.choice, Quot.sound |
| `CL.Conf.C160_rcd` | propext, Classical.choice, Quot.sound |
| `CL.Conf.C160_rcd_samples_violated` | propext, Classical.choice, Quot.sound |
| `CL.Conf.C161_effects` | propext, Classical.choice, Quot.sound |
| `CL.Conf.C161_bootstrap` | propext, Classical.choice, Quot.sound |
| `CL.Conf.C161_p_values` | propext, Classical.choice, Quot.sound |
| `CL.Conf.C161_accepted` | propext, Classical.choice, Quot.sound |
| `CL.Conf.C161_sizes_violated` | propext, Classical.choice, Quot.sound |
| `CL.Conf.C161_panel` | propext, Classical.choice, Quot.sound |
| `CL.Hsic.C162_symmetric` | propext, Classical.choice, Quot.sound |
| `CL.Hsic.C162_units` | propext, Classical.choice, Quot.sound |
| `CL.Hsic.C162_order_partial` | propext, Classical.choice, Quot.sound |
| `CL.Hsic.C162_order_violated` | propext, Classical.choice, Quot.sound |
| `CL.Hsic.C163_pvalue_partial` | propext, Classical.choice, Quot.sound |
| `CL.Hsic.C163_few_samples_violated` | propext, Classical.choice, Quot.sound |
| `CL.Hsic.C163_first_rows_violated` | propext, Classical.choice, Quot.sound |
| `CL.Hsic.C163_decision` | propext, Classical.choice, Quot.sound |
| `CL.Pairwise.C164_swap` | propext, Classical.choice, Quot.sound |
| `CL.Pairwise.C164_pvalues_partial` | propext, Classical.choice, Quot.sound |
| `CL.Pairwise.C164_noiseless_violated` | propext, Classical.choice, Quot.sound |
| `CL.Pairwise.C165_blind_violated` | propext, Classical.choice, Quot.sound |
| `CL.Pairwise.C165_answers_violated` | propext, Classical.choice, Quot.sound |
| `CL.Pairwise.C165_means_violated` | propext, Classical.choice, Quot.sound |
| `CL.Pairwise.C166_untrained_violated` | propext, Classical.choice, Quot.sound |
| `CL.Pairwise.C166_prefix` | propext, Classical.choice, Quot.sound |
| `CL.Pairwise.C166_epoch` | propext, Classical.choice, Quot.sound |
| `CL.FastKci.C167_pvalue_partial` | propext, Classical.choice, Quot.sound |
| `CL.FastKci.C167_many_violated` | propext, Classical.choice, Quot.sound |
| `CL.FastKci.C168_null_mean` | propext, Classical.choice, Quot.sound |
| `CL.FastKci.C168_one_block` | propext, Classical.choice, Quot.sound |
| `CL.FastKci.C168_partition` | propext, Classical.choice, Quot.sound |
| `CL.FastKci.C169_constant_violated` | propext, Classical.choice, Quot.sound |
| `CL.FastKci.C169_small_blocks_violated` | propext, Classical.choice, Quot.sound |
| `CL.FastKci.C170_single_partial` | propext, Classical.choice, Quot.sound |
| `CL.FastKci.C170_unanimous_partial` | propext, Classical.choice, Quot.sound |
| `CL.FastKci.C170_average_violated` | propext, Classical.choice, Quot.sound |
| `CL.Rcit.C171_units` | propext, Classical.choice, Quot.sound |
| `CL.Rcit.C172_order_partial` | propext, Classical.choice, Quot.sound |
| `CL.Rcit.C172_order_violated` | propext, Classical.choice, Quot.sound |
| `CL.Rcit.C173_regularised` | propext, Classical.choice, Quot.sound |
| `CL.Rcit.C173_conditional` | propext, Classical.choice, Quot.sound |
| `CL.Rcit.C174_range_partial` | propext, Classical.choice, Quot.sound |
| `CL.Rcit.C174_constant_violated` | propext, Classical.choice, Quot.sound |
| `CL.Rcit.C174_perm_violated` | propext, Classical.choice, Quot.sound |
| `CL.Rcit.C174_single_feature_violated` | propext, Classical.choice, Quot.sound |
| `CL.ExactBic.C175_score_partial` | propext, Classical.choice, Quot.sound |
| `CL.ExactBic.C175_parsimony` | propext, Classical.choice, Quot.sound |
| `CL.ExactBic.C175_units` | propext, Classical.choice, Quot.sound |
| `CL.ExactBic.C175_centred_partial` | propext, Classical.choice, Quot.sound |
| `CL.ExactBic.C175_search_partial` | propext, Classical.choice, Quot.sound |
| `CL.ExactBic.C175_collinear_violated` | propext, Classical.choice, Quot.sound |
| `CL.ExactBic.C175_shift_violated` | propext, Classical.choice, Quot.sound |
| `CL.Lingam.C176_coefficients` | propext, Classical.choice, Quot.sound |
| `CL.Lingam.C176_order_partial` | propext, Classical.choice, Quot.sound |
| `CL.Lingam.C176_pair_violated` | propext, Classical.choice, Quot.sound |
| `CL.Lingam.C176_single_violated` | propext, Classical.choice, Quot.sound |
| `CL.Cit.C177_last_registration` | propext, Quot.sound |
| `CL.Cit.C177_builtin` | propext, Classical.choice, Quot.sound |
| `CL.Cit.C177_rejected` | propext |
| `CL.Cit.C178_no_wrong_answers` | propext, Classical.choice, Quot.sound |
| `CL.Cit.C178_restart_partial` | propext, Classical.choice, Quot.sound |
| `CL.Cit.C178_interrupted_save_violated` | propext, Classical.choice, Quot.sound |
| `CL.Cit.C178_bare_name_violated` | propext, Classical.choice, Quot.sound |
| `CL.Cit.C179_answers` | propext, Classical.choice, Quot.sound |
| `CL.Cit.C179_pc` | propext, Classical.choice, Quot.sound |
| `CL.Cit.C179_stale_violated` | propext, Classical.choice, Quot.sound |
| `CL.Cit.C180_other_data_partial` | propext, Classical.choice, Quot.sound |
| `CL.Cit.C180_summary_violated` | propext, Classical.choice, Quot.sound |
| `CL.C181_directed_edge_partial` | propext, Quot.sound |
| `CL.C181_directed_edge_violated` | propext, Quot.sound |
| `CL.C181_max_degree` | propext, Classical.choice, Quot.sound |
| `CL.C181_connected_edges` | propext, Classical.choice, Quot.sound |
| `CL.C181_trek_sound_partial` | propext, Classical.choice, Quot.sound |
| `CL.C181_trek_violated` | propext |
| `CL.C182_transfer_partial` | propext, Classical.choice, Quot.sound |
| `CL.C182_circle_tail_violated` | propext |
| `CL.GHeap.C183_private_list_partial` | propext, Quot.sound |
| `CL.GHeap.C183_add_node_violated` | propext, Quot.sound |
| `CL.GHeap.C183_add_node` | propext, Quot.sound |
| `CL.GHeap.C183_compare_violated` | propext, Quot.sound |
| `CL.GHeap.C183_remove_node_violated` | propext |
| `CL.GHeap.C183_remove_all_violated` | propext, Classical.choice, Quot.sound |
| `CL.GHeap.C183_set_nodes_violated` | propext, Quot.sound |
| `CL.Draw.C184_pydot` | propext, Classical.choice, Quot.sound |
| `CL.Draw.C184_injective` | propext, Classical.choice, Quot.sound |
| `CL.Draw.C184_labels` | propext, Classical.choice, Quot.sound |
| `CL.Draw.C184_colours` | propext, Quot.sound |
| `CL.Draw.C184_pgv_violated` | propext |
| `CL.Draw.C184_pgv_partial` | propext, Classical.choice, Quot.sound |
| `CL.LinUtil.C185_arrows` | propext, Quot.sound |
| `CL.LinUtil.C185_prediction` | propext, Quot.sound |
| `CL.LinUtil.C185_unknown_partial` | propext, Quot.sound |
| `CL.LinUtil.C185_unknown_violated` | propext, Quot.sound |
| `CL.LinUtil.C185_parce` | propext, Classical.choice, Quot.sound |
| `CL.LinUtil.C185_rcd` | propext, Classical.choice, Quot.sound |
| `CL.LinUtil.C186_exact` | propext, Classical.choice, Quot.sound |
| `CL.LinUtil.C186_exists` | propext, Classical.choice, Quot.sound |
| `CL.LinUtil.C186_prior` | propext, Classical.choice, Quot.sound |
| `CL.LinUtil.C187_residuals` | propext, Classical.choice, Quot.sound |
| `CL.LinUtil.C187_unique` | propext, Classical.choice, Quot.sound |
| `CL.LinUtil.C187_sequential` | propext, Classical.choice, Quot.sound |
| `CL.LinUtil.C187_empty_violated` | propext, Classical.choice, Quot.sound |
| `CL.LinUtil.C188_adaptive` | propext, Classical.choice, Quot.sound |
| `CL.Gp.C189_no_parents` | propext, Classical.choice, Quot.sound |
| `CL.Gp.C189_one_parent` | propext, Classical.choice, Quot.sound |
| `CL.Gp.C189_two_parents_violated` | propext, Classical.choice, Quot.sound |
| `CL.Gp.C189_constant_violated` | propext, Classical.choice, Quot.sound |
| `CL.Gp.C190_likelihood` | propext, Classical.choice, Quot.sound |
| `CL.Gp.C190_gradient_violated` | propext, Classical.choice, Quot.sound |
| `CL.Mini.C191_best` | propext, Classical.choice, Quot.sound |
| `CL.Mini.C191_success_descends` | propext, Classical.choice, Quot.sound |
| `CL.Mini.C191_gives_up_violated` | propext, Classical.choice, Quot.sound |
| `CL.Mini.C191_minimum_violated` | propext, Classical.choice, Quot.sound |
| `CL.Gp.C192_units` | propext, Classical.choice, Quot.sound |
| `CL.TsB.C193_given` | propext, Classical.choice, Quot.sound |
| `CL.TsB.C193_coefficients_kept_violated` | propext, Classical.choice, Quot.sound |
| `CL.TsB.C193_order_kept_violated` | propext, Classical.choice, Quot.sound |
| `CL.TsB.C194_series` | propext, Classical.choice, Quot.sound |
| `CL.TsB.C194_var_bootstrap` | propext, Classical.choice, Quot.sound |
| `CL.TsB.C194_object_violated` | propext, Classical.choice, Quot.sound |
| `CL.TsB.C194_crash_violated` | propext, Classical.choice, Quot.sound |
| `CL.TsB.C194_varma_one_part_violated` | propext, Classical.choice, Quot.sound |
| `CL.TsB.C194_varma_bootstrap` | propext, Classical.choice, Quot.sound |
| `CL.TsB.C194_varma_pruning_violated` | propext, Classical.choice, Quot.sound |
| `CL.LB.C195_dag_counts` | propext, Classical.choice, Quot.sound |
| `CL.LB.C195_effects_forward` | propext, Classical.choice, Quot.sound |
| `CL.Rcd.C196_example` | propext, Classical.choice, Quot.sound |
| `CL.Rcd.C196_three_violated` | propext, Classical.choice, Quot.sound |
| `CL.Rcd.C196_recovers` | propext, Classical.choice, Quot.sound |
| `CL.Rcd.C197_pairs_sound` | propext, Classical.choice, Quot.sound |
| `CL.Rcd.C197_two_violated` | propext, Classical.choice, Quot.sound |
| `CL.Rcd.C197_example` | propext, Classical.choice, Quot.sound |
| `CL.Parce.C198_order` | propext, Classical.choice, Quot.sound |
| `CL.Parce.C198_example` | propext, Classical.choice, Quot.sound |
| `CL.Parce.C199_hidden_sound` | propext, Classical.choice, Quot.sound |
| `CL.Parce.C199_example` | propext, Classical.choice, Quot.sound |
| `CL.Parce.C200_prior_violated` | propext, Classical.choice, Quot.sound |
| `CL.Camuv.C201_no_false_parents` | propext, Classical.choice, Quot.sound |
| `CL.Camuv.C201_recovers` | propext, Classical.choice, Quot.sound |
| `CL.Camuv.C201_example` | propext, Classical.choice, Quot.sound |
| `CL.Camuv.C202_pairs_sound` | propext, Classical.choice, Quot.sound |
| `CL.Camuv.C202_example` | propext, Classical.choice, Quot.sound |
| `CL.Perm.C203_grasp_result` | propext, Classical.choice, Quot.sound |
| `CL.Perm.C203_dfs_false` | propext, Classical.choice, Quot.sound |
| `CL.Perm.C203_terminates_partial` | propext, Classical.choice, Quot.sound |
| `CL.Perm.C203_no_termination_violated` | propext, Classical.choice, Quot.sound |
| `CL.Perm.C204_minimal_imap_partial` | propext, Classical.choice, Quot.sound |
| `CL.Perm.C204_causal_start_partial` | propext, Classical.choice, Quot.sound |
| `CL.Perm.C204_collider_violated` | propext, Classical.choice, Quot.sound |
| `CL.GIN.C205_clusters_are_blocks` | propext, Classical.choice, Quot.sound |
| `CL.GIN.C205_equal_sizes_violated` | propext, Classical.choice, Quot.sound |
| `CL.GIN.C205_interleaved_violated` | propext, Classical.choice, Quot.sound |
| `CL.GIN.C205_three_pairs_violated` | propext, Classical.choice, Quot.sound |
| `CL.Lingam.C206_is_kernelOrder` | propext, Classical.choice, Quot.sound |
| `CL.Lingam.C206_large_samples` | propext, Classical.choice, Quot.sound |
| `CL.Lingam.C206_any_size_violated` | propext, Classical.choice, Quot.sound |
| `CL.Lingam.C207_is_directOrder` | propext, Classical.choice, Quot.sound |
| `CL.Lingam.C207_large_samples` | propext, Classical.choice, Quot.sound |
| `CL.C208_general_graph` | propext, Classical.choice, Quot.sound |
| `CL.C208_dag` | propext, Classical.choice, Quot.sound |
| `CL.C208_example` | propext |
| `CL.DagC.C209_transfer_marks` | propext, Classical.choice, Quot.sound |
| `CL.DagC.C209_transfer_ancestors_partial` | propext, Classical.choice, Quot.sound |
| `CL.DagC.C209_transfer_ancestors_violated` | propext, Classical.choice, Quot.sound |
| `CL.DagC.C209_other_edges_violated` | propext |
| `CL.Lingam.C210_is_groupOrder` | propext, Classical.choice, Quot.sound |
| `CL.Lingam.C210_large_samples` | propext, Classical.choice, Quot.sound |
| `CL.TS.C211_recovers` | propext, Classical.choice, Quot.sound |
| `CL.TS.C211_offset_violated` | propext, Classical.choice, Quot.sound |
| `CL.TS.C212_recovers` | propext, Classical.choice, Quot.sound |
| `CL.FisherZ.C213_symmetric` | propext, Classical.choice, Quot.sound |
| `CL.FisherZ.C213_complete_data` | propext, Classical.choice, Quot.sound |
| `CL.FisherZ.C213_resamples_causes` | propext, Classical.choice, Quot.sound |
| `CL.FisherZ.C213_units` | propext, Classical.choice, Quot.sound |
| `CL.FisherZ.C213_example` | propext, Classical.choice, Quot.sound |
| `CL.DagC.C214_nodes_into_out_of` | propext, Classical.choice, Quot.sound |
| `CL.DagC.C214_descendants_partial` | propext, Classical.choice, Quot.sound |
| `CL.DagC.C214_descendants_violated` | propext, Classical.choice, Quot.sound |
| `CL.DagC.C214_equality_partial` | propext, Classical.choice, Quot.sound |
| `CL.DagC.C214_equality_violated` | propext, Quot.sound |
| `CL.DagC.C214_set_nodes_violated` | propext |
| `CL.Chi.C215_pvalue` | propext, Classical.choice, Quot.sound |
| `CL.Chi.C215_dsep_pvalue` | propext, Classical.choice, Quot.sound |
| `CL.Chi.C215_pc_faithful` | propext, Classical.choice, Quot.sound |
| `CL.Chi.C215_example` | propext, Classical.choice, Quot.sound |
| `CL.FisherZ.C216_fisherz_oracle` | propext, Classical.choice, Quot.sound |
| `CL.Chi.C216_chi_oracle` | propext, Classical.choice, Quot.sound |
| `CL.C216_fci_fisherz` | propext, Classical.choice, Quot.sound |
| `CL.C216_fci_chi` | propext, Classical.choice, Quot.sound |
| `CL.C216_cdnod_chi` | propext, Classical.choice, Quot.sound |
| `CL.C216_cdnod_fisherz` | propext, Classical.choice, Quot.sound |
| `CL.C216_iamb` | propext, Classical.choice, Quot.sound |
| `CL.C216_example_fci` | propext, Classical.choice, Quot.sound |
| `CL.C216_example_iamb` | propext, Classical.choice, Quot.sound |
| `CL.C216_example_cdnod` | propext, Classical.choice, Quot.sound |
| `CL.C217_tiers_complete` | propext, Classical.choice, Quot.sound |
| `CL.C217_tier_object` | propext, Classical.choice, Quot.sound |
| `CL.C217_fisherz` | propext, Classical.choice, Quot.sound |
| `CL.C217_chi` | propext, Classical.choice, Quot.sound |
| `CL.C217_example` | propext, Classical.choice, Quot.sound |
| `CL.C218_cdnod_complete` | propext, Classical.choice, Quot.sound |
| `CL.C218_chi` | propext, Classical.choice, Quot.sound |
| `CL.C218_fisherz` | propext, Classical.choice, Quot.sound |
| `CL.C218_example` | propext, Classical.choice, Quot.sound |
| `CL.Kci.C219_weights` | propext, Classical.choice, Quot.sound |
| `CL.Kci.C219_mean_variance` | propext, Classical.choice, Quot.sound |
| `CL.Kci.C219_mean_variance_case` | propext, Classical.choice, Quot.sound |
| `CL.Kci.C219_pvalue_consistent` | propext, Classical.choice, Quot.sound |
| `CL.Kci.C219_half_violated` | propext, Classical.choice, Quot.sound |
| `CL.Kci.C219_constant_violated` | propext, Classical.choice, Quot.sound |
| `CL.Kci.C219_conditional_violated` | propext, Classical.choice, Quot.sound |
| `CL.Kci.C219_conditional` | propext, Classical.choice, Quot.sound |
| `CL.CalmLoss.C220_bound` | propext, Classical.choice, Quot.sound |
| `CL.CalmLoss.C220_optimum` | propext, Classical.choice, Quot.sound |
| `CL.CalmLoss.C220_acyclic` | propext, Classical.choice, Quot.sound |
| `CL.CalmLoss.C220_true_model` | propext, Classical.choice, Quot.sound |
| `CL.CalmLoss.C220_loss` | propext, Classical.choice, Quot.sound |
| `CL.CalmLoss.C220_moral` | propext, Classical.choice, Quot.sound |
| `CL.CalmLoss.C220_units` | propext, Classical.choice, Quot.sound |
| `CL.CalmLoss.C220_standardize` | propext, Classical.choice, Quot.sound |
| `CL.CalmLoss.C220_two_variables` | propext, Classical.choice, Quot.sound |
| `CL.CalmLoss.C220_case` | propext, Classical.choice, Quot.sound |
| `CL.FastKci.C221_weights` | propext, Classical.choice, Quot.sound |
| `CL.FastKci.C221_kci` | propext, Classical.choice, Quot.sound |
| `CL.FastKci.C221_mean` | propext, Classical.choice, Quot.sound |
| `CL.FastKci.C221_constant_violated` | propext, Classical.choice, Quot.sound |
| `CL.FastKci.C221_case` | propext, Classical.choice, Quot.sound |
| `CL.CalmLoss.C222_minimiser` | propext, Classical.choice, Quot.sound |
| `CL.CalmLoss.C222_exists` | propext, Classical.choice, Quot.sound |
| `CL.CalmLoss.C222_case` | propext, Classical.choice, Quot.sound |
| `CL.C223_oracle` | propext, Classical.choice, Quot.sound |
| `CL.C223_fisherz` | propext, Classical.choice, Quot.sound |
| `CL.C223_chi` | propext, Classical.choice, Quot.sound |
| `CL.C223_example` | propext, Classical.choice, Quot.sound |
| `CL.Perm.C224_grasp` | propext, Classical.choice, Quot.sound |
| `CL.Perm.C224_grasp_causal` | propext, Classical.choice, Quot.sound |
| `CL.Perm.C224_boss_causal` | propext, Classical.choice, Quot.sound |
| `CL.Perm.C224_example` | propext, Classical.choice, Quot.sound |
| `CL.C225_oracle` | propext, Classical.choice, Quot.sound |
| `CL.C225_fisherz` | propext, Classical.choice, Quot.sound |
| `CL.C225_chi` | propext, Classical.choice, Quot.sound |
| `CL.C225_example` | propext, Classical.choice, Quot.sound |
| `CL.C226_marks` | propext, Quot.sound |
| `CL.C226_kinds` | none |
| `CL.C226_traverse` | propext |
| `CL.C226_equal` | propext, Classical.choice, Quot.sound |
| `CL.C226_equal_violated` | propext, Classical.choice, Quot.sound |
| `CL.C226_order_violated` | propext |
