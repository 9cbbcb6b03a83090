{
 "claims": [
  {
   "property": "C01",
   "status": "partial",
   "theorems": [
    "CL.C01_add_edge_faithful_partial",
    "CL.C01_circle_tail_violated"
   ],
   "note": "Proved for every mark pair except circle-at-first/tail-at-second, which add_edge refuses on every graph (C01_circle_tail_violated)."
  },
  {
   "property": "C02",
   "status": "proved",
   "theorems": [
    "CL.C02_adjacency_symmetric"
   ],
   "note": "C02. After any history of edge operations from the edgeless graph, adjacency is symmetric; and if no call named a self-edge, no node is adjacent to itself."
  },
  {
   "property": "C03",
   "status": "proved",
   "theorems": [
    "CL.C03_remove_undoes_add"
   ],
   "note": "C03. Adding an edge between two distinct non-adjacent nodes and removing the same edge restores every mark (whether or not add_edge accepted the marks)."
  },
  {
   "property": "C04",
   "status": "partial",
   "theorems": [
    "CL.C04_ancestor_sound_partial",
    "CL.C04_ancestor_sound_general_partial",
    "CL.C04_ancestor_incomplete_violated",
    "CL.C04_ancestor_stale_violated",
    "CL.C04_ancestor_exact_sinkward_partial"
   ],
   "note": "Soundness for histories without removals; completeness fails in general (C04_ancestor_incomplete_violated) and holds for sink-ward insertion orders; stale after remove_connecting_edge."
  },
  {
   "property": "C05",
   "status": "partial",
   "theorems": [
    "CL.C05_path_query_exact",
    "CL.C05_cycles_never_reported_violated",
    "CL.C05_three_cycle_violated"
   ],
   "note": "False of the code: exists_directed_cycle returns False on every graph without doubled edges. The path query between different nodes is exact."
  },
  {
   "property": "C06",
   "status": "proved",
   "theorems": [
    "CL.C06_edge_list_exact"
   ],
   "note": "C06. After any history of edge operations that leaves no doubled edge, get_graph_edges() contains exactly one edge for each adjacent pair — carrying at each end the mark the graph reports there — none for a non-adjacent pair, and get_num_edges() is the number of adjacent pairs, which is also the length of that list."
  },
  {
   "property": "C07",
   "status": "partial",
   "theorems": [
    "CL.C07_parent_child_partial",
    "CL.C07_degrees_partial",
    "CL.C07_doubled_violated",
    "CL.C07_degree_violated"
   ],
   "note": "Proved without doubled edges; doubled edges and degrees with non-directed edges break it (violated theorems)."
  },
  {
   "property": "C08",
   "status": "partial",
   "theorems": [
    "CL.C08_eq_same_sorted_partial",
    "CL.C08_names_ignored_violated",
    "CL.C08_comparison_mutates_violated",
    "CL.C08_comparison_misaligns_violated"
   ],
   "note": "False of the code (list.sort() returns None and sorts in place); holds for graphs over one sorted node list."
  },
  {
   "property": "C09",
   "status": "proved",
   "theorems": [
    "CL.C09_causal_order_topological",
    "CL.C09_cyclic_diverges"
   ],
   "note": "Proved for every DAG. Extra theorem: on a cyclic graph the call neither raises nor returns."
  },
  {
   "property": "C10",
   "status": "partial",
   "theorems": [
    "CL.C10_dconnected_correct_partial",
    "CL.C10_nontermination_violated"
   ],
   "note": "Partial correctness proved for every DAG; termination is false (C10_nontermination_violated)."
  },
  {
   "property": "C11",
   "status": "proved",
   "theorems": [
    "CL.Gen.C11_enumerates"
   ],
   "note": "For b ≤ a (the documented domain), the calls of next() return, in order, the entries of a list L that is strictly increasing in the lexicographic order and contains exactly the strictly increasing b-lists with entries in 0..a-1; every later call returns None (and no call raises)."
  },
  {
   "property": "C12",
   "status": "proved",
   "theorems": [
    "CL.Gen.C12_enumerates",
    "CL.Gen.C12_after_end_raises"
   ],
   "note": "Enumeration proved for every a and depth; extra theorem C12_after_end_raises: calling next() again after the final None raises."
  },
  {
   "property": "C13",
   "status": "partial",
   "theorems": [
    "CL.PQ.C13_refines_ideal_queue",
    "CL.PQ.C13_repush_violated"
   ],
   "note": "Refines the ideal queue for histories that do not re-push a live key; re-pushing a present key is violated."
  },
  {
   "property": "C14",
   "status": "proved",
   "theorems": [
    "CL.C14_stable_order_independent",
    "CL.C14_eager_is_order_dependent"
   ],
   "note": "Stable mode proved; extra theorem: the eager mode (stable=False) is order dependent."
  },
  {
   "property": "C15",
   "status": "proved",
   "theorems": [
    "CL.C15_deletions_justified",
    "CL.C15_remaining_edges_tested",
    "CL.C15_exact_skeleton"
   ],
   "note": "Every edge missing from the result was removed because some call of the CI test on that pair (in one of the two orders, with a conditioning set avoiding the pair) reported independence, or because knowledge forbids both directions."
  },
  {
   "property": "C16",
   "status": "partial",
   "theorems": [
    "CL.C16_stable_banned_not_adjacent",
    "CL.C16_eager_violated"
   ],
   "note": "Stable mode proved; eager mode violated (break after a banned edge skips the remaining neighbours)."
  },
  {
   "property": "C17",
   "status": "partial",
   "theorems": [
    "CL.C17_recorded_sets_partial",
    "CL.C17_stable_violated",
    "CL.C17_eager_violated"
   ],
   "note": "What is recorded is characterised; stable mode records unions and eager mode appends the empty set, so recorded sets need not separate (violated theorems)."
  },
  {
   "property": "C18",
   "status": "proved",
   "theorems": [
    "CL.C18_orient_obeys_knowledge"
   ],
   "note": "orient_by_background_knowledge on any partially directed graph G whose ancestor matrix is sound (every graph the skeleton phase returns is one): adjacencies are unchanged; edges that are not undirected are unchanged; no undirected edge about which the knowledge says anything is left; an undirected edge becomes a → b only if b → a is forbidden or a → b is required, and is turned into a forbidden direction only if both directions are forbidden."
  },
  {
   "property": "C19",
   "status": "proved",
   "theorems": [
    "CL.C19_only_accepted_triples",
    "CL.C19_faithful_exact"
   ],
   "note": "Collider orientation, with no assumption on the test, the separating sets, the priority rule or the knowledge: no adjacency is created or lost; marks change only on edges that are a leg of an accepted unshielded triple; a new arrowhead appears only at the middle of one."
  },
  {
   "property": "C20",
   "status": "proved",
   "theorems": [
    "CL.C20_meek",
    "CL.C20_definite_meek"
   ],
   "note": "The Meek phase, on every partially directed graph and every knowledge: it returns a graph H (so it terminates); no adjacency is created or lost; every mark on an edge that was not undirected is unchanged; an undirected edge stays undirected or becomes directed; all new orientations come from a sequence of legal rule applications; and on return every orientation still demanded by R1–R3 is vetoed by the knowledge or would close a directed cycle."
  },
  {
   "property": "C21",
   "status": "proved",
   "theorems": [
    "CL.C21_pc_correct",
    "CL.C21_directed_edges_invariant",
    "CL.C21_double_ban_violated"
   ],
   "note": "Proved for uc_rule 0, 1, 2, every priority and both modes. With pairs forbidden in both directions and uc_rule 0 the claim is false (C21_double_ban_violated). Completeness of the orientation (CPDAG) not claimed here."
  },
  {
   "property": "C22",
   "status": "partial",
   "theorems": [
    "CL.BK.C22_is_forbidden",
    "CL.BK.C22_is_required",
    "CL.BK.C22_is_in_which_tier",
    "CL.BK.C22_tiers_never_forbid_both",
    "CL.BK.C22_remove_from_other_tier_violated"
   ],
   "note": "Proved except remove_node_from_tier with a different tier (violated)."
  },
  {
   "property": "C23",
   "status": "proved",
   "theorems": [
    "CL.C23_consistent_extension",
    "CL.C23_roundtrip"
   ],
   "note": "C23. For every partially directed graph: whenever pdag2dag returns, its result consists of directed edges only, is acyclic, has the same adjacencies as the input, keeps every directed edge of the input and has no v-structure the input did not have."
  },
  {
   "property": "C24",
   "status": "proved",
   "theorems": [
    "CL.C24_terminates_iff_extendable"
   ],
   "note": "C24. For every partially directed graph, pdag2dag terminates (after at most n sweeps over the nodes) exactly when the graph has a consistent extension; if it has none, the search runs for ever."
  },
  {
   "property": "C25",
   "status": "proved",
   "theorems": [
    "CL.C25_essential_graph",
    "CL.C25_colliders_directed"
   ],
   "note": "C25. For every DAG, dag2cpdag terminates and returns the essential graph: it has the same adjacencies; the edge between a and b is directed a → b exactly when a → b is in the DAG and has this direction in every DAG with the same skeleton and v-structures; all other edges are undirected."
  },
  {
   "property": "C26",
   "status": "proved",
   "theorems": [
    "CL.C26_mec_check_exact"
   ],
   "note": "C26. For all pairs of DAGs over the same nodes mec_check returns, and it returns True exactly when the two DAGs have the same adjacencies and the same v-structures."
  },
  {
   "property": "C27",
   "status": "proved",
   "theorems": [
    "CL.C27_rules_only_refine_circles",
    "CL.C27_every_rule_graph_qualifies"
   ],
   "note": "C27. On every mixed graph (symmetric adjacency; tails, arrowheads and circles), for every separating-set table, every background knowledge and every order of sets, each of the rules R1/R2, R3, R5-R10 only replaces circles."
  },
  {
   "property": "C28",
   "status": "proved",
   "theorems": [
    "CL.C28_change_removes_circles",
    "CL.C28_each_rule_removes_circles",
    "CL.C28_orientation_loop_terminates",
    "CL.C28_fci_returns",
    "CL.C28_inner_loops_terminate"
   ],
   "note": "C28. Whenever a round of rules (R1-R10, with or without R4) reports a change, circles have disappeared; no rule ever adds one."
  },
  {
   "property": "C29",
   "status": "partial",
   "theorems": [
    "CL.Fci.C29_search_partial",
    "CL.Fci.C29_every_set_partial",
    "CL.C29_prefix_never_tested_violated"
   ],
   "note": "All considered subsets except the proper prefixes of the sorted list are tested; the prefixes never are (violated, with an fci run whose output depends on node names)."
  },
  {
   "property": "C30",
   "status": "proved",
   "theorems": [
    "CL.C30_semi_directed_exact",
    "CL.C30_semi_directed_path_exact"
   ],
   "note": "C30. On every mixed graph existsSemiDirectedPath(a, b, G) returns and answers whether there is a non-empty semi-directed walk from a to b."
  },
  {
   "property": "C31",
   "status": "proved",
   "theorems": [
    "CL.Exact.C31_query_best"
   ],
   "note": "C31. Querying the parent graph of i with candidates U: either no admissible parent set lies in U and the answer is (None, INF), or the answer is an admissible subset of U with its score, and no admissible subset of U is better."
  },
  {
   "property": "C32",
   "status": "proved",
   "theorems": [
    "CL.Exact.C32_dp_optimal"
   ],
   "note": "C32. The dynamic program, with or without path extension, returns an optimal DAG (whenever an admissible DAG exists), for every correct shortest-path routine."
  },
  {
   "property": "C33",
   "status": "proved",
   "theorems": [
    "CL.Exact.C33_astar_optimal",
    "CL.Exact.C33_any_admissible_heuristic"
   ],
   "note": "C33. A with the simple heuristic, with or without path extension, terminates and returns an optimal DAG."
  },
  {
   "property": "C34",
   "status": "partial",
   "theorems": [
    "CL.Exact.C34_kcycle_admissible_partial",
    "CL.Exact.C34_kcycle_violated",
    "CL.Exact.C34_patterns_exact_partial",
    "CL.Exact.C34_right_argument_partial",
    "CL.Exact.C34_repaired_optimal_partial"
   ],
   "note": "Violated: with the default k = 3 and path extension A* can return a DAG of total score -17 where -19 is attainable, because compute_dynamic_h matches the stored patterns (variables still to be placed) against the variables already placed. Proved: termination and admissibility with any heuristic; the stored patterns are exact; applied to the right argument the heuristic never over-estimates (scores not negative) and A* would be optimal."
  },
  {
   "property": "C35",
   "status": "proved",
   "theorems": [
    "CL.Exact.C35_path_extension",
    "CL.Exact.C35_same_score"
   ],
   "note": "C35. At every node (U, structures, g) path extension moves to a larger set without losing the optimum: every admissible DAG in which U is closed under parents can be changed, without increasing its cost g + (scores outside U), into an admissible DAG in which the extended set is closed under parents and whose cost is counted from the extended node. Placed structures are kept."
  },
  {
   "property": "C36",
   "status": "proved",
   "theorems": [
    "CL.Ges.C36_path_test",
    "CL.Ges.C36_record_transparent",
    "CL.Ges.C36_ges_terminates",
    "CL.Ges.C36_ges_score",
    "CL.Ges.C36_forward_optimal",
    "CL.Ges.C36_backward_optimal"
   ],
   "note": "Exact arithmetic; local scores as a function of a parent set (C37); recorded local scores never stale (C36_record_transparent)."
  },
  {
   "property": "C37",
   "status": "proved",
   "theorems": [
    "CL.C37_cache_transparent",
    "CL.C37_cache_exact",
    "CL.C37_same_parents_same_answer"
   ],
   "note": "C37: for every history of calls score(i, PAi) the cached object answers each call with a value of the underlying score for the same target and the same parent set (possibly listed in another order)."
  },
  {
   "property": "C38",
   "status": "proved",
   "theorems": [
    "CL.Perm.C38_better_mutation",
    "CL.Perm.C38_boss",
    "CL.Perm.C38_boss_local_optimum"
   ],
   "note": "C38 (one move). better_mutation keeps a permutation; it returns False and leaves the order alone, or returns True and the total score has grown by at least the tolerance. When it returns False, no position for v would improve the score by the tolerance or more."
  },
  {
   "property": "C39",
   "status": "proved",
   "theorems": [
    "CL.C39_key_iff_same_query",
    "CL.C39_multi_key_iff_same_query",
    "CL.C39_key_not_metadata"
   ],
   "note": "C39 (single columns): two valid queries get the same cache key iff they ask about the same unordered pair and the same conditioning set — however the arguments are ordered or repeated."
  },
  {
   "property": "C40",
   "status": "partial",
   "theorems": [
    "CL.C40_own_cache_transparent",
    "CL.C40_mismatch_accepted_violated",
    "CL.C40_wrong_answers_violated",
    "CL.C40_other_data_rejected"
   ],
   "note": "Transparency within one method proved. A cache made by another method is never rejected (line 113 looks the stored name up as a key), so wrong answers are returned (violated theorems); other data is rejected."
  },
  {
   "property": "C41",
   "status": "proved",
   "theorems": [
    "CL.C41_counts_each_differing_pair_once",
    "CL.C41_zero_iff_same_edges",
    "CL.C41_symmetric",
    "CL.C41_triangle"
   ],
   "note": "C41: for graphs over the same nodes SHD is defined and counts every unordered pair of different nodes whose edge differs once (ordPairs counts it twice), and every differing self-loop once; it is undefined (AssertionError) for different node sets."
  },
  {
   "property": "C42",
   "status": "proved",
   "theorems": [
    "CL.C42_adjacency_counts_sum",
    "CL.C42_adjacency_counts_exact",
    "CL.C42_arrow_counts_exact",
    "CL.C42_arrow_ce_counts_exact"
   ],
   "note": "C42: the four adjacency counters sum to n(n-1)/2, for all graphs."
  },
  {
   "property": "C43",
   "status": "proved",
   "theorems": [
    "CL.Lingam.C43_direct_lingam",
    "CL.Lingam.C43_returns_without_prior"
   ],
   "note": "C43: whenever fit returns — with any data, with or without prior knowledge, hard or soft — the causal order is a permutation of the variables, every non-zero coefficient goes from an earlier to a later variable, and the coefficient matrix is acyclic."
  },
  {
   "property": "C44",
   "status": "partial",
   "theorems": [
    "CL.Lingam.C44_first_fit_obeys_prior_partial",
    "CL.Lingam.C44_returns_if_consistent",
    "CL.Lingam.C44_orders_consumed_violated",
    "CL.Lingam.C44_second_fit_violated",
    "CL.Lingam.C44_symmetric_no_path_violated",
    "CL.Lingam.C44_second_fit_data_violated"
   ],
   "note": "First fit with one-sided knowledge proved; the stored partial orders are consumed, so a second fit ignores them, and symmetric no-path knowledge is not honoured (violated theorems)."
  },
  {
   "property": "C45",
   "status": "proved",
   "theorems": [
    "CL.Lingam.C45_find_all_paths_exact",
    "CL.Lingam.C45_same_endpoints_raise"
   ],
   "note": "Proved for source different from target; with equal endpoints the call raises (C45_same_endpoints_raise)."
  },
  {
   "property": "C46",
   "status": "proved",
   "theorems": [
    "CL.Lingam.C46_order_sound",
    "CL.Lingam.C46_order_complete",
    "CL.Lingam.C46_estimate_total",
    "CL.Lingam.C46_single_variable_none"
   ],
   "note": "Sound and complete for every matrix; the approximate search on a single variable returns None (C46_single_variable_none)."
  },
  {
   "property": "C47",
   "status": "proved",
   "theorems": [
    "CL.Lingam.C47_direction_counts",
    "CL.Lingam.C47_probability_counts"
   ],
   "note": "C47: for every list of bootstrap matrices the reported rows are distinct directions; each comes with the number of samples containing it, which is positive; counts are non-increasing; every direction present in some sample is reported, unless n_directions rows with counts at least as large are reported."
  },
  {
   "property": "C48",
   "status": "proved",
   "theorems": [
    "CL.GIN.C48_merge_is_finest_partition"
   ],
   "note": "C48: merge_overlaping_cluster terminates; its output lists every variable of the input exactly once (so the clusters are disjoint and cover the same variables), and two variables share an output cluster exactly when they are connected through overlapping input clusters — the finest partition containing every input cluster in one block. If no input cluster is empty, no output cluster is."
  },
  {
   "property": "C49",
   "status": "partial",
   "theorems": [
    "CL.C49_iamb",
    "CL.C49_oracle_exact",
    "CL.C49_and_rule_violated",
    "CL.C49_network_oracle"
   ],
   "note": "iamb itself proved. Violated: iamb_markov_network applies its AND rule to a matrix that is already symmetric, so it is an OR rule (harmless with a faithful oracle: C49_network_oracle)."
  },
  {
   "property": "C50",
   "status": "partial",
   "theorems": [
    "CL.Txt.C50_roundtrip_partial",
    "CL.Txt.C50_histories_partial",
    "CL.Txt.C50_circle_tail_violated",
    "CL.Txt.C50_empty_violated"
   ],
   "note": "Proved for every reachable graph with at least one node, no self loops, no doubled edges and no edge with a circle at the lower-numbered and a tail at the higher-numbered node. Violated: such circle-tail edges are lost, and the graph without nodes reads back with a node called 'Graph Edges:'."
  },
  {
   "property": "C51",
   "status": "partial",
   "theorems": [
    "CL.C51_deletions_justified",
    "CL.C51_remaining_edges_tested",
    "CL.C51_exact_skeleton",
    "CL.C51_table_both_orders",
    "CL.C51_eager_entry_separates",
    "CL.C51_stable_entry_partial",
    "CL.C51_same_graph_as_pc",
    "CL.C51_stable_violated"
   ],
   "note": "Violated only in one point: with stable=True the table entry is the union of all separating sets found at that level and need not itself separate. Everything else (deletions, remaining edges, both orders, eager entries) proved."
  },
  {
   "property": "C52",
   "status": "partial",
   "theorems": [
    "CL.C52_index_is_a_source_partial",
    "CL.C52_cdnod_correct",
    "CL.C52_overwrite_violated",
    "CL.C52_bidirected_violated",
    "CL.C52_mvcdnod_violated"
   ],
   "note": "Proved for collider rule 2 and for every conflict rule other than 0 and 1, with every CI test and knowledge. Violated: rule 0 (overwrite) turns edges into the surrogate, rule 1 makes them bi-directed, and mvcdnod writes the opposite direction."
  },
  {
   "property": "C53",
   "status": "partial",
   "theorems": [
    "CL.C53_remove_nodes_exact",
    "CL.C53_subgraph_partial",
    "CL.C53_subgraph_violated"
   ],
   "note": "remove_node(s) proved; subgraph proved for node lists in graph order, reversed edges otherwise (violated). Dag.remove_node and Dag.subgraph: see C108."
  },
  {
   "property": "C54",
   "status": "proved",
   "theorems": [
    "CL.Lingam.C54_make_prior_knowledge"
   ],
   "note": "C54: the entry for \"from i to j\" (row j, column i): the diagonal is unknown; rows of exogenous variables and columns of sinks are \"no path\"; otherwise a listed path, otherwise a listed no-path, otherwise unknown."
  },
  {
   "property": "C55",
   "status": "partial",
   "theorems": [
    "CL.C55_neighbours_and_sound_partial",
    "CL.C55_misses_members_violated",
    "CL.C55_kept_for_a_reason",
    "CL.C55_two_steps_partial"
   ],
   "note": "Neighbours are always included, every member satisfies the definition and has the reason the code looks for, and with no length bound (or one of at least 2) every node across one collider with a possible-ancestor witness among x's neighbours is kept; members further than the coded search reaches are missed (violated)."
  },
  {
   "property": "C56",
   "status": "partial",
   "theorems": [
    "CL.C56_setters_partial",
    "CL.C56_set_endpoint2_violated"
   ],
   "note": "set_endpoint1 proved; set_endpoint2 corrupts directed edges (violated)."
  },
  {
   "property": "C57",
   "status": "proved",
   "theorems": [
    "CL.C57_degree_handshake"
   ],
   "note": "C57. After any history that leaves no doubled edges, the degree of a node is its number of adjacent nodes, and the degrees of all nodes sum to twice the number of edges (plus nothing for self-loops, which are excluded)."
  },
  {
   "property": "C58",
   "status": "partial",
   "theorems": [
    "CL.C58_contains_edge_partial",
    "CL.C58_circle_tail_violated",
    "CL.C58_collider",
    "CL.C58_nodes_into_out_of"
   ],
   "note": "Proved for tail, arrow and circle marks on graphs without doubled edges, except the query circle-at-a / tail-at-b, which contains_edge always denies."
  },
  {
   "property": "C59",
   "status": "partial",
   "theorems": [
    "CL.C59_def_noncollider_computes",
    "CL.C59_sound_partial",
    "CL.C59_violated"
   ],
   "note": "Violated: the answer is neither sound nor complete when circles occur (0 <-o 1 <- 2 gives True; 0 o-o 1 o-o 2 and 0 - 1 - 2 give False). Proved: what it computes, and soundness without circles."
  },
  {
   "property": "C60",
   "status": "partial",
   "theorems": [
    "CL.Perm.C60_tuck",
    "CL.Perm.C60_grasp_dag",
    "CL.Perm.C60_grasp_score_partial",
    "CL.Perm.C60_grasp_shallow",
    "CL.Perm.C60_grasp_terminates",
    "CL.Perm.C60_round_no_gain_violated"
   ],
   "note": "Permutation, DAG, CPDAG and local scores proved for every schedule. A successful round can lose up to (depth-1) tolerances because sub-tolerance losses are accepted on the way; depth<=2 strictly improves. Termination under separated scores. The edge counter is not modelled."
  },
  {
   "property": "C61",
   "status": "proved",
   "theorems": [
    "CL.Perm.C61_trace_history",
    "CL.Perm.C61_trace_result"
   ],
   "note": "C61. However often and with whatever prefixes the tree was traced before, a trace returns the same score and the same parents as on a new tree: the lazily filled nodes never change an answer."
  },
  {
   "property": "C62",
   "status": "partial",
   "theorems": [
    "CL.Perm.C62_least_first_violated",
    "CL.Perm.C62_least_first_partial"
   ],
   "note": "False of the code: branches are sorted ascending, so the weakest improving candidate is followed first (C62_least_first_violated)."
  },
  {
   "property": "C63",
   "status": "partial",
   "theorems": [
    "CL.Ges.C63_last_step_partial",
    "CL.Ges.C63_steps_overwritten_violated"
   ],
   "note": "False of the code: insert/delete change the last recorded graph object in place (C63_steps_overwritten_violated); only the last recorded graph is right (C63_last_step_partial)."
  },
  {
   "property": "C64",
   "status": "proved",
   "theorems": [
    "CL.C64_pc_essential_graph",
    "CL.C64_with_knowledge"
   ],
   "note": "C64. With a d-separation oracle of the DAG D and no background knowledge, PC returns the essential graph (CPDAG) of D, for the collider rules 0, 1, 2, every priority rule and both skeleton modes: same adjacencies; a → b exactly when every DAG with the skeleton and v-structures of D has a → b; all other edges undirected."
  },
  {
   "property": "C65",
   "status": "partial",
   "theorems": [
    "CL.C65_rule4_missing_violated"
   ],
   "note": "False of the code: Meek's fourth rule is not implemented, so with background knowledge a forced edge can stay undirected (C65_rule4_missing_violated); what holds is C64_with_knowledge, and C217: the claim itself when the knowledge assigns every variable to a tier."
  },
  {
   "property": "C66",
   "status": "partial",
   "theorems": [
    "CL.C66_result_is_fixpoint_partial",
    "CL.C66_closed_under_R1",
    "CL.C66_closed_under_R2",
    "CL.C66_closed_under_R6",
    "CL.C66_closed_under_R7",
    "CL.C66_closed_under_R8_partial",
    "CL.C66_R8_violated",
    "CL.C66_R4_violated",
    "CL.C66_closed_under_R9"
   ],
   "note": "Proved: the returned graph is a fixpoint of every rule as coded, which gives closure under R1, R2, R6, R7, R9 for every run, and R8 for one order of the triple; R4 (not re-run once R1-R3 are quiet) and R8 for the other order are violated. Closure under R10 fails as coded, see C72."
  },
  {
   "property": "C67",
   "status": "proved",
   "theorems": [
    "CL.C67_R4_revises_own_mark",
    "CL.C67_R4_only_refines_circles",
    "CL.C67_loop_only_refines_circles"
   ],
   "note": "Proved for one call of R4 on every graph and for the whole orientation loop; a witness shows R4 revising, within one call, a mark it put itself."
  },
  {
   "property": "C68",
   "status": "partial",
   "theorems": [
    "CL.C68_rule0_exact_partial",
    "CL.C68_one_order_violated"
   ],
   "note": "rule0 is characterised exactly relative to the table in index order; the possible-d-sep step fills only one order, so colliders are missed depending on the numbering (violated)."
  },
  {
   "property": "C69",
   "status": "partial",
   "theorems": [
    "CL.C69_inseparable_adjacent",
    "CL.C69_marks_true_partial",
    "CL.C69_dag_partial",
    "CL.C69_r9_violated",
    "CL.C69_r5_violated"
   ],
   "note": "Adjacency half proved outright. Marks: R0-R4, R6-R8 proved sound for every causal graph; soundness of the whole run proved under the hypotheses that the skeleton has no edge too many, separating sets are recorded in index order, and the tails put by R5, R9, R10 satisfy the published premises. R5 and R9 as coded break it: two runs on true d-separation oracles return false marks (violated)."
  },
  {
   "property": "C70",
   "status": "partial",
   "theorems": [
    "CL.C70_returns",
    "CL.C70_adjacent_iff",
    "CL.C70_marks_true_partial",
    "CL.C70_r4_table_violated",
    "CL.C70_r4_selection_violated",
    "CL.C70_r3_violated"
   ],
   "note": "Termination and exact adjacencies proved outright. Marks: proved true of the DAG when R4 decides as it would with the right table and test and R5, R9, R10 only put tails the published rules would. As coded R4 looks for an index among node objects and tests without the selection variables (two violated runs on legal inputs), and R3 never fires (violated)."
  },
  {
   "property": "C71",
   "status": "partial",
   "theorems": [
    "CL.C71_knowledge_respected",
    "CL.C71_required_edge_violated"
   ],
   "note": "Forbidden directions and the direction of required edges proved for every run; a required edge can be missing from the result (violated: the skeleton phase never consults required edges)."
  },
  {
   "property": "C72",
   "status": "partial",
   "theorems": [
    "CL.C72_R9_exact",
    "CL.C72_R10_sound",
    "CL.C72_R10_set_order_violated",
    "CL.C72_R10_direct_violated"
   ],
   "note": "R9: exact, for every graph and set order. R10: soundness proved; completeness fails (violated: only one of the two matchings of children and parents is tried, so the result depends on the traversal order of a set; and a child that is itself the parent is missed)."
  },
  {
   "property": "C73",
   "status": "partial",
   "theorems": [
    "CL.Chi.C73_textbook_p_value",
    "CL.Chi.C73_symmetric",
    "CL.Chi.C73_sample_order",
    "CL.Chi.C73_category_names",
    "CL.Chi.C73_conditioning_set",
    "CL.Chi.C73_example",
    "CL.Chi.C73_overflow_violated"
   ],
   "note": "Proved whenever the product of the numbers of distinct values of the tested columns is below 2^63. Violated beyond that bound: with 65 binary conditioning variables the index weight wraps to 0, the code ignores a conditioning variable and returns sf(2,1) where the textbook p-value is 1. Field arithmetic (no rounding); chi2.sf and log are parameters."
  },
  {
   "property": "C74",
   "status": "proved",
   "theorems": [
    "CL.Score.C74_bic_score_equivalent",
    "CL.Score.C74_bic_parent_order",
    "CL.Score.C74_bdeu_formula",
    "CL.Score.C74_bdeu_score_equivalent",
    "CL.Score.C74_bdeu_parent_order",
    "CL.Score.C74_bdeu_default_states",
    "CL.Score.C74_bic_score_equivalent_real",
    "CL.Score.C74_bic_least_squares",
    "CL.Score.C74_ges_bic_score",
    "CL.Score.C74_example"
   ],
   "note": "Proved over any field for the abstract log (and over the reals with Real.log for every positive definite covariance); no rounding. lgamma is an arbitrary function."
  },
  {
   "property": "C75",
   "status": "partial",
   "theorems": [
    "CL.Calm.C75_acyclic_partial",
    "CL.Calm.C75_seven_variables_partial",
    "CL.Calm.C75_stop_rule",
    "CL.Calm.C75_tolerance_violated",
    "CL.Calm.C75_unconverged_violated"
   ],
   "note": "Proved when the loop ends with h <= htol and htol < d/(2d)^d (the default tolerance for up to 7 variables). Violated: at 8 variables a converged run can return a directed cycle, and a run that stops because rho > 1e16 is not checked at all. Optimiser and sigmoid arbitrary; exact arithmetic."
  },
  {
   "property": "C76",
   "status": "proved",
   "theorems": [
    "CL.FisherZ.C76_fisherz",
    "CL.FisherZ.C76_symmetric",
    "CL.FisherZ.C76_same_column",
    "CL.FisherZ.C76_range",
    "CL.FisherZ.C76_order",
    "CL.FisherZ.C76_one_iff",
    "CL.FisherZ.C76_no_power",
    "CL.FisherZ.C76_units",
    "CL.FisherZ.C76_testwise_deletion",
    "CL.FisherZ.C76_no_missing",
    "CL.FisherZ.C76_example"
   ],
   "note": "Exact real arithmetic (numerical rank decisions of np.linalg.inv not modelled); norm.cdf is an arbitrary function, strictly monotone with value 1/2 at 0 where that is needed."
  },
  {
   "property": "C77",
   "status": "proved",
   "theorems": [
    "CL.FisherZ.C77_dsep_pvalue",
    "CL.FisherZ.C77_pc_fisherz",
    "CL.FisherZ.C77_pc_faithful",
    "CL.FisherZ.C77_example"
   ],
   "note": "Exact real arithmetic. The errors are uncorrelated exactly in the sample (the sample stands for the population); sampling error is not modelled. Faithfulness is a hypothesis (FaithfulData), as in the theory of PC, and is met by the worked example. The independence of d-separated variables is proved from the linear equations (moralised ancestral graph argument), not assumed."
  },
  {
   "property": "C78",
   "status": "proved",
   "theorems": [
    "CL.C78_mec_check_dsep",
    "CL.C78_roundtrip_dsep",
    "CL.C78_cpdag_arrow",
    "CL.C78_pc_arrow",
    "CL.C78_ges_class"
   ],
   "note": "Builds on C23, C25, C26, C36, C64. The Verma-Pearl theorem is proved (moral criterion, covered edge reversals) in Proofs/VermaPearl; d-separation is the textbook definition of Spec/DSep."
  },
  {
   "property": "C79",
   "status": "proved",
   "theorems": [
    "CL.Ges.C79_ges_consistent",
    "CL.Exact.C79_dp_consistent",
    "CL.Exact.C79_astar_consistent"
   ],
   "note": "The theorem of Meek and Chickering (every independence map is reached by covered reversals and additions) is proved in Proofs/MeekChickering.lean. The parent limit must not bind (n ≤ maxP); GES's default is half the number of variables."
  },
  {
   "property": "C80",
   "status": "proved",
   "theorems": [
    "CL.Score.C80_bic_residual",
    "CL.Score.C80_bic_change",
    "CL.Score.C80_bic_locally_consistent",
    "CL.Score.C80_ges_bic",
    "CL.Score.C80_repeat_strong",
    "CL.Score.C80_ges_bic_faithful",
    "CL.Score.C80_dp_bic"
   ],
   "note": "Exact real arithmetic; errors exactly uncorrelated in the sample. GES always uses lambda = 2 (GES.py:113-114), whatever the caller passes."
  },
  {
   "property": "C81",
   "status": "proved",
   "theorems": [
    "CL.Perm.C81_trace",
    "CL.Perm.C81_boss",
    "CL.Perm.C81_grasp",
    "CL.Perm.C81_causal_order",
    "CL.Perm.C81_best_order",
    "CL.Perm.C81_boss_bic"
   ],
   "note": "With C61, C38 and C60; the separation of the selected parents is kept by every improving removal (contraction), and they are unique (intersection, weak union); local criterion for I-maps; Meek-Chickering for the best order. For GRaSP the statement is about runs that end (C60)."
  },
  {
   "property": "C82",
   "status": "partial",
   "theorems": [
    "CL.Perm.C82_boss_causal_partial",
    "CL.Perm.C82_boss_local_optimum_violated"
   ],
   "note": "False: moves that only tie are rejected (BOSS.py:204) and there is no backward phase, so BOSS can stay at an order whose DAG has too many edges: for 2->0<-3, 0->1 and columns 0,1,2,3 it returns a graph with 2 and 3 adjacent, for every shuffle. True when the columns are in causal order."
  },
  {
   "property": "C83",
   "status": "proved",
   "theorems": [
    "CL.Rcd.C83_fit"
   ],
   "note": "The tests (Shapiro-Wilk, Pearson, HSIC, MLHSICR) are arbitrary Boolean functions of residuals."
  },
  {
   "property": "C84",
   "status": "partial",
   "theorems": [
    "CL.Rcd.C84_acyclic_violated",
    "CL.Rcd.C84_acyclic_partial"
   ],
   "note": "False: only direct entries are compared, the lists are not transitively closed, so pairwise decisions can form a directed cycle. True when every unique sink the tests single out is a descendant of the others in some DAG."
  },
  {
   "property": "C85",
   "status": "partial",
   "theorems": [
    "CL.Rcd.C85_history_violated",
    "CL.Rcd.C85_history_partial"
   ],
   "note": "False: hu_history skips a set when its common ancestors are unchanged, but the sinks also depend on the ancestors of the single variables; a five-variable run misses an ancestor. True relative to the lists at the time the set was last examined, which had the same common ancestors."
  },
  {
   "property": "C86",
   "status": "proved",
   "theorems": [
    "CL.Camuv.C86_execute"
   ],
   "note": "Full, over abstract p-values (no NaN)."
  },
  {
   "property": "C87",
   "status": "partial",
   "theorems": [
    "CL.Camuv.C87_acyclic_violated",
    "CL.Camuv.C87_acyclic_partial"
   ],
   "note": "False in general (3-cycle witness: only direct relations are checked by check_identified_causality); proved when the child decisions are correct for some DAG."
  },
  {
   "property": "C88",
   "status": "proved",
   "theorems": [
    "CL.Camuv.C88_exhaustive"
   ],
   "note": "Full, for a child strictly better than the other admissible ones (ties are resolved by set order)."
  },
  {
   "property": "C89",
   "status": "proved",
   "theorems": [
    "CL.Parce.C89_fit"
   ],
   "note": "Full, over abstract HSIC values and coefficients (no NaN). (For one variable the code divides by zero; the quantifier excludes it.)"
  },
  {
   "property": "C90",
   "status": "partial",
   "theorems": [
    "CL.Parce.C90_best_partial",
    "CL.Parce.C90_two_violated",
    "CL.Parce.C90_prior_violated"
   ],
   "note": "Proved without prior knowledge while three or more variables are left (early exit harmless); false for two variables left (statistics with different null distributions compared) and with prior knowledge (only candidates are used as predictors)."
  },
  {
   "property": "C91",
   "status": "partial",
   "theorems": [
    "CL.Parce.C91_first_fit_partial",
    "CL.Parce.C91_second_fit_violated",
    "CL.Parce.C91_nan_violated",
    "CL.Parce.C91_symmetric_violated"
   ],
   "note": "First fit proved; false for later fits (partial orders are consumed), for NaN entries of the unknown block, and for no-path pairs that cancel."
  },
  {
   "property": "C92",
   "status": "proved",
   "theorems": [
    "CL.Pattern.C92_dag2pattern"
   ],
   "note": "Full."
  },
  {
   "property": "C93",
   "status": "proved",
   "theorems": [
    "CL.Mvpc.C93_detect_any_test",
    "CL.Mvpc.C93_detect_parents"
   ],
   "note": "Full, over abstract CI answers (set-based)."
  },
  {
   "property": "C94",
   "status": "proved",
   "theorems": [
    "CL.Mvpc.C94_correction_variables"
   ],
   "note": "Full for the choice of variables; the regressions on them are not modelled."
  },
  {
   "property": "C95",
   "status": "partial",
   "theorems": [
    "CL.Mvpc.C95_mvpc_partial",
    "CL.Mvpc.C95_with_knowledge_partial",
    "CL.Mvpc.C95_unstable_violated"
   ],
   "note": "Proved for stable=True and for uc_rule 1, 2; with stable=False and uc_rule=0 the program raises on such runs (witness). With knowledge, uc_rule=0 needs knowledge without double bans (C21's counterexample)."
  },
  {
   "property": "C96",
   "status": "proved",
   "theorems": [
    "CL.Effect.C96_causal_order",
    "CL.Effect.C96_within_tolerance"
   ],
   "note": "Full (exact arithmetic)."
  },
  {
   "property": "C97",
   "status": "proved",
   "theorems": [
    "CL.Effect.C97_propagated_effects",
    "CL.Effect.C97_effects_on_prediction",
    "CL.Effect.C97_linear_prediction"
   ],
   "note": "Full (exact arithmetic)."
  },
  {
   "property": "C98",
   "status": "partial",
   "theorems": [
    "CL.Effect.C98_optimal_intervention_partial",
    "CL.Effect.C98_never_stuck",
    "CL.Effect.C98_cancelling_row_violated"
   ],
   "note": "Proved when no variable with causes has a row that sums to zero; otherwise the program takes it for a root and returns a wrong value (witness). The random loop is never stuck in an acyclic model."
  },
  {
   "property": "C99",
   "status": "proved",
   "theorems": [
    "CL.TS.C99_structural_equation"
   ],
   "note": "Full (exact arithmetic; estimators are arbitrary functions)."
  },
  {
   "property": "C100",
   "status": "partial",
   "theorems": [
    "CL.TS.C100_varma_partial",
    "CL.TS.C100_omega_violated"
   ],
   "note": "Holds only with the reduced-form residuals in the moving-average terms; with the error variables it is false (witness), because np.dot's third argument is the output array."
  },
  {
   "property": "C101",
   "status": "partial",
   "theorems": [
    "CL.TS.C101_refit_partial",
    "CL.TS.C101_coefficients_kept_violated",
    "CL.TS.C101_refit_violated"
   ],
   "note": "Proved for objects created with given coefficients; otherwise every later fit keeps the coefficients of the first data set (general theorem and witness)."
  },
  {
   "property": "C102",
   "status": "partial",
   "theorems": [
    "CL.TS.C102_total_effects_partial",
    "CL.TS.C102_lags_violated"
   ],
   "note": "Proved for contemporaneous effects and one lag. With more lags the lag-1 block holds the effects of the last lag and the other blocks are zero (general theorem)."
  },
  {
   "property": "C103",
   "status": "partial",
   "theorems": [
    "CL.TS.C103_lagged_regressors_partial",
    "CL.TS.C103_future_violated"
   ],
   "note": "Proved for rows/time points with enough past. For the others np.roll and negative indices give observations from the end of the series (general theorem)."
  },
  {
   "property": "C104",
   "status": "partial",
   "theorems": [
    "CL.TS.C104_longitudinal_partial",
    "CL.TS.C104_nan_violated"
   ],
   "note": "Proved for time points with at least n_lags predecessors. For earlier ones only one entry is NaN and the others come from regressions on later time points (witness)."
  },
  {
   "property": "C105",
   "status": "proved",
   "theorems": [
    "CL.DagC.C105_edge_queries_exact",
    "CL.DagC.C105_triples"
   ],
   "note": "Full."
  },
  {
   "property": "C106",
   "status": "partial",
   "theorems": [
    "CL.DagC.C106_get_ancestors_exact",
    "CL.DagC.C106_get_ancestors_history",
    "CL.DagC.C106_is_ancestor_of_partial",
    "CL.DagC.C106_is_ancestor_of_violated"
   ],
   "note": "get_ancestors: full. is_ancestor_of: proved for histories that only add edges into nodes without outgoing edges; false in general: misses paths, keeps removed and reversed edges (witnesses)."
  },
  {
   "property": "C107",
   "status": "partial",
   "theorems": [
    "CL.DagC.C107_causal_ordering_partial",
    "CL.DagC.C107_cycle_violated",
    "CL.DagC.C107_three_cycle_violated"
   ],
   "note": "Proved for histories whose edges happen to be acyclic. Cycles are accepted, denied by exists_directed_cycle, and make get_causal_ordering run forever (general theorem and witness)."
  },
  {
   "property": "C108",
   "status": "partial",
   "theorems": [
    "CL.DagC.C108_remove_node_violated",
    "CL.DagC.C108_remove_node_partial",
    "CL.DagC.C108_subgraph_partial",
    "CL.DagC.C108_subgraph_violated"
   ],
   "note": "Proved for removing the last node (or nodes not followed by a node with edges) and for subgraphs that leave out one node. remove_node raises whenever an edge remains at a later node; subgraph with two nodes left out raises or moves edges to a wrong node (general theorems)."
  },
  {
   "property": "C109",
   "status": "partial",
   "theorems": [
    "CL.DagC.C109_dag2pag_violated"
   ],
   "note": "False: it raises exactly when two observed nodes are linked neither by an edge nor by a single unobserved node (characterisation proved for all inputs)."
  },
  {
   "property": "C110",
   "status": "proved",
   "theorems": [
    "CL.GIN.C110_gin_output",
    "CL.GIN.C110_gin_graph"
   ],
   "note": "Full, relative to the tests the code performs (which tests it performs is C111)."
  },
  {
   "property": "C111",
   "status": "partial",
   "theorems": [
    "CL.GIN.C111_order_partial",
    "CL.GIN.C111_right_columns_partial",
    "CL.GIN.C111_tested_sets_partial",
    "CL.GIN.C111_last_two_columns_ignored_violated",
    "CL.GIN.C111_wrong_cluster_violated"
   ],
   "note": "Proved: the order is the greedy maximal one for the performed tests, and the tests are the prescribed ones when Z is the first |Z| columns. False in general: the loops test columns 0..|Z|-1 instead of Z; for every input the outcome does not depend on the tests of the last two variables at all, and a witness accepts a pair whose residual depends on all other variables."
  },
  {
   "property": "C112",
   "status": "proved",
   "theorems": [
    "CL.GIN.C112_gin_mi"
   ],
   "note": "Full under the stated bounds on the statistics (initial values of the minima)."
  },
  {
   "property": "C113",
   "status": "proved",
   "theorems": [
    "CL.C113_labels"
   ],
   "note": "All mixed graphs with tails, arrowheads and circles. The nl criterion is stated exactly as the code decides it (C115 says what is wrong with it)."
  },
  {
   "property": "C114",
   "status": "proved",
   "theorems": [
    "CL.C114_definitely_direct",
    "CL.C114_direct_cause"
   ],
   "note": "The hypotheses are those C69 establishes for FCI runs; a run with a latent variable is shown to meet them."
  },
  {
   "property": "C115",
   "status": "partial",
   "theorems": [
    "CL.C115_no_latent_partial",
    "CL.C115_parent_violated",
    "CL.C115_path_violated"
   ],
   "note": "Proved when no parent of a is adjacent to b (the first criterion of defVisible). Violated otherwise: visibleEdgeHelper accepts any parent of a; witness run of fci without knowledge on a d-separation oracle where the edge has a latent confounder. Also violated the other way: the collider-path search always fails, so a visible edge gets pl."
  },
  {
   "property": "C116",
   "status": "proved",
   "theorems": [
    "CL.Kci.C116_kernel_psd",
    "CL.Kci.C116_gauss_strict",
    "CL.Kci.C116_case"
   ],
   "note": "Real arithmetic."
  },
  {
   "property": "C117",
   "status": "proved",
   "theorems": [
    "CL.Kci.C117_center",
    "CL.Kci.C117_gram_center",
    "CL.Kci.C117_rbf",
    "CL.Kci.C117_hsic_agree",
    "CL.Kci.C117_hsic_stat"
   ],
   "note": "Real arithmetic; the widths are arguments."
  },
  {
   "property": "C118",
   "status": "partial",
   "theorems": [
    "CL.Kci.C118_nonneg",
    "CL.Kci.C118_symmetric",
    "CL.Kci.C118_reorder",
    "CL.Kci.C118_affine_partial",
    "CL.Kci.C118_median_scale_violated"
   ],
   "note": "Violated for est_width='median': the width is taken before normalisation, so doubling x changes the statistic (two samples). Proved for the other rules; sample order for the median rule up to 1000 samples (then rows are drawn at random)."
  },
  {
   "property": "C119",
   "status": "proved",
   "theorems": [
    "CL.Kci.C119_linear",
    "CL.Kci.C119_linear_zero",
    "CL.Kci.C119_case"
   ],
   "note": "Real arithmetic."
  },
  {
   "property": "C120",
   "status": "partial",
   "theorems": [
    "CL.Kci.C120_pvalue_partial",
    "CL.Kci.C120_constant_violated",
    "CL.Kci.C120_moments",
    "CL.Kci.C120_moments_case",
    "CL.Kci.C120_simulated"
   ],
   "note": "Violated for constant x or y: the p-value is nan (0/0), which callers read as dependence. Proved: nan exactly for constant x or y, otherwise a number in [0,1] with the stated moments (cdf values in [0,1] assumed)."
  },
  {
   "property": "C121",
   "status": "partial",
   "theorems": [
    "CL.Kci.C121_matrices",
    "CL.Kci.C121_nonneg",
    "CL.Kci.C121_affine",
    "CL.Kci.C121_moments",
    "CL.Kci.C121_scaled",
    "CL.Kci.C121_pvalue_partial",
    "CL.Kci.C121_constant_violated"
   ],
   "note": "Violated for constant y: p-value nan. Otherwise proved: whenever a number is returned it is in [0,1] with positive gamma parameters."
  },
  {
   "property": "C122",
   "status": "partial",
   "theorems": [
    "CL.Kci.C122_symmetric_violated",
    "CL.Kci.C122_symmetric_partial",
    "CL.Kci.C122_kwargs_partial",
    "CL.Kci.C122_null_ss_violated"
   ],
   "note": "Violated twice: half of z is appended to x but not to y (witness: five samples, linear kernels); null_ss raises TypeError because the parameter of KCI_CInd is called nullss. Proved: symmetric for given matrices; the constructor succeeds exactly without null_ss."
  },
  {
   "property": "C123",
   "status": "proved",
   "theorems": [
    "CL.Lingam.C123_pwling_units",
    "CL.Lingam.C123_kernel_units"
   ],
   "note": "Real arithmetic; constant columns (nan in numpy) divide by zero, which is 0 in Lean."
  },
  {
   "property": "C124",
   "status": "partial",
   "theorems": [
    "CL.Lingam.C124_residual_cov_partial",
    "CL.Lingam.C124_residual_correlated_violated",
    "CL.Lingam.C124_residual_self_violated"
   ],
   "note": "Violated: np.cov divides by n-1 and np.var by n, so the residual has covariance -cov(x_i,x_j)/(n-1) with x_j; it is zero only if it was zero before. With two samples the residual of a variable on itself is its negative."
  },
  {
   "property": "C125",
   "status": "proved",
   "theorems": [
    "CL.Lingam.C125_antisymmetric",
    "CL.Lingam.C125_chosen_minimises",
    "CL.Lingam.C125_dominant_chosen",
    "CL.Lingam.C125_two_variables",
    "CL.Lingam.C125_relabel"
   ],
   "note": "For fits without prior knowledge."
  },
  {
   "property": "C126",
   "status": "proved",
   "theorems": [
    "CL.Lingam.C126_kernel_nonneg",
    "CL.Lingam.C126_kernel_symmetric",
    "CL.Lingam.C126_kernel_log_det",
    "CL.Lingam.C126_kernel_shift"
   ],
   "note": "Real arithmetic."
  },
  {
   "property": "C127",
   "status": "partial",
   "theorems": [
    "CL.Lingam.C127_group_order",
    "CL.Lingam.C127_replicate",
    "CL.Lingam.C127_group_units",
    "CL.Lingam.C127_chosen_minimises",
    "CL.Lingam.C127_common_order",
    "CL.Lingam.C127_first_fit_prior_partial",
    "CL.Lingam.C127_second_fit_violated"
   ],
   "note": "Prior knowledge is violated by every fit after the first (hence by bootstrap): the partial orders are consumed; witness on concrete data. The rest is proved."
  },
  {
   "property": "C128",
   "status": "partial",
   "theorems": [
    "CL.Granger.C128_off_diagonal_partial",
    "CL.Granger.C128_rounding_violated",
    "CL.Granger.C128_diagonal_violated",
    "CL.Granger.C128_two_dimensional"
   ],
   "note": "Violated: p-values are rounded to four digits before the comparison (0.00996 is not below 0.01), and the diagonal, which is never tested, is reported as significant at every lag with p-value 0. Proved for different variables up to the rounding."
  },
  {
   "property": "C129",
   "status": "proved",
   "theorems": [
    "CL.Granger.C129_design",
    "CL.Granger.C129_coefficients",
    "CL.Granger.C129_no_lag"
   ],
   "note": "The lasso is an arbitrary function."
  },
  {
   "property": "C130",
   "status": "proved",
   "theorems": [
    "CL.C130_sepset_none_iff",
    "CL.C130_sepset_sound"
   ],
   "note": "For graphs without latent nodes; latent nodes are C131."
  },
  {
   "property": "C131",
   "status": "partial",
   "theorems": [
    "CL.C131_latent_violated",
    "CL.C131_type_ignored_violated"
   ],
   "note": "Violated: the code compares the bound method b.get_node_type (without a call) with LATENT, so the node type has no influence; witness with a latent chain node, and the result is the same for all node types."
  },
  {
   "property": "C132",
   "status": "partial",
   "theorems": [
    "CL.Lingam.C132_terminates",
    "CL.Lingam.C132_cycle_raises",
    "CL.Lingam.C132_cycle_through_source_violated",
    "CL.Lingam.C132_longer_cycle_violated"
   ],
   "note": "Termination is proved for every matrix, and the error whenever the cycle can be reached without meeting the target and without returning to the source. Violated for cycles through the source: its list is consumed without a copy, and a walk visiting the source twice is returned as a path."
  },
  {
   "property": "C133",
   "status": "partial",
   "theorems": [
    "CL.C133_triangles_exact",
    "CL.C133_kites_exact",
    "CL.C133_causal_graph_exact",
    "CL.C133_dag_triples_violated"
   ],
   "note": "Proved for all functions except GraphUtils.find_unshielded_triples, which is violated: on every DAG it returns the empty list, because node4 is read from the wrong end of the second edge."
  },
  {
   "property": "C134",
   "status": "partial",
   "theorems": [
    "CL.C134_sdh_raises_iff",
    "CL.C134_sdh_value",
    "CL.C134_symmetric_partial",
    "CL.C134_common_gap_raises_violated",
    "CL.C134_reversal_violated",
    "CL.C134_first_node_violated",
    "CL.C134_self_violated"
   ],
   "note": "Symmetry is proved, and the exact value and the exact condition for the AttributeError. Violated: a pair absent in both graphs raises, reversed edges cost nothing, the edges of the first node are not compared, and a graph with a bidirected edge has distance 2 to itself."
  },
  {
   "property": "C135",
   "status": "proved",
   "theorems": [
    "CL.C135_adjacency_fractions",
    "CL.C135_arrow_fractions",
    "CL.C135_common_edge_fractions"
   ],
   "note": "Exact rationals instead of floats."
  },
  {
   "property": "C136",
   "status": "proved",
   "theorems": [
    "CL.Lingam.C136_dag_counts",
    "CL.Lingam.C136_checks"
   ],
   "note": "np.argsort(-counts) is any descending reordering."
  },
  {
   "property": "C137",
   "status": "partial",
   "theorems": [
    "CL.Lingam.C137_total_effects_partial",
    "CL.Lingam.C137_median_violated"
   ],
   "note": "Proved without a threshold. Violated with one: the median is taken over all non-zero effects, also those the threshold excludes."
  },
  {
   "property": "C138",
   "status": "partial",
   "theorems": [
    "CL.Lingam.C138_paths_partial",
    "CL.Lingam.C138_min_effect_violated"
   ],
   "note": "Proved for min_causal_effect = 0 (the default). Violated otherwise: the argument is ignored."
  },
  {
   "property": "C139",
   "status": "proved",
   "theorems": [
    "CL.Lingam.C139_identifies",
    "CL.Lingam.C139_paths_add_up",
    "CL.Lingam.C139_bootstrap_matrix"
   ],
   "note": "The regression (adaptive lasso in the code) is assumed to satisfy the normal equations; arithmetic is exact and the errors are uncorrelated in the sample."
  },
  {
   "property": "C140",
   "status": "proved",
   "theorems": [
    "CL.Lingam.C140_error_p_values"
   ],
   "note": "hsic_test_gamma is a parameter (see C116-C122 for the test itself)."
  },
  {
   "property": "C141",
   "status": "partial",
   "theorems": [
    "CL.TsP.C141_var_pruning_partial",
    "CL.TsP.C141_dropped_lags_violated",
    "CL.TsP.C141_more_lags_violated"
   ],
   "note": "The adaptive lasso is an arbitrary function. Proved when the attribute lags equals the number of coefficient matrices. Violated otherwise: fit prunes before it updates lags, so coefficients of dropped lags vanish silently, and given coefficients with more lags raise an error."
  },
  {
   "property": "C142",
   "status": "partial",
   "theorems": [
    "CL.TsP.C142_varma_pruning_partial",
    "CL.TsP.C142_given_coefs_violated",
    "CL.TsP.C142_wrapped_past_violated"
   ],
   "note": "Proved for as many errors as observations. Violated: with given coefficients and q >= 1 pruning always raises (fewer errors than rows), and the past of the first rows is taken from the end of the series."
  },
  {
   "property": "C143",
   "status": "partial",
   "theorems": [
    "CL.TsP.C143_total_effect_regressors_partial",
    "CL.TsP.C143_varma_lag_violated"
   ],
   "note": "Proved for VAR, Longitudinal and for VARMA without lag. Violated for VARMA with a lag: `from` is always taken at t-1, and a parent in psi_p is replaced by an error term. NaN matrices of Longitudinal LiNGAM count as zero (comparisons with NaN are false)."
  },
  {
   "property": "C144",
   "status": "proved",
   "theorems": [
    "CL.LB.C144_total_effects",
    "CL.LB.C144_direction_counts",
    "CL.LB.C144_probabilities"
   ],
   "note": "estimate_total_effect is a parameter; np.argsort(-counts) is any descending reordering."
  },
  {
   "property": "C145",
   "status": "proved",
   "theorems": [
    "CL.TsP.C145_criterion"
   ],
   "note": "Values of minus infinity are not modelled."
  },
  {
   "property": "C146",
   "status": "partial",
   "theorems": [
    "CL.Nx.C146_nx_graph_partial",
    "CL.Nx.C146_nx_skeleton",
    "CL.Nx.C146_matrix_diff_partial",
    "CL.Nx.C146_bidirected_violated",
    "CL.Nx.C146_stale_violated"
   ],
   "note": "Proved for new objects, and for matrix_diff on graphs with directed and undirected edges. Violated: matrix_diff does not tell <-> from ---; a second call of to_nx_graph keeps stale edges."
  },
  {
   "property": "C147",
   "status": "partial",
   "theorems": [
    "CL.Tetrad.C147_roundtrip_partial",
    "CL.Tetrad.C147_one_variable_violated"
   ],
   "note": "Text as lists of characters; pandas.read_csv on texts without tabs and quotes. Proved for two or more variables. Violated for one variable: the matrix read back is empty, as the line of names has no separator."
  },
  {
   "property": "C148",
   "status": "proved",
   "theorems": [
    "CL.Tetrad.C148_read_edges"
   ],
   "note": "The counter of bidirected edges is only printed and is left out."
  },
  {
   "property": "C149",
   "status": "proved",
   "theorems": [
    "CL.Tetrad.C149_rearrange"
   ],
   "note": "The column numbers are given (parsing of the header left out). The loop starts at 1; the missing column keeps the initial value 0, which is right for permutations."
  },
  {
   "property": "C150",
   "status": "partial",
   "theorems": [
    "CL.Lingam.C150_soft_pwling",
    "CL.Lingam.C150_kernel_ignores_violated"
   ],
   "note": "Proved for pwling. The kernel measure never uses the soft knowledge: the set of variables it would exempt never contains the candidate."
  },
  {
   "property": "C151",
   "status": "proved",
   "theorems": [
    "CL.CvScore.C151_fold",
    "CL.CvScore.C151_each_once",
    "CL.CvScore.C151_sizes"
   ],
   "note": "C151. In every fold the test rows and the training rows together are all rows, each once; the numbers nv and T - nv the formulas use are their numbers."
  },
  {
   "property": "C152",
   "status": "partial",
   "theorems": [
    "CL.CvScore.C152_centred",
    "CL.CvScore.C152_not_centred_violated",
    "CL.CvScore.C152_parents_not_centred_violated"
   ],
   "note": "Violated: H0 * K * H0 multiplies entry by entry. Proved of the code: the diagonal is (1-1/T)^2, the other entries lie in (0, 1/T^2], and all row sums are positive."
  },
  {
   "property": "C153",
   "status": "partial",
   "theorems": [
    "CL.CvScore.C153_defined",
    "CL.CvScore.C153_constant_violated",
    "CL.CvScore.C153_few_samples_violated"
   ],
   "note": "Proved for 2 <= k <= T and non-constant columns. Violated: a constant column gives NaN; without parents a single fold, or more folds than samples, raises ZeroDivisionError."
  },
  {
   "property": "C154",
   "status": "proved",
   "theorems": [
    "CL.CvScore.C154_units",
    "CL.CvScore.C154_parent_order"
   ],
   "note": "Exact arithmetic."
  },
  {
   "property": "C155",
   "status": "partial",
   "theorems": [
    "CL.CvScore.C155_multi_dim_violated",
    "CL.CvScore.C155_one_dim",
    "CL.CvScore.C155_no_parents_violated"
   ],
   "note": "Violated: for two or more dimensions the shapes never fit. With one dimension the distances can be formed, but cv_multi without parents raises for k >= 3 and T >= 2k."
  },
  {
   "property": "C156",
   "status": "proved",
   "theorems": [
    "CL.CvScore.C156_lower_bound"
   ],
   "note": "Whenever the score is a number (see C153)."
  },
  {
   "property": "C157",
   "status": "proved",
   "theorems": [
    "CL.C157_uc_sepset",
    "CL.C157_maxp",
    "CL.C157_definite_maxp"
   ],
   "note": "C157. uc_sepset with priority 3 or 4, on any skeleton and with any test results, consistent or not: a candidate (no recorded separating set contains the middle) whose evidence is stronger than that of every candidate in conflict with it becomes a collider."
  },
  {
   "property": "C158",
   "status": "proved",
   "theorems": [
    "CL.Conf.C158_p_values"
   ],
   "note": "C158 get_error_independence_p_values of BottomUpParceLiNGAM and RCD: the matrix is symmetric with zeros on the diagonal; the entry of two variables is NaN if one of them occurs in a NaN entry of the adjacency matrix; otherwise it is the p-value of the test of their real-valued errors (data minus the model's prediction), and NaN only if the test says so."
  },
  {
   "property": "C159",
   "status": "proved",
   "theorems": [
    "CL.Conf.C159_parce",
    "CL.Conf.C159_rcd"
   ],
   "note": "C159 BottomUpParceLiNGAM: on a fitted object estimate_total_effect never raises for variables of the data. It is NaN exactly for a source in the block of unknown order, whatever the destination; for any other source it is the coefficient of the source in the regression of the destination on the source and the variables with a non-zero coefficient in the row of the source."
  },
  {
   "property": "C160",
   "status": "partial",
   "theorems": [
    "CL.Conf.C160_parce_partial",
    "CL.Conf.C160_block_violated",
    "CL.Conf.C160_rcd",
    "CL.Conf.C160_rcd_samples_violated"
   ],
   "note": "Proved: entries for ordered pairs, 0 otherwise. Violated: inside the block of unknown order the matrix has 0 where estimate_total_effect says NaN; RCD draws N - n_sampling rows without replacement, so any two samples share at least N - 2 n_sampling rows, and it raises for n_sampling >= N."
  },
  {
   "property": "C161",
   "status": "partial",
   "theorems": [
    "CL.Conf.C161_effects",
    "CL.Conf.C161_bootstrap",
    "CL.Conf.C161_p_values",
    "CL.Conf.C161_accepted",
    "CL.Conf.C161_sizes_violated",
    "CL.Conf.C161_panel"
   ],
   "note": "Violated: groups with different numbers of samples are rejected (np.array of a ragged list, numpy >= 1.24)."
  },
  {
   "property": "C162",
   "status": "partial",
   "theorems": [
    "CL.Hsic.C162_symmetric",
    "CL.Hsic.C162_units",
    "CL.Hsic.C162_order_partial",
    "CL.Hsic.C162_order_violated"
   ],
   "note": "Proved except: hsic_test_gamma with more than 100 samples takes its kernel widths from the first 100 rows only, so the order of the samples matters (witness: the same 101 samples in two orders give NaN and a number)."
  },
  {
   "property": "C163",
   "status": "partial",
   "theorems": [
    "CL.Hsic.C163_pvalue_partial",
    "CL.Hsic.C163_few_samples_violated",
    "CL.Hsic.C163_first_rows_violated",
    "CL.Hsic.C163_decision"
   ],
   "note": "Violated: at most three samples raise ZeroDivisionError, four and five give NaN, and hsic_test_gamma gives NaN if a variable is constant on the first 100 rows. From six samples on proved, except the degenerate case where the centred kernel matrices have no common non-zero off-diagonal entry (NaN)."
  },
  {
   "property": "C164",
   "status": "partial",
   "theorems": [
    "CL.Pairwise.C164_swap",
    "CL.Pairwise.C164_pvalues_partial",
    "CL.Pairwise.C164_noiseless_violated"
   ],
   "note": "Violated: a perfect fit (no noise) gives NaN for the true direction, as does a constant variable. Otherwise proved."
  },
  {
   "property": "C165",
   "status": "partial",
   "theorems": [
    "CL.Pairwise.C165_blind_violated",
    "CL.Pairwise.C165_answers_violated",
    "CL.Pairwise.C165_means_violated"
   ],
   "note": "Violated for every input: the code calls scipy.stats.ttest_ind, which compares means: re-pairing cause and noise leaves it unchanged, a noise equal to the cause gets the largest p-value, and adding a constant to the noise moves it arbitrarily."
  },
  {
   "property": "C166",
   "status": "partial",
   "theorems": [
    "CL.Pairwise.C166_untrained_violated",
    "CL.Pairwise.C166_prefix",
    "CL.Pairwise.C166_epoch"
   ],
   "note": "Violated: drop_last drops the samples after the last multiple of 128, in every epoch the same; with fewer than 128 samples the networks are never trained. Proved: every epoch uses each earlier sample exactly once, in order."
  },
  {
   "property": "C167",
   "status": "partial",
   "theorems": [
    "CL.FastKci.C167_pvalue_partial",
    "CL.FastKci.C167_many_violated"
   ],
   "note": "Proved for fewer than 2 million repetitions. Violated beyond: the weights are rounded to six decimals, so 2 million equal repetitions all get weight 0 and np.average raises ZeroDivisionError."
  },
  {
   "property": "C168",
   "status": "proved",
   "theorems": [
    "CL.FastKci.C168_null_mean",
    "CL.FastKci.C168_one_block",
    "CL.FastKci.C168_partition"
   ],
   "note": "Proved."
  },
  {
   "property": "C169",
   "status": "partial",
   "theorems": [
    "CL.FastKci.C169_constant_violated",
    "CL.FastKci.C169_small_blocks_violated"
   ],
   "note": "Violated for every such input: a constant variable gives statistic 0 and only zeros as null samples, and blocks with fewer than six samples are skipped; the strict comparison 0 > 0 then makes the p-value 0."
  },
  {
   "property": "C170",
   "status": "partial",
   "theorems": [
    "CL.FastKci.C170_single_partial",
    "CL.FastKci.C170_unanimous_partial",
    "CL.FastKci.C170_average_violated"
   ],
   "note": "Proved for one repetition. Violated with two: null samples of different repetitions are averaged before counting, so two repetitions with p = 1/2 each can give p = 0."
  },
  {
   "property": "C171",
   "status": "proved",
   "theorems": [
    "CL.Rcit.C171_units"
   ],
   "note": "Proved."
  },
  {
   "property": "C172",
   "status": "partial",
   "theorems": [
    "CL.Rcit.C172_order_partial",
    "CL.Rcit.C172_order_violated"
   ],
   "note": "Proved for up to 500 samples. Violated beyond: the kernel width is computed from the first 500 rows only (witness: one order gives NaN, another a number)."
  },
  {
   "property": "C173",
   "status": "proved",
   "theorems": [
    "CL.Rcit.C173_regularised",
    "CL.Rcit.C173_conditional"
   ],
   "note": "Proved."
  },
  {
   "property": "C174",
   "status": "partial",
   "theorems": [
    "CL.Rcit.C174_range_partial",
    "CL.Rcit.C174_constant_violated",
    "CL.Rcit.C174_perm_violated",
    "CL.Rcit.C174_single_feature_violated"
   ],
   "note": "Range proved. Violated: a constant variable gives NaN; the permutation test with two samples always gives p = 0 (only strictly larger statistics count); one feature replaces the chosen approximation silently by hbe."
  },
  {
   "property": "C175",
   "status": "partial",
   "theorems": [
    "CL.ExactBic.C175_score_partial",
    "CL.ExactBic.C175_parsimony",
    "CL.ExactBic.C175_units",
    "CL.ExactBic.C175_centred_partial",
    "CL.ExactBic.C175_search_partial",
    "CL.ExactBic.C175_collinear_violated",
    "CL.ExactBic.C175_shift_violated"
   ],
   "note": "Proved for linearly independent parents fewer than the samples, and recovery for centred data. Violated: linearly dependent parents (or at least as many as samples) get minus infinity, the best score; there is no intercept, so two unrelated variables with mean 9 are joined by an edge."
  },
  {
   "property": "C176",
   "status": "partial",
   "theorems": [
    "CL.Lingam.C176_coefficients",
    "CL.Lingam.C176_order_partial",
    "CL.Lingam.C176_pair_violated",
    "CL.Lingam.C176_single_violated"
   ],
   "note": "Coefficients proved. The order is right for every edge if some pair is not adjacent, otherwise for every edge except possibly one of least weight. Violated: with two variables the order is always [0, 1]; with one variable no order is found (None) and the fit raises. One entry more than n(n+1)/2 is zeroed before the first search."
  },
  {
   "property": "C177",
   "status": "proved",
   "theorems": [
    "CL.Cit.C177_last_registration",
    "CL.Cit.C177_builtin",
    "CL.Cit.C177_rejected"
   ],
   "note": "Proved."
  },
  {
   "property": "C178",
   "status": "partial",
   "theorems": [
    "CL.Cit.C178_no_wrong_answers",
    "CL.Cit.C178_restart_partial",
    "CL.Cit.C178_interrupted_save_violated",
    "CL.Cit.C178_bare_name_violated"
   ],
   "note": "Answers proved exact in every history. Without a crash inside a save every restart works. Violated: a crash while the file is written, at whatever character, makes it unreadable for good: every later construction raises and all saved p-values are lost; a cache file given by a bare name cannot be created (os.makedirs('') raises)."
  },
  {
   "property": "C179",
   "status": "partial",
   "theorems": [
    "CL.Cit.C179_answers",
    "CL.Cit.C179_pc",
    "CL.Cit.C179_stale_violated"
   ],
   "note": "Proved (also for the comparison-based rules, which a comment in the source says do not work), with caches of the same DAG. Violated: the cache file does not record the DAG: a query saved with one true DAG is answered by it for every other true DAG."
  },
  {
   "property": "C180",
   "status": "partial",
   "theorems": [
    "CL.Cit.C180_other_data_partial",
    "CL.Cit.C180_summary_violated"
   ],
   "note": "Refused if the printed texts (and their hashes) differ. Violated: the hash is taken of numpy's printed text, which shows only the first and last three rows of more than 1000 entries: data sets that differ in all other samples, or in their number, share cached p-values."
  },
  {
   "property": "C181",
   "status": "partial",
   "theorems": [
    "CL.C181_directed_edge_partial",
    "CL.C181_directed_edge_violated",
    "CL.C181_max_degree",
    "CL.C181_connected_edges",
    "CL.C181_trek_sound_partial",
    "CL.C181_trek_violated"
   ],
   "note": "Degree queries proved. get_directed_edge is right for a -> b, undirected and absent edges; violated: it also returns b -> a and a <-> b. exists_trek is sound, but misses treks (witness)."
  },
  {
   "property": "C182",
   "status": "partial",
   "theorems": [
    "CL.C182_transfer_partial",
    "CL.C182_circle_tail_violated"
   ],
   "note": "Proved for graphs without doubled edges and without an edge that has a circle at the earlier and a tail at the later node; violated for such an edge: it is lost."
  },
  {
   "property": "C183",
   "status": "partial",
   "theorems": [
    "CL.GHeap.C183_private_list_partial",
    "CL.GHeap.C183_add_node_violated",
    "CL.GHeap.C183_add_node",
    "CL.GHeap.C183_compare_violated",
    "CL.GHeap.C183_remove_node_violated",
    "CL.GHeap.C183_remove_all_violated",
    "CL.GHeap.C183_set_nodes_violated"
   ],
   "note": "Proved for graphs whose node list is not shared. Violated: graphs made from one list (for instance G and dag2cpdag(G)) share it: add_node on one gives the other a node without a row, remove_node makes the other name wrong neighbours; G.remove_nodes(G.get_nodes()) keeps every second node; set_nodes leaves the dictionary unchanged, so the new names are unknown. What add_node does to the graph itself, and that == sorts both lists under unchanged dictionaries, is also proved."
  },
  {
   "property": "C184",
   "status": "partial",
   "theorems": [
    "CL.Draw.C184_pydot",
    "CL.Draw.C184_injective",
    "CL.Draw.C184_labels",
    "CL.Draw.C184_colours",
    "CL.Draw.C184_pgv_violated",
    "CL.Draw.C184_pgv_partial"
   ],
   "note": "to_pydot proved for graphs with single edges (never raises, exact, injective), with labels and colours. to_pgv draws the same on them; violated for a pair joined by a directed and a bidirected edge: the strict pygraphviz graph loses the directed edge if it runs from the earlier to the later node."
  },
  {
   "property": "C185",
   "status": "partial",
   "theorems": [
    "CL.LinUtil.C185_arrows",
    "CL.LinUtil.C185_prediction",
    "CL.LinUtil.C185_unknown_partial",
    "CL.LinUtil.C185_unknown_violated",
    "CL.LinUtil.C185_parce",
    "CL.LinUtil.C185_rcd"
   ],
   "note": "Coefficient arrows proved. Double-headed arrows proved for symmetric NaNs, in particular for every matrix fitted by BottomUpParceLiNGAM and RCD; violated: a NaN above the diagonal alone is drawn as nothing at all. The arrows of the prediction model are exactly the requested ones (C185_prediction)."
  },
  {
   "property": "C186",
   "status": "proved",
   "theorems": [
    "CL.LinUtil.C186_exact",
    "CL.LinUtil.C186_exists",
    "CL.LinUtil.C186_prior"
   ],
   "note": "Proved; a matrix without cycles has at least one of each."
  },
  {
   "property": "C187",
   "status": "proved",
   "theorems": [
    "CL.LinUtil.C187_residuals",
    "CL.LinUtil.C187_unique",
    "CL.LinUtil.C187_sequential",
    "CL.LinUtil.C187_empty_violated"
   ],
   "note": "Proved (exact real arithmetic), including independence of the solver and the two-step (Frisch-Waugh) identity. An empty list of features raises."
  },
  {
   "property": "C188",
   "status": "proved",
   "theorems": [
    "CL.LinUtil.C188_adaptive"
   ],
   "note": "Proved (exact real arithmetic, solver assumed to return a minimiser of the lasso for the penalty it selects)."
  },
  {
   "property": "C189",
   "status": "partial",
   "theorems": [
    "CL.Gp.C189_no_parents",
    "CL.Gp.C189_one_parent",
    "CL.Gp.C189_two_parents_violated",
    "CL.Gp.C189_constant_violated"
   ],
   "note": "Proved for at most one non-constant parent, a non-constant variable and four samples or more: the value is the likelihood for the initial length scale and signal variance and some noise variance not worse than 0.1. Violated: two or more parents (unless as many as samples), constant columns and fewer than four samples raise an exception."
  },
  {
   "property": "C190",
   "status": "partial",
   "theorems": [
    "CL.Gp.C190_likelihood",
    "CL.Gp.C190_gradient_violated"
   ],
   "note": "The value is proved (every positive definite matrix has a factor, and all covariance matrices of the score are positive definite). Violated for the gradient: the derivative in the noise is computed from the diagonal of the inverse of the factor and is smaller than the true derivative for every input with two samples and one target; the other entries are zero."
  },
  {
   "property": "C191",
   "status": "partial",
   "theorems": [
    "CL.Mini.C191_best",
    "CL.Mini.C191_success_descends",
    "CL.Mini.C191_gives_up_violated",
    "CL.Mini.C191_minimum_violated"
   ],
   "note": "Best point, evaluation budget and unchanged coordinates with zero gradient proved. Violated: the slope is the product of the first entries only, so for a gradient whose first entry is zero (the Gaussian process score) every line search counts as failed, the search gives up after at most 41 evaluations and the column of values has only the first one; a quadratic function is left at 0.58 instead of 0.5."
  },
  {
   "property": "C192",
   "status": "proved",
   "theorems": [
    "CL.Gp.C192_units"
   ],
   "note": "Proved (exact real arithmetic), including the exceptional cases."
  },
  {
   "property": "C193",
   "status": "partial",
   "theorems": [
    "CL.TsB.C193_given",
    "CL.TsB.C193_coefficients_kept_violated",
    "CL.TsB.C193_order_kept_violated"
   ],
   "note": "Proved for objects constructed with both coefficient arrays. Violated in every other run: after a fit whose order has an autoregressive and a moving average part, all later fits use its coefficients; after one with a single part, later fits search only orders up to the one selected first."
  },
  {
   "property": "C194",
   "status": "partial",
   "theorems": [
    "CL.TsB.C194_series",
    "CL.TsB.C194_var_bootstrap",
    "CL.TsB.C194_object_violated",
    "CL.TsB.C194_crash_violated",
    "CL.TsB.C194_varma_one_part_violated",
    "CL.TsB.C194_varma_bootstrap",
    "CL.TsB.C194_varma_pruning_violated"
   ],
   "note": "Proved: the simulated series obeys the equation; the matrices of a VAR sample are those of the original coefficients with the instantaneous matrix of the resampled residuals, and the criterion is restored. Violated: afterwards the object is the model of the last sample; when a fit raises, the criterion stays None; VARMA bootstrap raises whenever the order has a single part, and whenever pruning is on."
  },
  {
   "property": "C195",
   "status": "proved",
   "theorems": [
    "CL.LB.C195_dag_counts",
    "CL.LB.C195_effects_forward"
   ],
   "note": "Proved."
  },
  {
   "property": "C196",
   "status": "partial",
   "theorems": [
    "CL.Rcd.C196_example",
    "CL.Rcd.C196_three_violated",
    "CL.Rcd.C196_recovers"
   ],
   "note": "Proved for max_explanatory_num 1 and 2 (2 is the default). Violated for 3 and more: with x1 = x0 + x4 + e1, x2 = x1 + e2, x3 = x0 + x4 + e3 RCD reports x3 as an ancestor of x2."
  },
  {
   "property": "C197",
   "status": "partial",
   "theorems": [
    "CL.Rcd.C197_pairs_sound",
    "CL.Rcd.C197_two_violated",
    "CL.Rcd.C197_example"
   ],
   "note": "Proved for max_explanatory_num = 1. Violated for the default 2 and for larger numbers: with x0 = h + e0, x1 = h + e1, x2 = x1 + e2 and h hidden, RCD reports x0 as an ancestor of x2."
  },
  {
   "property": "C198",
   "status": "proved",
   "theorems": [
    "CL.Parce.C198_order",
    "CL.Parce.C198_example"
   ],
   "note": "Proved."
  },
  {
   "property": "C199",
   "status": "proved",
   "theorems": [
    "CL.Parce.C199_hidden_sound",
    "CL.Parce.C199_example"
   ],
   "note": "Proved."
  },
  {
   "property": "C200",
   "status": "partial",
   "theorems": [
    "CL.Parce.C200_prior_violated"
   ],
   "note": "Refuted for an ideal test and every level: with prior knowledge the candidates are regressed on each other only, without the other variables left, so known causes act as hidden confounders."
  },
  {
   "property": "C201",
   "status": "proved",
   "theorems": [
    "CL.Camuv.C201_no_false_parents",
    "CL.Camuv.C201_recovers",
    "CL.Camuv.C201_example"
   ],
   "note": "Proved."
  },
  {
   "property": "C202",
   "status": "proved",
   "theorems": [
    "CL.Camuv.C202_pairs_sound",
    "CL.Camuv.C202_example"
   ],
   "note": "Proved for regressions on pairs. With num_explanatory_vals >= 3 the search can record a non-ancestor within a pass (it is dropped again by the final loop in all cases tried); not covered."
  },
  {
   "property": "C203",
   "status": "partial",
   "theorems": [
    "CL.Perm.C203_grasp_result",
    "CL.Perm.C203_dfs_false",
    "CL.Perm.C203_terminates_partial",
    "CL.Perm.C203_no_termination_violated"
   ],
   "note": "Result and undoing proved for the program with its list objects. Termination holds if scores that differ by less than the tolerance are equal; otherwise it is false: moves that each lose less than 1e-6 may precede an improving one, and with depth 3 a search can succeed and end where it began, for ever."
  },
  {
   "property": "C204",
   "status": "partial",
   "theorems": [
    "CL.Perm.C204_minimal_imap_partial",
    "CL.Perm.C204_causal_start_partial",
    "CL.Perm.C204_collider_violated"
   ],
   "note": "False: `for x in y_parents` iterates over the list that `update` overwrites, so parents are skipped, and `flipped` is not reset between siblings; for 0 -> 1 <- 2 there are shuffles (4 percent of them) with which grasp returns a complete graph. True for an initial order that lists causes before effects; in general the result is a minimal independence map."
  },
  {
   "property": "C205",
   "status": "partial",
   "theorems": [
    "CL.GIN.C205_clusters_are_blocks",
    "CL.GIN.C205_equal_sizes_violated",
    "CL.GIN.C205_interleaved_violated",
    "CL.GIN.C205_three_pairs_violated"
   ],
   "note": "False: the loop tests the columns 0..|Z|-1 instead of Z. Proved for all data: as soon as a residual is never judged independent of its own columns, every reported cluster is a block of consecutive columns, left-over variables are the first columns, and no two clusters have the same size; so two latents with two indicators each, or interleaved indicators, are never recovered."
  },
  {
   "property": "C206",
   "status": "partial",
   "theorems": [
    "CL.Lingam.C206_is_kernelOrder",
    "CL.Lingam.C206_large_samples",
    "CL.Lingam.C206_any_size_violated"
   ],
   "note": "Proved from some number of samples on, which depends on the model and the measure but not on the data. At a fixed number of samples it is false: the regression coefficient is too large by N/(N-1) (np.cov against np.var), so even the residual on the true cause shares its error; for every N >= 2 there is an ideal measure for which the effect comes first."
  },
  {
   "property": "C207",
   "status": "proved",
   "theorems": [
    "CL.Lingam.C207_is_directOrder",
    "CL.Lingam.C207_large_samples"
   ],
   "note": "Proved from some number of samples on, which depends on the model and the measure but not on the data."
  },
  {
   "property": "C208",
   "status": "proved",
   "theorems": [
    "CL.C208_general_graph",
    "CL.C208_dag",
    "CL.C208_example"
   ],
   "note": "Proved: marks and ancestor matrix are equal, so every theorem on edge histories also holds for graphs that grow. Nodes are numbered in the order of addition; adding the same node twice is not part of the histories."
  },
  {
   "property": "C209",
   "status": "partial",
   "theorems": [
    "CL.DagC.C209_transfer_marks",
    "CL.DagC.C209_transfer_ancestors_partial",
    "CL.DagC.C209_transfer_ancestors_violated",
    "CL.DagC.C209_other_edges_violated"
   ],
   "note": "The edges of a Dag arrive for every history; the ancestors are right if every edge leads to a later node. In general they are not: edges are re-added by row number, and in the chain 0->2->3->1 the receiver does not know that 0 is an ancestor of 1. Edges of other graphs that are not directed are dropped without a message."
  },
  {
   "property": "C210",
   "status": "proved",
   "theorems": [
    "CL.Lingam.C210_is_groupOrder",
    "CL.Lingam.C210_large_samples"
   ],
   "note": "With the entropies of the code the order is the order of the code (C210_is_groupOrder). That large samples are needed is shown in C206 (the residual is computed with the factor N/(N-1))."
  },
  {
   "property": "C211",
   "status": "partial",
   "theorems": [
    "CL.TS.C211_recovers",
    "CL.TS.C211_offset_violated"
   ],
   "note": "Proved for data without intercept. The regression has no intercept (trend='n'): the same data measured from another origin get wrong coefficients (C211_offset_violated); nothing is centred before."
  },
  {
   "property": "C212",
   "status": "proved",
   "theorems": [
    "CL.TS.C212_recovers"
   ],
   "note": "Only time points with t >= n_lags; for earlier ones the code takes regressors from the end of the series or too few of them (see C103). The measure is ideal; sklearn's LinearRegression is assumed to minimise the sum of squares."
  },
  {
   "property": "C213",
   "status": "proved",
   "theorems": [
    "CL.FisherZ.C213_symmetric",
    "CL.FisherZ.C213_complete_data",
    "CL.FisherZ.C213_resamples_causes",
    "CL.FisherZ.C213_units",
    "CL.FisherZ.C213_example"
   ],
   "note": "For queries without repeated variables. LinearRegression is assumed to give least squares residuals; for units and the linear model the correction variables are linearly independent in the complete rows."
  },
  {
   "property": "C214",
   "status": "partial",
   "theorems": [
    "CL.DagC.C214_nodes_into_out_of",
    "CL.DagC.C214_descendants_partial",
    "CL.DagC.C214_descendants_violated",
    "CL.DagC.C214_equality_partial",
    "CL.DagC.C214_equality_violated",
    "CL.DagC.C214_set_nodes_violated"
   ],
   "note": "The endpoint queries are proved. is_descendant_of misses paths when edges are added below existing ones (C106). __eq__ compares None with None, so names are ignored, and sorts both node lists in place without the matrix. set_nodes keeps the dictionary."
  },
  {
   "property": "C215",
   "status": "proved",
   "theorems": [
    "CL.Chi.C215_pvalue",
    "CL.Chi.C215_dsep_pvalue",
    "CL.Chi.C215_pc_faithful",
    "CL.Chi.C215_example"
   ],
   "note": "The survival function is any function that is 1 at 0 and strictly decreasing. The bound 2^63 is needed (C73_overflow_violated)."
  },
  {
   "property": "C216",
   "status": "proved",
   "theorems": [
    "CL.FisherZ.C216_fisherz_oracle",
    "CL.Chi.C216_chi_oracle",
    "CL.C216_fci_fisherz",
    "CL.C216_fci_chi",
    "CL.C216_cdnod_chi",
    "CL.C216_cdnod_fisherz",
    "CL.C216_iamb",
    "CL.C216_example_fci",
    "CL.C216_example_iamb",
    "CL.C216_example_cdnod"
   ],
   "note": "The marks of fci's result are the subject of C69 (partial)."
  },
  {
   "property": "C217",
   "status": "proved",
   "theorems": [
    "CL.C217_tiers_complete",
    "CL.C217_tier_object",
    "CL.C217_fisherz",
    "CL.C217_chi",
    "CL.C217_example"
   ],
   "note": "Every variable must be in a tier. For other kinds of knowledge maximality fails (C65)."
  },
  {
   "property": "C218",
   "status": "proved",
   "theorems": [
    "CL.C218_cdnod_complete",
    "CL.C218_chi",
    "CL.C218_fisherz",
    "CL.C218_example"
   ],
   "note": "Completes C52_cdnod_correct (soundness). Without further background knowledge."
  },
  {
   "property": "C219",
   "status": "partial",
   "theorems": [
    "CL.Kci.C219_weights",
    "CL.Kci.C219_mean_variance",
    "CL.Kci.C219_mean_variance_case",
    "CL.Kci.C219_pvalue_consistent",
    "CL.Kci.C219_half_violated",
    "CL.Kci.C219_constant_violated",
    "CL.Kci.C219_conditional_violated",
    "CL.Kci.C219_conditional"
   ],
   "note": "Moments proved for at most 1000 samples (unconditional), and for more product columns than samples (C221_kci covers the other case) (conditional); the p-value's convergence always. Violated: above 1000 samples only half of the eigenvalues are used, and the simulated mean can be a quarter of the mean of the gamma approximation; a constant variable gets p-value 0 (dependent) in the unconditional test, and an exception in the conditional one. With null_ss = 1 the code raises (not modelled)."
  },
  {
   "property": "C220",
   "status": "proved",
   "theorems": [
    "CL.CalmLoss.C220_bound",
    "CL.CalmLoss.C220_optimum",
    "CL.CalmLoss.C220_acyclic",
    "CL.CalmLoss.C220_true_model",
    "CL.CalmLoss.C220_loss",
    "CL.CalmLoss.C220_moral",
    "CL.CalmLoss.C220_units",
    "CL.CalmLoss.C220_standardize",
    "CL.CalmLoss.C220_two_variables",
    "CL.CalmLoss.C220_case"
   ],
   "note": "Exact real arithmetic; singular I - B (where torch gives +inf) excluded. The optimiser is not modelled here (see C75)."
  },
  {
   "property": "C221",
   "status": "partial",
   "theorems": [
    "CL.FastKci.C221_weights",
    "CL.FastKci.C221_kci",
    "CL.FastKci.C221_mean",
    "CL.FastKci.C221_constant_violated",
    "CL.FastKci.C221_case"
   ],
   "note": "Proved for partitions without degenerate block; also closes the case of C219 with at most n product columns (C221_kci). Violated: a variable y that is constant within a block leaves no eigenvalue, and the test raises."
  },
  {
   "property": "C222",
   "status": "proved",
   "theorems": [
    "CL.CalmLoss.C222_minimiser",
    "CL.CalmLoss.C222_exists",
    "CL.CalmLoss.C222_case"
   ],
   "note": "Exact minimisation over zero/one masks whose acyclicity term vanishes (what the sampled sigmoid masks relax); how far the optimiser gets is not modelled, and how small the penalty must be depends on the data."
  },
  {
   "property": "C223",
   "status": "proved",
   "theorems": [
    "CL.C223_oracle",
    "CL.C223_fisherz",
    "CL.C223_chi",
    "CL.C223_example"
   ],
   "note": "For collider rule 0 or the non-stable skeleton the knowledge must not speak for both directions of a pair (otherwise C16/C21's separating sets are missing). What Meek's fourth rule would add is not directed (C65)."
  },
  {
   "property": "C224",
   "status": "proved",
   "theorems": [
    "CL.Perm.C224_grasp",
    "CL.Perm.C224_grasp_causal",
    "CL.Perm.C224_boss_causal",
    "CL.Perm.C224_example"
   ],
   "note": "From other starts grasp and boss can stop at a graph with too many edges even with a consistent score (C204_collider_violated, C82_boss_local_optimum_violated), so only the minimal independence map is claimed there. The initial order is the shuffled one."
  },
  {
   "property": "C225",
   "status": "proved",
   "theorems": [
    "CL.C225_oracle",
    "CL.C225_fisherz",
    "CL.C225_chi",
    "CL.C225_example"
   ],
   "note": "Unlike PC (C223), knowledge that speaks for both directions of a pair does no harm, because CD-NOD's skeleton phase is run without the knowledge. What Meek's fourth rule would add is not directed (C65)."
  },
  {
   "property": "C226",
   "status": "partial",
   "theorems": [
    "CL.C226_marks",
    "CL.C226_kinds",
    "CL.C226_traverse",
    "CL.C226_equal",
    "CL.C226_equal_violated",
    "CL.C226_order_violated"
   ],
   "note": "The last two parts are false. Written from opposite ends, two objects are equal exactly when an arrowhead faces a tail or a circle; an undirected, bidirected or nondirected edge is not equal to itself written from the other end (C226_equal_violated). Of 0->3 and 1->2 each is smaller than the other (C226_order_violated), so sorting edge objects depends on their initial order."
  }
 ]
}