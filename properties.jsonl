{"id": "C01", "title": "add_edge is faithful", "statement": "If two distinct nodes a, b of a GeneralGraph are not adjacent, then after add_edge(Edge(a,b,m1,m2)) with marks m1,m2 in {TAIL,ARROW,CIRCLE} the graph reports an edge between a and b carrying exactly mark m1 at a and m2 at b, and nothing reported about any other pair of nodes changes.", "quantifier": "every graph size, every graph state, every pair of distinct non-adjacent nodes, every pair of marks", "why_tests_cant": "tests try a handful of mark pairs on small graphs; the claim is about every mark pair and about every untouched pair in every graph state", "anchors": ["causallearn/graph/GeneralGraph.py:GeneralGraph.add_edge", "causallearn/graph/Edge.py:Edge.__init__"]}
{"id": "C02", "title": "adjacency stays symmetric and loop-free", "statement": "After any sequence of edge additions and removals starting from an edgeless graph, a is adjacent to b exactly when b is adjacent to a, and no node is adjacent to itself provided no self-edge was added.", "quantifier": "every finite history of add_edge / add_directed_edge / remove_edge / remove_connecting_edge calls, every graph size", "why_tests_cant": "histories are unbounded", "anchors": ["causallearn/graph/GeneralGraph.py:GeneralGraph.add_edge", "causallearn/graph/GeneralGraph.py:GeneralGraph.remove_edge", "causallearn/graph/GeneralGraph.py:GeneralGraph.remove_connecting_edge", "causallearn/graph/GeneralGraph.py:GeneralGraph.is_adjacent_to"]}
{"id": "C03", "title": "remove_edge undoes add_edge", "statement": "Adding an edge between two non-adjacent nodes and then removing that same edge restores every reported adjacency and endpoint mark.", "quantifier": "every graph state, pair of distinct non-adjacent nodes and mark pair accepted by add_edge", "why_tests_cant": "ranges over all graph states", "anchors": ["causallearn/graph/GeneralGraph.py:GeneralGraph.add_edge", "causallearn/graph/GeneralGraph.py:GeneralGraph.remove_edge"]}
{"id": "C04", "title": "is_ancestor_of agrees with directed paths", "statement": "After any history of add_edge calls, is_ancestor_of(a,b) holds exactly when there is a directed path from a to b through the directed edges that were added.", "quantifier": "every graph size and every order of adding directed edges", "why_tests_cant": "the incremental closure depends on the insertion order; there are factorially many orders", "anchors": ["causallearn/graph/GeneralGraph.py:GeneralGraph.adjust_dpath", "causallearn/graph/GeneralGraph.py:GeneralGraph.reconstitute_dpath", "causallearn/graph/GeneralGraph.py:GeneralGraph.is_ancestor_of"]}
{"id": "C05", "title": "exists_directed_cycle detects directed cycles", "statement": "exists_directed_cycle() returns True exactly when the graph contains a directed cycle.", "quantifier": "every GeneralGraph", "why_tests_cant": "cycles of every length must be considered", "anchors": ["causallearn/graph/GeneralGraph.py:GeneralGraph.exists_directed_cycle", "causallearn/utils/GraphUtils.py:GraphUtils.exists_directed_path_from_to_breadth_first"]}
{"id": "C06", "title": "get_graph_edges lists every edge exactly once", "statement": "get_graph_edges() returns, for each unordered pair of adjacent nodes without doubled edges, exactly one edge with the stored marks, and no edge for non-adjacent pairs; get_num_edges() is the number of adjacent pairs.", "quantifier": "every graph without doubled edges", "why_tests_cant": "must hold in every graph state", "anchors": ["causallearn/graph/GeneralGraph.py:GeneralGraph.get_graph_edges", "causallearn/graph/GeneralGraph.py:GeneralGraph.get_num_edges", "causallearn/graph/GeneralGraph.py:GeneralGraph.get_edge"]}
{"id": "C07", "title": "parent, child and degree queries agree", "statement": "p is reported by get_parents(c) iff c is reported by get_children(p) iff is_parent_of(p,c) iff is_child_of(c,p), and the in/out-degree equals the number of reported parents/children.", "quantifier": "every graph with marks TAIL/ARROW/CIRCLE (no doubled edges)", "why_tests_cant": "must hold in every graph state", "anchors": ["causallearn/graph/GeneralGraph.py:GeneralGraph.get_parents", "causallearn/graph/GeneralGraph.py:GeneralGraph.get_children", "causallearn/graph/GeneralGraph.py:GeneralGraph.is_parent_of", "causallearn/graph/GeneralGraph.py:GeneralGraph.is_child_of", "causallearn/graph/GeneralGraph.py:GeneralGraph.get_indegree", "causallearn/graph/GeneralGraph.py:GeneralGraph.get_outdegree"]}
{"id": "C08", "title": "graph equality means same nodes and same edges", "statement": "g == h holds exactly when g and h have the same node names and the same edges, and comparing two graphs does not change either of them.", "quantifier": "every pair of graphs", "why_tests_cant": "equality is a relation over all pairs of graphs; the side effect shows only when a later query is made", "anchors": ["causallearn/graph/GeneralGraph.py:GeneralGraph.__eq__"]}
{"id": "C09", "title": "get_causal_ordering is a topological order", "statement": "For every acyclic graph, the causal order lists each node exactly once and every parent before its children; the computation terminates.", "quantifier": "every directed acyclic graph of any size", "why_tests_cant": "all DAGs", "anchors": ["causallearn/utils/GraphUtils.py:GraphUtils.get_causal_order", "causallearn/graph/GeneralGraph.py:GeneralGraph.get_causal_ordering"]}
{"id": "C10", "title": "is_dseparated_from decides d-separation", "statement": "For a DAG and node sets, is_dconnected_to(x,y,Z) terminates and returns True iff some path between x and y is active given Z (every non-collider outside Z, every collider an ancestor-or-self of Z).", "quantifier": "every DAG, x, y, Z", "why_tests_cant": "paths and conditioning sets are exponential in number; non-termination cannot be observed by a test", "anchors": ["causallearn/utils/GraphUtils.py:GraphUtils.is_dconnected_to", "causallearn/utils/GraphUtils.py:GraphUtils.reachable"]}
{"id": "C11", "title": "ChoiceGenerator enumerates all combinations once", "statement": "ChoiceGenerator(a,b).next() yields every b-element subset of {0..a-1} exactly once, as strictly increasing lists in lexicographic order, then None.", "quantifier": "all a >= b >= 0 and all call sequences", "why_tests_cant": "unbounded a, b", "anchors": ["causallearn/utils/ChoiceGenerator.py:ChoiceGenerator"]}
{"id": "C12", "title": "DepthChoiceGenerator enumerates all subsets up to depth once", "statement": "DepthChoiceGenerator(a,d).next() yields every subset of {0..a-1} with at most d elements (all subsets if d=-1) exactly once, by increasing size, then None.", "quantifier": "all a and depths", "why_tests_cant": "unbounded a, d", "anchors": ["causallearn/utils/DepthChoiceGenerator.py:DepthChoiceGenerator"]}
{"id": "C13", "title": "PriorityQueue returns the least live entry", "statement": "After any history of push/delete/pop, pop returns the entry with the least key among those pushed and not deleted, replaced or popped; get(item) returns the live entry of that item.", "quantifier": "every history of queue operations", "why_tests_cant": "histories are unbounded", "anchors": ["causallearn/utils/PriorityQueue.py:PriorityQueue"]}
{"id": "C14", "title": "stable PC skeleton is order independent", "statement": "With stable=True, permuting the variables (and the CI test accordingly) permutes the resulting skeleton and nothing else changes about it.", "quantifier": "every permutation, every CI test whose decision depends only on the sets, every number of variables", "why_tests_cant": "all permutations of all inputs", "anchors": ["causallearn/utils/PCUtils/SkeletonDiscovery.py:skeleton_discovery"]}
{"id": "C15", "title": "skeleton_discovery is correct for a faithful CI test", "statement": "If the CI test never declares adjacent pairs of the true graph independent and every non-adjacent pair is separated by a subset of the true neighbours of one of its members, skeleton_discovery returns exactly the true skeleton (stable or not); in every case an edge is deleted only because a CI test or background knowledge said so.", "quantifier": "every true graph, every such CI test, every n", "why_tests_cant": "all graphs and oracles", "anchors": ["causallearn/utils/PCUtils/SkeletonDiscovery.py:skeleton_discovery"]}
{"id": "C16", "title": "doubly forbidden pairs are never adjacent", "statement": "If background knowledge forbids both a->b and b->a, no edge a-b is in the skeleton returned by skeleton_discovery.", "quantifier": "every background knowledge, CI test and n, both stable modes", "why_tests_cant": "depends on loop-exit interleavings for every input", "anchors": ["causallearn/utils/PCUtils/SkeletonDiscovery.py:skeleton_discovery"]}
{"id": "C17", "title": "every missing edge has a separating set", "statement": "For each pair not adjacent in the returned skeleton the recorded separating sets exist, are symmetric in the pair, and each recorded set is one for which the CI test reported independence (or the pair was removed by background knowledge).", "quantifier": "every CI test, n, pair", "why_tests_cant": "all executions", "anchors": ["causallearn/utils/PCUtils/SkeletonDiscovery.py:skeleton_discovery", "causallearn/utils/PCUtils/Helper.py:append_value"]}
{"id": "C18", "title": "orientation by background knowledge obeys the knowledge", "statement": "orient_by_background_knowledge leaves adjacencies unchanged, never leaves an undirected edge whose one direction is forbidden or required, and never orients an undirected edge in a forbidden direction unless both directions are forbidden.", "quantifier": "every graph and background knowledge", "why_tests_cant": "all graphs and knowledge bases", "anchors": ["causallearn/utils/PCUtils/BackgroundKnowledgeOrientUtils.py:orient_by_background_knowledge"]}
{"id": "C19", "title": "collider orientation touches exactly the unshielded colliders", "statement": "uc_sepset keeps adjacencies; with sepsets of a faithful oracle every unshielded triple x-z-y is oriented x->z<-y iff z is a collider in the true DAG, for every priority rule.", "quantifier": "every true DAG, every priority 0..4", "why_tests_cant": "all DAGs", "anchors": ["causallearn/utils/PCUtils/UCSepset.py:uc_sepset"]}
{"id": "C20", "title": "Meek phase terminates, preserves the skeleton and is closed", "statement": "meek terminates, never adds or deletes an adjacency, never reverses a directed edge, and on return no Meek rule R1-R3 is applicable (up to the cycle guard).", "quantifier": "every partially directed graph, every background knowledge", "why_tests_cant": "unbounded rule application sequences", "anchors": ["causallearn/utils/PCUtils/Meek.py:meek"]}
{"id": "C21", "title": "PC is sound with a d-separation oracle", "statement": "With a d-separation oracle of a DAG D, PC (uc_rule 0) returns the skeleton of D, orients every unshielded collider of D, and each directed edge it returns has that direction in D (hence in every DAG with the same d-separations).", "quantifier": "every DAG D of every size, stable or not, every conflict rule", "why_tests_cant": "all DAGs", "anchors": ["causallearn/search/ConstraintBased/PC.py:pc_alg", "causallearn/utils/PCUtils/SkeletonDiscovery.py:skeleton_discovery", "causallearn/utils/PCUtils/UCSepset.py:uc_sepset", "causallearn/utils/PCUtils/Meek.py:meek"]}
{"id": "C22", "title": "background knowledge answers reflect its history", "statement": "After any history of add/remove calls, is_forbidden(a,b) holds iff the pair is currently listed, matches a currently listed pattern, or a is in a strictly later tier than b; is_required likewise.", "quantifier": "every history of knowledge edits", "why_tests_cant": "histories are unbounded", "anchors": ["causallearn/utils/PCUtils/BackgroundKnowledge.py:BackgroundKnowledge"]}
{"id": "C23", "title": "pdag2dag returns a consistent extension", "statement": "When pdag2dag returns, its result is acyclic, has the same skeleton as the input, keeps every directed edge and creates no unshielded collider that the input did not have.", "quantifier": "every PDAG", "why_tests_cant": "all PDAGs", "anchors": ["causallearn/utils/PDAG2DAG.py:pdag2dag", "causallearn/utils/PDAG2DAG.py:check2"]}
{"id": "C24", "title": "pdag2dag terminates on extendable PDAGs", "statement": "pdag2dag terminates whenever the input PDAG admits a consistent DAG extension.", "quantifier": "every extendable PDAG", "why_tests_cant": "all PDAGs; non-termination is not testable", "anchors": ["causallearn/utils/PDAG2DAG.py:pdag2dag"]}
{"id": "C25", "title": "dag2cpdag keeps skeleton and compelled edges", "statement": "For every DAG, dag2cpdag returns a graph with the same skeleton in which every directed edge is directed as in the DAG, all unshielded colliders are directed, and an edge is directed exactly when it has the same direction in every Markov-equivalent DAG.", "quantifier": "every DAG", "why_tests_cant": "equivalence classes are exponentially large", "anchors": ["causallearn/utils/DAG2CPDAG.py:dag2cpdag"]}
{"id": "C26", "title": "mec_check decides Markov equivalence", "statement": "mec_check(G1,G2) is True exactly when the DAGs have the same skeleton and the same unshielded colliders.", "quantifier": "all pairs of DAGs over the same nodes", "why_tests_cant": "all pairs", "anchors": ["causallearn/utils/MECCheck.py:mec_check"]}
{"id": "C27", "title": "FCI orientation rules only refine circles", "statement": "The FCI orientation rules (R1-R3, R5-R10) never add or remove an adjacency and never change a tail or arrowhead once placed; they only replace circles.", "quantifier": "every PAG state, every rule, every separating-set table", "why_tests_cant": "all graph states", "anchors": ["causallearn/search/ConstraintBased/FCI.py:rulesR1R2cycle", "causallearn/search/ConstraintBased/FCI.py:ruleR3", "causallearn/search/ConstraintBased/FCI.py:ruleR5", "causallearn/search/ConstraintBased/FCI.py:ruleR6", "causallearn/search/ConstraintBased/FCI.py:ruleR7", "causallearn/search/ConstraintBased/FCI.py:rule8", "causallearn/search/ConstraintBased/FCI.py:rule9", "causallearn/search/ConstraintBased/FCI.py:rule10"]}
{"id": "C28", "title": "the FCI orientation phase terminates", "statement": "Whenever a rule reports a change the number of circle marks strictly decreased, so the orientation loop of fci terminates on every input.", "quantifier": "every graph and separating-set table", "why_tests_cant": "termination is not testable", "anchors": ["causallearn/search/ConstraintBased/FCI.py:fci"]}
{"id": "C29", "title": "Possible-D-SEP step tests every conditioning set", "statement": "removeByPossibleDsep tests, for each pair, every subset of Possible-D-SEP within the size bound before keeping the edge.", "quantifier": "all Possible-D-SEP sets and sizes", "why_tests_cant": "all subset families", "anchors": ["causallearn/search/ConstraintBased/FCI.py:removeByPossibleDsep"]}
{"id": "C30", "title": "existsSemiDirectedPath is exact", "statement": "existsSemiDirectedPath(a,b,G) returns True iff there is a non-empty semi-directed path (no arrowhead pointing back) from a to b.", "quantifier": "every graph, every a, b", "why_tests_cant": "all graphs", "anchors": ["causallearn/search/ConstraintBased/FCI.py:existsSemiDirectedPath"]}
{"id": "C31", "title": "parent-graph query returns the best admissible parent set", "statement": "For every variable and every candidate set U, querying the generated parent graph returns a subset of U allowed by the super-graph and the parent-size bound whose local score is minimal among all such subsets.", "quantifier": "every score function, candidate set, super graph and bound", "why_tests_cant": "all score tables", "anchors": ["causallearn/search/ScoreBased/ExactSearch.py:generate_parent_graph", "causallearn/search/ScoreBased/ExactSearch.py:query_best_structure", "causallearn/search/ScoreBased/ExactSearch.py:bisect_insort_left"]}
{"id": "C32", "title": "exact DP search returns a globally optimal DAG", "statement": "bic_exact_search with search_method='dp' returns an acyclic graph whose total score is minimal among all DAGs within the super-graph and parent bound.", "quantifier": "every score function, any number of variables", "why_tests_cant": "super-exponentially many DAGs", "anchors": ["causallearn/search/ScoreBased/ExactSearch.py:dp_shortest_path", "causallearn/search/ScoreBased/ExactSearch.py:bic_exact_search"]}
{"id": "C33", "title": "exact A* search returns a globally optimal DAG", "statement": "bic_exact_search with search_method='astar' and the simple heuristic returns a DAG of minimal total score.", "quantifier": "every score function, any number of variables", "why_tests_cant": "super-exponentially many DAGs", "anchors": ["causallearn/search/ScoreBased/ExactSearch.py:astar_shortest_path", "causallearn/search/ScoreBased/ExactSearch.py:compute_simple_h"]}
{"id": "C34", "title": "the k-cycle heuristic keeps A* optimal", "statement": "With use_k_cycle_heuristic=True A* still returns an optimal DAG (the heuristic never over-estimates).", "quantifier": "every score function, k", "why_tests_cant": "all score tables", "anchors": ["causallearn/search/ScoreBased/ExactSearch.py:create_dynamic_pd", "causallearn/search/ScoreBased/ExactSearch.py:compute_dynamic_h", "causallearn/search/ScoreBased/ExactSearch.py:astar_shortest_path"]}
{"id": "C35", "title": "path extension preserves optimality", "statement": "Skipping to the extended node when a variable's globally best parents are all placed does not lose the optimum.", "quantifier": "every score function and search node", "why_tests_cant": "all score tables", "anchors": ["causallearn/search/ScoreBased/ExactSearch.py:path_extension"]}
{"id": "C36", "title": "GES returns an essential graph at a local optimum of the score, with the right score", "statement": "For every local score ges terminates; each operator it applies is a best valid Insert/Delete, strictly improves the score and adds or removes exactly one edge of some DAG in the current Markov equivalence class; every graph it passes through is the essential graph of a DAG; for a score-equivalent score the reported score is the score of every DAG in the returned class; after the forward phase no single edge addition to any DAG of the class improves the score, and in the returned class no single edge deletion does; the record of local scores and the pruning flags never change a result.", "quantifier": "every decomposable score function, every number of variables, every parent limit", "why_tests_cant": "all score functions; equivalence classes are exponentially large; termination", "anchors": ["causallearn/search/ScoreBased/GES.py:ges", "causallearn/utils/GESUtils.py:insert", "causallearn/utils/GESUtils.py:delete", "causallearn/utils/GESUtils.py:insert_validity_test1", "causallearn/utils/GESUtils.py:insert_validity_test2", "causallearn/utils/GESUtils.py:insert_vc2_new", "causallearn/utils/GESUtils.py:delete_validity_test", "causallearn/utils/GESUtils.py:insert_changed_score", "causallearn/utils/GESUtils.py:delete_changed_score"]}
{"id": "C37", "title": "local score cache is transparent", "statement": "Calling score(i, parents) through the cached LocalScoreClass in any order of calls returns the value of the underlying score on the same parent set.", "quantifier": "every history of score queries", "why_tests_cant": "histories unbounded", "anchors": ["causallearn/score/LocalScoreFunctionClass.py:LocalScoreClass.score"]}
{"id": "C38", "title": "BOSS keeps a permutation, terminates and returns the CPDAG of a DAG consistent with its order", "statement": "For every score and every shuffle, boss ends, its final order is a permutation of the variables, moving a variable never lowers the total score (a move is made only if it raises it by more than the tolerance, to the best position), no further single move improves the final order by more than the tolerance, each variable's parents precede it in that order, and the returned graph is the completed partially directed graph of that DAG.", "quantifier": "every score function and every random schedule", "why_tests_cant": "all schedules and score functions", "anchors": ["causallearn/search/PermutationBased/BOSS.py:boss", "causallearn/search/PermutationBased/BOSS.py:better_mutation", "causallearn/search/PermutationBased/BOSS.py:reversed_enumerate", "causallearn/search/PermutationBased/gst.py:GST"]}
{"id": "C39", "title": "CI-test cache keys are canonical and collision free", "statement": "Two CI queries get the same cache key iff they ask about the same unordered pair and the same conditioning set.", "quantifier": "all indices and conditioning sets", "why_tests_cant": "infinitely many queries", "anchors": ["causallearn/utils/cit.py:CIT_Base.get_formatted_XYZ_and_cachekey"]}
{"id": "C40", "title": "a CI cache never answers for another test", "statement": "A persisted p-value cache created by one test method or parameter set is rejected when loaded by another; with matching ones, cached answers equal the uncached answers for every query history.", "quantifier": "every cache content, method and query history", "why_tests_cant": "histories unbounded", "anchors": ["causallearn/utils/cit.py:CIT_Base.check_cache_method_consistent", "causallearn/utils/cit.py:FisherZ.__call__"]}
{"id": "C41", "title": "SHD is a metric-like distance", "statement": "SHD(truth, est) is symmetric, is zero exactly when the two graphs have the same edges and marks, and counts each differing pair once.", "quantifier": "all pairs of graphs over the same nodes", "why_tests_cant": "all pairs", "anchors": ["causallearn/graph/SHD.py:SHD"]}
{"id": "C42", "title": "confusion counts partition the pairs", "statement": "Adjacency true/false positives/negatives sum to n(n-1)/2; arrow confusion counts satisfy tp+fn = arrowheads in truth and tp+fp = arrowheads in the estimate.", "quantifier": "all pairs of graphs", "why_tests_cant": "all pairs", "anchors": ["causallearn/graph/AdjacencyConfusion.py:AdjacencyConfusion", "causallearn/graph/ArrowConfusion.py:ArrowConfusion"]}
{"id": "C43", "title": "LiNGAM returns a causal order and an acyclic matrix", "statement": "DirectLiNGAM's causal_order_ is a permutation of the variables and adjacency_matrix_ has non-zero entries only from earlier to later variables, hence is acyclic.", "quantifier": "every data set (any independence measure values), any number of variables", "why_tests_cant": "all data sets", "anchors": ["causallearn/search/FCMBased/lingam/direct_lingam.py:DirectLiNGAM.fit", "causallearn/search/FCMBased/lingam/base.py:_BaseLiNGAM._estimate_adjacency_matrix"]}
{"id": "C44", "title": "LiNGAM obeys prior knowledge on every fit", "statement": "When prior knowledge says xi precedes xj (a path, or a one-sided no-path), every fit() of the model - including the repeated fits of bootstrap() - orders xi before xj, and B[j,i]=0 whenever a path i->j is ruled out.", "quantifier": "every data set, every consistent prior knowledge, every number of fits", "why_tests_cant": "histories of fits; all data", "anchors": ["causallearn/search/FCMBased/lingam/direct_lingam.py:DirectLiNGAM._extract_partial_orders", "causallearn/search/FCMBased/lingam/direct_lingam.py:DirectLiNGAM._search_candidate", "causallearn/search/FCMBased/lingam/direct_lingam.py:DirectLiNGAM.fit", "causallearn/search/FCMBased/lingam/bootstrap.py:BootstrapMixin.bootstrap"]}
{"id": "C45", "title": "find_all_paths is exact", "statement": "On an acyclic adjacency matrix find_all_paths returns each directed path from source to a different target exactly once with the product of its coefficients, and terminates.", "quantifier": "every DAG and pair of nodes", "why_tests_cant": "exponentially many paths", "anchors": ["causallearn/search/FCMBased/lingam/utils/__init__.py:find_all_paths"]}
{"id": "C46", "title": "ICA-LiNGAM order search is exact", "statement": "_search_causal_order returns an order in which the matrix is strictly lower triangular if one exists, and None otherwise.", "quantifier": "every matrix", "why_tests_cant": "all matrices", "anchors": ["causallearn/search/FCMBased/lingam/ica_lingam.py:ICALiNGAM._search_causal_order"]}
{"id": "C47", "title": "bootstrap direction counts are exact", "statement": "get_causal_direction_counts reports each direction present in at least one sample exactly once with the number of samples containing it, in non-increasing order, truncated to n_directions.", "quantifier": "all sample lists", "why_tests_cant": "all inputs", "anchors": ["causallearn/search/FCMBased/lingam/bootstrap.py:BootstrapResult.get_causal_direction_counts"]}
{"id": "C48", "title": "GIN cluster merging gives the finest disjoint cover", "statement": "merge_overlaping_cluster returns pairwise disjoint clusters covering the same variables such that every input cluster is inside one output cluster and no finer partition has that property.", "quantifier": "every list of clusters", "why_tests_cant": "all inputs", "anchors": ["causallearn/search/HiddenCausal/GIN/GIN.py:merge_overlaping_cluster"]}
{"id": "C49", "title": "IAMB returns a blanket of the advertised form", "statement": "iamb terminates; the blanket excludes the target; every member is dependent on the target given the rest at the time it was kept; iamb_markov_network applies the AND rule as documented.", "quantifier": "every CI test, number of variables", "why_tests_cant": "all oracles", "anchors": ["causallearn/utils/MarkovNetwork/iamb.py:iamb", "causallearn/utils/MarkovNetwork/iamb.py:iamb_markov_network"]}
{"id": "C50", "title": "graph text format round trips", "statement": "Writing a graph to text and reading it back yields the same nodes and edges.", "quantifier": "every graph", "why_tests_cant": "all graphs", "anchors": ["causallearn/utils/TXT2GeneralGraph.py:txt2generalgraph", "causallearn/graph/GeneralGraph.py:GeneralGraph.__str__"]}
{"id": "C51", "title": "FAS adjacency search", "statement": "fas removes an edge only when a CI test within the depth bound separates the pair or knowledge forbids both directions, tests subsets of current neighbours only, and its separating-set table answers both orders of the pair.", "quantifier": "every CI test, depth, knowledge", "why_tests_cant": "all oracles", "anchors": ["causallearn/utils/FAS.py:fas"]}
{"id": "C52", "title": "CD-NOD never points into the domain index", "statement": "In the graph returned by cdnod every edge touching the surrogate variable points away from it.", "quantifier": "every CI test, conflict rule and n", "why_tests_cant": "all executions", "anchors": ["causallearn/search/ConstraintBased/CDNOD.py:cdnod_alg"]}
{"id": "C53", "title": "node removal and induced subgraphs keep the remaining edges", "statement": "remove_node(v) and subgraph(S) keep exactly the edges among the remaining nodes, and later queries by node still address the right edges.", "quantifier": "every graph and node set", "why_tests_cant": "all graphs and later histories", "anchors": ["causallearn/graph/GeneralGraph.py:GeneralGraph.remove_node", "causallearn/graph/GeneralGraph.py:GeneralGraph.subgraph", "causallearn/graph/Dag.py:Dag.remove_node", "causallearn/graph/Dag.py:Dag.subgraph"]}
{"id": "C54", "title": "make_prior_knowledge precedence", "statement": "In the matrix built by make_prior_knowledge the diagonal is -1, exogenous rows and sink columns are 0, otherwise listed paths are 1, otherwise listed no-paths are 0, otherwise -1.", "quantifier": "all argument combinations", "why_tests_cant": "all inputs", "anchors": ["causallearn/search/FCMBased/lingam/utils/__init__.py:make_prior_knowledge", "causallearn/search/FCMBased/lingam/utils/__init__.py:get_sink_variables", "causallearn/search/FCMBased/lingam/utils/__init__.py:get_exo_variables"]}
{"id": "C55", "title": "Possible-D-SEP is computed exactly", "statement": "The possible-d-sep set computed for a node contains exactly the nodes reachable by paths each of whose interior nodes is a collider or in a triangle.", "quantifier": "every graph, node", "why_tests_cant": "all graphs", "anchors": ["causallearn/search/ConstraintBased/FCI.py:getPossibleDsep"]}
{"id": "C56", "title": "edge endpoint setters keep an edge usable", "statement": "set_endpoint1(m) / set_endpoint2(m) change exactly the mark at that end of the edge, and the edge object can still be used to remove the edge it describes from a graph.", "quantifier": "every edge and mark", "why_tests_cant": "all states of edge objects", "anchors": ["causallearn/graph/Edge.py:Edge.set_endpoint1", "causallearn/graph/Edge.py:Edge.set_endpoint2", "causallearn/graph/GeneralGraph.py:GeneralGraph.remove_edge"]}
{"id": "C57", "title": "degrees count neighbours", "statement": "Without doubled edges get_degree(v) is the number of nodes adjacent to v, and the degrees of all nodes sum to twice get_num_edges().", "quantifier": "every history of edge operations, every graph size", "why_tests_cant": "histories are unbounded", "anchors": ["causallearn/graph/GeneralGraph.py:GeneralGraph.get_degree", "causallearn/graph/GeneralGraph.py:GeneralGraph.get_num_edges", "causallearn/graph/GeneralGraph.py:GeneralGraph.get_adjacent_nodes"]}
{"id": "C58", "title": "mark queries are exact", "statement": "Without doubled edges contains_edge(Edge(a,b,m1,m2)) is True exactly when the graph reports m1 at a and m2 at b; is_def_collider(a,b,c) exactly when both edges have an arrowhead at b; get_nodes_into(v,m) / get_nodes_out_of(v,m) list exactly the neighbours whose edge to v has mark m at v / at the other node.", "quantifier": "every history of edge operations, all nodes and marks", "why_tests_cant": "histories and graph sizes are unbounded", "anchors": ["causallearn/graph/GeneralGraph.py:GeneralGraph.contains_edge", "causallearn/graph/GeneralGraph.py:GeneralGraph.is_def_collider", "causallearn/graph/GeneralGraph.py:GeneralGraph.is_def_unshielded_collider", "causallearn/graph/GeneralGraph.py:GeneralGraph.get_nodes_into", "causallearn/graph/GeneralGraph.py:GeneralGraph.get_nodes_out_of"]}
{"id": "C59", "title": "is_def_noncollider is sound and complete", "statement": "is_def_noncollider(a,b,c) is True exactly when a, b, c is a definite non-collider: a mark at b on one of the two edges is a tail, or both are circles and a, c are not adjacent.", "quantifier": "every history of edge operations, all triples", "why_tests_cant": "histories and graph sizes are unbounded", "anchors": ["causallearn/graph/GeneralGraph.py:GeneralGraph.is_def_noncollider", "causallearn/graph/GeneralGraph.py:GeneralGraph.get_node_edges"]}
{"id": "C60", "title": "GRaSP keeps a permutation, returns the CPDAG of a DAG consistent with it, and its score does not get worse", "statement": "For every score, every depth and every shuffle, every tuck permutes the order, the returned graph is the completed partially directed graph of a DAG whose parents precede their children in the final order, the reported local scores are those of the parent sets, and each successful round raises the total score.", "quantifier": "every score function, depth and random schedule", "why_tests_cant": "all schedules and score functions", "anchors": ["causallearn/search/PermutationBased/GRaSP.py:grasp", "causallearn/search/PermutationBased/GRaSP.py:dfs", "causallearn/search/PermutationBased/GRaSP.py:update", "causallearn/search/PermutationBased/GRaSP.py:Order"]}
{"id": "C61", "title": "grow-shrink trees are history independent", "statement": "The parents and score a grow-shrink tree reports for a prefix depend only on the prefix and the score, not on the earlier queries that filled its cache; the parents are a subset of the prefix and the score is the local score of exactly those parents; no single removal improves it.", "quantifier": "every score function and every history of queries", "why_tests_cant": "histories unbounded", "anchors": ["causallearn/search/PermutationBased/gst.py:GST.trace", "causallearn/search/PermutationBased/gst.py:GSTNode.grow", "causallearn/search/PermutationBased/gst.py:GSTNode.shrink"]}
{"id": "C62", "title": "the grow phase adds the best candidate first", "statement": "When growing a parent set, the grow-shrink tree adds, at each step, the available candidate with the largest score improvement.", "quantifier": "every score function and prefix", "why_tests_cant": "all score functions", "anchors": ["causallearn/search/PermutationBased/gst.py:GSTNode.grow", "causallearn/search/PermutationBased/gst.py:GSTNode.trace"]}
{"id": "C63", "title": "the step graphs recorded by GES are the graphs learned at each step", "statement": "Record['G_step1'][k] (and G_step2) is the essential graph GES had learned after the k-th operator of that phase.", "quantifier": "every score function, number of variables and step", "why_tests_cant": "all runs", "anchors": ["causallearn/search/ScoreBased/GES.py:ges", "causallearn/utils/GESUtils.py:insert", "causallearn/utils/GESUtils.py:delete"]}
{"id": "C64", "title": "PC returns exactly the essential graph", "statement": "When the CI test answers exactly the d-separations of a DAG, pc with every conflict rule returns exactly the essential graph of its Markov equivalence class: the same adjacencies, every edge on which all equivalent DAGs agree is directed, every other edge is undirected. With true background knowledge every edge compelled by the class is directed and every directed edge agrees with the DAG.", "quantifier": "every DAG, every number of variables, every uc_rule and uc_priority", "why_tests_cant": "all DAGs; equivalence classes are exponentially large", "anchors": ["causallearn/search/ConstraintBased/PC.py:pc_alg", "causallearn/utils/PCUtils/Meek.py:meek", "causallearn/utils/PCUtils/UCSepset.py:uc_sepset", "causallearn/utils/PCUtils/SkeletonDiscovery.py:skeleton_discovery"]}
{"id": "C65", "title": "with background knowledge the output is maximally oriented", "statement": "When the CI test answers exactly the d-separations of a DAG and the background knowledge is true of it, pc directs every edge on which all equivalent DAGs satisfying the knowledge agree.", "quantifier": "every DAG, every true background knowledge", "why_tests_cant": "all DAGs and knowledge", "anchors": ["causallearn/search/ConstraintBased/PC.py:pc_alg", "causallearn/utils/PCUtils/Meek.py:meek", "causallearn/utils/PCUtils/BackgroundKnowledgeOrientUtils.py:orient_by_background_knowledge"]}
{"id": "C66", "title": "fci's result is closed under its orientation rules", "statement": "In the graph returned by fci no orientation rule among Zhang's R1-R10 still has an applicable instance: e.g. whenever a *-> b o-* c with a, c non-adjacent, the circle at b has been turned into a tail.", "quantifier": "every CI test, background knowledge, depth and number of variables", "why_tests_cant": "all runs; the loop's exit test covers only the instances the code enumerates", "anchors": ["causallearn/search/ConstraintBased/FCI.py:fci", "causallearn/search/ConstraintBased/FCI.py:rulesR1R2cycle", "causallearn/search/ConstraintBased/FCI.py:ruleR3", "causallearn/search/ConstraintBased/FCI.py:ruleR4B", "causallearn/search/ConstraintBased/FCI.py:ruleR6", "causallearn/search/ConstraintBased/FCI.py:ruleR7", "causallearn/search/ConstraintBased/FCI.py:rule8", "causallearn/search/ConstraintBased/FCI.py:rule9", "causallearn/search/ConstraintBased/FCI.py:rule10"]}
{"id": "C67", "title": "rule R4 and the orientation loop only refine circles", "statement": "From its call to its return the discriminating-path rule ruleR4B only replaces circles: every adjacency, tail and arrowhead of the graph it is called with is in the graph it returns. The same holds of the whole orientation loop of fci from the graph it starts with. (Within one call R4 may revise a mark it has itself put.)", "quantifier": "every graph, separating-set table, CI test, knowledge and number of rounds", "why_tests_cant": "all graphs", "anchors": ["causallearn/search/ConstraintBased/FCI.py:ruleR4B", "causallearn/search/ConstraintBased/FCI.py:ddpOrient", "causallearn/search/ConstraintBased/FCI.py:doDdpOrientation", "causallearn/search/ConstraintBased/FCI.py:fci"]}
{"id": "C68", "title": "every unshielded triple is classified by its separating set", "statement": "In FCI, an unshielded triple a-b-c gets arrowheads at b exactly when b is outside the set that separated a and c (without background knowledge), whichever phase found that set and however the variables are numbered.", "quantifier": "every graph and separating-set table; every CI test", "why_tests_cant": "all tables, all numberings", "anchors": ["causallearn/search/ConstraintBased/FCI.py:rule0", "causallearn/search/ConstraintBased/FCI.py:removeByPossibleDsep", "causallearn/search/ConstraintBased/FCI.py:isNoncollider"]}
{"id": "C69", "title": "the marks of fci are true of the causal graph", "statement": "When the CI test answers exactly the d-separations of a causal DAG with latent and selection variables (and without background knowledge), two observed variables that no set of observed variables separates are adjacent in fci's output; every arrowhead at b on an edge a-b is true (b is not an ancestor of a or of a selection variable) and every tail at b is true (b is such an ancestor). For a DAG without latent variables the adjacencies are exactly those of the DAG and a->b is only reported when the DAG has the edge.", "quantifier": "every causal DAG, every choice of latent and selection variables, any number of variables", "why_tests_cant": "all causal graphs and all runs of ten interacting rules", "anchors": ["causallearn/search/ConstraintBased/FCI.py:fci", "causallearn/search/ConstraintBased/FCI.py:rulesR1R2cycle", "causallearn/search/ConstraintBased/FCI.py:ruleR3", "causallearn/search/ConstraintBased/FCI.py:ruleR4B", "causallearn/search/ConstraintBased/FCI.py:ruleR5", "causallearn/search/ConstraintBased/FCI.py:ruleR6", "causallearn/search/ConstraintBased/FCI.py:ruleR7", "causallearn/search/ConstraintBased/FCI.py:rule8", "causallearn/search/ConstraintBased/FCI.py:rule9", "causallearn/search/ConstraintBased/FCI.py:rule10", "causallearn/search/ConstraintBased/FCI.py:removeByPossibleDsep"]}
{"id": "C70", "title": "dag2pag returns the PAG of a DAG with latent and selection variables", "statement": "dag2pag(dag, islatent, isselection) returns a graph over the observed variables in which two are adjacent iff no set of other observed variables d-separates them given the selection variables; every arrowhead and tail is true of the DAG (arrowhead at b on a-b: b is no ancestor of a or of a selection variable), and the orientation rules it calls (R1-R10) are applied as in fci.", "quantifier": "every DAG, choice of latent and selection variables, and set iteration order", "why_tests_cant": "all DAGs and all latent/selection sets", "anchors": ["causallearn/utils/DAG2PAG.py:dag2pag", "causallearn/utils/DAG2PAG.py:mod_endpoint"]}
{"id": "C71", "title": "fci respects background knowledge", "statement": "In the graph fci returns with background knowledge, a pair forbidden in both directions is not adjacent; an adjacent pair with one direction forbidden is oriented the other way; an adjacent pair with a required direction has that direction; and a required edge is present.", "quantifier": "every CI test, background knowledge, depth, set iteration order and number of variables", "why_tests_cant": "all data sets and knowledge bases; the knowledge is consulted in three phases and ten rules", "anchors": ["causallearn/search/ConstraintBased/FCI.py:fci", "causallearn/search/ConstraintBased/FCI.py:fci_orient_bk", "causallearn/utils/Fas.py:fas"]}
{"id": "C72", "title": "rules R9 and R10 put a tail exactly on the evidence they look for", "statement": "rule9 turns a o-> c into a -> c exactly when a has a possible child that is not adjacent to c and from which a semi-directed path leads to c, and changes nothing else; rule10 turns a o-> c into a -> c exactly when there are b -> c <- d and two non-adjacent possible children of a with semi-directed paths to b and d, and changes nothing else. Neither depends on the traversal order of Python sets.", "quantifier": "every mixed graph and every set iteration order", "why_tests_cant": "all graphs and hash seeds", "anchors": ["causallearn/search/ConstraintBased/FCI.py:rule9", "causallearn/search/ConstraintBased/FCI.py:rule10", "causallearn/search/ConstraintBased/FCI.py:find_possible_children", "causallearn/search/ConstraintBased/FCI.py:existsSemiDirectedPath"]}
{"id": "C73", "title": "chisq and gsq compute the textbook p-value", "statement": "CIT(data,'chisq') and CIT(data,'gsq') return, for any two columns and any conditioning set, the p-value of Pearson's chi-square (or the likelihood-ratio G-square) test of conditional independence: observed and expected counts over the configurations of the conditioning variables, degrees of freedom the sum over occurring configurations of (values of x seen - 1)(values of y seen - 1), and 1 when there is no degree of freedom. Hence the result is symmetric in the two variables, does not depend on the order of samples, on how categories are coded or on the order of the conditioning set, nor on which of the three counting routines is used.", "quantifier": "every integer data set, every pair of variables and conditioning set of any size", "why_tests_cant": "all data sets; the counting routine changes with the sizes, and 64-bit index arithmetic can wrap", "anchors": ["causallearn/utils/cit.py:Chisq_or_Gsq.chisq_or_gsq_test", "causallearn/utils/cit.py:Chisq_or_Gsq.__call__"]}
{"id": "C74", "title": "BIC and BDeu are decomposable scores of equivalence classes", "statement": "local_score_BIC / local_score_BIC_from_cov and local_score_BDeu depend only on the set of parents, not on the order they are listed in; the sum of local scores is the same for any two Markov equivalent DAGs; the BIC of i given PA is n log s2 + lambda |PA| log n with s2 the least-squares residual variance; BDeu is the difference of Dirichlet-multinomial log marginal likelihoods plus a structure prior. Hence the score GES reports is the score of every DAG in the returned class.", "quantifier": "every positive definite covariance matrix, sample size and penalty; every discrete data set, priors and numbers of states; every pair of Markov equivalent DAGs", "why_tests_cant": "all data sets and all pairs of equivalent DAGs", "anchors": ["causallearn/score/LocalScoreFunction.py:local_score_BIC", "causallearn/score/LocalScoreFunction.py:local_score_BIC_from_cov", "causallearn/score/LocalScoreFunction.py:local_score_BDeu", "causallearn/score/LocalScoreFunctionClass.py:LocalScoreClass.score", "causallearn/search/ScoreBased/GES.py:ges"]}
{"id": "C75", "title": "calm returns a DAG inside the moral graph", "statement": "Record['G'] of calm has no directed cycle, and its edges are exactly the entries of the moral graph whose weight reaches the threshold.", "quantifier": "every behaviour of the optimiser, every parameter setting, every moral graph and number of variables", "why_tests_cant": "the optimiser is random and the acyclicity term is only driven below a tolerance", "anchors": ["causallearn/search/ScoreBased/CALM.py:calm", "causallearn/search/ScoreBased/CALM.py:CalmModel.get_params", "causallearn/search/ScoreBased/CALM.py:CalmModel.compute_h", "causallearn/utils/CALMUtils.py:matrix_poly"]}
{"id": "C76", "title": "Fisher's z test is a test of zero partial correlation", "statement": "FisherZ(X,Y,S) returns Fisher's z p-value of the sample partial correlation of X and Y given S (the correlation of the least-squares residuals, with intercept); it raises exactly when X or Y is in S, there are fewer than |S|+3 samples, or some combination of the columns involved is constant. The answer depends only on the unordered pair and the set S, not on the units or origins of the columns; it lies in [0,1], is 1 exactly for zero partial correlation and decreases strictly with its absolute value. MV_FisherZ is the same test on the samples without a missing value among the columns of the query.", "quantifier": "every data matrix (any number of samples and columns), every query, every missingness pattern", "why_tests_cant": "all real data matrices and conditioning sets", "anchors": ["causallearn/utils/cit.py:FisherZ.__call__", "causallearn/utils/cit.py:MV_FisherZ.__call__", "causallearn/utils/cit.py:MV_FisherZ._get_index_no_mv_rows", "causallearn/utils/cit.py:CIT_Base.get_formatted_XYZ_and_cachekey"]}
{"id": "C77", "title": "PC with Fisher's z on data of a linear structural equation model", "statement": "On data in which each variable is an intercept plus a linear combination of its parents in a DAG plus a centred error, the errors being pairwise uncorrelated and non-constant in the sample, the Fisher-z test answers exactly 1 to every d-separated query (with enough samples); if moreover every d-connected query has a non-zero partial correlation, then pc(data, alpha, fisherz) returns exactly the essential graph of that DAG for all levels alpha from some value below 1 on, whatever the skeleton mode, collider rule (0,1,2) and priority rule.", "quantifier": "every DAG, every coefficient matrix, every sample of every size with orthogonal errors, every pair and conditioning set, all option values", "why_tests_cant": "the statement composes the numerical test, the skeleton search and all orientation rules and ranges over all DAGs and all real-valued data sets", "anchors": ["causallearn/utils/cit.py:FisherZ.__call__", "causallearn/search/ConstraintBased/PC.py:pc", "causallearn/search/ConstraintBased/PC.py:pc_alg"]}
{"id": "C78", "title": "The library's equivalence of DAGs is equality of d-separations", "statement": "mec_check returns True for two DAGs exactly when they have the same d-separation statements; dag2cpdag directs an edge a->b exactly when every DAG with the d-separations of the input has a->b, pdag2dag(dag2cpdag(G)) has the d-separations of G, pc with a d-separation oracle directs exactly the edges common to all DAGs with the oracle's answers, and the DAGs represented by the graph ges returns are exactly the DAGs with one common set of d-separations.", "quantifier": "all DAGs over any number of nodes, all pairs of nodes and conditioning sets, all oracles, all options", "why_tests_cant": "the meaning of the output is a statement about all conditioning sets and about all DAGs of an exponentially large class (Verma-Pearl theorem), which no finite test settles", "anchors": ["causallearn/utils/DAG2CPDAG.py:dag2cpdag", "causallearn/utils/MECCheck.py:mec_check", "causallearn/utils/PDAG2DAG.py:pdag2dag", "causallearn/search/ConstraintBased/PC.py:pc", "causallearn/search/ScoreBased/GES.py:ges"]}
{"id": "C79", "title": "Score-based search with a consistent score finds the true equivalence class", "statement": "For every DAG D and every local score that is locally consistent for D (a further parent improves the score exactly if it is d-connected to the node given the present parents), GES without a binding parent limit returns the essential graph (CPDAG) of D; exact search (DP and A*) with a score that is in addition score equivalent returns a DAG Markov equivalent to D.", "quantifier": "every number of variables, every DAG, every locally consistent score", "why_tests_cant": "The correctness of the two greedy phases rests on the theorem of Meek and Chickering, about all pairs of DAGs; tests run single graphs with noisy scores.", "anchors": ["causallearn/search/ScoreBased/GES.py:ges", "causallearn/search/ScoreBased/ExactSearch.py:bic_exact_search", "causallearn/utils/GESUtils.py"]}
{"id": "C80", "title": "GES and exact search with BIC recover a linear model", "statement": "On data of a linear structural equation model over a DAG D with errors uncorrelated in the sample: the BIC score of a node is N log(RSS/(N-1)) + lambda |PA| log N with RSS the residual sum of squares of the regression with intercept; a further parent changes it by N log(1-rho^2) + lambda log N with rho the sample partial correlation; if every d-connected pair has a partial correlation that outweighs the penalty, GES with BIC returns the CPDAG of D and exact search a DAG Markov equivalent to D; if the data are faithful to D this is so for enough repetitions of the data set.", "quantifier": "every number of variables and samples, every DAG, every linear data set, every penalty above 0", "why_tests_cant": "Tests compare one noisy data set with one graph; the claim is about all DAGs and data sets.", "anchors": ["causallearn/score/LocalScoreFunction.py:local_score_BIC", "causallearn/score/LocalScoreFunction.py:local_score_BIC_from_cov", "causallearn/score/LocalScoreFunctionClass.py:LocalScoreClass", "causallearn/search/ScoreBased/GES.py:ges"]}
{"id": "C81", "title": "Order-based search with a consistent score gives minimal I-maps", "statement": "With a score that is locally consistent for a DAG D (BIC on linear data with uncorrelated errors and strong dependences is one), a grow-shrink tree selects from a prefix exactly the variables that depend on the target given the rest of the prefix; BOSS ends, and BOSS and GRaSP return the CPDAG of a minimal independence map of D, the one determined by their final order; an order that lists causes before effects gives D itself; and an order scores best exactly when its DAG is Markov equivalent to D.", "quantifier": "all DAGs, all locally consistent scores, all orders and prefixes, all shuffles, all tolerances, all numbers of variables", "why_tests_cant": "a test has one data set and one order; that nothing dependent is missed and nothing superfluous is kept is a statement about all d-separations", "anchors": ["causallearn/search/PermutationBased/gst.py:GST.trace", "causallearn/search/PermutationBased/BOSS.py:boss", "causallearn/search/PermutationBased/GRaSP.py:grasp", "causallearn/score/LocalScoreFunction.py:local_score_BIC_from_cov"]}
{"id": "C82", "title": "BOSS finds the equivalence class of the true DAG with a consistent score", "statement": "With a score that is locally consistent for a DAG D and respects Markov equivalence, BOSS returns the essential graph of D, whatever the order of the columns.", "quantifier": "all DAGs, all locally consistent and score-equivalent scores, all shuffles", "why_tests_cant": "needs the score landscape over all orders and all scores", "anchors": ["causallearn/search/PermutationBased/BOSS.py:boss", "causallearn/search/PermutationBased/BOSS.py:better_mutation"]}
{"id": "C83", "title": "RCD ends and its adjacency matrix is well formed", "statement": "For every data set and all levels, whatever the tests answer, RCD.fit returns; the recorded ancestors are irreflexive and antisymmetric; the matrix has a coefficient exactly for the recorded ancestors that pass the parent test, never in both directions, nan symmetrically and exactly for the pairs without a coefficient whose residuals on their parents are correlated, and zero elsewhere, in particular on the diagonal.", "quantifier": "all answers of the tests, all numbers of variables, all max_explanatory_num", "why_tests_cant": "the loop restarts whenever an ancestor is found, so its length and its result depend on all test answers", "anchors": ["causallearn/search/FCMBased/lingam/rcd.py:RCD.fit", "causallearn/search/FCMBased/lingam/rcd.py:RCD._extract_ancestors", "causallearn/search/FCMBased/lingam/rcd.py:RCD._extract_vars_sharing_confounders"]}
{"id": "C84", "title": "RCD returns an acyclic graph", "statement": "For every data set the coefficients in the adjacency matrix returned by RCD form a directed acyclic graph.", "quantifier": "all answers of the tests", "why_tests_cant": "needs all answers of the tests", "anchors": ["causallearn/search/FCMBased/lingam/rcd.py:RCD._extract_ancestors", "causallearn/search/FCMBased/lingam/rcd.py:RCD._exists_ancestor_in_U"]}
{"id": "C85", "title": "RCD stops only when no set of variables identifies a further ancestor", "statement": "When RCD.fit stops, no set of at most max_explanatory_num + 1 variables that passes the non-Gaussianity and correlation tests has a unique sink for which one of the others is not yet recorded as an ancestor.", "quantifier": "all answers of the tests, all sets of variables", "why_tests_cant": "needs all sets and the whole history", "anchors": ["causallearn/search/FCMBased/lingam/rcd.py:RCD._extract_ancestors"]}
{"id": "C86", "title": "CAM-UV terminates and returns exactly what its tests say", "statement": "`CAMUV.execute(X, alpha, maxnum)` always terminates; the parents found by the search are irreflexive, antisymmetric and marginally dependent on the child; a parent is dropped at the end exactly when the residual of the child on its other parents is independent of the residual of the parent; the list of hidden pairs contains, without repetition, exactly the pairs of marginally dependent variables, neither a parent of the other, whose final residuals are dependent.", "quantifier": "all numbers of variables, all p-values of the tests, all levels and all maxnum", "why_tests_cant": "a unit test runs one data set; termination and exactness range over all p-value functions and pass histories", "anchors": ["causallearn/search/FCMBased/lingam/CAMUV.py:execute", "causallearn/search/FCMBased/lingam/CAMUV.py:find_parents", "causallearn/search/FCMBased/lingam/CAMUV.py:get_neighborhoods"]}
{"id": "C87", "title": "CAM-UV returns an acyclic graph", "statement": "The parent sets returned by `CAMUV.execute` contain no directed cycle.", "quantifier": "all numbers of variables, all p-values, levels and maxnum", "why_tests_cant": "cycles need particular combinations of test answers that example data do not produce", "anchors": ["causallearn/search/FCMBased/lingam/CAMUV.py:find_parents"]}
{"id": "C88", "title": "CAM-UV's search is exhaustive", "statement": "When CAM-UV stops, every set of 2..max(maxnum,2) mutually unrelated variables with a best child that passes the independence test contains a candidate whose residual is already independent of the child's (so no further parent could be recorded).", "quantifier": "all numbers of variables, all p-values with alpha ≥ 0, all maxnum", "why_tests_cant": "the property concerns the last of an unbounded number of passes", "anchors": ["causallearn/search/FCMBased/lingam/CAMUV.py:find_parents", "causallearn/search/FCMBased/lingam/CAMUV.py:get_child"]}
{"id": "C89", "title": "ParceLiNGAM returns a partial causal order and an acyclic matrix", "statement": "For at least two variables `BottomUpParceLiNGAM.fit` terminates; causal_order_ is an optional list of at least two variables of unknown order followed by every other variable exactly once; adjacency_matrix_ is NaN exactly between variables of unknown order, its other non-zero entries go from earlier to later variables, hence are acyclic; every placed variable's p-value is not below the corrected level.", "quantifier": "all data (any test values and coefficients), any number n ≥ 2 of variables, any prior knowledge, any history of earlier fits", "why_tests_cant": "ranges over all test outcomes and histories of the object", "anchors": ["causallearn/search/FCMBased/lingam/bottom_up_parce_lingam.py:BottomUpParceLiNGAM.fit", "causallearn/search/FCMBased/lingam/bottom_up_parce_lingam.py:BottomUpParceLiNGAM._search_causal_order", "causallearn/search/FCMBased/lingam/bottom_up_parce_lingam.py:BottomUpParceLiNGAM._estimate_adjacency_matrix"]}
{"id": "C90", "title": "ParceLiNGAM places the most independent sink", "statement": "Each variable placed at the bottom is the one whose residual on all variables left is most independent of them, its p-value is that of the complete test, and the search stops only if that test rejects every variable left.", "quantifier": "all data, any number of variables, any prior knowledge", "why_tests_cant": "ranges over all test outcomes; the early exit of the loop must never matter", "anchors": ["causallearn/search/FCMBased/lingam/bottom_up_parce_lingam.py:BottomUpParceLiNGAM._find_exo_vec", "causallearn/search/FCMBased/lingam/bottom_up_parce_lingam.py:BottomUpParceLiNGAM._fisher_hsic_test", "causallearn/search/FCMBased/lingam/bottom_up_parce_lingam.py:BottomUpParceLiNGAM._search_causal_order"]}
{"id": "C91", "title": "ParceLiNGAM obeys prior knowledge on every fit", "statement": "When prior knowledge says xi precedes xj, every fit() - including those of bootstrap() - places xi before xj or leaves xi in the unknown block, and B[j,i]=0 whenever a path i->j is ruled out.", "quantifier": "every data set, every consistent prior knowledge, every number of fits", "why_tests_cant": "histories of fits; all data", "anchors": ["causallearn/search/FCMBased/lingam/bottom_up_parce_lingam.py:BottomUpParceLiNGAM._extract_partial_orders", "causallearn/search/FCMBased/lingam/bottom_up_parce_lingam.py:BottomUpParceLiNGAM._search_candidate", "causallearn/search/FCMBased/lingam/bottom_up_parce_lingam.py:BottomUpParceLiNGAM._search_causal_order", "causallearn/search/FCMBased/lingam/bottom_up_parce_lingam.py:BottomUpParceLiNGAM.bootstrap"]}
{"id": "C92", "title": "dag2pattern returns the pattern of a DAG", "statement": "`dag2pattern` applied to the adjacency matrix of a DAG terminates and returns the matrix of its Markov equivalence class: same non-adjacencies, i→j exactly when every DAG with the same skeleton and v-structures has it, all other edges undirected.", "quantifier": "all DAGs on any number of nodes, in the module's -1/0/1 encoding", "why_tests_cant": "all graphs of all sizes, and all members of the equivalence class", "anchors": ["causallearn/utils/PCUtils/Helper.py:dag2pattern", "causallearn/utils/PCUtils/Helper.py:find_uc", "causallearn/utils/PCUtils/Helper.py:find_kites", "causallearn/utils/PCUtils/Helper.py:find_unshielded_triples"]}
{"id": "C93", "title": "MVPC finds the causes of missingness", "statement": "The search for the causes of a column's missingness ends for any CI test; what it leaves out was declared independent of the indicator, what it keeps cannot be separated by kept variables; and if the test answers like d-separation in a DAG where the indicator causes nothing it returns exactly the indicator's direct causes, with stable=True and stable=False.", "quantifier": "all CI tests and DAGs, any number of variables, both modes", "why_tests_cant": "ranges over all tests and all DAGs", "anchors": ["causallearn/search/ConstraintBased/PC.py:detect_parent", "causallearn/search/ConstraintBased/PC.py:get_parent_missingness_pairs", "causallearn/search/ConstraintBased/PC.py:get_parent"]}
{"id": "C94", "title": "The corrected test picks exactly the relevant correction variables", "statement": "MC_FisherZ on x, y given S always decides; it corrects exactly when x and y share a neighbour in the given skeleton that causes the missingness of a variable of the test and some variable outside the test causes, directly or through further missingness, the missingness of a variable of the test; the correction variables are exactly those outside variables, without repetition.", "quantifier": "all lists of causes of missingness with one entry per column, all skeletons, pairs and sets", "why_tests_cant": "a transitive closure over arbitrary lists", "anchors": ["causallearn/utils/cit.py:MC_FisherZ", "causallearn/utils/PCUtils/Helper.py:cond_perm_c", "causallearn/utils/PCUtils/Helper.py:get_prt_mw", "causallearn/utils/PCUtils/Helper.py:get_prt_mvars"]}
{"id": "C95", "title": "MVPC returns the essential graph", "statement": "If the tests on indicators answer like d-separation with sink indicators, independences reported under test-wise deletion are true, and the corrected test given the right causes and a supergraph of the skeleton answers like d-separation, then `pc(mvpc=True)` returns the essential graph of the true DAG in all modes; with true background knowledge it only adds orientations the knowledge implies.", "quantifier": "all DAGs, missingness mechanisms and tests meeting the assumptions, any number of variables, stable or not, uc_rule 0-2, every priority", "why_tests_cant": "all DAGs and test functions", "anchors": ["causallearn/search/ConstraintBased/PC.py:mvpc_alg", "causallearn/search/ConstraintBased/PC.py:skeleton_correction"]}
{"id": "C96", "title": "CausalEffect accepts exactly the acyclic models", "statement": "Given a square connection matrix whose coefficients are zero or at least the tolerance, CausalEffect finds a causal order exactly when the model has no directed cycle; the order lists each variable once, after every variable in its equation.", "quantifier": "all square matrices of any size over an ordered field", "why_tests_cant": "all matrices of all sizes", "anchors": ["causallearn/search/FCMBased/lingam/causal_effect.py:CausalEffect._check_init_params"]}
{"id": "C97", "title": "Propagated effects are the solution of the intervened equations", "statement": "For every acyclic linear model the propagated expectations after do(i=v) are the one and only solution of the structural equations with the equation of i replaced by v; the effects on a prediction compare the prediction at the means with the predictions after do(i = mean ± std); for a linear predictor they are |std_i · Σ coef_k · total effect of i on k|.", "quantifier": "all linear models with a topological order, all interventions, predictors and values, any size", "why_tests_cant": "all models and values", "anchors": ["causallearn/search/FCMBased/lingam/causal_effect.py:CausalEffect._get_propagated_effects", "causallearn/search/FCMBased/lingam/causal_effect.py:CausalEffect.estimate_effects_on_prediction"]}
{"id": "C98", "title": "The optimal intervention achieves the desired output", "statement": "The value returned by estimate_optimal_intervention makes the (linear) prediction after do(i=value) equal to the desired output, for every outcome of the random choices.", "quantifier": "all acyclic linear models, targets, coefficients, random choices", "why_tests_cant": "all models and all sequences of random choices", "anchors": ["causallearn/search/FCMBased/lingam/causal_effect.py:CausalEffect.estimate_optimal_intervention"]}
{"id": "C99", "title": "VARLiNGAM matrices satisfy the structural equation", "statement": "After fit without pruning, the adjacency matrices B_0..B_k and the error variables satisfy x_t = B_0 x_t + … + B_k x_{t-k} + e_t at every time with enough past, and B_0 and the order are what the LiNGAM model found on the residuals.", "quantifier": "all series, coefficients (given or estimated by an estimator that reports the residuals of its model), LiNGAM models, dimensions and lags", "why_tests_cant": "all data and all estimators", "anchors": ["causallearn/search/FCMBased/lingam/var_lingam.py:VARLiNGAM.fit", "causallearn/search/FCMBased/lingam/var_lingam.py:VARLiNGAM._calc_residuals", "causallearn/search/FCMBased/lingam/var_lingam.py:VARLiNGAM._calc_b"]}
{"id": "C100", "title": "VARMA-LiNGAM matrices satisfy the structural equation", "statement": "The reported psi and omega matrices satisfy x_t = Σ psi_i x_{t-i} + e_t + Σ omega_j e_{t-j} with the error variables e.", "quantifier": "all series, coefficients, dimensions and orders", "why_tests_cant": "all data", "anchors": ["causallearn/search/FCMBased/lingam/varma_lingam.py:VARMALiNGAM.fit", "causallearn/search/FCMBased/lingam/varma_lingam.py:VARMALiNGAM._calc_residuals", "causallearn/search/FCMBased/lingam/varma_lingam.py:VARMALiNGAM._calc_psi_and_omega"]}
{"id": "C101", "title": "Fitting is independent of earlier fits", "statement": "Fitting a VARLiNGAM object on a data set gives the same result whatever it was fitted on before.", "quantifier": "all sequences of fits of one object", "why_tests_cant": "histories of any length", "anchors": ["causallearn/search/FCMBased/lingam/var_lingam.py:VARLiNGAM.fit"]}
{"id": "C102", "title": "Bootstrap total effects are stored under their lag", "statement": "In a bootstrap of VAR/VARMA-LiNGAM the total effect matrix holds the contemporaneous effect of each earlier variable and, in the block of lag k, the effects of the variables k steps earlier.", "quantifier": "all causal orders, numbers of variables and lags, all effect values", "why_tests_cant": "all orders and sizes", "anchors": ["causallearn/search/FCMBased/lingam/var_lingam.py:VARLiNGAM.bootstrap", "causallearn/search/FCMBased/lingam/varma_lingam.py:VARMALiNGAM.bootstrap"]}
{"id": "C103", "title": "Lagged regressors are past observations", "statement": "Every lagged regressor used for total effects (VAR, VARMA) or coefficients (Longitudinal) of time t is the observation the stated number of steps before t.", "quantifier": "all series, lags, rows and time points", "why_tests_cant": "all sizes", "anchors": ["causallearn/search/FCMBased/lingam/var_lingam.py:VARLiNGAM.estimate_total_effect", "causallearn/search/FCMBased/lingam/longitudinal_lingam.py:LongitudinalLiNGAM._compute_residuals"]}
{"id": "C104", "title": "Longitudinal LiNGAM matrices satisfy the structural equation", "statement": "For every time point and individual x_t = B_t x_t + Σ B_{t,l} x_{t-l} + e_t with the reported matrices, and matrices for lags before the first time point are NaN.", "quantifier": "all trajectories, coefficients, dimensions, lags, time points", "why_tests_cant": "all data", "anchors": ["causallearn/search/FCMBased/lingam/longitudinal_lingam.py:LongitudinalLiNGAM.fit", "causallearn/search/FCMBased/lingam/longitudinal_lingam.py:LongitudinalLiNGAM._compute_residuals"]}
{"id": "C105", "title": "Dag edge queries are exact after every history", "statement": "After any sequence of add_edge, add_directed_edge, remove_edge and remove_connecting_edge calls on a Dag, is_parent_of, is_child_of, contains_edge, is_adjacent_to, get_parents, get_children, get_adjacent_nodes, the degrees, get_num_edges, get_edge, get_graph_edges, get_node_edges, is_exogenous, is_def_collider and is_def_noncollider answer for exactly the edges added and not later removed or reversed.", "quantifier": "all histories of any length over any number of nodes (no call names a node twice)", "why_tests_cant": "histories of any length", "anchors": ["causallearn/graph/Dag.py:Dag.add_edge", "causallearn/graph/Dag.py:Dag.remove_edge", "causallearn/graph/Dag.py:Dag.get_graph_edges", "causallearn/graph/Dag.py:Dag.get_parents"]}
{"id": "C106", "title": "Dag ancestors are exact", "statement": "After any history, get_ancestors returns exactly the nodes with a directed path into the given nodes, without repetition (also for GeneralGraph and cyclic graphs); is_ancestor_of and exists_trek agree with the directed paths of the current graph.", "quantifier": "all histories, all node lists", "why_tests_cant": "histories of any length, recursion on any graph", "anchors": ["causallearn/graph/Dag.py:Dag.get_ancestors", "causallearn/graph/Dag.py:Dag.collect_ancestors", "causallearn/graph/Dag.py:Dag.is_ancestor_of", "causallearn/graph/Dag.py:Dag.exists_trek", "causallearn/graph/GeneralGraph.py:GeneralGraph.get_ancestors"]}
{"id": "C107", "title": "A Dag is acyclic", "statement": "A Dag never contains a directed cycle, exists_directed_cycle tells the truth, and get_causal_ordering returns a topological order.", "quantifier": "all histories", "why_tests_cant": "histories of any length", "anchors": ["causallearn/graph/Dag.py:Dag.add_edge", "causallearn/graph/Dag.py:Dag.exists_directed_cycle", "causallearn/graph/Dag.py:Dag.get_causal_ordering"]}
{"id": "C108", "title": "Removing nodes from a Dag keeps the other edges", "statement": "remove_node and subgraph give the graph on the remaining nodes with exactly the edges between them.", "quantifier": "all objects, all nodes", "why_tests_cant": "all sizes and positions", "anchors": ["causallearn/graph/Dag.py:Dag.remove_node", "causallearn/graph/Dag.py:Dag.subgraph"]}
{"id": "C109", "title": "Dag.dag2pag returns a PAG for every set of observed nodes", "statement": "dag2pag returns a graph over the observed nodes for every Dag.", "quantifier": "all histories, all lists of observed nodes", "why_tests_cant": "all graphs", "anchors": ["causallearn/graph/Dag.py:Dag.dag2pag"]}
{"id": "C110", "title": "GIN output structure", "statement": "For every outcome of the independence tests GIN terminates; each measured variable is left over or belongs to exactly one cluster; each cluster has at least two members, each lying in a subset of the cluster that passed the test; the returned graph has exactly the measured variables and one latent per cluster, a latent points to exactly its cluster, ordered latents point to all later ones, unordered latents are pairwise joined by undirected edges, nothing else is adjacent, and the directed edges form no cycle.", "quantifier": "all data sizes, all outcomes of the tests, all iteration orders of Python sets", "why_tests_cant": "data-dependent search over all subsets; any number of variables", "anchors": ["causallearn/search/HiddenCausal/GIN/GIN.py:GIN", "causallearn/search/HiddenCausal/GIN/GIN.py:merge_overlaping_cluster", "causallearn/search/HiddenCausal/GIN/GIN.py:array_split"]}
{"id": "C111", "title": "GIN tests residuals against the conditioning variables", "statement": "A cluster is accepted, and a latent is put next in the causal order, exactly according to the GIN test of the residual against each variable of the conditioning set Z; the order is extended as long as some cluster passes.", "quantifier": "all data sizes, all outcomes of the tests", "why_tests_cant": "all subsets and all outcomes", "anchors": ["causallearn/search/HiddenCausal/GIN/GIN.py:GIN"]}
{"id": "C112", "title": "GIN_MI output", "statement": "On data with at least three variables GIN_MI terminates and returns an order of clusters such that each variable is in exactly one cluster of size at least two; the clusters are the connected components of linking every variable with a partner of least dependence statistic; each next cluster minimizes the dependence statistic among the clusters not yet ordered; the graph has one latent per cluster pointing to its members and to all later latents.", "quantifier": "all data sizes, all statistics below the initial values 1e9 and 1e30, all set iteration orders", "why_tests_cant": "all statistics, any number of variables", "anchors": ["causallearn/search/HiddenCausal/GIN/GIN.py:GIN_MI", "causallearn/search/HiddenCausal/GIN/GIN.py:find_root", "causallearn/search/HiddenCausal/GIN/GIN.py:cal_dep_for_gin"]}
{"id": "C113", "title": "get_color_edges labels every directed edge once and leaves the graph as it was", "statement": "On every mixed graph get_color_edges raises nothing, leaves all marks of the graph unchanged, returns the edges of the graph in order, and gives each directed edge exactly one of dd/pd and one of nl/pl and every other edge no label; dd is given exactly when the edge is the only semi-directed path between its ends.", "quantifier": "all mixed graphs with any number of nodes", "why_tests_cant": "the edge is removed and re-added while the loop runs; needs all graphs", "anchors": ["causallearn/search/ConstraintBased/FCI.py: get_color_edges, defVisible, visibleEdgeHelper, existsSemiDirectedPath"]}
{"id": "C114", "title": "An edge labelled dd (definitely direct) by FCI is a direct cause", "statement": "If the marks of the PAG are true and inseparable pairs are adjacent, then for an edge a -> b labelled dd every directed path of the causal graph from a to b runs through unobserved variables only (and without selection there is such a path).", "quantifier": "all causal DAGs with any latent and selection variables, all graphs", "why_tests_cant": "relates the label to every path of every causal graph", "anchors": ["causallearn/search/ConstraintBased/FCI.py: get_color_edges, existsSemiDirectedPath"]}
{"id": "C115", "title": "An edge labelled nl by FCI has no latent confounder", "statement": "For an edge a -> b labelled nl, a and b have no unobserved common cause that reaches both through unobserved variables; and every visible edge is labelled nl.", "quantifier": "all causal DAGs with any latent and selection variables, all graphs", "why_tests_cant": "relates the label to every causal graph behind the PAG", "anchors": ["causallearn/search/ConstraintBased/FCI.py: defVisible, visibleEdgeHelper, visibleEdgeHelperVisit"]}
{"id": "C116", "title": "Kernel matrices are symmetric and positive semidefinite", "statement": "Whatever the kernel, the width rule and the data, a computed kernel matrix is symmetric and positive semidefinite; a Gaussian one has entries in (0,1] with ones on the diagonal, is 1 just for equal samples and decreases with the distance.", "quantifier": "all data arrays, all kernels, all width rules, all widths", "why_tests_cant": "a statement about every quadratic form of every data set", "anchors": ["causallearn/utils/KCI/GaussianKernel.py: kernel", "causallearn/utils/KCI/PolynomialKernel.py: kernel", "causallearn/utils/KCI/LinearKernel.py: kernel", "causallearn/utils/KCI/KCI.py: KCI_UInd.kernel_matrix"]}
{"id": "C117", "title": "The fast centring is H K H, and the two HSIC implementations agree", "statement": "center_kernel_matrix equals H K H for every symmetric matrix, has zero row and column sums, is idempotent and keeps positive semidefiniteness; get_gram_matrix and get_K centre every matrix to H K H; with equal widths hsic_test_gamma and hsic_gam compute the same statistic and the same gamma parameters.", "quantifier": "all matrices, all data, all widths", "why_tests_cant": "the sum form replaces a matrix product for every size", "anchors": ["causallearn/utils/KCI/Kernel.py: center_kernel_matrix, centering_matrix", "causallearn/search/FCMBased/lingam/hsic.py: get_gram_matrix, hsic_test_gamma", "causallearn/search/FCMBased/lingam/hsic2.py: get_K, hsic_gam"]}
{"id": "C118", "title": "The KCI statistic is non-negative, symmetric, and independent of sample order and of units", "statement": "The statistic of KCI_UInd is never negative; exchanging x and y (with their kernels) or reordering the samples changes neither statistic nor p-value; neither does rescaling or shifting any column.", "quantifier": "all data, all kernels, all width rules", "why_tests_cant": "invariance under every permutation and every affine map", "anchors": ["causallearn/utils/KCI/KCI.py: KCI_UInd.compute_pvalue, kernel_matrix, HSIC_V_statistic"]}
{"id": "C119", "title": "With linear kernels the KCI statistic measures the Pearson correlations", "statement": "With linear kernels the statistic is (n-1)^2 times the sum of the squared Pearson correlations between the columns of x and those of y, so it is zero exactly when all of them vanish.", "quantifier": "all data with at least one (two) samples, any number of columns", "why_tests_cant": "an identity over all data sets", "anchors": ["causallearn/utils/KCI/KCI.py: KCI_UInd", "causallearn/utils/KCI/LinearKernel.py: kernel"]}
{"id": "C120", "title": "The KCI p-value is a number in [0,1]", "statement": "For valid arguments KCI_UInd raises nothing and returns a p-value in [0,1]: one minus the distribution function of the gamma distribution whose mean and variance are those of the spectral null distribution; the simulated p-value is in [0,1] and decreases with the statistic.", "quantifier": "all data, all valid arguments, all simulated null samples", "why_tests_cant": "needs every data set, degenerate ones included", "anchors": ["causallearn/utils/KCI/KCI.py: KCI_UInd.compute_pvalue, get_kappa, null_sample_spectral"]}
{"id": "C121", "title": "The conditional KCI test: well defined, non-negative, unit-free, p-value in [0,1]", "statement": "Kz + eps I is always invertible and the computed factor is the documented I - Kz (Kz + eps I)^-1; the regression-centred matrices are positive semidefinite and the statistic is never negative; rescaling or shifting columns changes nothing; both products in get_uuprod give the same mean and variance; the p-value is a number in [0,1].", "quantifier": "all data, all arguments (use_gp=False), any eigen-decomposition", "why_tests_cant": "matrix facts for all sizes and data", "anchors": ["causallearn/utils/KCI/Kernel.py: center_kernel_matrix_regression", "causallearn/utils/KCI/KCI.py: KCI_CInd.compute_pvalue, kernel_matrix, KCI_V_statistic, get_uuprod, get_kappa"]}
{"id": "C122", "title": "The conditional KCI test is symmetric, and its documented arguments can be given", "statement": "Testing x against y given z and y against x given z gives the same statistic; every documented keyword of the kci test can be passed to CIT.", "quantifier": "all data; all keyword sets", "why_tests_cant": "a claim about all data sets and all argument sets", "anchors": ["causallearn/utils/KCI/KCI.py: KCI_CInd.kernel_matrix, __init__", "causallearn/utils/cit.py: KCI.__init__"]}
{"id": "C123", "title": "The causal order of DirectLiNGAM does not depend on units, signs, offsets or the order of the samples", "statement": "Replacing every variable x by a*x+b with a nonzero (its own a and b per variable) and reordering the samples does not change the causal order fit returns, for both measures, with or without prior knowledge.", "quantifier": "all data, all rescalings, all sample orders, all prior knowledge", "why_tests_cant": "invariance under every affine map and permutation", "anchors": ["causallearn/search/FCMBased/lingam/direct_lingam.py: DirectLiNGAM.fit, _search_causal_order, _search_causal_order_kernel, _residual, _entropy"]}
{"id": "C124", "title": "The regression residual used by LiNGAM is uncorrelated with the regressor", "statement": "After the effect of x_j has been removed from x_i, the sample covariance of the residual and x_j is zero.", "quantifier": "all pairs of columns", "why_tests_cant": "an identity over all data sets", "anchors": ["causallearn/search/FCMBased/lingam/direct_lingam.py: _residual"]}
{"id": "C125", "title": "DirectLiNGAM places the variable with the least evidence against it", "statement": "The evidence is antisymmetric; at every stage the chosen variable minimises the summed squared evidence against it on the residual data; a variable with positive evidence against all others is chosen; with two variables the sign decides; without ties relabelling the columns relabels the result.", "quantifier": "all data, all stages, all relabellings", "why_tests_cant": "a statement about every stage of every run", "anchors": ["causallearn/search/FCMBased/lingam/direct_lingam.py: _search_causal_order, _diff_mutual_info, fit"]}
{"id": "C126", "title": "The kernel measure of LiNGAM is a non-negative symmetric dependence measure", "statement": "The kernel mutual information of two columns is non-negative, symmetric, invariant under shifts and reflections, and all singular values whose logarithm is taken are positive.", "quantifier": "all columns, all sample sizes, all positive regularisations", "why_tests_cant": "an inequality over all data sets", "anchors": ["causallearn/search/FCMBased/lingam/direct_lingam.py: _mutual_information"]}
{"id": "C127", "title": "MultiGroupDirectLiNGAM estimates one order for all groups", "statement": "The returned order is one permutation minimising at every stage the sample-size weighted evidence over the groups; every group's matrix is acyclic along it; the order of the groups and the units in each group do not matter; repeating a data set gives DirectLiNGAM's result; prior knowledge is obeyed by every fit.", "quantifier": "all lists of data sets, all prior knowledge, all sequences of fits", "why_tests_cant": "every list of groups and every history of fits", "anchors": ["causallearn/search/FCMBased/lingam/multi_group_direct_lingam.py: MultiGroupDirectLiNGAM.fit, bootstrap, _search_causal_order"]}
{"id": "C128", "title": "granger_test_2d reports exactly the significant influences", "statement": "An entry of adj_matrix is 1 exactly when the p-value of the corresponding Granger test is below the significance level.", "quantifier": "all p-values, all lags, all levels", "why_tests_cant": "all p-values including those next to the level", "anchors": ["causallearn/search/Granger/Granger.py: Granger.granger_test_2d"]}
{"id": "C129", "title": "granger_lasso regresses on the documented lags", "statement": "Row i, column (k-1)*d+j of the result is the coefficient of variable j at lag k in the lasso of variable i, fitted on all times with a complete past.", "quantifier": "all data arrays, all maximal lags", "why_tests_cant": "index arithmetic for all sizes", "anchors": ["causallearn/search/Granger/Granger.py: Granger.granger_lasso"]}
{"id": "C130", "title": "get_sepset finds a d-separating set exactly when there is one", "statement": "On a DAG, get_sepset(x, y) terminates; it returns None exactly when x = y or the nodes are adjacent, and otherwise a duplicate-free set of ancestors of x or y, without x and y, that d-separates them.", "quantifier": "all DAGs, all pairs of nodes", "why_tests_cant": "existence and soundness over all graphs and paths", "anchors": ["causallearn/graph/GeneralGraph.py: get_sepset", "causallearn/utils/GraphUtils.py: get_sepset, get_sepset_visit, sepset_path_found"]}
{"id": "C131", "title": "get_sepset conditions on measured nodes only", "statement": "No node whose type is LATENT occurs in the set get_sepset returns.", "quantifier": "all DAGs with latent nodes", "why_tests_cant": "all graphs and all assignments of node types", "anchors": ["causallearn/utils/GraphUtils.py: sepset_path_found"]}
{"id": "C132", "title": "find_all_paths reports cyclic matrices", "statement": "On every matrix find_all_paths terminates; when a directed cycle is reachable from the source the call raises ValueError instead of returning walks that repeat a node.", "quantifier": "all matrices, all pairs of nodes", "why_tests_cant": "all cyclic matrices", "anchors": ["causallearn/search/FCMBased/lingam/utils/__init__.py: find_all_paths"]}
{"id": "C133", "title": "Triangles, kites and unshielded triples are listed completely", "statement": "find_triangles, find_kites and find_unshielded_triples (of GraphUtils and of CausalGraph) list exactly the triples of pairwise adjacent nodes, the kites with tips in increasing order, and the unshielded triples, each ordered occurrence once.", "quantifier": "all graphs with at most one edge per pair", "why_tests_cant": "completeness and uniqueness over all graphs", "anchors": ["causallearn/utils/GraphUtils.py: find_triangles, find_kites, find_unshielded_triples", "causallearn/graph/GraphClass.py: find_unshielded_triples, find_triangles, find_kites"]}
{"id": "C134", "title": "GraphUtils.sdh is a structural Hamming distance", "statement": "sdh(g1, g2) terminates without error, is symmetric, is 0 exactly when the graphs have the same edges and counts every pair of nodes.", "quantifier": "all pairs of graphs over the same nodes", "why_tests_cant": "all pairs of graphs", "anchors": ["causallearn/utils/GraphUtils.py: sdh, shd_one_edge"]}
{"id": "C135", "title": "Precision and recall are the fractions they claim to be", "statement": "adj_precision, adj_recall, arrow_precision, arrow_recall and their common-edge variants return the fraction of estimated (true) adjacencies or arrowheads that are also in the other graph; the value lies in [0,1], is 1 exactly when none is wrong (missing), and is undefined (ZeroDivisionError, or nan for arrows) exactly when there is nothing to count.", "quantifier": "all pairs of graphs over the same nodes", "why_tests_cant": "all pairs of graphs", "anchors": ["causallearn/utils/GraphUtils.py: adj_precision, adj_recall, arrow_precision, arrow_recall, arrow_precision_common_edges, arrow_recall_common_edges", "causallearn/graph/AdjacencyConfusion.py", "causallearn/graph/ArrowConfusion.py"]}
{"id": "C136", "title": "Bootstrap graph counts are exact", "statement": "get_directed_acyclic_graph_counts reports pairwise different graphs that occur among the bootstrap samples, each with the number of samples having exactly this graph (with signs if they are split), by non-increasing count; without n_dags the counts add up to the number of samples and no sample's graph is missing; with n_dags a graph is missing only if n_dags graphs at least as frequent are reported. Non-positive arguments are rejected.", "quantifier": "all lists of sample matrices, thresholds and values of n_dags", "why_tests_cant": "all lists of samples of any length", "anchors": ["causallearn/search/FCMBased/lingam/bootstrap.py: BootstrapResult.get_directed_acyclic_graph_counts"]}
{"id": "C137", "title": "Bootstrap total effects: probabilities and medians", "statement": "get_total_causal_effects reports exactly the ordered pairs whose total effect exceeds min_causal_effect in some sample, each once, with the fraction of such samples as probability, by non-increasing probability, and as effect the median of the effects in the samples counted.", "quantifier": "all lists of total-effect matrices and thresholds", "why_tests_cant": "all lists of samples of any length", "anchors": ["causallearn/search/FCMBased/lingam/bootstrap.py: BootstrapResult.get_total_causal_effects"]}
{"id": "C138", "title": "Bootstrap path probabilities", "statement": "get_paths(from, to, min_causal_effect) returns exactly the directed paths that occur in some sample (with coefficients exceeding min_causal_effect), each once, with the fraction of the samples containing it and the median over these samples of the product of its coefficients, by non-increasing probability.", "quantifier": "all lists of acyclic sample matrices and pairs of different variables", "why_tests_cant": "all lists of samples of any size", "anchors": ["causallearn/search/FCMBased/lingam/bootstrap.py: BootstrapResult.get_paths"]}
{"id": "C139", "title": "estimate_total_effect identifies the total causal effect", "statement": "On data generated by an acyclic linear model, if the estimated parents of the source contain its true parents and no descendant and the regression is least squares, estimate_total_effect returns the sum over all directed paths of the products of coefficients; this is also the sum of the effects listed by find_all_paths; the bootstrap's matrix holds it for each pair in causal order and 0 elsewhere.", "quantifier": "all acyclic linear models, data sets, sources and destinations", "why_tests_cant": "all models and data of any size", "anchors": ["causallearn/search/FCMBased/lingam/base.py: estimate_total_effect", "causallearn/search/FCMBased/lingam/bootstrap.py: BootstrapMixin.bootstrap", "causallearn/search/FCMBased/lingam/utils/__init__.py: find_all_paths"]}
{"id": "C140", "title": "p-values of the errors' independence", "statement": "get_error_independence_p_values returns a symmetric matrix with zero diagonal whose entries are the p-values of the test for the columns of X − B X; on data generated by B these columns are the errors that were put in.", "quantifier": "all data, matrices and tests", "why_tests_cant": "all data and matrices of any size", "anchors": ["causallearn/search/FCMBased/lingam/base.py: get_error_independence_p_values"]}
{"id": "C141", "title": "Pruned VAR-LiNGAM matrices are the fitted regressions", "statement": "With pruning, fit regresses every variable at every time t >= lags on the variables before it in the causal order at time t and on all variables at times t-1..t-lags, without wrapping around the ends of the series, and the reported matrices B_0, B_1, ... say exactly what these regressions say; B_0 follows the causal order; this holds for every number of lags in use.", "quantifier": "all data, causal orders, numbers of variables and lags, and regressions", "why_tests_cant": "all sizes and lags", "anchors": ["causallearn/search/FCMBased/lingam/var_lingam.py: VARLiNGAM._pruning, fit"]}
{"id": "C142", "title": "Pruned VARMA-LiNGAM matrices are the fitted regressions", "statement": "With pruning, fit regresses every variable on the variables before it in the causal order, all variables at lags 1..p and all errors at lags 1..q, each taken from the past of the row, and psi, omega say exactly what these regressions say; psi_0 follows the causal order; this works with estimated and with given coefficients.", "quantifier": "all data, errors, causal orders, orders (p, q) and regressions", "why_tests_cant": "all sizes and orders", "anchors": ["causallearn/search/FCMBased/lingam/varma_lingam.py: VARMALiNGAM._pruning, fit"]}
{"id": "C143", "title": "Regressors of the total effect in the time-series models", "statement": "estimate_total_effect(from, to, lag) regresses `to` at time t on `from` at time t-lag and on the reported parents of `from`, each at its own time (t-lag-tau for a parent in B_tau), in VAR-, VARMA- and Longitudinal LiNGAM.", "quantifier": "all data, matrices, lags and rows with enough past", "why_tests_cant": "all sizes and lags", "anchors": ["causallearn/search/FCMBased/lingam/var_lingam.py: estimate_total_effect", "causallearn/search/FCMBased/lingam/varma_lingam.py: estimate_total_effect", "causallearn/search/FCMBased/lingam/longitudinal_lingam.py: estimate_total_effect"]}
{"id": "C144", "title": "Bootstrap of Longitudinal LiNGAM: placement and counts", "statement": "The matrix of total effects of a bootstrap sample has in row (to_t, to), column (from_t, from) the estimated effect if from precedes to at the same time or to_t is later, and 0 elsewhere; get_causal_direction_counts lists for each time the distinct directions with the number of samples having them, NaN never counting; get_probabilities counts the same.", "quantifier": "all orders, effects, lists of samples, thresholds", "why_tests_cant": "all numbers of time points, variables, samples", "anchors": ["causallearn/search/FCMBased/lingam/longitudinal_lingam.py: bootstrap", "causallearn/search/FCMBased/lingam/bootstrap.py: LongitudinalBootstrapResult"]}
{"id": "C145", "title": "Lag selection by information criterion", "statement": "With a criterion, VAR-LiNGAM uses the number of lags in 1..lags and VARMA-LiNGAM the order (a,b) != (0,0) within the given one that minimises the criterion, the first of several best ones; there is no result exactly when no candidate has a finite value.", "quantifier": "all criteria values (including NaN and infinity) and maximal orders", "why_tests_cant": "all numbers of lags", "anchors": ["causallearn/search/FCMBased/lingam/var_lingam.py: _estimate_var_coefs", "causallearn/search/FCMBased/lingam/varma_lingam.py: _estimate_varma_coefs"]}
{"id": "C146", "title": "networkx conversions are faithful and matrix_diff counts differing edges", "statement": "to_nx_graph gives a networkx graph with a blue edge i->j exactly for i --> j, green edges both ways exactly for i --- j and red ones exactly for i <-> j, to_nx_skeleton exactly the adjacencies; calling them again after the graph changed gives the new graph; matrix_diff of two graphs is zero exactly if they are equal and lists the differing pairs.", "quantifier": "all graphs", "why_tests_cant": "all sizes and mark patterns", "anchors": ["causallearn/graph/GraphClass.py: CausalGraph.to_nx_graph, to_nx_skeleton, find_undirected, find_fully_directed, find_bi_directed", "causallearn/search/ConstraintBased/PC.py: get_adjacancy_matrix, matrix_diff"]}
{"id": "C147", "title": "Round trip through Tetrad text files", "statement": "tetrad2adjmat returns the adjacency matrix that adjmat2tetrad wrote, for every matrix with NaN on the diagonal and consistent marks.", "quantifier": "all matrices with directed, undirected, bidirected and absent edges, any number of variables", "why_tests_cant": "all sizes and numbers with any number of digits", "anchors": ["causallearn/utils/PCUtils/Helper.py: adjmat2tetrad, tetrad2adjmat"]}
{"id": "C148", "title": "Reading a Tetrad file", "statement": "tetrad2adjmat on a file with edge lines returns the matrix that holds exactly the marks the lines state, and raises an error exactly if two lines contradict each other or a line joins a variable with itself.", "quantifier": "all lists of edge lines (repetitions allowed) over X1..Xn, n >= 2", "why_tests_cant": "all lengths and orders of lines", "anchors": ["causallearn/utils/PCUtils/Helper.py: tetrad2adjmat"]}
{"id": "C149", "title": "rearrange_columns restores the variable order", "statement": "If the columns of the data file are a permutation of X1..Xn, the rearranged adjacency matrix has in the cell of two variables the entry of the columns holding them.", "quantifier": "all matrices and permutations", "why_tests_cant": "all sizes", "anchors": ["causallearn/utils/PCUtils/Helper.py: rearrange_columns"]}
{"id": "C150", "title": "Soft prior knowledge in DirectLiNGAM", "statement": "With apply_prior_knowledge_softly and the pwling measure, the next variable in the causal order minimises the sum of evidence against it, where prior knowledge replaces the data for the pairs it covers.", "quantifier": "all data, prior knowledge and candidate sets", "why_tests_cant": "all sizes", "anchors": ["causallearn/search/FCMBased/lingam/direct_lingam.py: _search_candidate, _search_causal_order, _search_causal_order_kernel"]}
{"id": "C151", "title": "The folds of the cross-validated score partition the samples", "statement": "In each fold of local_score_cv_general the test and training samples together are all samples, every sample is a test sample in exactly one fold, all folds but the last have floor(T/k) test samples and the last fewer than k more.", "quantifier": "all T, k >= 1 and folds", "why_tests_cant": "all sample sizes and fold counts", "anchors": ["causallearn/score/LocalScoreFunction.py: local_score_cv_general"]}
{"id": "C152", "title": "The kernel matrices of the generalised scores are centred", "statement": "The kernel matrices used by the cross-validated and marginal scores are centred in feature space (all row sums are zero), as the comments in the code say.", "quantifier": "all data with at least two samples", "why_tests_cant": "all sizes and data", "anchors": ["causallearn/score/LocalScoreFunction.py: local_score_cv_general, local_score_marginal_general"]}
{"id": "C153", "title": "The cross-validated score is defined", "statement": "For a positive regularisation parameter the matrices inverted and decomposed are positive definite, and the score is a number.", "quantifier": "all data, fold counts, variables and parent sets", "why_tests_cant": "all sizes", "anchors": ["causallearn/score/LocalScoreFunction.py: local_score_cv_general"]}
{"id": "C154", "title": "The cross-validated score does not depend on units or the order of the parents", "statement": "Shifting and rescaling any variable by a non-zero factor, or listing the parents in another order, does not change the score.", "quantifier": "all data, units and permutations of parents", "why_tests_cant": "all real data", "anchors": ["causallearn/score/LocalScoreFunction.py: local_score_cv_general"]}
{"id": "C155", "title": "The generalised scores accept multi-dimensional variables", "statement": "local_score_cv_multi and local_score_marginal_multi work for variables with several dimensions.", "quantifier": "all sample sizes and dimensions", "why_tests_cant": "all sizes", "anchors": ["causallearn/score/LocalScoreFunction.py: local_score_cv_multi, local_score_marginal_multi"]}
{"id": "C156", "title": "The cross-validated score is bounded below", "statement": "The score is at least the mean over the folds of n^2 log(2 pi)/2 with n the number of test samples, hence positive: no choice of parents makes it arbitrarily good.", "quantifier": "all data, 2 <= k <= T, all variables and parent sets", "why_tests_cant": "all sizes", "anchors": ["causallearn/score/LocalScoreFunction.py: local_score_cv_general"]}
{"id": "C157", "title": "Conflicting colliders are decided by the strength of evidence", "statement": "With uc_priority 3 or 4 (orient the stronger collider first), in the uc_sepset, max-p and definite max-p rules, a candidate collider whose p-value evidence is strictly stronger than that of every conflicting candidate is oriented as a collider in the result.", "quantifier": "all skeletons, all p-values, all separating sets", "why_tests_cant": "all graphs and test results", "anchors": ["causallearn/utils/PCUtils/UCSepset.py: uc_sepset, maxp, definite_maxp"]}
{"id": "C158", "title": "Independence p-values of errors in the presence of hidden confounders", "statement": "get_error_independence_p_values of BottomUpParceLiNGAM and RCD is a symmetric matrix with zero diagonal; an entry is NaN if one of the variables occurs in a NaN entry of the adjacency matrix, else it is the p-value of the test of the two real error columns.", "quantifier": "all data, adjacency matrices with NaN, tests", "why_tests_cant": "all sizes", "anchors": ["causallearn/search/FCMBased/lingam/bottom_up_parce_lingam.py: get_error_independence_p_values", "causallearn/search/FCMBased/lingam/rcd.py: get_error_independence_p_values"]}
{"id": "C159", "title": "Total effects in the presence of hidden confounders", "statement": "estimate_total_effect of BottomUpParceLiNGAM is NaN exactly if the source is in the block of unknown order, that of RCD exactly if the source shares a hidden confounder; otherwise it is the coefficient of the source in the regression of the destination on the source and its estimated parents.", "quantifier": "all data, fits, sources and destinations", "why_tests_cant": "all sizes", "anchors": ["causallearn/search/FCMBased/lingam/bottom_up_parce_lingam.py: estimate_total_effect", "causallearn/search/FCMBased/lingam/rcd.py: estimate_total_effect"]}
{"id": "C160", "title": "Total effects and samples of a bootstrap with hidden confounders", "statement": "Each bootstrap total-effect matrix agrees with estimate_total_effect for the pairs the fitted order relates, is NaN where that is unknown, and the samples have the size of the data.", "quantifier": "all data, fits, numbers of samples", "why_tests_cant": "all sizes", "anchors": ["causallearn/search/FCMBased/lingam/bottom_up_parce_lingam.py: bootstrap", "causallearn/search/FCMBased/lingam/rcd.py: bootstrap"]}
{"id": "C161", "title": "Queries on several groups and on panels", "statement": "MultiGroupDirectLiNGAM: total effects, bootstrap matrices and error p-values are those of each group alone, for groups with possibly different sample sizes. LongitudinalLiNGAM: p-values are NaN at the first time point and those of the structural errors later.", "quantifier": "all groups, fits and time points", "why_tests_cant": "all sizes", "anchors": ["causallearn/search/FCMBased/lingam/multi_group_direct_lingam.py: estimate_total_effect, bootstrap, get_error_independence_p_values, _check_X_list", "causallearn/search/FCMBased/lingam/longitudinal_lingam.py: get_error_independence_p_values"]}
{"id": "C162", "title": "The HSIC tests do not depend on naming, units or order of the samples", "statement": "hsic_test_gamma and hsic_gam give the same statistic and p-value when the two variables are exchanged, when columns are shifted and scaled, and when the samples are reordered.", "quantifier": "all samples, shifts, scales and permutations", "why_tests_cant": "all real data of all sizes", "anchors": ["causallearn/search/FCMBased/lingam/hsic.py: get_kernel_width, hsic_test_gamma", "causallearn/search/FCMBased/lingam/hsic2.py: get_width, hsic_gam", "causallearn/search/FCMBased/lingam/CAMUV.py: get_width, hsic_gam"]}
{"id": "C163", "title": "The HSIC tests give p-values, and accept/reject agrees with them", "statement": "For non-constant variables both tests return a p-value in [0, 1], and the decision of hsic_gam at level alph is the comparison of its p-value with alph.", "quantifier": "all samples", "why_tests_cant": "all real data of all sizes", "anchors": ["causallearn/search/FCMBased/lingam/hsic.py: get_kernel_width, hsic_test_gamma", "causallearn/search/FCMBased/lingam/hsic2.py: get_width, hsic_gam", "causallearn/search/FCMBased/lingam/CAMUV.py: get_width, hsic_gam"]}
{"id": "C164", "title": "ANM answers are p-values of the residual test and symmetric", "statement": "cause_or_effect of ANM returns for each direction the p-value in [0, 1] of the independence of cause and residual; exchanging the variables exchanges the answers.", "quantifier": "all samples, regressions, kernels", "why_tests_cant": "all real data", "anchors": ["causallearn/search/FCMBased/ANM/ANM.py: cause_or_effect, fit_gp"]}
{"id": "C165", "title": "PNL tests the independence of cause and estimated noise", "statement": "The p-value of cause_or_effect of PNL is that of a test of independence of the assumed cause and the estimated noise.", "quantifier": "all samples, networks", "why_tests_cant": "all real data", "anchors": ["causallearn/search/FCMBased/PNL/PNL.py: cause_or_effect"]}
{"id": "C166", "title": "PNL trains on all samples", "statement": "The networks of PNL are trained for the given number of epochs on all samples.", "quantifier": "all samples, networks, numbers of epochs", "why_tests_cant": "all data and histories of training", "anchors": ["causallearn/search/FCMBased/PNL/PNL.py: nica_mnd"]}
{"id": "C167", "title": "FastKCI returns a p-value and a weighted average of its statistics", "statement": "compute_pvalue of FastKCI_CInd and FastKCI_UInd returns a p-value in [0, 1] and a statistic between the smallest and largest statistic of its repetitions.", "quantifier": "all numbers of repetitions, likelihoods, statistics and null samples", "why_tests_cant": "all real inputs and repetition counts", "anchors": ["causallearn/utils/FastKCI/FastKCI.py: FastKCI_CInd, FastKCI_UInd, compute_pvalue, pvalue_onblocks"]}
{"id": "C168", "title": "FastKCI's statistic refines KCI's", "statement": "With a single block the statistic of FastKCI is that of KCI; it is non-negative and depends on the partition only, not on the numbering of the blocks.", "quantifier": "all samples, kernels, partitions and renumberings", "why_tests_cant": "all real data and partitions", "anchors": ["causallearn/utils/FastKCI/FastKCI.py: FastKCI_CInd, FastKCI_UInd, compute_pvalue, pvalue_onblocks"]}
{"id": "C169", "title": "FastKCI does not reject independence without evidence", "statement": "If one of the two variables is constant, or the sample is too small to test, FastKCI does not report dependence (p = 0).", "quantifier": "all samples, partitions, kernels", "why_tests_cant": "all real data", "anchors": ["causallearn/utils/FastKCI/FastKCI.py: FastKCI_CInd, FastKCI_UInd, compute_pvalue, pvalue_onblocks"]}
{"id": "C170", "title": "FastKCI's p-value is not more extreme than its repetitions", "statement": "With one repetition FastKCI returns that repetition's p-value; with several it returns a value between the smallest and the largest.", "quantifier": "all lists of repetitions", "why_tests_cant": "all real inputs", "anchors": ["causallearn/utils/FastKCI/FastKCI.py: FastKCI_CInd, FastKCI_UInd, compute_pvalue, pvalue_onblocks"]}
{"id": "C171", "title": "RCIT does not depend on the units of the variables", "statement": "RIT and RCIT give the same answer when every column is shifted and scaled by a positive factor.", "quantifier": "all samples, feature draws, approximations, shifts and scales", "why_tests_cant": "all real data", "anchors": ["causallearn/utils/RCIT/RCIT.py: RIT, RCIT, compute_pvalue, random_fourier_features, matrix_cov"]}
{"id": "C172", "title": "RCIT does not depend on the order of the samples", "statement": "RIT and RCIT give the same answer when the samples are reordered, for every approximation other than the permutation test.", "quantifier": "all samples, feature draws, approximations and permutations", "why_tests_cant": "all real data", "anchors": ["causallearn/utils/RCIT/RCIT.py: RIT, RCIT, compute_pvalue, random_fourier_features, matrix_cov"]}
{"id": "C173", "title": "RCIT's regularised regression is well defined", "statement": "The matrix RCIT inverts is positive definite, so its inverse exists for all data, and the conditional covariance it tests is the covariance of the ridge residual of either variable with the other one, so exchanging the variables transposes it and leaves the statistic unchanged.", "quantifier": "all feature matrices", "why_tests_cant": "all real data of all sizes", "anchors": ["causallearn/utils/RCIT/RCIT.py: RIT, RCIT, compute_pvalue, random_fourier_features, matrix_cov"]}
{"id": "C174", "title": "RCIT returns a p-value", "statement": "RIT and RCIT return a p-value in [0, 1], not rejecting independence without evidence, by the approximation the user chose.", "quantifier": "all samples, feature draws, approximations", "why_tests_cant": "all real data", "anchors": ["causallearn/utils/RCIT/RCIT.py: RIT, RCIT, compute_pvalue, random_fourier_features, matrix_cov"]}
{"id": "C175", "title": "Exact search's own BIC score recovers linear models", "statement": "The BIC score that bic_exact_search computes is N log(RSS/N) + |parents| log N with RSS the least-squares residual; a useless parent makes it worse, changing units does not change which parent set is better, and searching with it recovers a linear model up to Markov equivalence, whatever the means of the variables.", "quantifier": "all data matrices, nodes, parent sets, acyclic linear models", "why_tests_cant": "all real data of all sizes", "anchors": ["causallearn/search/ScoreBased/ExactSearch.py: bic_exact_search, bic_score_node"]}
{"id": "C176", "title": "ICA-LiNGAM reads the model off an exact unmixing matrix", "statement": "If ICA returns the unmixing matrix of an acyclic linear model up to order and scale of its rows, ICALiNGAM.fit reconstructs the coefficients exactly and its causal order puts every cause before its effect.", "quantifier": "all numbers of variables, coefficient matrices of DAGs, row orders and scales, correct assignment solvers and argsorts", "why_tests_cant": "all real matrices of all sizes", "anchors": ["causallearn/search/FCMBased/lingam/ica_lingam.py: ICALiNGAM.fit, ICALiNGAM._estimate_causal_order, ICALiNGAM._search_causal_order"]}
{"id": "C177", "title": "CIT builds the test the user named", "statement": "CIT(data, name) builds the class that was registered last under that name, otherwise the documented built-in test, and raises for unknown names; registering a class that is not a test raises and changes nothing.", "quantifier": "all histories of registrations (with failures), all names", "why_tests_cant": "histories of unbounded length", "anchors": ["causallearn/utils/cit.py: CIT, register_ci_test, CIT_Base, D_Separation"]}
{"id": "C178", "title": "A cache file survives crashes", "statement": "In every history of queries, saves, process crashes (also in the middle of writing the cache file) and restarts, answers given through the cache file are those of the test itself, and a test can be constructed again.", "quantifier": "all histories, all crash points (every number of characters written)", "why_tests_cant": "every crash point of every history", "anchors": ["causallearn/utils/cit.py: CIT, register_ci_test, CIT_Base, D_Separation"]}
{"id": "C179", "title": "pc with the d-separation test returns the CPDAG of the true DAG", "statement": "The d_separation test answers d-separation in the given true DAG, and pc with it returns the CPDAG of that DAG for all data, all alpha in (0, 1) and all rules; a cache file does not change the answers.", "quantifier": "all DAGs, data, alpha, options, true background knowledge, cache contents it wrote itself", "why_tests_cant": "all graphs of all sizes", "anchors": ["causallearn/utils/cit.py: CIT, register_ci_test, CIT_Base, D_Separation"]}
{"id": "C180", "title": "Cached p-values belong to the data", "statement": "A cache file made for one data set is refused for a different data set.", "quantifier": "all pairs of data matrices, all renderings and hash functions", "why_tests_cant": "all data", "anchors": ["causallearn/utils/cit.py: CIT, register_ci_test, CIT_Base, D_Separation"]}
{"id": "C181", "title": "Degree, directed-edge and trek queries are exact", "statement": "get_directed_edge(a, b) returns the edge a -> b exactly if there is one; get_max_degree is the largest degree; get_num_connected_edges counts the neighbours; exists_trek holds exactly if there is a common ancestor.", "quantifier": "all graphs and histories of edge operations", "why_tests_cant": "graphs of all sizes", "anchors": ["causallearn/graph/GeneralGraph.py: get_directed_edge, get_max_degree, get_num_connected_edges, exists_trek"]}
{"id": "C182", "title": "transfer_nodes_and_edges copies the graph", "statement": "Transferring a graph into an empty graph copies every edge with its marks.", "quantifier": "all histories of edge operations", "why_tests_cant": "graphs of all sizes", "anchors": ["causallearn/graph/GeneralGraph.py: transfer_nodes_and_edges, get_graph_edges, add_edge"]}
{"id": "C183", "title": "Graph objects are independent", "statement": "Operations on one graph object do not change another graph object; remove_nodes removes all nodes given; set_nodes renames the nodes.", "quantifier": "all heaps, histories of calls on other graphs", "why_tests_cant": "histories of unbounded length, aliasing", "anchors": ["causallearn/graph/GeneralGraph.py: GeneralGraph.__init__, add_node, remove_node, remove_nodes, set_nodes, __eq__", "causallearn/utils/DAG2CPDAG.py: dag2cpdag"]}
{"id": "C184", "title": "Drawings say what the graph says", "statement": "to_pydot and to_pgv draw a line between two nodes exactly if they are adjacent, with the end marks of the graph; labels, shapes and colours are those of the nodes and of the edge properties; different graphs have different drawings.", "quantifier": "all histories of edge operations, label lists, edge lists", "why_tests_cant": "graphs of all sizes", "anchors": ["causallearn/utils/GraphUtils.py: GraphUtils.to_pydot, GraphUtils.to_pgv", "causallearn/graph/GeneralGraph.py: get_graph_edges"]}
{"id": "C185", "title": "make_dot draws the adjacency matrix", "statement": "make_dot draws an arrow j -> i with its coefficient exactly if |B[i,j]| exceeds the limit and a double-headed arrow exactly if the entry is NaN.", "quantifier": "all square matrices with NaNs, limits, distinct labels, predictions", "why_tests_cant": "all matrices", "anchors": ["causallearn/search/FCMBased/lingam/utils/__init__.py: make_dot"]}
{"id": "C186", "title": "Exogenous and sink variables of a matrix", "statement": "get_exo_variables and get_sink_variables list exactly the variables without causes and without effects; prior knowledge made from them forbids no effect of the matrix.", "quantifier": "all square matrices with NaNs", "why_tests_cant": "all matrices", "anchors": ["causallearn/search/FCMBased/lingam/utils/__init__.py: get_exo_variables, get_sink_variables, make_prior_knowledge"]}
{"id": "C187", "title": "remove_effect returns regression residuals", "statement": "remove_effect replaces each other feature by its least-squares residual on the removed features; it is idempotent and can be done in steps.", "quantifier": "all data, all non-empty sets of features, all least-squares solvers", "why_tests_cant": "all data", "anchors": ["causallearn/search/FCMBased/lingam/utils/__init__.py: remove_effect"]}
{"id": "C188", "title": "predict_adaptive_lasso solves the adaptive lasso", "statement": "The coefficients returned minimise the adaptive lasso objective with weights |OLS|^gamma for the penalty chosen by LassoLarsIC, and vanish where the ordinary coefficient vanishes.", "quantifier": "all data, gamma > 0, penalties, solvers returning minimisers", "why_tests_cant": "all data", "anchors": ["causallearn/search/FCMBased/lingam/utils/__init__.py: predict_adaptive_lasso"]}
{"id": "C189", "title": "The marginal likelihood score is a likelihood", "statement": "local_score_marginal_general returns, for every variable and set of parents, the negative log marginal likelihood of a Gaussian process regression with hyperparameters at least as good as the initial ones.", "quantifier": "all data, parent sets, Cholesky routines and target matrices", "why_tests_cant": "all data sets", "anchors": ["causallearn/score/LocalScoreFunction.py: local_score_marginal_general", "causallearn/utils/ScoreUtils.py: gpr_multi_new, minimize"]}
{"id": "C190", "title": "Likelihood and gradient of the Gaussian process", "statement": "gpr_multi_new returns the negative log likelihood of the targets and its gradient in the hyperparameters.", "quantifier": "all covariance matrices with a Cholesky factor, all targets, all hyperparameters", "why_tests_cant": "real-valued data", "anchors": ["causallearn/utils/ScoreUtils.py: gpr_multi_new, cov_sum, cov_seard, cov_noise, sq_dist, solve_chol"]}
{"id": "C191", "title": "minimize returns the best point it has seen", "statement": "minimize ends after at most the given number of evaluations, returns the point with the smallest value seen and reports the values of its line searches; it finds the minimum of a quadratic function.", "quantifier": "all functions with gradients over an ordered field, failing or not, all starts", "why_tests_cant": "all functions", "anchors": ["causallearn/utils/ScoreUtils.py: minimize"]}
{"id": "C192", "title": "The marginal likelihood score has no units", "statement": "Measuring the variable and its parents in other units (shift, non-zero factor) does not change local_score_marginal_general.", "quantifier": "all data, parent sets, affine changes of each column", "why_tests_cant": "all data and factors", "anchors": ["causallearn/score/LocalScoreFunction.py: local_score_marginal_general", "causallearn/utils/ScoreUtils.py: minimize, cov_seard"]}
{"id": "C193", "title": "A VARMA-LiNGAM fit depends on its data only", "statement": "Fitting a VARMALiNGAM object twice gives, the second time, the model of the second data, as a fresh object would.", "quantifier": "all estimators, data, objects and histories of fits", "why_tests_cant": "all histories of calls", "anchors": ["causallearn/search/FCMBased/lingam/varma_lingam.py: fit, _estimate_varma_coefs, _calc_residuals"]}
{"id": "C194", "title": "Bootstrap of VAR- and VARMA-LiNGAM", "statement": "bootstrap simulates series that obey the estimated equations with resampled residuals, returns one set of matrices for each sample, and leaves the fitted object as it was, also when it raises.", "quantifier": "all estimators, data, objects, numbers of samples and resampled indices", "why_tests_cant": "all data, samples and crash points", "anchors": ["causallearn/search/FCMBased/lingam/var_lingam.py: bootstrap, fit, _calc_residuals, _calc_b", "causallearn/search/FCMBased/lingam/varma_lingam.py: bootstrap, fit"]}
{"id": "C195", "title": "Summaries of a longitudinal bootstrap", "statement": "LongitudinalBootstrapResult.get_directed_acyclic_graph_counts reports for each time point the distinct graphs of the samples with their frequencies; get_total_causal_effects never reports an effect backwards in time or from an unusable time point.", "quantifier": "all samples (with NaN), thresholds, n_dags, time points", "why_tests_cant": "all bootstrap results", "anchors": ["causallearn/search/FCMBased/lingam/bootstrap.py: LongitudinalBootstrapResult.get_directed_acyclic_graph_counts, get_total_causal_effects", "causallearn/search/FCMBased/lingam/longitudinal_lingam.py: bootstrap"]}
{"id": "C196", "title": "RCD recovers a linear non-Gaussian model", "statement": "On data of an acyclic linear model without hidden variables, in which no effect of an ancestor cancels, and with tests that are right (residuals are non-Gaussian, correlated iff their covariance is not zero, independent iff they share no error), RCD.fit ends, its ancestor lists are the sets of ancestors, and its adjacency matrix is the matrix of the model, without NaN.", "quantifier": "all acyclic coefficient matrices, intercepts, errors, sample sizes, numbers of variables, values of max_explanatory_num, with or without MLHSICR and for every result of its minimisation", "why_tests_cant": "all models and data", "anchors": ["causallearn/search/FCMBased/lingam/rcd.py: fit, _extract_ancestors, _is_parent, _extract_parents, _extract_vars_sharing_confounders, _estimate_adjacency_matrix, _is_independent_of_resid, _get_resid_and_coef"]}
{"id": "C197", "title": "RCD with hidden variables reports true ancestors", "statement": "On data of an acyclic linear model of which only some variables are observed, with right tests, every ancestor that RCD reports for an observed variable is one of its ancestors in the full model.", "quantifier": "all acyclic coefficient matrices, choices of hidden variables, errors, sample sizes, values of max_explanatory_num, with or without MLHSICR", "why_tests_cant": "all models with hidden variables", "anchors": ["causallearn/search/FCMBased/lingam/rcd.py: fit, _extract_ancestors, _is_independent_of_resid"]}
{"id": "C198", "title": "ParceLiNGAM finds a causal order", "statement": "On data of an acyclic linear model without hidden variables, with an independence test that is right (p-value 0 for columns with a common error, 1 otherwise), without prior knowledge, BottomUpParceLiNGAM.fit orders all variables and puts every cause before its effects.", "quantifier": "all acyclic coefficient matrices, intercepts, errors, sample sizes, numbers of variables, levels 0 < alpha <= n - 1", "why_tests_cant": "all models and data", "anchors": ["causallearn/search/FCMBased/lingam/bottom_up_parce_lingam.py: fit, _search_causal_order, _find_exo_vec, _compute_residuals, _fisher_hsic_test"]}
{"id": "C199", "title": "ParceLiNGAM is right about the bottom of the order when variables are hidden", "statement": "On data of an acyclic linear model of which only some variables are observed, with an independence test that detects every dependence and without prior knowledge, no variable placed in causal_order_ has a total effect on a variable before it or on the variables of unknown order.", "quantifier": "all acyclic coefficient matrices, choices of hidden variables, errors, sample sizes, positive levels, also when effects cancel", "why_tests_cant": "all models with hidden variables", "anchors": ["causallearn/search/FCMBased/lingam/bottom_up_parce_lingam.py: fit, _search_causal_order, _find_exo_vec, _compute_residuals, _fisher_hsic_test"]}
{"id": "C200", "title": "Correct prior knowledge does not cost ParceLiNGAM its order", "statement": "If ParceLiNGAM orders all variables of a model without prior knowledge, it orders them with correct prior knowledge too.", "quantifier": "all models, data, correct prior knowledge", "why_tests_cant": "all models", "anchors": ["causallearn/search/FCMBased/lingam/bottom_up_parce_lingam.py: _search_candidate, _search_causal_order, _find_exo_vec"]}
{"id": "C201", "title": "CAM-UV recovers a faithful linear model", "statement": "On data of an acyclic linear model without hidden variables whose d-connected variables are partially correlated, with an independence test that is right, CAM-UV (regressions with linear terms) ends for every num_explanatory_vals and returns only true parents; if leaving out a parent always shows in the residual, it returns exactly the parents and reports no pair with a hidden common cause.", "quantifier": "all acyclic coefficient matrices, intercepts, faithful data, errors, sample sizes, numbers of variables, values of num_explanatory_vals and set iteration orders", "why_tests_cant": "all models and data", "anchors": ["causallearn/search/FCMBased/lingam/CAMUV.py: execute, find_parents, get_child, check_independence_withou_K, get_residual, get_neighborhoods"]}
{"id": "C202", "title": "CAM-UV with hidden variables reports true ancestors", "statement": "On data of an acyclic linear model of which only some variables are observed, with an independence test that is right and num_explanatory_vals <= 2, every parent that CAM-UV (regressions with linear terms) returns is an ancestor in the full model, and the returned graph has no directed cycle.", "quantifier": "all acyclic coefficient matrices, choices of hidden variables, errors, sample sizes, set iteration orders, also when effects cancel", "why_tests_cant": "all models with hidden variables", "anchors": ["causallearn/search/FCMBased/lingam/CAMUV.py: execute, find_parents, get_child, check_independence_withou_K, get_residual, get_neighborhoods"]}
{"id": "C203", "title": "GRaSP as written: result and termination", "statement": "For every score, depth and sequence of shuffles grasp returns, and then its final order is a permutation of the variables, parents precede children in it and the returned graph is the CPDAG of these parents; a search that reports no success leaves the order, the parents and the scores as they were.", "quantifier": "all score functions, tolerances, depths, initial orders and results of random.shuffle", "why_tests_cant": "the search mutates the list it iterates over and undoes its moves; whether it ends depends on all scores and shuffles", "anchors": ["causallearn/search/PermutationBased/GRaSP.py: grasp, dfs, update, tuck, Order"]}
{"id": "C204", "title": "GRaSP finds the equivalence class of the true DAG with a consistent score", "statement": "With a score that is locally consistent for a DAG D and respects Markov equivalence, grasp with its default depth returns the essential graph of D, whatever the shuffles.", "quantifier": "all DAGs, consistent scores, tolerances, shuffles", "why_tests_cant": "all graphs, scores and shuffles", "anchors": ["causallearn/search/PermutationBased/GRaSP.py: grasp, dfs"]}
{"id": "C205", "title": "GIN recovers clusters of any position and size", "statement": "With tests that judge the generalised independent noise condition correctly, GIN reports the indicators of every latent as a cluster, whatever their columns and however many latents have equally many indicators.", "quantifier": "all numbers of columns, data, set orders, clusters and test outcomes in which a residual is never judged independent of its own columns", "why_tests_cant": "a test fixes one column layout; the claim is about all layouts and all data", "anchors": ["causallearn/search/HiddenCausal/GIN/GIN.py: GIN, cal_e_with_gin, merge_overlaping_cluster"]}
{"id": "C206", "title": "DirectLiNGAM (kernel measure) finds the causal order with an ideal measure of dependence", "statement": "On data of an acyclic linear model with independent non-Gaussian errors, fit(X) with measure='kernel' and an exact measure of dependence returns an order in which every cause precedes its effects.", "quantifier": "all numbers of variables, acyclic coefficient matrices, error variances, data with uncorrelated errors, continuous ideal measures of dependence, numbers of samples", "why_tests_cant": "a test checks a few models; the claim is about all of them, through all stages of the order", "anchors": ["causallearn/search/FCMBased/lingam/direct_lingam.py: fit, _search_causal_order_kernel, _residual"]}
{"id": "C207", "title": "DirectLiNGAM (pairwise measure) finds the causal order with ideal entropies", "statement": "On data of an acyclic linear model with independent non-Gaussian errors in which no cause has total effect zero, fit(X) with measure='pwling' and exact differences of mutual information returns, for enough samples, an order in which every cause precedes its effects.", "quantifier": "all numbers of variables, acyclic coefficient matrices without cancelling effects, error variances, data with uncorrelated errors, continuous ideal measures of dependence", "why_tests_cant": "a test checks a few models; the claim is about all of them, through all stages of the order", "anchors": ["causallearn/search/FCMBased/lingam/direct_lingam.py: fit, _search_causal_order, _diff_mutual_info, _residual"]}
{"id": "C208", "title": "A graph may be grown node by node", "statement": "Adding nodes between edge calls gives the same graph (edges and ancestors) as creating it with all its nodes first, for GeneralGraph and Dag.", "quantifier": "all histories of add_node, add_edge, add_directed_edge, remove_edge and remove_connecting_edge calls, including calls that raise because a node is not there yet", "why_tests_cant": "a test fixes one history", "anchors": ["causallearn/graph/GeneralGraph.py: add_node", "causallearn/graph/Dag.py: add_node"]}
{"id": "C209", "title": "Transferring a Dag copies it", "statement": "After transfer_nodes_and_edges the receiving Dag has the same edges and the same ancestors as the source.", "quantifier": "all Dags (histories), all edge lists of other graphs", "why_tests_cant": "a test fixes one numbering of the nodes", "anchors": ["causallearn/graph/Dag.py: transfer_nodes_and_edges, get_graph_edges, add_edge"]}
{"id": "C210", "title": "MultiGroupDirectLiNGAM finds the common causal order with ideal entropies", "statement": "On several groups of data from linear models whose edges together have no cycle, with an ideal measure of dependence and enough samples, the common order puts every cause of every group before its effects.", "quantifier": "all numbers of groups (at least two) and variables, all coefficients, edges and error variances per group, all ratios of the numbers of samples, all data of these models from some size on", "why_tests_cant": "the statement is about all data sets of a size and a limit in the size; the effect of one group on the choice for another needs an argument", "anchors": ["causallearn/search/FCMBased/lingam/multi_group_direct_lingam.py: MultiGroupDirectLiNGAM.fit, _search_causal_order"]}
{"id": "C211", "title": "VARLiNGAM recovers a structural vector autoregression", "statement": "On data of a structural vector autoregression, VARLiNGAM finds the reduced-form residuals, a causal order of the instantaneous effects and, given the instantaneous matrix, every lagged matrix.", "quantifier": "all numbers of variables and lags, all coefficient matrices (instantaneous part acyclic), all series and errors", "why_tests_cant": "a test fixes one series; uniqueness of the least squares solution and the limit in the sample size need proofs", "anchors": ["causallearn/search/FCMBased/lingam/var_lingam.py: VARLiNGAM.fit, _estimate_var_coefs, _calc_b"]}
{"id": "C212", "title": "LongitudinalLiNGAM recovers the model of a panel", "statement": "On a panel whose time points obey linear models with intercepts, LongitudinalLiNGAM finds at each time point with enough past an order of the instantaneous effects with causes first and, given the instantaneous matrix, every lagged matrix.", "quantifier": "all numbers of variables and lags, all coefficient matrices (instantaneous part acyclic, no cancelling effects) and intercepts, all panels of enough individuals, all time points t >= n_lags", "why_tests_cant": "a test fixes one panel; uniqueness of least squares and the limit in the number of individuals need proofs", "anchors": ["causallearn/search/FCMBased/lingam/longitudinal_lingam.py: LongitudinalLiNGAM.fit, _compute_residuals, _estimate_lagged_effects"]}
{"id": "C213", "title": "The test with missingness correction replaces the causes of missingness by a resample", "statement": "In a linear model MC_FisherZ is Fisher's z test on the same model with the values of the correction variables replaced by those of different rows in which they are observed; it is symmetric in the pair, does not depend on units, and is FisherZ when nothing is missing.", "quantifier": "all data with missing values, numbers of rows and columns, missingness parents, skeletons, queries and shuffles; all least squares regressions", "why_tests_cant": "the test is random through a shuffle and data dependent; one data set cannot show independence of units or of the order of the arguments", "anchors": ["causallearn/utils/cit.py: MC_FisherZ.__call__", "causallearn/utils/PCUtils/Helper.py: learn_regression_model, get_residual, get_predictor_ws, gen_vir_data, test_wise_deletion"]}
{"id": "C214", "title": "Endpoint queries, descendants, equality and renaming of a Dag", "statement": "get_nodes_into and get_nodes_out_of give the nodes joined by an edge with the given mark at the near or far end; is_descendant_of means a directed path; two Dags are equal iff they have the same nodes and edges, and comparing changes neither; set_nodes renames the nodes.", "quantifier": "all histories of calls on a Dag, all nodes, endpoints, pairs of Dags and node lists", "why_tests_cant": "the matrix, the list, the dictionary and dpath are updated by different methods; only an invariant over histories shows that they agree", "anchors": ["causallearn/graph/Dag.py: Dag.get_nodes_into, get_nodes_out_of, is_descendant_of, is_proper_descendant_of, __eq__, set_nodes"]}
{"id": "C215", "title": "PC with the chi-square and G-square tests on discrete data", "statement": "The chi-square and the G-square test answer exactly 1 when the two variables are independent given the conditioning set in the table (relative frequencies), and less than 1 otherwise. In a table in which every variable is independent of its non-descendants given its parents in a DAG, every d-separated query is therefore answered 1; if moreover d-connected variables are dependent in the table, pc(data, alpha, chisq or gsq) returns exactly the essential graph of the DAG for all levels from some value below 1 on.", "quantifier": "every DAG, every table with that Markov property (any number of rows, variables and categories with fewer than 2^63 value combinations), every pair and conditioning set, skeleton mode, collider rule 0-2 and priority rule", "why_tests_cant": "the statement composes three ways of counting, two statistics, the skeleton search and the orientation rules, and ranges over all DAGs and tables", "anchors": ["causallearn/utils/cit.py:Chisq_or_Gsq.__call__", "causallearn/utils/cit.py:Chisq_or_Gsq.chisq_or_gsq_test", "causallearn/search/ConstraintBased/PC.py:pc", "causallearn/search/ConstraintBased/PC.py:pc_alg"]}
{"id": "C216", "title": "FCI, CD-NOD and IAMB on data, with latent variables", "statement": "On the observed columns of linear data (uncorrelated errors) or of a discrete Markov table over a DAG that may contain latent variables, with d-connected observed variables dependent in the data, Fisher's z (linear) and the chi-square and G-square tests (discrete) answer exactly d-separation for all levels from some value below 1 on; fci(observed) then keeps an edge between every two observed variables that no set of observed variables separates, for every depth and path length; cdnod with a context that is a source returns the correct graph with every edge at the context directed away from it; iamb returns the Markov blanket.", "quantifier": "all DAGs with any latent variables, all linear data and Markov tables of any size, all levels close to 1, all depths, knowledge that is true (cdnod) or bans no pair both ways (fci), all targets", "why_tests_cant": "composes the numerical tests with the whole searches and ranges over all data sets and latent structures", "anchors": ["causallearn/search/ConstraintBased/FCI.py:fci", "causallearn/search/ConstraintBased/CDNOD.py:cdnod", "causallearn/utils/MarkovNetwork/iamb.py:iamb", "causallearn/utils/cit.py:FisherZ.__call__", "causallearn/utils/cit.py:Chisq_or_Gsq.__call__", "causallearn/utils/cit.py:CIT_Base.get_formatted_XYZ_and_cachekey"]}
{"id": "C217", "title": "With tiers PC directs everything the class and the tiers force", "statement": "When the test answers the d-separations of a DAG, add_node_to_tier (and remove_node_from_tier) have been called so that every variable is in a tier, and no edge of the DAG points from a later to an earlier tier, pc returns the adjacencies of the DAG with a directed edge exactly where all Markov-equivalent DAGs that respect the tiers agree, and undirected edges elsewhere. Likewise, for all levels close enough to 1, with Fisher's z on linear faithful data and with the chi-square and G-square tests on a discrete faithful Markov table.", "quantifier": "every DAG, every assignment of all variables to tiers that is true of it, every history of tier calls, collider rules 0-2, every priority, both skeleton modes", "why_tests_cant": "ranges over all DAGs, tiers and equivalent DAGs; the missing fourth Meek rule makes it false for other knowledge (C65)", "anchors": ["causallearn/search/ConstraintBased/PC.py:pc_alg", "causallearn/utils/PCUtils/Meek.py:meek", "causallearn/utils/PCUtils/BackgroundKnowledgeOrientUtils.py:orient_by_background_knowledge", "causallearn/utils/PCUtils/BackgroundKnowledge.py:add_node_to_tier", "causallearn/utils/PCUtils/BackgroundKnowledge.py:is_forbidden"]}
{"id": "C218", "title": "CD-NOD directs everything the class and the exogenous context force", "statement": "When the test answers the d-separations of a DAG over the variables and the context in which the context has no cause, cdnod without background knowledge returns the adjacencies of the DAG with a directed edge exactly where all Markov-equivalent DAGs in which the context has no cause agree, and undirected edges elsewhere. Likewise, for all levels close enough to 1, with Fisher's z on linear faithful data and with the chi-square and G-square tests on a discrete faithful Markov table.", "quantifier": "every DAG whose context is a source, collider rules 0-2, every priority, both skeleton modes", "why_tests_cant": "ranges over all DAGs and all equivalent DAGs", "anchors": ["causallearn/search/ConstraintBased/CDNOD.py:cdnod_alg", "causallearn/utils/PCUtils/Meek.py:meek"]}
{"id": "C219", "title": "KCI's simulated null distribution agrees with its gamma approximation", "statement": "With approx=False the statistics simulated under the null hypothesis have, for independent draws of mean 1 and variance 2, the mean and the variance that approx=True uses, up to the discarded small eigenvalues; the p-value converges to the probability that such a statistic exceeds the observed one; a constant variable is never reported dependent.", "quantifier": "all centred kernel matrices, numbers of samples, draws and probability spaces", "why_tests_cant": "ranges over all data and probability laws", "anchors": ["causallearn/utils/KCI/KCI.py:KCI_UInd.null_sample_spectral", "causallearn/utils/KCI/KCI.py:KCI_CInd.null_sample_spectral", "causallearn/utils/KCI/KCI.py:KCI_UInd.compute_pvalue", "causallearn/utils/KCI/KCI.py:KCI_CInd.compute_pvalue"]}
{"id": "C220", "title": "CALM's likelihood term is minimised exactly by models that generate the data", "statement": "The likelihood part of calm's loss is bounded below by half the log-determinant of the sample covariance, for cyclic and acyclic weights; the bound is attained exactly when the residuals are uncorrelated, so the weights of the true linear acyclic model are a global minimum. For acyclic weights it is half the sum of the log residual variances. Units and standardize=True do not change which weights are best; for two variables both directions are optimal.", "quantifier": "all data sets with non-singular covariance, all weight matrices with non-singular I - B, all masks, penalties and units", "why_tests_cant": "a statement about all weight matrices and data sets", "anchors": ["causallearn/search/ScoreBased/CALM.py:CalmModel.compute_likelihood", "causallearn/search/ScoreBased/CALM.py:CalmModel.compute_loss", "causallearn/search/ScoreBased/CALM.py:CalmModel.sample_mask", "causallearn/utils/CALMUtils.py:gumbel_sigmoid"]}
{"id": "C221", "title": "FastKCI's simulated conditional null agrees with the gamma approximations of its blocks", "statement": "With conditioning, the null statistics that FastKCI sums over the blocks have, for draws of mean 1, an expected value between 1 - n/100000 and 1 times the sum of the blocks' gamma-approximation means, whichever product matrix is formed (the code compares with the size of the whole sample); the same holds for KCI with approx=False, for any number of product columns.", "quantifier": "all data sets, partitions, blocks of at least six samples, eigenvector lists, probability spaces of draws", "why_tests_cant": "ranges over all data, partitions and probability laws", "anchors": ["causallearn/utils/FastKCI/FastKCI.py:FastKCI_CInd.get_uuprod", "causallearn/utils/FastKCI/FastKCI.py:FastKCI_CInd.null_sample_spectral", "causallearn/utils/FastKCI/FastKCI.py:FastKCI_CInd.pvalue_onblocks", "causallearn/utils/KCI/KCI.py:KCI_CInd.get_uuprod"]}
{"id": "C222", "title": "CALM's objective over binary masks is consistent", "statement": "On data from a linear model over an acyclic graph to which they are faithful, with a moral graph that contains the graph's edges, the loss CALM minimises attains a minimum over the binary acyclic masks, and for every small enough sparsity penalty each minimiser's mask is a graph Markov equivalent to the true one.", "quantifier": "all sample sizes, numbers of variables, acyclic graphs, faithful linear data, moral graphs, small enough penalties, constraint weights rho and masks", "why_tests_cant": "ranges over all graphs, real-valued data and real-valued weights", "anchors": ["causallearn/search/ScoreBased/CALM.py:compute_loss", "causallearn/search/ScoreBased/CALM.py:compute_likelihood", "causallearn/search/ScoreBased/CALM.py:compute_h", "causallearn/search/ScoreBased/CALM.py:calm"]}
{"id": "C223", "title": "PC with a correct background knowledge object, on data", "statement": "Whatever has been added to and removed from a BackgroundKnowledge object by node, pattern or tier, if what still stands is true of the DAG and the test answers its d-separations, pc returns the DAG's adjacencies, directs every edge that follows from the v-structures and from what was told by Meek's first three rules, and directs an edge only where all Markov-equivalent DAGs for which the knowledge is true agree. Likewise, for all levels close enough to 1, with Fisher's z on linear faithful data and with chi-square and G-square on a discrete faithful Markov table.", "quantifier": "all sizes, DAGs, call histories on the knowledge object, patterns, tests, data sets, priorities, collider rules 0-2 and skeleton modes", "why_tests_cant": "ranges over all histories, graphs and real-valued data", "anchors": ["causallearn/search/ConstraintBased/PC.py:pc", "causallearn/utils/PCUtils/BackgroundKnowledge.py:BackgroundKnowledge", "causallearn/utils/PCUtils/BackgroundKnowledgeOrientUtils.py:orient_by_background_knowledge"]}
{"id": "C224", "title": "GRaSP and BOSS with BIC on data of a linear model", "statement": "For linear data faithful to a DAG, any positive penalty and any tolerance, from some number of repetitions of the data on: grasp with the BIC score ends from every start, with every depth and all shuffles, and returns the CPDAG of a minimal independence map of the DAG; from a start that lists causes before effects it returns the CPDAG of the DAG itself, and so does boss when the columns are in causal order.", "quantifier": "all numbers of variables, DAGs, faithful linear data sets, penalties, tolerances, depths, starts and shuffles", "why_tests_cant": "ranges over all graphs, real-valued data and sequences of random choices", "anchors": ["causallearn/search/PermutationBased/GRaSP.py:grasp", "causallearn/search/PermutationBased/BOSS.py:boss", "causallearn/score/LocalScoreFunction.py:local_score_BIC"]}
{"id": "C225", "title": "CD-NOD with a correct background knowledge object, on data", "statement": "Whatever has been added to and removed from a BackgroundKnowledge object, if what still stands is true of the DAG over the variables and the context, the context has no cause, and the test answers the d-separations, cdnod returns the DAG's adjacencies, directs every edge that follows from the v-structures, from what was told and from the context being a root by Meek's first three rules, and directs an edge only where all Markov-equivalent DAGs agree in which the context has no cause and for which the knowledge is true. Likewise, for all levels close enough to 1, with Fisher's z on linear faithful data and with chi-square and G-square on a discrete faithful Markov table.", "quantifier": "all sizes, DAGs, call histories on the knowledge object, patterns, tests, data sets, priorities, collider rules 0-2 and skeleton modes", "why_tests_cant": "ranges over all histories, graphs and real-valued data", "anchors": ["causallearn/search/ConstraintBased/CDNOD.py:cdnod_alg", "causallearn/utils/PCUtils/BackgroundKnowledge.py:BackgroundKnowledge", "causallearn/utils/PCUtils/BackgroundKnowledgeOrientUtils.py:orient_by_background_knowledge"]}
{"id": "C226", "title": "Edge objects: kinds, traversal, equality and order", "statement": "An Edge keeps each mark with its node whichever of the two it stores first: get_proximal_endpoint, get_distal_endpoint, get_distal_node and points_toward return exactly what was given to the constructor. The constructors of Edges build the kind they name, and the four is_..._edge predicates recognise exactly their kind. traverse_directed succeeds exactly on a directed edge out of the node, and leads to its head. Two objects for the same edge written from opposite ends are equal; < orders edges.", "quantifier": "all nodes and marks", "why_tests_cant": "ranges over all pairs of nodes and all pairs of marks", "anchors": ["causallearn/graph/Edge.py:Edge", "causallearn/graph/Edges.py:Edges"]}
