import json
P=[]
def p(id,title,statement,quantifier,why,anchors):
    P.append(dict(id=id,title=title,statement=statement,quantifier=quantifier,why_tests_cant=why,anchors=anchors))
GG="causallearn/graph/GeneralGraph.py"
p("C01","add_edge is faithful","If two distinct nodes a, b of a GeneralGraph are not adjacent, then after add_edge(Edge(a,b,m1,m2)) with marks m1,m2 in {TAIL,ARROW,CIRCLE} the graph reports an edge between a and b carrying exactly mark m1 at a and m2 at b, and nothing reported about any other pair of nodes changes.","every graph size, every graph state, every pair of distinct non-adjacent nodes, every pair of marks","tests try a handful of mark pairs on small graphs; the claim is about every mark pair and about every untouched pair in every graph state",[f"{GG}:GeneralGraph.add_edge","causallearn/graph/Edge.py:Edge.__init__"])
p("C02","adjacency stays symmetric and loop-free","After any sequence of edge additions and removals starting from an edgeless graph, a is adjacent to b exactly when b is adjacent to a, and no node is adjacent to itself provided no self-edge was added.","every finite history of add_edge / add_directed_edge / remove_edge / remove_connecting_edge calls, every graph size","histories are unbounded",[f"{GG}:GeneralGraph.add_edge",f"{GG}:GeneralGraph.remove_edge",f"{GG}:GeneralGraph.remove_connecting_edge",f"{GG}:GeneralGraph.is_adjacent_to"])
p("C03","remove_edge undoes add_edge","Adding an edge between two non-adjacent nodes and then removing that same edge restores every reported adjacency and endpoint mark.","every graph state, pair of distinct non-adjacent nodes and mark pair accepted by add_edge","ranges over all graph states",[f"{GG}:GeneralGraph.add_edge",f"{GG}:GeneralGraph.remove_edge"])
p("C04","is_ancestor_of agrees with directed paths","After any history of add_edge calls, is_ancestor_of(a,b) holds exactly when there is a directed path from a to b through the directed edges that were added.","every graph size and every order of adding directed edges","the incremental closure depends on the insertion order; there are factorially many orders",[f"{GG}:GeneralGraph.adjust_dpath",f"{GG}:GeneralGraph.reconstitute_dpath",f"{GG}:GeneralGraph.is_ancestor_of"])
p("C05","exists_directed_cycle detects directed cycles","exists_directed_cycle() returns True exactly when the graph contains a directed cycle.","every GeneralGraph","cycles of every length must be considered",[f"{GG}:GeneralGraph.exists_directed_cycle","causallearn/utils/GraphUtils.py:GraphUtils.exists_directed_path_from_to_breadth_first"])
p("C06","get_graph_edges lists every edge exactly once","get_graph_edges() returns, for each unordered pair of adjacent nodes without doubled edges, exactly one edge with the stored marks, and no edge for non-adjacent pairs; get_num_edges() is the number of adjacent pairs.","every graph without doubled edges","must hold in every graph state",[f"{GG}:GeneralGraph.get_graph_edges",f"{GG}:GeneralGraph.get_num_edges",f"{GG}:GeneralGraph.get_edge"])
p("C07","parent, child and degree queries agree","p is reported by get_parents(c) iff c is reported by get_children(p) iff is_parent_of(p,c) iff is_child_of(c,p), and the in/out-degree equals the number of reported parents/children.","every graph with marks TAIL/ARROW/CIRCLE (no doubled edges)","must hold in every graph state",[f"{GG}:GeneralGraph.get_parents",f"{GG}:GeneralGraph.get_children",f"{GG}:GeneralGraph.is_parent_of",f"{GG}:GeneralGraph.is_child_of",f"{GG}:GeneralGraph.get_indegree",f"{GG}:GeneralGraph.get_outdegree"])
p("C08","graph equality means same nodes and same edges","g == h holds exactly when g and h have the same node names and the same edges, and comparing two graphs does not change either of them.","every pair of graphs","equality is a relation over all pairs of graphs; the side effect shows only when a later query is made",[f"{GG}:GeneralGraph.__eq__"])
p("C09","get_causal_ordering is a topological order","For every acyclic graph, the causal order lists each node exactly once and every parent before its children; the computation terminates.","every directed acyclic graph of any size","all DAGs",["causallearn/utils/GraphUtils.py:GraphUtils.get_causal_order",f"{GG}:GeneralGraph.get_causal_ordering"])
p("C10","is_dseparated_from decides d-separation","For a DAG and node sets, is_dconnected_to(x,y,Z) terminates and returns True iff some path between x and y is active given Z (every non-collider outside Z, every collider an ancestor-or-self of Z).","every DAG, x, y, Z","paths and conditioning sets are exponential in number; non-termination cannot be observed by a test",["causallearn/utils/GraphUtils.py:GraphUtils.is_dconnected_to","causallearn/utils/GraphUtils.py:GraphUtils.reachable"])
p("C11","ChoiceGenerator enumerates all combinations once","ChoiceGenerator(a,b).next() yields every b-element subset of {0..a-1} exactly once, as strictly increasing lists in lexicographic order, then None.","all a >= b >= 0 and all call sequences","unbounded a, b",["causallearn/utils/ChoiceGenerator.py:ChoiceGenerator"])
p("C12","DepthChoiceGenerator enumerates all subsets up to depth once","DepthChoiceGenerator(a,d).next() yields every subset of {0..a-1} with at most d elements (all subsets if d=-1) exactly once, by increasing size, then None.","all a and depths","unbounded a, d",["causallearn/utils/DepthChoiceGenerator.py:DepthChoiceGenerator"])
p("C13","PriorityQueue returns the least live entry","After any history of push/delete/pop, pop returns the entry with the least key among those pushed and not deleted, replaced or popped; get(item) returns the live entry of that item.","every history of queue operations","histories are unbounded",["causallearn/utils/PriorityQueue.py:PriorityQueue"])
SD="causallearn/utils/PCUtils/SkeletonDiscovery.py:skeleton_discovery"
p("C14","stable PC skeleton is order independent","With stable=True, permuting the variables (and the CI test accordingly) permutes the resulting skeleton and nothing else changes about it.","every permutation, every CI test whose decision depends only on the sets, every number of variables","all permutations of all inputs",[SD])
p("C15","skeleton_discovery is correct for a faithful CI test","If the CI test never declares adjacent pairs of the true graph independent and every non-adjacent pair is separated by a subset of the true neighbours of one of its members, skeleton_discovery returns exactly the true skeleton (stable or not); in every case an edge is deleted only because a CI test or background knowledge said so.","every true graph, every such CI test, every n","all graphs and oracles",[SD])
p("C16","doubly forbidden pairs are never adjacent","If background knowledge forbids both a->b and b->a, no edge a-b is in the skeleton returned by skeleton_discovery.","every background knowledge, CI test and n, both stable modes","depends on loop-exit interleavings for every input",[SD])
p("C17","every missing edge has a separating set","For each pair not adjacent in the returned skeleton the recorded separating sets exist, are symmetric in the pair, and each recorded set is one for which the CI test reported independence (or the pair was removed by background knowledge).","every CI test, n, pair","all executions",[SD,"causallearn/utils/PCUtils/Helper.py:append_value"])
p("C18","orientation by background knowledge obeys the knowledge","orient_by_background_knowledge leaves adjacencies unchanged, never leaves an undirected edge whose one direction is forbidden or required, and never orients an undirected edge in a forbidden direction unless both directions are forbidden.","every graph and background knowledge","all graphs and knowledge bases",["causallearn/utils/PCUtils/BackgroundKnowledgeOrientUtils.py:orient_by_background_knowledge"])
p("C19","collider orientation touches exactly the unshielded colliders","uc_sepset keeps adjacencies; with sepsets of a faithful oracle every unshielded triple x-z-y is oriented x->z<-y iff z is a collider in the true DAG, for every priority rule.","every true DAG, every priority 0..4","all DAGs",["causallearn/utils/PCUtils/UCSepset.py:uc_sepset"])
p("C20","Meek phase terminates, preserves the skeleton and is closed","meek terminates, never adds or deletes an adjacency, never reverses a directed edge, and on return no Meek rule R1-R3 is applicable (up to the cycle guard).","every partially directed graph, every background knowledge","unbounded rule application sequences",["causallearn/utils/PCUtils/Meek.py:meek"])
p("C21","PC is sound with a d-separation oracle","With a d-separation oracle of a DAG D, PC (uc_rule 0) returns the skeleton of D, orients every unshielded collider of D, and each directed edge it returns has that direction in D (hence in every DAG with the same d-separations).","every DAG D of every size, stable or not, every conflict rule","all DAGs",["causallearn/search/ConstraintBased/PC.py:pc_alg",SD,"causallearn/utils/PCUtils/UCSepset.py:uc_sepset","causallearn/utils/PCUtils/Meek.py:meek"])
BK="causallearn/utils/PCUtils/BackgroundKnowledge.py:BackgroundKnowledge"
p("C22","background knowledge answers reflect its history","After any history of add/remove calls, is_forbidden(a,b) holds iff the pair is currently listed, matches a currently listed pattern, or a is in a strictly later tier than b; is_required likewise.","every history of knowledge edits","histories are unbounded",[BK])
p("C23","pdag2dag returns a consistent extension","When pdag2dag returns, its result is acyclic, has the same skeleton as the input, keeps every directed edge and creates no unshielded collider that the input did not have.","every PDAG","all PDAGs",["causallearn/utils/PDAG2DAG.py:pdag2dag","causallearn/utils/PDAG2DAG.py:check2"])
p("C24","pdag2dag terminates on extendable PDAGs","pdag2dag terminates whenever the input PDAG admits a consistent DAG extension.","every extendable PDAG","all PDAGs; non-termination is not testable",["causallearn/utils/PDAG2DAG.py:pdag2dag"])
p("C25","dag2cpdag keeps skeleton and compelled edges","For every DAG, dag2cpdag returns a graph with the same skeleton in which every directed edge is directed as in the DAG, all unshielded colliders are directed, and an edge is directed exactly when it has the same direction in every Markov-equivalent DAG.","every DAG","equivalence classes are exponentially large",["causallearn/utils/DAG2CPDAG.py:dag2cpdag"])
p("C26","mec_check decides Markov equivalence","mec_check(G1,G2) is True exactly when the DAGs have the same skeleton and the same unshielded colliders.","all pairs of DAGs over the same nodes","all pairs",["causallearn/utils/MECCheck.py:mec_check"])
F="causallearn/search/ConstraintBased/FCI.py"
p("C27","FCI orientation rules only refine circles","The FCI orientation rules (R1-R3, R5-R10) never add or remove an adjacency and never change a tail or arrowhead once placed; they only replace circles.","every PAG state, every rule, every separating-set table","all graph states",[f"{F}:rulesR1R2cycle",f"{F}:ruleR3",f"{F}:ruleR5",f"{F}:ruleR6",f"{F}:ruleR7",f"{F}:rule8",f"{F}:rule9",f"{F}:rule10"])
p("C28","the FCI orientation phase terminates","Whenever a rule reports a change the number of circle marks strictly decreased, so the orientation loop of fci terminates on every input.","every graph and separating-set table","termination is not testable",[f"{F}:fci"])
p("C29","Possible-D-SEP step tests every conditioning set","removeByPossibleDsep tests, for each pair, every subset of Possible-D-SEP within the size bound before keeping the edge.","all Possible-D-SEP sets and sizes","all subset families",[f"{F}:removeByPossibleDsep"])
p("C30","existsSemiDirectedPath is exact","existsSemiDirectedPath(a,b,G) returns True iff there is a non-empty semi-directed path (no arrowhead pointing back) from a to b.","every graph, every a, b","all graphs",[f"{F}:existsSemiDirectedPath"])
X="causallearn/search/ScoreBased/ExactSearch.py"
p("C31","parent-graph query returns the best admissible parent set","For every variable and every candidate set U, querying the generated parent graph returns a subset of U allowed by the super-graph and the parent-size bound whose local score is minimal among all such subsets.","every score function, candidate set, super graph and bound","all score tables",[f"{X}:generate_parent_graph",f"{X}:query_best_structure",f"{X}:bisect_insort_left"])
p("C32","exact DP search returns a globally optimal DAG","bic_exact_search with search_method='dp' returns an acyclic graph whose total score is minimal among all DAGs within the super-graph and parent bound.","every score function, any number of variables","super-exponentially many DAGs",[f"{X}:dp_shortest_path",f"{X}:bic_exact_search"])
p("C33","exact A* search returns a globally optimal DAG","bic_exact_search with search_method='astar' and the simple heuristic returns a DAG of minimal total score.","every score function, any number of variables","super-exponentially many DAGs",[f"{X}:astar_shortest_path",f"{X}:compute_simple_h"])
p("C34","the k-cycle heuristic keeps A* optimal","With use_k_cycle_heuristic=True A* still returns an optimal DAG (the heuristic never over-estimates).","every score function, k","all score tables",[f"{X}:create_dynamic_pd",f"{X}:compute_dynamic_h",f"{X}:astar_shortest_path"])
p("C35","path extension preserves optimality","Skipping to the extended node when a variable's globally best parents are all placed does not lose the optimum.","every score function and search node","all score tables",[f"{X}:path_extension"])
G="causallearn/search/ScoreBased/GES.py"
p("C36","GES returns an essential graph at a local optimum of the score, with the right score","For every local score ges terminates; each operator it applies is a best valid Insert/Delete, strictly improves the score and adds or removes exactly one edge of some DAG in the current Markov equivalence class; every graph it passes through is the essential graph of a DAG; for a score-equivalent score the reported score is the score of every DAG in the returned class; after the forward phase no single edge addition to any DAG of the class improves the score, and in the returned class no single edge deletion does; the record of local scores and the pruning flags never change a result.","every decomposable score function, every number of variables, every parent limit","all score functions; equivalence classes are exponentially large; termination",[f"{G}:ges","causallearn/utils/GESUtils.py:insert","causallearn/utils/GESUtils.py:delete","causallearn/utils/GESUtils.py:insert_validity_test1","causallearn/utils/GESUtils.py:insert_validity_test2","causallearn/utils/GESUtils.py:insert_vc2_new","causallearn/utils/GESUtils.py:delete_validity_test","causallearn/utils/GESUtils.py:insert_changed_score","causallearn/utils/GESUtils.py:delete_changed_score"])
p("C37","local score cache is transparent","Calling score(i, parents) through the cached LocalScoreClass in any order of calls returns the value of the underlying score on the same parent set.","every history of score queries","histories unbounded",["causallearn/score/LocalScoreFunctionClass.py:LocalScoreClass.score"])
p("C38","BOSS keeps a permutation, terminates and returns the CPDAG of a DAG consistent with its order","For every score and every shuffle, boss ends, its final order is a permutation of the variables, moving a variable never lowers the total score (a move is made only if it raises it by more than the tolerance, to the best position), no further single move improves the final order by more than the tolerance, each variable's parents precede it in that order, and the returned graph is the completed partially directed graph of that DAG.","every score function and every random schedule","all schedules and score functions",["causallearn/search/PermutationBased/BOSS.py:boss","causallearn/search/PermutationBased/BOSS.py:better_mutation","causallearn/search/PermutationBased/BOSS.py:reversed_enumerate","causallearn/search/PermutationBased/gst.py:GST"])
p("C39","CI-test cache keys are canonical and collision free","Two CI queries get the same cache key iff they ask about the same unordered pair and the same conditioning set.","all indices and conditioning sets","infinitely many queries",["causallearn/utils/cit.py:CIT_Base.get_formatted_XYZ_and_cachekey"])
p("C40","a CI cache never answers for another test","A persisted p-value cache created by one test method or parameter set is rejected when loaded by another; with matching ones, cached answers equal the uncached answers for every query history.","every cache content, method and query history","histories unbounded",["causallearn/utils/cit.py:CIT_Base.check_cache_method_consistent","causallearn/utils/cit.py:FisherZ.__call__"])
p("C41","SHD is a metric-like distance","SHD(truth, est) is symmetric, is zero exactly when the two graphs have the same edges and marks, and counts each differing pair once.","all pairs of graphs over the same nodes","all pairs",["causallearn/graph/SHD.py:SHD"])
p("C42","confusion counts partition the pairs","Adjacency true/false positives/negatives sum to n(n-1)/2; arrow confusion counts satisfy tp+fn = arrowheads in truth and tp+fp = arrowheads in the estimate.","all pairs of graphs","all pairs",["causallearn/graph/AdjacencyConfusion.py:AdjacencyConfusion","causallearn/graph/ArrowConfusion.py:ArrowConfusion"])
L="causallearn/search/FCMBased/lingam"
p("C43","LiNGAM returns a causal order and an acyclic matrix","DirectLiNGAM's causal_order_ is a permutation of the variables and adjacency_matrix_ has non-zero entries only from earlier to later variables, hence is acyclic.","every data set (any independence measure values), any number of variables","all data sets",[f"{L}/direct_lingam.py:DirectLiNGAM.fit",f"{L}/base.py:_BaseLiNGAM._estimate_adjacency_matrix"])
p("C44","LiNGAM obeys prior knowledge on every fit","When prior knowledge says xi precedes xj (a path, or a one-sided no-path), every fit() of the model - including the repeated fits of bootstrap() - orders xi before xj, and B[j,i]=0 whenever a path i->j is ruled out.","every data set, every consistent prior knowledge, every number of fits","histories of fits; all data",[f"{L}/direct_lingam.py:DirectLiNGAM._extract_partial_orders",f"{L}/direct_lingam.py:DirectLiNGAM._search_candidate",f"{L}/direct_lingam.py:DirectLiNGAM.fit",f"{L}/bootstrap.py:BootstrapMixin.bootstrap"])
p("C45","find_all_paths is exact","On an acyclic adjacency matrix find_all_paths returns each directed path from source to a different target exactly once with the product of its coefficients, and terminates.","every DAG and pair of nodes","exponentially many paths",[f"{L}/utils/__init__.py:find_all_paths"])
p("C46","ICA-LiNGAM order search is exact","_search_causal_order returns an order in which the matrix is strictly lower triangular if one exists, and None otherwise.","every matrix","all matrices",[f"{L}/ica_lingam.py:ICALiNGAM._search_causal_order"])
p("C47","bootstrap direction counts are exact","get_causal_direction_counts reports each direction present in at least one sample exactly once with the number of samples containing it, in non-increasing order, truncated to n_directions.","all sample lists","all inputs",[f"{L}/bootstrap.py:BootstrapResult.get_causal_direction_counts"])
p("C48","GIN cluster merging gives the finest disjoint cover","merge_overlaping_cluster returns pairwise disjoint clusters covering the same variables such that every input cluster is inside one output cluster and no finer partition has that property.","every list of clusters","all inputs",["causallearn/search/HiddenCausal/GIN/GIN.py:merge_overlaping_cluster"])
p("C49","IAMB returns a blanket of the advertised form","iamb terminates; the blanket excludes the target; every member is dependent on the target given the rest at the time it was kept; iamb_markov_network applies the AND rule as documented.","every CI test, number of variables","all oracles",["causallearn/utils/MarkovNetwork/iamb.py:iamb","causallearn/utils/MarkovNetwork/iamb.py:iamb_markov_network"])
p("C50","graph text format round trips","Writing a graph to text and reading it back yields the same nodes and edges.","every graph","all graphs",["causallearn/utils/TXT2GeneralGraph.py:txt2generalgraph",f"{GG}:GeneralGraph.__str__"])
p("C51","FAS adjacency search","fas removes an edge only when a CI test within the depth bound separates the pair or knowledge forbids both directions, tests subsets of current neighbours only, and its separating-set table answers both orders of the pair.","every CI test, depth, knowledge","all oracles",["causallearn/utils/FAS.py:fas"])
p("C52","CD-NOD never points into the domain index","In the graph returned by cdnod every edge touching the surrogate variable points away from it.","every CI test, conflict rule and n","all executions",["causallearn/search/ConstraintBased/CDNOD.py:cdnod_alg"])
p("C53","node removal and induced subgraphs keep the remaining edges","remove_node(v) and subgraph(S) keep exactly the edges among the remaining nodes, and later queries by node still address the right edges.","every graph and node set","all graphs and later histories",[f"{GG}:GeneralGraph.remove_node",f"{GG}:GeneralGraph.subgraph","causallearn/graph/Dag.py:Dag.remove_node","causallearn/graph/Dag.py:Dag.subgraph"])
p("C54","make_prior_knowledge precedence","In the matrix built by make_prior_knowledge the diagonal is -1, exogenous rows and sink columns are 0, otherwise listed paths are 1, otherwise listed no-paths are 0, otherwise -1.","all argument combinations","all inputs",[f"{L}/utils/__init__.py:make_prior_knowledge",f"{L}/utils/__init__.py:get_sink_variables",f"{L}/utils/__init__.py:get_exo_variables"])
p("C55","Possible-D-SEP is computed exactly","The possible-d-sep set computed for a node contains exactly the nodes reachable by paths each of whose interior nodes is a collider or in a triangle.","every graph, node","all graphs",[f"{F}:getPossibleDsep"])

p("C56","edge endpoint setters keep an edge usable","set_endpoint1(m) / set_endpoint2(m) change exactly the mark at that end of the edge, and the edge object can still be used to remove the edge it describes from a graph.","every edge and mark","all states of edge objects",["causallearn/graph/Edge.py:Edge.set_endpoint1","causallearn/graph/Edge.py:Edge.set_endpoint2",f"{GG}:GeneralGraph.remove_edge"])
p("C57","degrees count neighbours","Without doubled edges get_degree(v) is the number of nodes adjacent to v, and the degrees of all nodes sum to twice get_num_edges().","every history of edge operations, every graph size","histories are unbounded",[f"{GG}:GeneralGraph.get_degree",f"{GG}:GeneralGraph.get_num_edges",f"{GG}:GeneralGraph.get_adjacent_nodes"])
p("C58","mark queries are exact","Without doubled edges contains_edge(Edge(a,b,m1,m2)) is True exactly when the graph reports m1 at a and m2 at b; is_def_collider(a,b,c) exactly when both edges have an arrowhead at b; get_nodes_into(v,m) / get_nodes_out_of(v,m) list exactly the neighbours whose edge to v has mark m at v / at the other node.","every history of edge operations, all nodes and marks","histories and graph sizes are unbounded",[f"{GG}:GeneralGraph.contains_edge",f"{GG}:GeneralGraph.is_def_collider",f"{GG}:GeneralGraph.is_def_unshielded_collider",f"{GG}:GeneralGraph.get_nodes_into",f"{GG}:GeneralGraph.get_nodes_out_of"])
p("C59","is_def_noncollider is sound and complete","is_def_noncollider(a,b,c) is True exactly when a, b, c is a definite non-collider: a mark at b on one of the two edges is a tail, or both are circles and a, c are not adjacent.","every history of edge operations, all triples","histories and graph sizes are unbounded",[f"{GG}:GeneralGraph.is_def_noncollider",f"{GG}:GeneralGraph.get_node_edges"])
p("C60","GRaSP keeps a permutation, returns the CPDAG of a DAG consistent with it, and its score does not get worse","For every score, every depth and every shuffle, every tuck permutes the order, the returned graph is the completed partially directed graph of a DAG whose parents precede their children in the final order, the reported local scores are those of the parent sets, and each successful round raises the total score.","every score function, depth and random schedule","all schedules and score functions",["causallearn/search/PermutationBased/GRaSP.py:grasp","causallearn/search/PermutationBased/GRaSP.py:dfs","causallearn/search/PermutationBased/GRaSP.py:update","causallearn/search/PermutationBased/GRaSP.py:Order"])
p("C61","grow-shrink trees are history independent","The parents and score a grow-shrink tree reports for a prefix depend only on the prefix and the score, not on the earlier queries that filled its cache; the parents are a subset of the prefix and the score is the local score of exactly those parents; no single removal improves it.","every score function and every history of queries","histories unbounded",["causallearn/search/PermutationBased/gst.py:GST.trace","causallearn/search/PermutationBased/gst.py:GSTNode.grow","causallearn/search/PermutationBased/gst.py:GSTNode.shrink"])
p("C62","the grow phase adds the best candidate first","When growing a parent set, the grow-shrink tree adds, at each step, the available candidate with the largest score improvement.","every score function and prefix","all score functions",["causallearn/search/PermutationBased/gst.py:GSTNode.grow","causallearn/search/PermutationBased/gst.py:GSTNode.trace"])
p("C63","the step graphs recorded by GES are the graphs learned at each step","Record['G_step1'][k] (and G_step2) is the essential graph GES had learned after the k-th operator of that phase.","every score function, number of variables and step","all runs",[f"{G}:ges","causallearn/utils/GESUtils.py:insert","causallearn/utils/GESUtils.py:delete"])
p("C64","PC returns exactly the essential graph","When the CI test answers exactly the d-separations of a DAG, pc with every conflict rule returns exactly the essential graph of its Markov equivalence class: the same adjacencies, every edge on which all equivalent DAGs agree is directed, every other edge is undirected. With true background knowledge every edge compelled by the class is directed and every directed edge agrees with the DAG.","every DAG, every number of variables, every uc_rule and uc_priority","all DAGs; equivalence classes are exponentially large",["causallearn/search/ConstraintBased/PC.py:pc_alg","causallearn/utils/PCUtils/Meek.py:meek","causallearn/utils/PCUtils/UCSepset.py:uc_sepset","causallearn/utils/PCUtils/SkeletonDiscovery.py:skeleton_discovery"])
p("C65","with background knowledge the output is maximally oriented","When the CI test answers exactly the d-separations of a DAG and the background knowledge is true of it, pc directs every edge on which all equivalent DAGs satisfying the knowledge agree.","every DAG, every true background knowledge","all DAGs and knowledge",["causallearn/search/ConstraintBased/PC.py:pc_alg","causallearn/utils/PCUtils/Meek.py:meek","causallearn/utils/PCUtils/BackgroundKnowledgeOrientUtils.py:orient_by_background_knowledge"])
p("C66","fci's result is closed under its orientation rules","In the graph returned by fci no orientation rule among Zhang's R1-R10 still has an applicable instance: e.g. whenever a *-> b o-* c with a, c non-adjacent, the circle at b has been turned into a tail.","every CI test, background knowledge, depth and number of variables","all runs; the loop's exit test covers only the instances the code enumerates",[f"{F}:fci",f"{F}:rulesR1R2cycle",f"{F}:ruleR3",f"{F}:ruleR4B",f"{F}:ruleR6",f"{F}:ruleR7",f"{F}:rule8",f"{F}:rule9",f"{F}:rule10"])
p("C67","rule R4 and the orientation loop only refine circles","From its call to its return the discriminating-path rule ruleR4B only replaces circles: every adjacency, tail and arrowhead of the graph it is called with is in the graph it returns. The same holds of the whole orientation loop of fci from the graph it starts with. (Within one call R4 may revise a mark it has itself put.)","every graph, separating-set table, CI test, knowledge and number of rounds","all graphs",[f"{F}:ruleR4B",f"{F}:ddpOrient",f"{F}:doDdpOrientation",f"{F}:fci"])
p("C68","every unshielded triple is classified by its separating set","In FCI, an unshielded triple a-b-c gets arrowheads at b exactly when b is outside the set that separated a and c (without background knowledge), whichever phase found that set and however the variables are numbered.","every graph and separating-set table; every CI test","all tables, all numberings",[f"{F}:rule0",f"{F}:removeByPossibleDsep",f"{F}:isNoncollider"])
p("C69","the marks of fci are true of the causal graph","When the CI test answers exactly the d-separations of a causal DAG with latent and selection variables (and without background knowledge), two observed variables that no set of observed variables separates are adjacent in fci's output; every arrowhead at b on an edge a-b is true (b is not an ancestor of a or of a selection variable) and every tail at b is true (b is such an ancestor). For a DAG without latent variables the adjacencies are exactly those of the DAG and a->b is only reported when the DAG has the edge.","every causal DAG, every choice of latent and selection variables, any number of variables","all causal graphs and all runs of ten interacting rules",[f"{F}:fci",f"{F}:rulesR1R2cycle",f"{F}:ruleR3",f"{F}:ruleR4B",f"{F}:ruleR5",f"{F}:ruleR6",f"{F}:ruleR7",f"{F}:rule8",f"{F}:rule9",f"{F}:rule10",f"{F}:removeByPossibleDsep"])
p("C70","dag2pag returns the PAG of a DAG with latent and selection variables","dag2pag(dag, islatent, isselection) returns a graph over the observed variables in which two are adjacent iff no set of other observed variables d-separates them given the selection variables; every arrowhead and tail is true of the DAG (arrowhead at b on a-b: b is no ancestor of a or of a selection variable), and the orientation rules it calls (R1-R10) are applied as in fci.","every DAG, choice of latent and selection variables, and set iteration order","all DAGs and all latent/selection sets",["causallearn/utils/DAG2PAG.py:dag2pag","causallearn/utils/DAG2PAG.py:mod_endpoint"])
p("C71","fci respects background knowledge","In the graph fci returns with background knowledge, a pair forbidden in both directions is not adjacent; an adjacent pair with one direction forbidden is oriented the other way; an adjacent pair with a required direction has that direction; and a required edge is present.","every CI test, background knowledge, depth, set iteration order and number of variables","all data sets and knowledge bases; the knowledge is consulted in three phases and ten rules",[f"{F}:fci",f"{F}:fci_orient_bk","causallearn/utils/Fas.py:fas"])
p("C72","rules R9 and R10 put a tail exactly on the evidence they look for","rule9 turns a o-> c into a -> c exactly when a has a possible child that is not adjacent to c and from which a semi-directed path leads to c, and changes nothing else; rule10 turns a o-> c into a -> c exactly when there are b -> c <- d and two non-adjacent possible children of a with semi-directed paths to b and d, and changes nothing else. Neither depends on the traversal order of Python sets.","every mixed graph and every set iteration order","all graphs and hash seeds",[f"{F}:rule9",f"{F}:rule10",f"{F}:find_possible_children",f"{F}:existsSemiDirectedPath"])
p("C73","chisq and gsq compute the textbook p-value","CIT(data,'chisq') and CIT(data,'gsq') return, for any two columns and any conditioning set, the p-value of Pearson's chi-square (or the likelihood-ratio G-square) test of conditional independence: observed and expected counts over the configurations of the conditioning variables, degrees of freedom the sum over occurring configurations of (values of x seen - 1)(values of y seen - 1), and 1 when there is no degree of freedom. Hence the result is symmetric in the two variables, does not depend on the order of samples, on how categories are coded or on the order of the conditioning set, nor on which of the three counting routines is used.","every integer data set, every pair of variables and conditioning set of any size","all data sets; the counting routine changes with the sizes, and 64-bit index arithmetic can wrap",["causallearn/utils/cit.py:Chisq_or_Gsq.chisq_or_gsq_test", "causallearn/utils/cit.py:Chisq_or_Gsq.__call__"])
p("C74","BIC and BDeu are decomposable scores of equivalence classes","local_score_BIC / local_score_BIC_from_cov and local_score_BDeu depend only on the set of parents, not on the order they are listed in; the sum of local scores is the same for any two Markov equivalent DAGs; the BIC of i given PA is n log s2 + lambda |PA| log n with s2 the least-squares residual variance; BDeu is the difference of Dirichlet-multinomial log marginal likelihoods plus a structure prior. Hence the score GES reports is the score of every DAG in the returned class.","every positive definite covariance matrix, sample size and penalty; every discrete data set, priors and numbers of states; every pair of Markov equivalent DAGs","all data sets and all pairs of equivalent DAGs",["causallearn/score/LocalScoreFunction.py:local_score_BIC", "causallearn/score/LocalScoreFunction.py:local_score_BIC_from_cov", "causallearn/score/LocalScoreFunction.py:local_score_BDeu", "causallearn/score/LocalScoreFunctionClass.py:LocalScoreClass.score", "causallearn/search/ScoreBased/GES.py:ges"])
p("C75","calm returns a DAG inside the moral graph","Record['G'] of calm has no directed cycle, and its edges are exactly the entries of the moral graph whose weight reaches the threshold.","every behaviour of the optimiser, every parameter setting, every moral graph and number of variables","the optimiser is random and the acyclicity term is only driven below a tolerance",["causallearn/search/ScoreBased/CALM.py:calm", "causallearn/search/ScoreBased/CALM.py:CalmModel.get_params", "causallearn/search/ScoreBased/CALM.py:CalmModel.compute_h", "causallearn/utils/CALMUtils.py:matrix_poly"])
p("C76","Fisher's z test is a test of zero partial correlation","FisherZ(X,Y,S) returns Fisher's z p-value of the sample partial correlation of X and Y given S (the correlation of the least-squares residuals, with intercept); it raises exactly when X or Y is in S, there are fewer than |S|+3 samples, or some combination of the columns involved is constant. The answer depends only on the unordered pair and the set S, not on the units or origins of the columns; it lies in [0,1], is 1 exactly for zero partial correlation and decreases strictly with its absolute value. MV_FisherZ is the same test on the samples without a missing value among the columns of the query.","every data matrix (any number of samples and columns), every query, every missingness pattern","all real data matrices and conditioning sets",["causallearn/utils/cit.py:FisherZ.__call__", "causallearn/utils/cit.py:MV_FisherZ.__call__", "causallearn/utils/cit.py:MV_FisherZ._get_index_no_mv_rows", "causallearn/utils/cit.py:CIT_Base.get_formatted_XYZ_and_cachekey"])
p("C77","PC with Fisher's z on data of a linear structural equation model","On data in which each variable is an intercept plus a linear combination of its parents in a DAG plus a centred error, the errors being pairwise uncorrelated and non-constant in the sample, the Fisher-z test answers exactly 1 to every d-separated query (with enough samples); if moreover every d-connected query has a non-zero partial correlation, then pc(data, alpha, fisherz) returns exactly the essential graph of that DAG for all levels alpha from some value below 1 on, whatever the skeleton mode, collider rule (0,1,2) and priority rule.","every DAG, every coefficient matrix, every sample of every size with orthogonal errors, every pair and conditioning set, all option values","the statement composes the numerical test, the skeleton search and all orientation rules and ranges over all DAGs and all real-valued data sets",["causallearn/utils/cit.py:FisherZ.__call__", "causallearn/search/ConstraintBased/PC.py:pc", "causallearn/search/ConstraintBased/PC.py:pc_alg"])
p("C78","The library's equivalence of DAGs is equality of d-separations","mec_check returns True for two DAGs exactly when they have the same d-separation statements; dag2cpdag directs an edge a->b exactly when every DAG with the d-separations of the input has a->b, pdag2dag(dag2cpdag(G)) has the d-separations of G, pc with a d-separation oracle directs exactly the edges common to all DAGs with the oracle's answers, and the DAGs represented by the graph ges returns are exactly the DAGs with one common set of d-separations.","all DAGs over any number of nodes, all pairs of nodes and conditioning sets, all oracles, all options","the meaning of the output is a statement about all conditioning sets and about all DAGs of an exponentially large class (Verma-Pearl theorem), which no finite test settles",["causallearn/utils/DAG2CPDAG.py:dag2cpdag", "causallearn/utils/MECCheck.py:mec_check", "causallearn/utils/PDAG2DAG.py:pdag2dag", "causallearn/search/ConstraintBased/PC.py:pc", "causallearn/search/ScoreBased/GES.py:ges"])
p("C79","Score-based search with a consistent score finds the true equivalence class","For every DAG D and every local score that is locally consistent for D (a further parent improves the score exactly if it is d-connected to the node given the present parents), GES without a binding parent limit returns the essential graph (CPDAG) of D; exact search (DP and A*) with a score that is in addition score equivalent returns a DAG Markov equivalent to D.","every number of variables, every DAG, every locally consistent score","The correctness of the two greedy phases rests on the theorem of Meek and Chickering, about all pairs of DAGs; tests run single graphs with noisy scores.",["causallearn/search/ScoreBased/GES.py:ges", "causallearn/search/ScoreBased/ExactSearch.py:bic_exact_search", "causallearn/utils/GESUtils.py"])
p("C80","GES and exact search with BIC recover a linear model","On data of a linear structural equation model over a DAG D with errors uncorrelated in the sample: the BIC score of a node is N log(RSS/(N-1)) + lambda |PA| log N with RSS the residual sum of squares of the regression with intercept; a further parent changes it by N log(1-rho^2) + lambda log N with rho the sample partial correlation; if every d-connected pair has a partial correlation that outweighs the penalty, GES with BIC returns the CPDAG of D and exact search a DAG Markov equivalent to D; if the data are faithful to D this is so for enough repetitions of the data set.","every number of variables and samples, every DAG, every linear data set, every penalty above 0","Tests compare one noisy data set with one graph; the claim is about all DAGs and data sets.",["causallearn/score/LocalScoreFunction.py:local_score_BIC", "causallearn/score/LocalScoreFunction.py:local_score_BIC_from_cov", "causallearn/score/LocalScoreFunctionClass.py:LocalScoreClass", "causallearn/search/ScoreBased/GES.py:ges"])
p("C81","Order-based search with a consistent score gives minimal I-maps","With a score that is locally consistent for a DAG D (BIC on linear data with uncorrelated errors and strong dependences is one), a grow-shrink tree selects from a prefix exactly the variables that depend on the target given the rest of the prefix; BOSS ends, and BOSS and GRaSP return the CPDAG of a minimal independence map of D, the one determined by their final order; an order that lists causes before effects gives D itself; and an order scores best exactly when its DAG is Markov equivalent to D.","all DAGs, all locally consistent scores, all orders and prefixes, all shuffles, all tolerances, all numbers of variables","a test has one data set and one order; that nothing dependent is missed and nothing superfluous is kept is a statement about all d-separations",["causallearn/search/PermutationBased/gst.py:GST.trace", "causallearn/search/PermutationBased/BOSS.py:boss", "causallearn/search/PermutationBased/GRaSP.py:grasp", "causallearn/score/LocalScoreFunction.py:local_score_BIC_from_cov"])
p("C82","BOSS finds the equivalence class of the true DAG with a consistent score","With a score that is locally consistent for a DAG D and respects Markov equivalence, BOSS returns the essential graph of D, whatever the order of the columns.","all DAGs, all locally consistent and score-equivalent scores, all shuffles","needs the score landscape over all orders and all scores",["causallearn/search/PermutationBased/BOSS.py:boss", "causallearn/search/PermutationBased/BOSS.py:better_mutation"])
p("C83","RCD ends and its adjacency matrix is well formed","For every data set and all levels, whatever the tests answer, RCD.fit returns; the recorded ancestors are irreflexive and antisymmetric; the matrix has a coefficient exactly for the recorded ancestors that pass the parent test, never in both directions, nan symmetrically and exactly for the pairs without a coefficient whose residuals on their parents are correlated, and zero elsewhere, in particular on the diagonal.","all answers of the tests, all numbers of variables, all max_explanatory_num","the loop restarts whenever an ancestor is found, so its length and its result depend on all test answers",["causallearn/search/FCMBased/lingam/rcd.py:RCD.fit", "causallearn/search/FCMBased/lingam/rcd.py:RCD._extract_ancestors", "causallearn/search/FCMBased/lingam/rcd.py:RCD._extract_vars_sharing_confounders"])
p("C84","RCD returns an acyclic graph","For every data set the coefficients in the adjacency matrix returned by RCD form a directed acyclic graph.","all answers of the tests","needs all answers of the tests",["causallearn/search/FCMBased/lingam/rcd.py:RCD._extract_ancestors", "causallearn/search/FCMBased/lingam/rcd.py:RCD._exists_ancestor_in_U"])
p("C85","RCD stops only when no set of variables identifies a further ancestor","When RCD.fit stops, no set of at most max_explanatory_num + 1 variables that passes the non-Gaussianity and correlation tests has a unique sink for which one of the others is not yet recorded as an ancestor.","all answers of the tests, all sets of variables","needs all sets and the whole history",["causallearn/search/FCMBased/lingam/rcd.py:RCD._extract_ancestors"])
p("C86","CAM-UV terminates and returns exactly what its tests say","`CAMUV.execute(X, alpha, maxnum)` always terminates; the parents found by the search are irreflexive, antisymmetric and marginally dependent on the child; a parent is dropped at the end exactly when the residual of the child on its other parents is independent of the residual of the parent; the list of hidden pairs contains, without repetition, exactly the pairs of marginally dependent variables, neither a parent of the other, whose final residuals are dependent.","all numbers of variables, all p-values of the tests, all levels and all maxnum","a unit test runs one data set; termination and exactness range over all p-value functions and pass histories",["causallearn/search/FCMBased/lingam/CAMUV.py:execute", "causallearn/search/FCMBased/lingam/CAMUV.py:find_parents", "causallearn/search/FCMBased/lingam/CAMUV.py:get_neighborhoods"])
p("C87","CAM-UV returns an acyclic graph","The parent sets returned by `CAMUV.execute` contain no directed cycle.","all numbers of variables, all p-values, levels and maxnum","cycles need particular combinations of test answers that example data do not produce",["causallearn/search/FCMBased/lingam/CAMUV.py:find_parents"])
p("C88","CAM-UV's search is exhaustive","When CAM-UV stops, every set of 2..max(maxnum,2) mutually unrelated variables with a best child that passes the independence test contains a candidate whose residual is already independent of the child's (so no further parent could be recorded).","all numbers of variables, all p-values with alpha ≥ 0, all maxnum","the property concerns the last of an unbounded number of passes",["causallearn/search/FCMBased/lingam/CAMUV.py:find_parents", "causallearn/search/FCMBased/lingam/CAMUV.py:get_child"])
p("C89","ParceLiNGAM returns a partial causal order and an acyclic matrix","For at least two variables `BottomUpParceLiNGAM.fit` terminates; causal_order_ is an optional list of at least two variables of unknown order followed by every other variable exactly once; adjacency_matrix_ is NaN exactly between variables of unknown order, its other non-zero entries go from earlier to later variables, hence are acyclic; every placed variable's p-value is not below the corrected level.","all data (any test values and coefficients), any number n ≥ 2 of variables, any prior knowledge, any history of earlier fits","ranges over all test outcomes and histories of the object",["causallearn/search/FCMBased/lingam/bottom_up_parce_lingam.py:BottomUpParceLiNGAM.fit", "causallearn/search/FCMBased/lingam/bottom_up_parce_lingam.py:BottomUpParceLiNGAM._search_causal_order", "causallearn/search/FCMBased/lingam/bottom_up_parce_lingam.py:BottomUpParceLiNGAM._estimate_adjacency_matrix"])
p("C90","ParceLiNGAM places the most independent sink","Each variable placed at the bottom is the one whose residual on all variables left is most independent of them, its p-value is that of the complete test, and the search stops only if that test rejects every variable left.","all data, any number of variables, any prior knowledge","ranges over all test outcomes; the early exit of the loop must never matter",["causallearn/search/FCMBased/lingam/bottom_up_parce_lingam.py:BottomUpParceLiNGAM._find_exo_vec", "causallearn/search/FCMBased/lingam/bottom_up_parce_lingam.py:BottomUpParceLiNGAM._fisher_hsic_test", "causallearn/search/FCMBased/lingam/bottom_up_parce_lingam.py:BottomUpParceLiNGAM._search_causal_order"])
p("C91","ParceLiNGAM obeys prior knowledge on every fit","When prior knowledge says xi precedes xj, every fit() - including those of bootstrap() - places xi before xj or leaves xi in the unknown block, and B[j,i]=0 whenever a path i->j is ruled out.","every data set, every consistent prior knowledge, every number of fits","histories of fits; all data",["causallearn/search/FCMBased/lingam/bottom_up_parce_lingam.py:BottomUpParceLiNGAM._extract_partial_orders", "causallearn/search/FCMBased/lingam/bottom_up_parce_lingam.py:BottomUpParceLiNGAM._search_candidate", "causallearn/search/FCMBased/lingam/bottom_up_parce_lingam.py:BottomUpParceLiNGAM._search_causal_order", "causallearn/search/FCMBased/lingam/bottom_up_parce_lingam.py:BottomUpParceLiNGAM.bootstrap"])
p("C92","dag2pattern returns the pattern of a DAG","`dag2pattern` applied to the adjacency matrix of a DAG terminates and returns the matrix of its Markov equivalence class: same non-adjacencies, i→j exactly when every DAG with the same skeleton and v-structures has it, all other edges undirected.","all DAGs on any number of nodes, in the module's -1/0/1 encoding","all graphs of all sizes, and all members of the equivalence class",["causallearn/utils/PCUtils/Helper.py:dag2pattern", "causallearn/utils/PCUtils/Helper.py:find_uc", "causallearn/utils/PCUtils/Helper.py:find_kites", "causallearn/utils/PCUtils/Helper.py:find_unshielded_triples"])
p("C93","MVPC finds the causes of missingness","The search for the causes of a column's missingness ends for any CI test; what it leaves out was declared independent of the indicator, what it keeps cannot be separated by kept variables; and if the test answers like d-separation in a DAG where the indicator causes nothing it returns exactly the indicator's direct causes, with stable=True and stable=False.","all CI tests and DAGs, any number of variables, both modes","ranges over all tests and all DAGs",["causallearn/search/ConstraintBased/PC.py:detect_parent", "causallearn/search/ConstraintBased/PC.py:get_parent_missingness_pairs", "causallearn/search/ConstraintBased/PC.py:get_parent"])
p("C94","The corrected test picks exactly the relevant correction variables","MC_FisherZ on x, y given S always decides; it corrects exactly when x and y share a neighbour in the given skeleton that causes the missingness of a variable of the test and some variable outside the test causes, directly or through further missingness, the missingness of a variable of the test; the correction variables are exactly those outside variables, without repetition.","all lists of causes of missingness with one entry per column, all skeletons, pairs and sets","a transitive closure over arbitrary lists",["causallearn/utils/cit.py:MC_FisherZ", "causallearn/utils/PCUtils/Helper.py:cond_perm_c", "causallearn/utils/PCUtils/Helper.py:get_prt_mw", "causallearn/utils/PCUtils/Helper.py:get_prt_mvars"])
p("C95","MVPC returns the essential graph","If the tests on indicators answer like d-separation with sink indicators, independences reported under test-wise deletion are true, and the corrected test given the right causes and a supergraph of the skeleton answers like d-separation, then `pc(mvpc=True)` returns the essential graph of the true DAG in all modes; with true background knowledge it only adds orientations the knowledge implies.","all DAGs, missingness mechanisms and tests meeting the assumptions, any number of variables, stable or not, uc_rule 0-2, every priority","all DAGs and test functions",["causallearn/search/ConstraintBased/PC.py:mvpc_alg", "causallearn/search/ConstraintBased/PC.py:skeleton_correction"])
p("C96","CausalEffect accepts exactly the acyclic models","Given a square connection matrix whose coefficients are zero or at least the tolerance, CausalEffect finds a causal order exactly when the model has no directed cycle; the order lists each variable once, after every variable in its equation.","all square matrices of any size over an ordered field","all matrices of all sizes",["causallearn/search/FCMBased/lingam/causal_effect.py:CausalEffect._check_init_params"])
p("C97","Propagated effects are the solution of the intervened equations","For every acyclic linear model the propagated expectations after do(i=v) are the one and only solution of the structural equations with the equation of i replaced by v; the effects on a prediction compare the prediction at the means with the predictions after do(i = mean ± std); for a linear predictor they are |std_i · Σ coef_k · total effect of i on k|.","all linear models with a topological order, all interventions, predictors and values, any size","all models and values",["causallearn/search/FCMBased/lingam/causal_effect.py:CausalEffect._get_propagated_effects", "causallearn/search/FCMBased/lingam/causal_effect.py:CausalEffect.estimate_effects_on_prediction"])
p("C98","The optimal intervention achieves the desired output","The value returned by estimate_optimal_intervention makes the (linear) prediction after do(i=value) equal to the desired output, for every outcome of the random choices.","all acyclic linear models, targets, coefficients, random choices","all models and all sequences of random choices",["causallearn/search/FCMBased/lingam/causal_effect.py:CausalEffect.estimate_optimal_intervention"])
p("C99","VARLiNGAM matrices satisfy the structural equation","After fit without pruning, the adjacency matrices B_0..B_k and the error variables satisfy x_t = B_0 x_t + … + B_k x_{t-k} + e_t at every time with enough past, and B_0 and the order are what the LiNGAM model found on the residuals.","all series, coefficients (given or estimated by an estimator that reports the residuals of its model), LiNGAM models, dimensions and lags","all data and all estimators",["causallearn/search/FCMBased/lingam/var_lingam.py:VARLiNGAM.fit", "causallearn/search/FCMBased/lingam/var_lingam.py:VARLiNGAM._calc_residuals", "causallearn/search/FCMBased/lingam/var_lingam.py:VARLiNGAM._calc_b"])
p("C100","VARMA-LiNGAM matrices satisfy the structural equation","The reported psi and omega matrices satisfy x_t = Σ psi_i x_{t-i} + e_t + Σ omega_j e_{t-j} with the error variables e.","all series, coefficients, dimensions and orders","all data",["causallearn/search/FCMBased/lingam/varma_lingam.py:VARMALiNGAM.fit", "causallearn/search/FCMBased/lingam/varma_lingam.py:VARMALiNGAM._calc_residuals", "causallearn/search/FCMBased/lingam/varma_lingam.py:VARMALiNGAM._calc_psi_and_omega"])
p("C101","Fitting is independent of earlier fits","Fitting a VARLiNGAM object on a data set gives the same result whatever it was fitted on before.","all sequences of fits of one object","histories of any length",["causallearn/search/FCMBased/lingam/var_lingam.py:VARLiNGAM.fit"])
p("C102","Bootstrap total effects are stored under their lag","In a bootstrap of VAR/VARMA-LiNGAM the total effect matrix holds the contemporaneous effect of each earlier variable and, in the block of lag k, the effects of the variables k steps earlier.","all causal orders, numbers of variables and lags, all effect values","all orders and sizes",["causallearn/search/FCMBased/lingam/var_lingam.py:VARLiNGAM.bootstrap", "causallearn/search/FCMBased/lingam/varma_lingam.py:VARMALiNGAM.bootstrap"])
p("C103","Lagged regressors are past observations","Every lagged regressor used for total effects (VAR, VARMA) or coefficients (Longitudinal) of time t is the observation the stated number of steps before t.","all series, lags, rows and time points","all sizes",["causallearn/search/FCMBased/lingam/var_lingam.py:VARLiNGAM.estimate_total_effect", "causallearn/search/FCMBased/lingam/longitudinal_lingam.py:LongitudinalLiNGAM._compute_residuals"])
p("C104","Longitudinal LiNGAM matrices satisfy the structural equation","For every time point and individual x_t = B_t x_t + Σ B_{t,l} x_{t-l} + e_t with the reported matrices, and matrices for lags before the first time point are NaN.","all trajectories, coefficients, dimensions, lags, time points","all data",["causallearn/search/FCMBased/lingam/longitudinal_lingam.py:LongitudinalLiNGAM.fit", "causallearn/search/FCMBased/lingam/longitudinal_lingam.py:LongitudinalLiNGAM._compute_residuals"])
p("C105","Dag edge queries are exact after every history","After any sequence of add_edge, add_directed_edge, remove_edge and remove_connecting_edge calls on a Dag, is_parent_of, is_child_of, contains_edge, is_adjacent_to, get_parents, get_children, get_adjacent_nodes, the degrees, get_num_edges, get_edge, get_graph_edges, get_node_edges, is_exogenous, is_def_collider and is_def_noncollider answer for exactly the edges added and not later removed or reversed.","all histories of any length over any number of nodes (no call names a node twice)","histories of any length",["causallearn/graph/Dag.py:Dag.add_edge", "causallearn/graph/Dag.py:Dag.remove_edge", "causallearn/graph/Dag.py:Dag.get_graph_edges", "causallearn/graph/Dag.py:Dag.get_parents"])
p("C106","Dag ancestors are exact","After any history, get_ancestors returns exactly the nodes with a directed path into the given nodes, without repetition (also for GeneralGraph and cyclic graphs); is_ancestor_of and exists_trek agree with the directed paths of the current graph.","all histories, all node lists","histories of any length, recursion on any graph",["causallearn/graph/Dag.py:Dag.get_ancestors", "causallearn/graph/Dag.py:Dag.collect_ancestors", "causallearn/graph/Dag.py:Dag.is_ancestor_of", "causallearn/graph/Dag.py:Dag.exists_trek", "causallearn/graph/GeneralGraph.py:GeneralGraph.get_ancestors"])
p("C107","A Dag is acyclic","A Dag never contains a directed cycle, exists_directed_cycle tells the truth, and get_causal_ordering returns a topological order.","all histories","histories of any length",["causallearn/graph/Dag.py:Dag.add_edge", "causallearn/graph/Dag.py:Dag.exists_directed_cycle", "causallearn/graph/Dag.py:Dag.get_causal_ordering"])
p("C108","Removing nodes from a Dag keeps the other edges","remove_node and subgraph give the graph on the remaining nodes with exactly the edges between them.","all objects, all nodes","all sizes and positions",["causallearn/graph/Dag.py:Dag.remove_node", "causallearn/graph/Dag.py:Dag.subgraph"])
p("C109","Dag.dag2pag returns a PAG for every set of observed nodes","dag2pag returns a graph over the observed nodes for every Dag.","all histories, all lists of observed nodes","all graphs",["causallearn/graph/Dag.py:Dag.dag2pag"])
p("C110","GIN output structure","For every outcome of the independence tests GIN terminates; each measured variable is left over or belongs to exactly one cluster; each cluster has at least two members, each lying in a subset of the cluster that passed the test; the returned graph has exactly the measured variables and one latent per cluster, a latent points to exactly its cluster, ordered latents point to all later ones, unordered latents are pairwise joined by undirected edges, nothing else is adjacent, and the directed edges form no cycle.","all data sizes, all outcomes of the tests, all iteration orders of Python sets","data-dependent search over all subsets; any number of variables",["causallearn/search/HiddenCausal/GIN/GIN.py:GIN", "causallearn/search/HiddenCausal/GIN/GIN.py:merge_overlaping_cluster", "causallearn/search/HiddenCausal/GIN/GIN.py:array_split"])
p("C111","GIN tests residuals against the conditioning variables","A cluster is accepted, and a latent is put next in the causal order, exactly according to the GIN test of the residual against each variable of the conditioning set Z; the order is extended as long as some cluster passes.","all data sizes, all outcomes of the tests","all subsets and all outcomes",["causallearn/search/HiddenCausal/GIN/GIN.py:GIN"])
p("C112","GIN_MI output","On data with at least three variables GIN_MI terminates and returns an order of clusters such that each variable is in exactly one cluster of size at least two; the clusters are the connected components of linking every variable with a partner of least dependence statistic; each next cluster minimizes the dependence statistic among the clusters not yet ordered; the graph has one latent per cluster pointing to its members and to all later latents.","all data sizes, all statistics below the initial values 1e9 and 1e30, all set iteration orders","all statistics, any number of variables",["causallearn/search/HiddenCausal/GIN/GIN.py:GIN_MI", "causallearn/search/HiddenCausal/GIN/GIN.py:find_root", "causallearn/search/HiddenCausal/GIN/GIN.py:cal_dep_for_gin"])
p("C113","get_color_edges labels every directed edge once and leaves the graph as it was","On every mixed graph get_color_edges raises nothing, leaves all marks of the graph unchanged, returns the edges of the graph in order, and gives each directed edge exactly one of dd/pd and one of nl/pl and every other edge no label; dd is given exactly when the edge is the only semi-directed path between its ends.","all mixed graphs with any number of nodes","the edge is removed and re-added while the loop runs; needs all graphs",["causallearn/search/ConstraintBased/FCI.py: get_color_edges, defVisible, visibleEdgeHelper, existsSemiDirectedPath"])
p("C114","An edge labelled dd (definitely direct) by FCI is a direct cause","If the marks of the PAG are true and inseparable pairs are adjacent, then for an edge a -> b labelled dd every directed path of the causal graph from a to b runs through unobserved variables only (and without selection there is such a path).","all causal DAGs with any latent and selection variables, all graphs","relates the label to every path of every causal graph",["causallearn/search/ConstraintBased/FCI.py: get_color_edges, existsSemiDirectedPath"])
p("C115","An edge labelled nl by FCI has no latent confounder","For an edge a -> b labelled nl, a and b have no unobserved common cause that reaches both through unobserved variables; and every visible edge is labelled nl.","all causal DAGs with any latent and selection variables, all graphs","relates the label to every causal graph behind the PAG",["causallearn/search/ConstraintBased/FCI.py: defVisible, visibleEdgeHelper, visibleEdgeHelperVisit"])
p("C116","Kernel matrices are symmetric and positive semidefinite","Whatever the kernel, the width rule and the data, a computed kernel matrix is symmetric and positive semidefinite; a Gaussian one has entries in (0,1] with ones on the diagonal, is 1 just for equal samples and decreases with the distance.","all data arrays, all kernels, all width rules, all widths","a statement about every quadratic form of every data set",["causallearn/utils/KCI/GaussianKernel.py: kernel", "causallearn/utils/KCI/PolynomialKernel.py: kernel", "causallearn/utils/KCI/LinearKernel.py: kernel", "causallearn/utils/KCI/KCI.py: KCI_UInd.kernel_matrix"])
p("C117","The fast centring is H K H, and the two HSIC implementations agree","center_kernel_matrix equals H K H for every symmetric matrix, has zero row and column sums, is idempotent and keeps positive semidefiniteness; get_gram_matrix and get_K centre every matrix to H K H; with equal widths hsic_test_gamma and hsic_gam compute the same statistic and the same gamma parameters.","all matrices, all data, all widths","the sum form replaces a matrix product for every size",["causallearn/utils/KCI/Kernel.py: center_kernel_matrix, centering_matrix", "causallearn/search/FCMBased/lingam/hsic.py: get_gram_matrix, hsic_test_gamma", "causallearn/search/FCMBased/lingam/hsic2.py: get_K, hsic_gam"])
p("C118","The KCI statistic is non-negative, symmetric, and independent of sample order and of units","The statistic of KCI_UInd is never negative; exchanging x and y (with their kernels) or reordering the samples changes neither statistic nor p-value; neither does rescaling or shifting any column.","all data, all kernels, all width rules","invariance under every permutation and every affine map",["causallearn/utils/KCI/KCI.py: KCI_UInd.compute_pvalue, kernel_matrix, HSIC_V_statistic"])
p("C119","With linear kernels the KCI statistic measures the Pearson correlations","With linear kernels the statistic is (n-1)^2 times the sum of the squared Pearson correlations between the columns of x and those of y, so it is zero exactly when all of them vanish.","all data with at least one (two) samples, any number of columns","an identity over all data sets",["causallearn/utils/KCI/KCI.py: KCI_UInd", "causallearn/utils/KCI/LinearKernel.py: kernel"])
p("C120","The KCI p-value is a number in [0,1]","For valid arguments KCI_UInd raises nothing and returns a p-value in [0,1]: one minus the distribution function of the gamma distribution whose mean and variance are those of the spectral null distribution; the simulated p-value is in [0,1] and decreases with the statistic.","all data, all valid arguments, all simulated null samples","needs every data set, degenerate ones included",["causallearn/utils/KCI/KCI.py: KCI_UInd.compute_pvalue, get_kappa, null_sample_spectral"])
p("C121","The conditional KCI test: well defined, non-negative, unit-free, p-value in [0,1]","Kz + eps I is always invertible and the computed factor is the documented I - Kz (Kz + eps I)^-1; the regression-centred matrices are positive semidefinite and the statistic is never negative; rescaling or shifting columns changes nothing; both products in get_uuprod give the same mean and variance; the p-value is a number in [0,1].","all data, all arguments (use_gp=False), any eigen-decomposition","matrix facts for all sizes and data",["causallearn/utils/KCI/Kernel.py: center_kernel_matrix_regression", "causallearn/utils/KCI/KCI.py: KCI_CInd.compute_pvalue, kernel_matrix, KCI_V_statistic, get_uuprod, get_kappa"])
p("C122","The conditional KCI test is symmetric, and its documented arguments can be given","Testing x against y given z and y against x given z gives the same statistic; every documented keyword of the kci test can be passed to CIT.","all data; all keyword sets","a claim about all data sets and all argument sets",["causallearn/utils/KCI/KCI.py: KCI_CInd.kernel_matrix, __init__", "causallearn/utils/cit.py: KCI.__init__"])
p("C123","The causal order of DirectLiNGAM does not depend on units, signs, offsets or the order of the samples","Replacing every variable x by a*x+b with a nonzero (its own a and b per variable) and reordering the samples does not change the causal order fit returns, for both measures, with or without prior knowledge.","all data, all rescalings, all sample orders, all prior knowledge","invariance under every affine map and permutation",["causallearn/search/FCMBased/lingam/direct_lingam.py: DirectLiNGAM.fit, _search_causal_order, _search_causal_order_kernel, _residual, _entropy"])
p("C124","The regression residual used by LiNGAM is uncorrelated with the regressor","After the effect of x_j has been removed from x_i, the sample covariance of the residual and x_j is zero.","all pairs of columns","an identity over all data sets",["causallearn/search/FCMBased/lingam/direct_lingam.py: _residual"])
p("C125","DirectLiNGAM places the variable with the least evidence against it","The evidence is antisymmetric; at every stage the chosen variable minimises the summed squared evidence against it on the residual data; a variable with positive evidence against all others is chosen; with two variables the sign decides; without ties relabelling the columns relabels the result.","all data, all stages, all relabellings","a statement about every stage of every run",["causallearn/search/FCMBased/lingam/direct_lingam.py: _search_causal_order, _diff_mutual_info, fit"])
p("C126","The kernel measure of LiNGAM is a non-negative symmetric dependence measure","The kernel mutual information of two columns is non-negative, symmetric, invariant under shifts and reflections, and all singular values whose logarithm is taken are positive.","all columns, all sample sizes, all positive regularisations","an inequality over all data sets",["causallearn/search/FCMBased/lingam/direct_lingam.py: _mutual_information"])
p("C127","MultiGroupDirectLiNGAM estimates one order for all groups","The returned order is one permutation minimising at every stage the sample-size weighted evidence over the groups; every group's matrix is acyclic along it; the order of the groups and the units in each group do not matter; repeating a data set gives DirectLiNGAM's result; prior knowledge is obeyed by every fit.","all lists of data sets, all prior knowledge, all sequences of fits","every list of groups and every history of fits",["causallearn/search/FCMBased/lingam/multi_group_direct_lingam.py: MultiGroupDirectLiNGAM.fit, bootstrap, _search_causal_order"])
p("C128","granger_test_2d reports exactly the significant influences","An entry of adj_matrix is 1 exactly when the p-value of the corresponding Granger test is below the significance level.","all p-values, all lags, all levels","all p-values including those next to the level",["causallearn/search/Granger/Granger.py: Granger.granger_test_2d"])
p("C129","granger_lasso regresses on the documented lags","Row i, column (k-1)*d+j of the result is the coefficient of variable j at lag k in the lasso of variable i, fitted on all times with a complete past.","all data arrays, all maximal lags","index arithmetic for all sizes",["causallearn/search/Granger/Granger.py: Granger.granger_lasso"])
p("C130","get_sepset finds a d-separating set exactly when there is one","On a DAG, get_sepset(x, y) terminates; it returns None exactly when x = y or the nodes are adjacent, and otherwise a duplicate-free set of ancestors of x or y, without x and y, that d-separates them.","all DAGs, all pairs of nodes","existence and soundness over all graphs and paths",["causallearn/graph/GeneralGraph.py: get_sepset", "causallearn/utils/GraphUtils.py: get_sepset, get_sepset_visit, sepset_path_found"])
p("C131","get_sepset conditions on measured nodes only","No node whose type is LATENT occurs in the set get_sepset returns.","all DAGs with latent nodes","all graphs and all assignments of node types",["causallearn/utils/GraphUtils.py: sepset_path_found"])
p("C132","find_all_paths reports cyclic matrices","On every matrix find_all_paths terminates; when a directed cycle is reachable from the source the call raises ValueError instead of returning walks that repeat a node.","all matrices, all pairs of nodes","all cyclic matrices",["causallearn/search/FCMBased/lingam/utils/__init__.py: find_all_paths"])
p("C133","Triangles, kites and unshielded triples are listed completely","find_triangles, find_kites and find_unshielded_triples (of GraphUtils and of CausalGraph) list exactly the triples of pairwise adjacent nodes, the kites with tips in increasing order, and the unshielded triples, each ordered occurrence once.","all graphs with at most one edge per pair","completeness and uniqueness over all graphs",["causallearn/utils/GraphUtils.py: find_triangles, find_kites, find_unshielded_triples", "causallearn/graph/GraphClass.py: find_unshielded_triples, find_triangles, find_kites"])
p("C134","GraphUtils.sdh is a structural Hamming distance","sdh(g1, g2) terminates without error, is symmetric, is 0 exactly when the graphs have the same edges and counts every pair of nodes.","all pairs of graphs over the same nodes","all pairs of graphs",["causallearn/utils/GraphUtils.py: sdh, shd_one_edge"])
p("C135","Precision and recall are the fractions they claim to be","adj_precision, adj_recall, arrow_precision, arrow_recall and their common-edge variants return the fraction of estimated (true) adjacencies or arrowheads that are also in the other graph; the value lies in [0,1], is 1 exactly when none is wrong (missing), and is undefined (ZeroDivisionError, or nan for arrows) exactly when there is nothing to count.","all pairs of graphs over the same nodes","all pairs of graphs",["causallearn/utils/GraphUtils.py: adj_precision, adj_recall, arrow_precision, arrow_recall, arrow_precision_common_edges, arrow_recall_common_edges", "causallearn/graph/AdjacencyConfusion.py", "causallearn/graph/ArrowConfusion.py"])
p("C136","Bootstrap graph counts are exact","get_directed_acyclic_graph_counts reports pairwise different graphs that occur among the bootstrap samples, each with the number of samples having exactly this graph (with signs if they are split), by non-increasing count; without n_dags the counts add up to the number of samples and no sample's graph is missing; with n_dags a graph is missing only if n_dags graphs at least as frequent are reported. Non-positive arguments are rejected.","all lists of sample matrices, thresholds and values of n_dags","all lists of samples of any length",["causallearn/search/FCMBased/lingam/bootstrap.py: BootstrapResult.get_directed_acyclic_graph_counts"])
p("C137","Bootstrap total effects: probabilities and medians","get_total_causal_effects reports exactly the ordered pairs whose total effect exceeds min_causal_effect in some sample, each once, with the fraction of such samples as probability, by non-increasing probability, and as effect the median of the effects in the samples counted.","all lists of total-effect matrices and thresholds","all lists of samples of any length",["causallearn/search/FCMBased/lingam/bootstrap.py: BootstrapResult.get_total_causal_effects"])
p("C138","Bootstrap path probabilities","get_paths(from, to, min_causal_effect) returns exactly the directed paths that occur in some sample (with coefficients exceeding min_causal_effect), each once, with the fraction of the samples containing it and the median over these samples of the product of its coefficients, by non-increasing probability.","all lists of acyclic sample matrices and pairs of different variables","all lists of samples of any size",["causallearn/search/FCMBased/lingam/bootstrap.py: BootstrapResult.get_paths"])
p("C139","estimate_total_effect identifies the total causal effect","On data generated by an acyclic linear model, if the estimated parents of the source contain its true parents and no descendant and the regression is least squares, estimate_total_effect returns the sum over all directed paths of the products of coefficients; this is also the sum of the effects listed by find_all_paths; the bootstrap's matrix holds it for each pair in causal order and 0 elsewhere.","all acyclic linear models, data sets, sources and destinations","all models and data of any size",["causallearn/search/FCMBased/lingam/base.py: estimate_total_effect", "causallearn/search/FCMBased/lingam/bootstrap.py: BootstrapMixin.bootstrap", "causallearn/search/FCMBased/lingam/utils/__init__.py: find_all_paths"])
p("C140","p-values of the errors' independence","get_error_independence_p_values returns a symmetric matrix with zero diagonal whose entries are the p-values of the test for the columns of X − B X; on data generated by B these columns are the errors that were put in.","all data, matrices and tests","all data and matrices of any size",["causallearn/search/FCMBased/lingam/base.py: get_error_independence_p_values"])
p("C141","Pruned VAR-LiNGAM matrices are the fitted regressions","With pruning, fit regresses every variable at every time t >= lags on the variables before it in the causal order at time t and on all variables at times t-1..t-lags, without wrapping around the ends of the series, and the reported matrices B_0, B_1, ... say exactly what these regressions say; B_0 follows the causal order; this holds for every number of lags in use.","all data, causal orders, numbers of variables and lags, and regressions","all sizes and lags",["causallearn/search/FCMBased/lingam/var_lingam.py: VARLiNGAM._pruning, fit"])
p("C142","Pruned VARMA-LiNGAM matrices are the fitted regressions","With pruning, fit regresses every variable on the variables before it in the causal order, all variables at lags 1..p and all errors at lags 1..q, each taken from the past of the row, and psi, omega say exactly what these regressions say; psi_0 follows the causal order; this works with estimated and with given coefficients.","all data, errors, causal orders, orders (p, q) and regressions","all sizes and orders",["causallearn/search/FCMBased/lingam/varma_lingam.py: VARMALiNGAM._pruning, fit"])
p("C143","Regressors of the total effect in the time-series models","estimate_total_effect(from, to, lag) regresses `to` at time t on `from` at time t-lag and on the reported parents of `from`, each at its own time (t-lag-tau for a parent in B_tau), in VAR-, VARMA- and Longitudinal LiNGAM.","all data, matrices, lags and rows with enough past","all sizes and lags",["causallearn/search/FCMBased/lingam/var_lingam.py: estimate_total_effect", "causallearn/search/FCMBased/lingam/varma_lingam.py: estimate_total_effect", "causallearn/search/FCMBased/lingam/longitudinal_lingam.py: estimate_total_effect"])
p("C144","Bootstrap of Longitudinal LiNGAM: placement and counts","The matrix of total effects of a bootstrap sample has in row (to_t, to), column (from_t, from) the estimated effect if from precedes to at the same time or to_t is later, and 0 elsewhere; get_causal_direction_counts lists for each time the distinct directions with the number of samples having them, NaN never counting; get_probabilities counts the same.","all orders, effects, lists of samples, thresholds","all numbers of time points, variables, samples",["causallearn/search/FCMBased/lingam/longitudinal_lingam.py: bootstrap", "causallearn/search/FCMBased/lingam/bootstrap.py: LongitudinalBootstrapResult"])
p("C145","Lag selection by information criterion","With a criterion, VAR-LiNGAM uses the number of lags in 1..lags and VARMA-LiNGAM the order (a,b) != (0,0) within the given one that minimises the criterion, the first of several best ones; there is no result exactly when no candidate has a finite value.","all criteria values (including NaN and infinity) and maximal orders","all numbers of lags",["causallearn/search/FCMBased/lingam/var_lingam.py: _estimate_var_coefs", "causallearn/search/FCMBased/lingam/varma_lingam.py: _estimate_varma_coefs"])
p("C146","networkx conversions are faithful and matrix_diff counts differing edges","to_nx_graph gives a networkx graph with a blue edge i->j exactly for i --> j, green edges both ways exactly for i --- j and red ones exactly for i <-> j, to_nx_skeleton exactly the adjacencies; calling them again after the graph changed gives the new graph; matrix_diff of two graphs is zero exactly if they are equal and lists the differing pairs.","all graphs","all sizes and mark patterns",["causallearn/graph/GraphClass.py: CausalGraph.to_nx_graph, to_nx_skeleton, find_undirected, find_fully_directed, find_bi_directed", "causallearn/search/ConstraintBased/PC.py: get_adjacancy_matrix, matrix_diff"])
p("C147","Round trip through Tetrad text files","tetrad2adjmat returns the adjacency matrix that adjmat2tetrad wrote, for every matrix with NaN on the diagonal and consistent marks.","all matrices with directed, undirected, bidirected and absent edges, any number of variables","all sizes and numbers with any number of digits",["causallearn/utils/PCUtils/Helper.py: adjmat2tetrad, tetrad2adjmat"])
p("C148","Reading a Tetrad file","tetrad2adjmat on a file with edge lines returns the matrix that holds exactly the marks the lines state, and raises an error exactly if two lines contradict each other or a line joins a variable with itself.","all lists of edge lines (repetitions allowed) over X1..Xn, n >= 2","all lengths and orders of lines",["causallearn/utils/PCUtils/Helper.py: tetrad2adjmat"])
p("C149","rearrange_columns restores the variable order","If the columns of the data file are a permutation of X1..Xn, the rearranged adjacency matrix has in the cell of two variables the entry of the columns holding them.","all matrices and permutations","all sizes",["causallearn/utils/PCUtils/Helper.py: rearrange_columns"])
p("C150","Soft prior knowledge in DirectLiNGAM","With apply_prior_knowledge_softly and the pwling measure, the next variable in the causal order minimises the sum of evidence against it, where prior knowledge replaces the data for the pairs it covers.","all data, prior knowledge and candidate sets","all sizes",["causallearn/search/FCMBased/lingam/direct_lingam.py: _search_candidate, _search_causal_order, _search_causal_order_kernel"])
p("C151","The folds of the cross-validated score partition the samples","In each fold of local_score_cv_general the test and training samples together are all samples, every sample is a test sample in exactly one fold, all folds but the last have floor(T/k) test samples and the last fewer than k more.","all T, k >= 1 and folds","all sample sizes and fold counts",["causallearn/score/LocalScoreFunction.py: local_score_cv_general"])
p("C152","The kernel matrices of the generalised scores are centred","The kernel matrices used by the cross-validated and marginal scores are centred in feature space (all row sums are zero), as the comments in the code say.","all data with at least two samples","all sizes and data",["causallearn/score/LocalScoreFunction.py: local_score_cv_general, local_score_marginal_general"])
p("C153","The cross-validated score is defined","For a positive regularisation parameter the matrices inverted and decomposed are positive definite, and the score is a number.","all data, fold counts, variables and parent sets","all sizes",["causallearn/score/LocalScoreFunction.py: local_score_cv_general"])
p("C154","The cross-validated score does not depend on units or the order of the parents","Shifting and rescaling any variable by a non-zero factor, or listing the parents in another order, does not change the score.","all data, units and permutations of parents","all real data",["causallearn/score/LocalScoreFunction.py: local_score_cv_general"])
p("C155","The generalised scores accept multi-dimensional variables","local_score_cv_multi and local_score_marginal_multi work for variables with several dimensions.","all sample sizes and dimensions","all sizes",["causallearn/score/LocalScoreFunction.py: local_score_cv_multi, local_score_marginal_multi"])
p("C156","The cross-validated score is bounded below","The score is at least the mean over the folds of n^2 log(2 pi)/2 with n the number of test samples, hence positive: no choice of parents makes it arbitrarily good.","all data, 2 <= k <= T, all variables and parent sets","all sizes",["causallearn/score/LocalScoreFunction.py: local_score_cv_general"])
p("C157","Conflicting colliders are decided by the strength of evidence","With uc_priority 3 or 4 (orient the stronger collider first), in the uc_sepset, max-p and definite max-p rules, a candidate collider whose p-value evidence is strictly stronger than that of every conflicting candidate is oriented as a collider in the result.","all skeletons, all p-values, all separating sets","all graphs and test results",["causallearn/utils/PCUtils/UCSepset.py: uc_sepset, maxp, definite_maxp"])
p("C158","Independence p-values of errors in the presence of hidden confounders","get_error_independence_p_values of BottomUpParceLiNGAM and RCD is a symmetric matrix with zero diagonal; an entry is NaN if one of the variables occurs in a NaN entry of the adjacency matrix, else it is the p-value of the test of the two real error columns.","all data, adjacency matrices with NaN, tests","all sizes",["causallearn/search/FCMBased/lingam/bottom_up_parce_lingam.py: get_error_independence_p_values", "causallearn/search/FCMBased/lingam/rcd.py: get_error_independence_p_values"])
p("C159","Total effects in the presence of hidden confounders","estimate_total_effect of BottomUpParceLiNGAM is NaN exactly if the source is in the block of unknown order, that of RCD exactly if the source shares a hidden confounder; otherwise it is the coefficient of the source in the regression of the destination on the source and its estimated parents.","all data, fits, sources and destinations","all sizes",["causallearn/search/FCMBased/lingam/bottom_up_parce_lingam.py: estimate_total_effect", "causallearn/search/FCMBased/lingam/rcd.py: estimate_total_effect"])
p("C160","Total effects and samples of a bootstrap with hidden confounders","Each bootstrap total-effect matrix agrees with estimate_total_effect for the pairs the fitted order relates, is NaN where that is unknown, and the samples have the size of the data.","all data, fits, numbers of samples","all sizes",["causallearn/search/FCMBased/lingam/bottom_up_parce_lingam.py: bootstrap", "causallearn/search/FCMBased/lingam/rcd.py: bootstrap"])
p("C161","Queries on several groups and on panels","MultiGroupDirectLiNGAM: total effects, bootstrap matrices and error p-values are those of each group alone, for groups with possibly different sample sizes. LongitudinalLiNGAM: p-values are NaN at the first time point and those of the structural errors later.","all groups, fits and time points","all sizes",["causallearn/search/FCMBased/lingam/multi_group_direct_lingam.py: estimate_total_effect, bootstrap, get_error_independence_p_values, _check_X_list", "causallearn/search/FCMBased/lingam/longitudinal_lingam.py: get_error_independence_p_values"])
p("C162","The HSIC tests do not depend on naming, units or order of the samples","hsic_test_gamma and hsic_gam give the same statistic and p-value when the two variables are exchanged, when columns are shifted and scaled, and when the samples are reordered.","all samples, shifts, scales and permutations","all real data of all sizes",["causallearn/search/FCMBased/lingam/hsic.py: get_kernel_width, hsic_test_gamma", "causallearn/search/FCMBased/lingam/hsic2.py: get_width, hsic_gam", "causallearn/search/FCMBased/lingam/CAMUV.py: get_width, hsic_gam"])
p("C163","The HSIC tests give p-values, and accept/reject agrees with them","For non-constant variables both tests return a p-value in [0, 1], and the decision of hsic_gam at level alph is the comparison of its p-value with alph.","all samples","all real data of all sizes",["causallearn/search/FCMBased/lingam/hsic.py: get_kernel_width, hsic_test_gamma", "causallearn/search/FCMBased/lingam/hsic2.py: get_width, hsic_gam", "causallearn/search/FCMBased/lingam/CAMUV.py: get_width, hsic_gam"])
p("C164","ANM answers are p-values of the residual test and symmetric","cause_or_effect of ANM returns for each direction the p-value in [0, 1] of the independence of cause and residual; exchanging the variables exchanges the answers.","all samples, regressions, kernels","all real data",["causallearn/search/FCMBased/ANM/ANM.py: cause_or_effect, fit_gp"])
p("C165","PNL tests the independence of cause and estimated noise","The p-value of cause_or_effect of PNL is that of a test of independence of the assumed cause and the estimated noise.","all samples, networks","all real data",["causallearn/search/FCMBased/PNL/PNL.py: cause_or_effect"])
p("C166","PNL trains on all samples","The networks of PNL are trained for the given number of epochs on all samples.","all samples, networks, numbers of epochs","all data and histories of training",["causallearn/search/FCMBased/PNL/PNL.py: nica_mnd"])
p("C167","FastKCI returns a p-value and a weighted average of its statistics","compute_pvalue of FastKCI_CInd and FastKCI_UInd returns a p-value in [0, 1] and a statistic between the smallest and largest statistic of its repetitions.","all numbers of repetitions, likelihoods, statistics and null samples","all real inputs and repetition counts",["causallearn/utils/FastKCI/FastKCI.py: FastKCI_CInd, FastKCI_UInd, compute_pvalue, pvalue_onblocks"])
p("C168","FastKCI's statistic refines KCI's","With a single block the statistic of FastKCI is that of KCI; it is non-negative and depends on the partition only, not on the numbering of the blocks.","all samples, kernels, partitions and renumberings","all real data and partitions",["causallearn/utils/FastKCI/FastKCI.py: FastKCI_CInd, FastKCI_UInd, compute_pvalue, pvalue_onblocks"])
p("C169","FastKCI does not reject independence without evidence","If one of the two variables is constant, or the sample is too small to test, FastKCI does not report dependence (p = 0).","all samples, partitions, kernels","all real data",["causallearn/utils/FastKCI/FastKCI.py: FastKCI_CInd, FastKCI_UInd, compute_pvalue, pvalue_onblocks"])
p("C170","FastKCI's p-value is not more extreme than its repetitions","With one repetition FastKCI returns that repetition's p-value; with several it returns a value between the smallest and the largest.","all lists of repetitions","all real inputs",["causallearn/utils/FastKCI/FastKCI.py: FastKCI_CInd, FastKCI_UInd, compute_pvalue, pvalue_onblocks"])
p("C171","RCIT does not depend on the units of the variables","RIT and RCIT give the same answer when every column is shifted and scaled by a positive factor.","all samples, feature draws, approximations, shifts and scales","all real data",["causallearn/utils/RCIT/RCIT.py: RIT, RCIT, compute_pvalue, random_fourier_features, matrix_cov"])
p("C172","RCIT does not depend on the order of the samples","RIT and RCIT give the same answer when the samples are reordered, for every approximation other than the permutation test.","all samples, feature draws, approximations and permutations","all real data",["causallearn/utils/RCIT/RCIT.py: RIT, RCIT, compute_pvalue, random_fourier_features, matrix_cov"])
p("C173","RCIT's regularised regression is well defined","The matrix RCIT inverts is positive definite, so its inverse exists for all data, and the conditional covariance it tests is the covariance of the ridge residual of either variable with the other one, so exchanging the variables transposes it and leaves the statistic unchanged.","all feature matrices","all real data of all sizes",["causallearn/utils/RCIT/RCIT.py: RIT, RCIT, compute_pvalue, random_fourier_features, matrix_cov"])
p("C174","RCIT returns a p-value","RIT and RCIT return a p-value in [0, 1], not rejecting independence without evidence, by the approximation the user chose.","all samples, feature draws, approximations","all real data",["causallearn/utils/RCIT/RCIT.py: RIT, RCIT, compute_pvalue, random_fourier_features, matrix_cov"])
p("C175","Exact search's own BIC score recovers linear models","The BIC score that bic_exact_search computes is N log(RSS/N) + |parents| log N with RSS the least-squares residual; a useless parent makes it worse, changing units does not change which parent set is better, and searching with it recovers a linear model up to Markov equivalence, whatever the means of the variables.","all data matrices, nodes, parent sets, acyclic linear models","all real data of all sizes",["causallearn/search/ScoreBased/ExactSearch.py: bic_exact_search, bic_score_node"])
p("C176","ICA-LiNGAM reads the model off an exact unmixing matrix","If ICA returns the unmixing matrix of an acyclic linear model up to order and scale of its rows, ICALiNGAM.fit reconstructs the coefficients exactly and its causal order puts every cause before its effect.","all numbers of variables, coefficient matrices of DAGs, row orders and scales, correct assignment solvers and argsorts","all real matrices of all sizes",["causallearn/search/FCMBased/lingam/ica_lingam.py: ICALiNGAM.fit, ICALiNGAM._estimate_causal_order, ICALiNGAM._search_causal_order"])
p("C177","CIT builds the test the user named","CIT(data, name) builds the class that was registered last under that name, otherwise the documented built-in test, and raises for unknown names; registering a class that is not a test raises and changes nothing.","all histories of registrations (with failures), all names","histories of unbounded length",["causallearn/utils/cit.py: CIT, register_ci_test, CIT_Base, D_Separation"])
p("C178","A cache file survives crashes","In every history of queries, saves, process crashes (also in the middle of writing the cache file) and restarts, answers given through the cache file are those of the test itself, and a test can be constructed again.","all histories, all crash points (every number of characters written)","every crash point of every history",["causallearn/utils/cit.py: CIT, register_ci_test, CIT_Base, D_Separation"])
p("C179","pc with the d-separation test returns the CPDAG of the true DAG","The d_separation test answers d-separation in the given true DAG, and pc with it returns the CPDAG of that DAG for all data, all alpha in (0, 1) and all rules; a cache file does not change the answers.","all DAGs, data, alpha, options, true background knowledge, cache contents it wrote itself","all graphs of all sizes",["causallearn/utils/cit.py: CIT, register_ci_test, CIT_Base, D_Separation"])
p("C180","Cached p-values belong to the data","A cache file made for one data set is refused for a different data set.","all pairs of data matrices, all renderings and hash functions","all data",["causallearn/utils/cit.py: CIT, register_ci_test, CIT_Base, D_Separation"])
p("C181","Degree, directed-edge and trek queries are exact","get_directed_edge(a, b) returns the edge a -> b exactly if there is one; get_max_degree is the largest degree; get_num_connected_edges counts the neighbours; exists_trek holds exactly if there is a common ancestor.","all graphs and histories of edge operations","graphs of all sizes",["causallearn/graph/GeneralGraph.py: get_directed_edge, get_max_degree, get_num_connected_edges, exists_trek"])
p("C182","transfer_nodes_and_edges copies the graph","Transferring a graph into an empty graph copies every edge with its marks.","all histories of edge operations","graphs of all sizes",["causallearn/graph/GeneralGraph.py: transfer_nodes_and_edges, get_graph_edges, add_edge"])
p("C183","Graph objects are independent","Operations on one graph object do not change another graph object; remove_nodes removes all nodes given; set_nodes renames the nodes.","all heaps, histories of calls on other graphs","histories of unbounded length, aliasing",["causallearn/graph/GeneralGraph.py: GeneralGraph.__init__, add_node, remove_node, remove_nodes, set_nodes, __eq__", "causallearn/utils/DAG2CPDAG.py: dag2cpdag"])
p("C184","Drawings say what the graph says","to_pydot and to_pgv draw a line between two nodes exactly if they are adjacent, with the end marks of the graph; labels, shapes and colours are those of the nodes and of the edge properties; different graphs have different drawings.","all histories of edge operations, label lists, edge lists","graphs of all sizes",["causallearn/utils/GraphUtils.py: GraphUtils.to_pydot, GraphUtils.to_pgv", "causallearn/graph/GeneralGraph.py: get_graph_edges"])
p("C185","make_dot draws the adjacency matrix","make_dot draws an arrow j -> i with its coefficient exactly if |B[i,j]| exceeds the limit and a double-headed arrow exactly if the entry is NaN.","all square matrices with NaNs, limits, distinct labels, predictions","all matrices",["causallearn/search/FCMBased/lingam/utils/__init__.py: make_dot"])
p("C186","Exogenous and sink variables of a matrix","get_exo_variables and get_sink_variables list exactly the variables without causes and without effects; prior knowledge made from them forbids no effect of the matrix.","all square matrices with NaNs","all matrices",["causallearn/search/FCMBased/lingam/utils/__init__.py: get_exo_variables, get_sink_variables, make_prior_knowledge"])
p("C187","remove_effect returns regression residuals","remove_effect replaces each other feature by its least-squares residual on the removed features; it is idempotent and can be done in steps.","all data, all non-empty sets of features, all least-squares solvers","all data",["causallearn/search/FCMBased/lingam/utils/__init__.py: remove_effect"])
p("C188","predict_adaptive_lasso solves the adaptive lasso","The coefficients returned minimise the adaptive lasso objective with weights |OLS|^gamma for the penalty chosen by LassoLarsIC, and vanish where the ordinary coefficient vanishes.","all data, gamma > 0, penalties, solvers returning minimisers","all data",["causallearn/search/FCMBased/lingam/utils/__init__.py: predict_adaptive_lasso"])
p("C189","The marginal likelihood score is a likelihood","local_score_marginal_general returns, for every variable and set of parents, the negative log marginal likelihood of a Gaussian process regression with hyperparameters at least as good as the initial ones.","all data, parent sets, Cholesky routines and target matrices","all data sets",["causallearn/score/LocalScoreFunction.py: local_score_marginal_general", "causallearn/utils/ScoreUtils.py: gpr_multi_new, minimize"])
p("C190","Likelihood and gradient of the Gaussian process","gpr_multi_new returns the negative log likelihood of the targets and its gradient in the hyperparameters.","all covariance matrices with a Cholesky factor, all targets, all hyperparameters","real-valued data",["causallearn/utils/ScoreUtils.py: gpr_multi_new, cov_sum, cov_seard, cov_noise, sq_dist, solve_chol"])
p("C191","minimize returns the best point it has seen","minimize ends after at most the given number of evaluations, returns the point with the smallest value seen and reports the values of its line searches; it finds the minimum of a quadratic function.","all functions with gradients over an ordered field, failing or not, all starts","all functions",["causallearn/utils/ScoreUtils.py: minimize"])
p("C192","The marginal likelihood score has no units","Measuring the variable and its parents in other units (shift, non-zero factor) does not change local_score_marginal_general.","all data, parent sets, affine changes of each column","all data and factors",["causallearn/score/LocalScoreFunction.py: local_score_marginal_general", "causallearn/utils/ScoreUtils.py: minimize, cov_seard"])
p("C193","A VARMA-LiNGAM fit depends on its data only","Fitting a VARMALiNGAM object twice gives, the second time, the model of the second data, as a fresh object would.","all estimators, data, objects and histories of fits","all histories of calls",["causallearn/search/FCMBased/lingam/varma_lingam.py: fit, _estimate_varma_coefs, _calc_residuals"])
p("C194","Bootstrap of VAR- and VARMA-LiNGAM","bootstrap simulates series that obey the estimated equations with resampled residuals, returns one set of matrices for each sample, and leaves the fitted object as it was, also when it raises.","all estimators, data, objects, numbers of samples and resampled indices","all data, samples and crash points",["causallearn/search/FCMBased/lingam/var_lingam.py: bootstrap, fit, _calc_residuals, _calc_b", "causallearn/search/FCMBased/lingam/varma_lingam.py: bootstrap, fit"])
p("C195","Summaries of a longitudinal bootstrap","LongitudinalBootstrapResult.get_directed_acyclic_graph_counts reports for each time point the distinct graphs of the samples with their frequencies; get_total_causal_effects never reports an effect backwards in time or from an unusable time point.","all samples (with NaN), thresholds, n_dags, time points","all bootstrap results",["causallearn/search/FCMBased/lingam/bootstrap.py: LongitudinalBootstrapResult.get_directed_acyclic_graph_counts, get_total_causal_effects", "causallearn/search/FCMBased/lingam/longitudinal_lingam.py: bootstrap"])
p("C196","RCD recovers a linear non-Gaussian model","On data of an acyclic linear model without hidden variables, in which no effect of an ancestor cancels, and with tests that are right (residuals are non-Gaussian, correlated iff their covariance is not zero, independent iff they share no error), RCD.fit ends, its ancestor lists are the sets of ancestors, and its adjacency matrix is the matrix of the model, without NaN.","all acyclic coefficient matrices, intercepts, errors, sample sizes, numbers of variables, values of max_explanatory_num, with or without MLHSICR and for every result of its minimisation","all models and data",["causallearn/search/FCMBased/lingam/rcd.py: fit, _extract_ancestors, _is_parent, _extract_parents, _extract_vars_sharing_confounders, _estimate_adjacency_matrix, _is_independent_of_resid, _get_resid_and_coef"])
p("C197","RCD with hidden variables reports true ancestors","On data of an acyclic linear model of which only some variables are observed, with right tests, every ancestor that RCD reports for an observed variable is one of its ancestors in the full model.","all acyclic coefficient matrices, choices of hidden variables, errors, sample sizes, values of max_explanatory_num, with or without MLHSICR","all models with hidden variables",["causallearn/search/FCMBased/lingam/rcd.py: fit, _extract_ancestors, _is_independent_of_resid"])
p("C198","ParceLiNGAM finds a causal order","On data of an acyclic linear model without hidden variables, with an independence test that is right (p-value 0 for columns with a common error, 1 otherwise), without prior knowledge, BottomUpParceLiNGAM.fit orders all variables and puts every cause before its effects.","all acyclic coefficient matrices, intercepts, errors, sample sizes, numbers of variables, levels 0 < alpha <= n - 1","all models and data",["causallearn/search/FCMBased/lingam/bottom_up_parce_lingam.py: fit, _search_causal_order, _find_exo_vec, _compute_residuals, _fisher_hsic_test"])
p("C199","ParceLiNGAM is right about the bottom of the order when variables are hidden","On data of an acyclic linear model of which only some variables are observed, with an independence test that detects every dependence and without prior knowledge, no variable placed in causal_order_ has a total effect on a variable before it or on the variables of unknown order.","all acyclic coefficient matrices, choices of hidden variables, errors, sample sizes, positive levels, also when effects cancel","all models with hidden variables",["causallearn/search/FCMBased/lingam/bottom_up_parce_lingam.py: fit, _search_causal_order, _find_exo_vec, _compute_residuals, _fisher_hsic_test"])
p("C200","Correct prior knowledge does not cost ParceLiNGAM its order","If ParceLiNGAM orders all variables of a model without prior knowledge, it orders them with correct prior knowledge too.","all models, data, correct prior knowledge","all models",["causallearn/search/FCMBased/lingam/bottom_up_parce_lingam.py: _search_candidate, _search_causal_order, _find_exo_vec"])
p("C201","CAM-UV recovers a faithful linear model","On data of an acyclic linear model without hidden variables whose d-connected variables are partially correlated, with an independence test that is right, CAM-UV (regressions with linear terms) ends for every num_explanatory_vals and returns only true parents; if leaving out a parent always shows in the residual, it returns exactly the parents and reports no pair with a hidden common cause.","all acyclic coefficient matrices, intercepts, faithful data, errors, sample sizes, numbers of variables, values of num_explanatory_vals and set iteration orders","all models and data",["causallearn/search/FCMBased/lingam/CAMUV.py: execute, find_parents, get_child, check_independence_withou_K, get_residual, get_neighborhoods"])
p("C202","CAM-UV with hidden variables reports true ancestors","On data of an acyclic linear model of which only some variables are observed, with an independence test that is right and num_explanatory_vals <= 2, every parent that CAM-UV (regressions with linear terms) returns is an ancestor in the full model, and the returned graph has no directed cycle.","all acyclic coefficient matrices, choices of hidden variables, errors, sample sizes, set iteration orders, also when effects cancel","all models with hidden variables",["causallearn/search/FCMBased/lingam/CAMUV.py: execute, find_parents, get_child, check_independence_withou_K, get_residual, get_neighborhoods"])
p("C203","GRaSP as written: result and termination","For every score, depth and sequence of shuffles grasp returns, and then its final order is a permutation of the variables, parents precede children in it and the returned graph is the CPDAG of these parents; a search that reports no success leaves the order, the parents and the scores as they were.","all score functions, tolerances, depths, initial orders and results of random.shuffle","the search mutates the list it iterates over and undoes its moves; whether it ends depends on all scores and shuffles",["causallearn/search/PermutationBased/GRaSP.py: grasp, dfs, update, tuck, Order"])
p("C204","GRaSP finds the equivalence class of the true DAG with a consistent score","With a score that is locally consistent for a DAG D and respects Markov equivalence, grasp with its default depth returns the essential graph of D, whatever the shuffles.","all DAGs, consistent scores, tolerances, shuffles","all graphs, scores and shuffles",["causallearn/search/PermutationBased/GRaSP.py: grasp, dfs"])
p("C205","GIN recovers clusters of any position and size","With tests that judge the generalised independent noise condition correctly, GIN reports the indicators of every latent as a cluster, whatever their columns and however many latents have equally many indicators.","all numbers of columns, data, set orders, clusters and test outcomes in which a residual is never judged independent of its own columns","a test fixes one column layout; the claim is about all layouts and all data",["causallearn/search/HiddenCausal/GIN/GIN.py: GIN, cal_e_with_gin, merge_overlaping_cluster"])
p("C206","DirectLiNGAM (kernel measure) finds the causal order with an ideal measure of dependence","On data of an acyclic linear model with independent non-Gaussian errors, fit(X) with measure='kernel' and an exact measure of dependence returns an order in which every cause precedes its effects.","all numbers of variables, acyclic coefficient matrices, error variances, data with uncorrelated errors, continuous ideal measures of dependence, numbers of samples","a test checks a few models; the claim is about all of them, through all stages of the order",["causallearn/search/FCMBased/lingam/direct_lingam.py: fit, _search_causal_order_kernel, _residual"])
p("C207","DirectLiNGAM (pairwise measure) finds the causal order with ideal entropies","On data of an acyclic linear model with independent non-Gaussian errors in which no cause has total effect zero, fit(X) with measure='pwling' and exact differences of mutual information returns, for enough samples, an order in which every cause precedes its effects.","all numbers of variables, acyclic coefficient matrices without cancelling effects, error variances, data with uncorrelated errors, continuous ideal measures of dependence","a test checks a few models; the claim is about all of them, through all stages of the order",["causallearn/search/FCMBased/lingam/direct_lingam.py: fit, _search_causal_order, _diff_mutual_info, _residual"])
p("C208","A graph may be grown node by node","Adding nodes between edge calls gives the same graph (edges and ancestors) as creating it with all its nodes first, for GeneralGraph and Dag.","all histories of add_node, add_edge, add_directed_edge, remove_edge and remove_connecting_edge calls, including calls that raise because a node is not there yet","a test fixes one history",["causallearn/graph/GeneralGraph.py: add_node", "causallearn/graph/Dag.py: add_node"])
p("C209","Transferring a Dag copies it","After transfer_nodes_and_edges the receiving Dag has the same edges and the same ancestors as the source.","all Dags (histories), all edge lists of other graphs","a test fixes one numbering of the nodes",["causallearn/graph/Dag.py: transfer_nodes_and_edges, get_graph_edges, add_edge"])
p("C210","MultiGroupDirectLiNGAM finds the common causal order with ideal entropies","On several groups of data from linear models whose edges together have no cycle, with an ideal measure of dependence and enough samples, the common order puts every cause of every group before its effects.","all numbers of groups (at least two) and variables, all coefficients, edges and error variances per group, all ratios of the numbers of samples, all data of these models from some size on","the statement is about all data sets of a size and a limit in the size; the effect of one group on the choice for another needs an argument",["causallearn/search/FCMBased/lingam/multi_group_direct_lingam.py: MultiGroupDirectLiNGAM.fit, _search_causal_order"])
p("C211","VARLiNGAM recovers a structural vector autoregression","On data of a structural vector autoregression, VARLiNGAM finds the reduced-form residuals, a causal order of the instantaneous effects and, given the instantaneous matrix, every lagged matrix.","all numbers of variables and lags, all coefficient matrices (instantaneous part acyclic), all series and errors","a test fixes one series; uniqueness of the least squares solution and the limit in the sample size need proofs",["causallearn/search/FCMBased/lingam/var_lingam.py: VARLiNGAM.fit, _estimate_var_coefs, _calc_b"])
p("C212","LongitudinalLiNGAM recovers the model of a panel","On a panel whose time points obey linear models with intercepts, LongitudinalLiNGAM finds at each time point with enough past an order of the instantaneous effects with causes first and, given the instantaneous matrix, every lagged matrix.","all numbers of variables and lags, all coefficient matrices (instantaneous part acyclic, no cancelling effects) and intercepts, all panels of enough individuals, all time points t >= n_lags","a test fixes one panel; uniqueness of least squares and the limit in the number of individuals need proofs",["causallearn/search/FCMBased/lingam/longitudinal_lingam.py: LongitudinalLiNGAM.fit, _compute_residuals, _estimate_lagged_effects"])
p("C213","The test with missingness correction replaces the causes of missingness by a resample","In a linear model MC_FisherZ is Fisher's z test on the same model with the values of the correction variables replaced by those of different rows in which they are observed; it is symmetric in the pair, does not depend on units, and is FisherZ when nothing is missing.","all data with missing values, numbers of rows and columns, missingness parents, skeletons, queries and shuffles; all least squares regressions","the test is random through a shuffle and data dependent; one data set cannot show independence of units or of the order of the arguments",["causallearn/utils/cit.py: MC_FisherZ.__call__", "causallearn/utils/PCUtils/Helper.py: learn_regression_model, get_residual, get_predictor_ws, gen_vir_data, test_wise_deletion"])
p("C214","Endpoint queries, descendants, equality and renaming of a Dag","get_nodes_into and get_nodes_out_of give the nodes joined by an edge with the given mark at the near or far end; is_descendant_of means a directed path; two Dags are equal iff they have the same nodes and edges, and comparing changes neither; set_nodes renames the nodes.","all histories of calls on a Dag, all nodes, endpoints, pairs of Dags and node lists","the matrix, the list, the dictionary and dpath are updated by different methods; only an invariant over histories shows that they agree",["causallearn/graph/Dag.py: Dag.get_nodes_into, get_nodes_out_of, is_descendant_of, is_proper_descendant_of, __eq__, set_nodes"])
p("C215","PC with the chi-square and G-square tests on discrete data","The chi-square and the G-square test answer exactly 1 when the two variables are independent given the conditioning set in the table (relative frequencies), and less than 1 otherwise. In a table in which every variable is independent of its non-descendants given its parents in a DAG, every d-separated query is therefore answered 1; if moreover d-connected variables are dependent in the table, pc(data, alpha, chisq or gsq) returns exactly the essential graph of the DAG for all levels from some value below 1 on.","every DAG, every table with that Markov property (any number of rows, variables and categories with fewer than 2^63 value combinations), every pair and conditioning set, skeleton mode, collider rule 0-2 and priority rule","the statement composes three ways of counting, two statistics, the skeleton search and the orientation rules, and ranges over all DAGs and tables",["causallearn/utils/cit.py:Chisq_or_Gsq.__call__", "causallearn/utils/cit.py:Chisq_or_Gsq.chisq_or_gsq_test", "causallearn/search/ConstraintBased/PC.py:pc", "causallearn/search/ConstraintBased/PC.py:pc_alg"])
p("C216","FCI, CD-NOD and IAMB on data, with latent variables","On the observed columns of linear data (uncorrelated errors) or of a discrete Markov table over a DAG that may contain latent variables, with d-connected observed variables dependent in the data, Fisher's z (linear) and the chi-square and G-square tests (discrete) answer exactly d-separation for all levels from some value below 1 on; fci(observed) then keeps an edge between every two observed variables that no set of observed variables separates, for every depth and path length; cdnod with a context that is a source returns the correct graph with every edge at the context directed away from it; iamb returns the Markov blanket.","all DAGs with any latent variables, all linear data and Markov tables of any size, all levels close to 1, all depths, knowledge that is true (cdnod) or bans no pair both ways (fci), all targets","composes the numerical tests with the whole searches and ranges over all data sets and latent structures",["causallearn/search/ConstraintBased/FCI.py:fci", "causallearn/search/ConstraintBased/CDNOD.py:cdnod", "causallearn/utils/MarkovNetwork/iamb.py:iamb", "causallearn/utils/cit.py:FisherZ.__call__", "causallearn/utils/cit.py:Chisq_or_Gsq.__call__", "causallearn/utils/cit.py:CIT_Base.get_formatted_XYZ_and_cachekey"])
p("C217","With tiers PC directs everything the class and the tiers force","When the test answers the d-separations of a DAG, add_node_to_tier (and remove_node_from_tier) have been called so that every variable is in a tier, and no edge of the DAG points from a later to an earlier tier, pc returns the adjacencies of the DAG with a directed edge exactly where all Markov-equivalent DAGs that respect the tiers agree, and undirected edges elsewhere. Likewise, for all levels close enough to 1, with Fisher's z on linear faithful data and with the chi-square and G-square tests on a discrete faithful Markov table.","every DAG, every assignment of all variables to tiers that is true of it, every history of tier calls, collider rules 0-2, every priority, both skeleton modes","ranges over all DAGs, tiers and equivalent DAGs; the missing fourth Meek rule makes it false for other knowledge (C65)",["causallearn/search/ConstraintBased/PC.py:pc_alg", "causallearn/utils/PCUtils/Meek.py:meek", "causallearn/utils/PCUtils/BackgroundKnowledgeOrientUtils.py:orient_by_background_knowledge", "causallearn/utils/PCUtils/BackgroundKnowledge.py:add_node_to_tier", "causallearn/utils/PCUtils/BackgroundKnowledge.py:is_forbidden"])
p("C218","CD-NOD directs everything the class and the exogenous context force","When the test answers the d-separations of a DAG over the variables and the context in which the context has no cause, cdnod without background knowledge returns the adjacencies of the DAG with a directed edge exactly where all Markov-equivalent DAGs in which the context has no cause agree, and undirected edges elsewhere. Likewise, for all levels close enough to 1, with Fisher's z on linear faithful data and with the chi-square and G-square tests on a discrete faithful Markov table.","every DAG whose context is a source, collider rules 0-2, every priority, both skeleton modes","ranges over all DAGs and all equivalent DAGs",["causallearn/search/ConstraintBased/CDNOD.py:cdnod_alg", "causallearn/utils/PCUtils/Meek.py:meek"])
p("C219","KCI's simulated null distribution agrees with its gamma approximation","With approx=False the statistics simulated under the null hypothesis have, for independent draws of mean 1 and variance 2, the mean and the variance that approx=True uses, up to the discarded small eigenvalues; the p-value converges to the probability that such a statistic exceeds the observed one; a constant variable is never reported dependent.","all centred kernel matrices, numbers of samples, draws and probability spaces","ranges over all data and probability laws",["causallearn/utils/KCI/KCI.py:KCI_UInd.null_sample_spectral", "causallearn/utils/KCI/KCI.py:KCI_CInd.null_sample_spectral", "causallearn/utils/KCI/KCI.py:KCI_UInd.compute_pvalue", "causallearn/utils/KCI/KCI.py:KCI_CInd.compute_pvalue"])
p("C220","CALM's likelihood term is minimised exactly by models that generate the data","The likelihood part of calm's loss is bounded below by half the log-determinant of the sample covariance, for cyclic and acyclic weights; the bound is attained exactly when the residuals are uncorrelated, so the weights of the true linear acyclic model are a global minimum. For acyclic weights it is half the sum of the log residual variances. Units and standardize=True do not change which weights are best; for two variables both directions are optimal.","all data sets with non-singular covariance, all weight matrices with non-singular I - B, all masks, penalties and units","a statement about all weight matrices and data sets",["causallearn/search/ScoreBased/CALM.py:CalmModel.compute_likelihood", "causallearn/search/ScoreBased/CALM.py:CalmModel.compute_loss", "causallearn/search/ScoreBased/CALM.py:CalmModel.sample_mask", "causallearn/utils/CALMUtils.py:gumbel_sigmoid"])
p("C221","FastKCI's simulated conditional null agrees with the gamma approximations of its blocks","With conditioning, the null statistics that FastKCI sums over the blocks have, for draws of mean 1, an expected value between 1 - n/100000 and 1 times the sum of the blocks' gamma-approximation means, whichever product matrix is formed (the code compares with the size of the whole sample); the same holds for KCI with approx=False, for any number of product columns.","all data sets, partitions, blocks of at least six samples, eigenvector lists, probability spaces of draws","ranges over all data, partitions and probability laws",["causallearn/utils/FastKCI/FastKCI.py:FastKCI_CInd.get_uuprod", "causallearn/utils/FastKCI/FastKCI.py:FastKCI_CInd.null_sample_spectral", "causallearn/utils/FastKCI/FastKCI.py:FastKCI_CInd.pvalue_onblocks", "causallearn/utils/KCI/KCI.py:KCI_CInd.get_uuprod"])
p("C222","CALM's objective over binary masks is consistent","On data from a linear model over an acyclic graph to which they are faithful, with a moral graph that contains the graph's edges, the loss CALM minimises attains a minimum over the binary acyclic masks, and for every small enough sparsity penalty each minimiser's mask is a graph Markov equivalent to the true one.","all sample sizes, numbers of variables, acyclic graphs, faithful linear data, moral graphs, small enough penalties, constraint weights rho and masks","ranges over all graphs, real-valued data and real-valued weights",["causallearn/search/ScoreBased/CALM.py:compute_loss", "causallearn/search/ScoreBased/CALM.py:compute_likelihood", "causallearn/search/ScoreBased/CALM.py:compute_h", "causallearn/search/ScoreBased/CALM.py:calm"])
p("C223","PC with a correct background knowledge object, on data","Whatever has been added to and removed from a BackgroundKnowledge object by node, pattern or tier, if what still stands is true of the DAG and the test answers its d-separations, pc returns the DAG's adjacencies, directs every edge that follows from the v-structures and from what was told by Meek's first three rules, and directs an edge only where all Markov-equivalent DAGs for which the knowledge is true agree. Likewise, for all levels close enough to 1, with Fisher's z on linear faithful data and with chi-square and G-square on a discrete faithful Markov table.","all sizes, DAGs, call histories on the knowledge object, patterns, tests, data sets, priorities, collider rules 0-2 and skeleton modes","ranges over all histories, graphs and real-valued data",["causallearn/search/ConstraintBased/PC.py:pc", "causallearn/utils/PCUtils/BackgroundKnowledge.py:BackgroundKnowledge", "causallearn/utils/PCUtils/BackgroundKnowledgeOrientUtils.py:orient_by_background_knowledge"])
p("C224","GRaSP and BOSS with BIC on data of a linear model","For linear data faithful to a DAG, any positive penalty and any tolerance, from some number of repetitions of the data on: grasp with the BIC score ends from every start, with every depth and all shuffles, and returns the CPDAG of a minimal independence map of the DAG; from a start that lists causes before effects it returns the CPDAG of the DAG itself, and so does boss when the columns are in causal order.","all numbers of variables, DAGs, faithful linear data sets, penalties, tolerances, depths, starts and shuffles","ranges over all graphs, real-valued data and sequences of random choices",["causallearn/search/PermutationBased/GRaSP.py:grasp", "causallearn/search/PermutationBased/BOSS.py:boss", "causallearn/score/LocalScoreFunction.py:local_score_BIC"])
p("C225","CD-NOD with a correct background knowledge object, on data","Whatever has been added to and removed from a BackgroundKnowledge object, if what still stands is true of the DAG over the variables and the context, the context has no cause, and the test answers the d-separations, cdnod returns the DAG's adjacencies, directs every edge that follows from the v-structures, from what was told and from the context being a root by Meek's first three rules, and directs an edge only where all Markov-equivalent DAGs agree in which the context has no cause and for which the knowledge is true. Likewise, for all levels close enough to 1, with Fisher's z on linear faithful data and with chi-square and G-square on a discrete faithful Markov table.","all sizes, DAGs, call histories on the knowledge object, patterns, tests, data sets, priorities, collider rules 0-2 and skeleton modes","ranges over all histories, graphs and real-valued data",["causallearn/search/ConstraintBased/CDNOD.py:cdnod_alg", "causallearn/utils/PCUtils/BackgroundKnowledge.py:BackgroundKnowledge", "causallearn/utils/PCUtils/BackgroundKnowledgeOrientUtils.py:orient_by_background_knowledge"])
p("C226","Edge objects: kinds, traversal, equality and order","An Edge keeps each mark with its node whichever of the two it stores first: get_proximal_endpoint, get_distal_endpoint, get_distal_node and points_toward return exactly what was given to the constructor. The constructors of Edges build the kind they name, and the four is_..._edge predicates recognise exactly their kind. traverse_directed succeeds exactly on a directed edge out of the node, and leads to its head. Two objects for the same edge written from opposite ends are equal; < orders edges.","all nodes and marks","ranges over all pairs of nodes and all pairs of marks",["causallearn/graph/Edge.py:Edge", "causallearn/graph/Edges.py:Edges"])
with open(__import__('os').path.join(__import__('os').path.dirname(__file__),'..','properties.jsonl'),'w') as f:
    for x in P: f.write(json.dumps(x,ensure_ascii=False)+"\n")
print(len(P))
