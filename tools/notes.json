{
 "C01": {
  "note": "Proved for every mark pair except circle-at-first/tail-at-second, which add_edge refuses on every graph (C01_circle_tail_violated)."
 },
 "C04": {
  "note": "Soundness for histories without removals; completeness fails in general (C04_ancestor_incomplete_violated) and holds for sink-ward insertion orders; stale after remove_connecting_edge."
 },
 "C05": {
  "note": "False of the code: exists_directed_cycle returns False on every graph without doubled edges. The path query between different nodes is exact."
 },
 "C07": {
  "note": "Proved without doubled edges; doubled edges and degrees with non-directed edges break it (violated theorems)."
 },
 "C08": {
  "note": "False of the code (list.sort() returns None and sorts in place); holds for graphs over one sorted node list."
 },
 "C09": {
  "note": "Proved for every DAG. Extra theorem: on a cyclic graph the call neither raises nor returns."
 },
 "C10": {
  "note": "Partial correctness proved for every DAG; termination is false (C10_nontermination_violated)."
 },
 "C53": {
  "note": "remove_node(s) proved; subgraph proved for node lists in graph order, reversed edges otherwise (violated). Dag.remove_node and Dag.subgraph: see C108."
 },
 "C56": {
  "note": "set_endpoint1 proved; set_endpoint2 corrupts directed edges (violated)."
 },
 "C14": {
  "note": "Stable mode proved; extra theorem: the eager mode (stable=False) is order dependent.",
  "status": "proved"
 },
 "C16": {
  "note": "Stable mode proved; eager mode violated (break after a banned edge skips the remaining neighbours)."
 },
 "C17": {
  "note": "What is recorded is characterised; stable mode records unions and eager mode appends the empty set, so recorded sets need not separate (violated theorems)."
 },
 "C21": {
  "note": "Proved for uc_rule 0, 1, 2, every priority and both modes. With pairs forbidden in both directions and uc_rule 0 the claim is false (C21_double_ban_violated). Completeness of the orientation (CPDAG) not claimed here.",
  "status": "proved"
 },
 "C12": {
  "note": "Enumeration proved for every a and depth; extra theorem C12_after_end_raises: calling next() again after the final None raises.",
  "status": "proved"
 },
 "C13": {
  "note": "Refines the ideal queue for histories that do not re-push a live key; re-pushing a present key is violated."
 },
 "C22": {
  "note": "Proved except remove_node_from_tier with a different tier (violated)."
 },
 "C40": {
  "note": "Transparency within one method proved. A cache made by another method is never rejected (line 113 looks the stored name up as a key), so wrong answers are returned (violated theorems); other data is rejected."
 },
 "C44": {
  "note": "First fit with one-sided knowledge proved; the stored partial orders are consumed, so a second fit ignores them, and symmetric no-path knowledge is not honoured (violated theorems)."
 },
 "C45": {
  "note": "Proved for source different from target; with equal endpoints the call raises (C45_same_endpoints_raise).",
  "status": "proved"
 },
 "C46": {
  "note": "Sound and complete for every matrix; the approximate search on a single variable returns None (C46_single_variable_none)."
 },
 "C60": {
  "note": "Permutation, DAG, CPDAG and local scores proved for every schedule. A successful round can lose up to (depth-1) tolerances because sub-tolerance losses are accepted on the way; depth<=2 strictly improves. Termination under separated scores. The edge counter is not modelled."
 },
 "C62": {
  "note": "False of the code: branches are sorted ascending, so the weakest improving candidate is followed first (C62_least_first_violated)."
 },
 "C63": {
  "note": "False of the code: insert/delete change the last recorded graph object in place (C63_steps_overwritten_violated); only the last recorded graph is right (C63_last_step_partial)."
 },
 "C36": {
  "note": "Exact arithmetic; local scores as a function of a parent set (C37); recorded local scores never stale (C36_record_transparent)."
 },
 "C65": {
  "note": "False of the code: Meek's fourth rule is not implemented, so with background knowledge a forced edge can stay undirected (C65_rule4_missing_violated); what holds is C64_with_knowledge, and C217: the claim itself when the knowledge assigns every variable to a tier."
 },
 "C66": {
  "note": "Proved: the returned graph is a fixpoint of every rule as coded, which gives closure under R1, R2, R6, R7, R9 for every run, and R8 for one order of the triple; R4 (not re-run once R1-R3 are quiet) and R8 for the other order are violated. Closure under R10 fails as coded, see C72."
 },
 "C67": {
  "note": "Proved for one call of R4 on every graph and for the whole orientation loop; a witness shows R4 revising, within one call, a mark it put itself."
 },
 "C55": {
  "note": "Neighbours are always included, every member satisfies the definition and has the reason the code looks for, and with no length bound (or one of at least 2) every node across one collider with a possible-ancestor witness among x's neighbours is kept; members further than the coded search reaches are missed (violated)."
 },
 "C68": {
  "note": "rule0 is characterised exactly relative to the table in index order; the possible-d-sep step fills only one order, so colliders are missed depending on the numbering (violated)."
 },
 "C29": {
  "note": "All considered subsets except the proper prefixes of the sorted list are tested; the prefixes never are (violated, with an fci run whose output depends on node names)."
 },
 "C69": {
  "note": "Adjacency half proved outright. Marks: R0-R4, R6-R8 proved sound for every causal graph; soundness of the whole run proved under the hypotheses that the skeleton has no edge too many, separating sets are recorded in index order, and the tails put by R5, R9, R10 satisfy the published premises. R5 and R9 as coded break it: two runs on true d-separation oracles return false marks (violated)."
 },
 "C70": {
  "note": "Termination and exact adjacencies proved outright. Marks: proved true of the DAG when R4 decides as it would with the right table and test and R5, R9, R10 only put tails the published rules would. As coded R4 looks for an index among node objects and tests without the selection variables (two violated runs on legal inputs), and R3 never fires (violated)."
 },
 "C71": {
  "note": "Forbidden directions and the direction of required edges proved for every run; a required edge can be missing from the result (violated: the skeleton phase never consults required edges)."
 },
 "C72": {
  "note": "R9: exact, for every graph and set order. R10: soundness proved; completeness fails (violated: only one of the two matchings of children and parents is tried, so the result depends on the traversal order of a set; and a child that is itself the parent is missed)."
 },
 "C73": {
  "note": "Proved whenever the product of the numbers of distinct values of the tested columns is below 2^63. Violated beyond that bound: with 65 binary conditioning variables the index weight wraps to 0, the code ignores a conditioning variable and returns sf(2,1) where the textbook p-value is 1. Field arithmetic (no rounding); chi2.sf and log are parameters."
 },
 "C74": {
  "note": "Proved over any field for the abstract log (and over the reals with Real.log for every positive definite covariance); no rounding. lgamma is an arbitrary function."
 },
 "C75": {
  "note": "Proved when the loop ends with h <= htol and htol < d/(2d)^d (the default tolerance for up to 7 variables). Violated: at 8 variables a converged run can return a directed cycle, and a run that stops because rho > 1e16 is not checked at all. Optimiser and sigmoid arbitrary; exact arithmetic."
 },
 "C76": {
  "note": "Exact real arithmetic (numerical rank decisions of np.linalg.inv not modelled); norm.cdf is an arbitrary function, strictly monotone with value 1/2 at 0 where that is needed."
 },
 "C77": {
  "note": "Exact real arithmetic. The errors are uncorrelated exactly in the sample (the sample stands for the population); sampling error is not modelled. Faithfulness is a hypothesis (FaithfulData), as in the theory of PC, and is met by the worked example. The independence of d-separated variables is proved from the linear equations (moralised ancestral graph argument), not assumed."
 },
 "C78": {
  "note": "Builds on C23, C25, C26, C36, C64. The Verma-Pearl theorem is proved (moral criterion, covered edge reversals) in Proofs/VermaPearl; d-separation is the textbook definition of Spec/DSep."
 },
 "C79": {
  "note": "The theorem of Meek and Chickering (every independence map is reached by covered reversals and additions) is proved in Proofs/MeekChickering.lean. The parent limit must not bind (n ≤ maxP); GES's default is half the number of variables."
 },
 "C80": {
  "note": "Exact real arithmetic; errors exactly uncorrelated in the sample. GES always uses lambda = 2 (GES.py:113-114), whatever the caller passes."
 },
 "C81": {
  "note": "With C61, C38 and C60; the separation of the selected parents is kept by every improving removal (contraction), and they are unique (intersection, weak union); local criterion for I-maps; Meek-Chickering for the best order. For GRaSP the statement is about runs that end (C60)."
 },
 "C82": {
  "note": "False: moves that only tie are rejected (BOSS.py:204) and there is no backward phase, so BOSS can stay at an order whose DAG has too many edges: for 2->0<-3, 0->1 and columns 0,1,2,3 it returns a graph with 2 and 3 adjacent, for every shuffle. True when the columns are in causal order."
 },
 "C83": {
  "note": "The tests (Shapiro-Wilk, Pearson, HSIC, MLHSICR) are arbitrary Boolean functions of residuals."
 },
 "C84": {
  "note": "False: only direct entries are compared, the lists are not transitively closed, so pairwise decisions can form a directed cycle. True when every unique sink the tests single out is a descendant of the others in some DAG."
 },
 "C85": {
  "note": "False: hu_history skips a set when its common ancestors are unchanged, but the sinks also depend on the ancestors of the single variables; a five-variable run misses an ancestor. True relative to the lists at the time the set was last examined, which had the same common ancestors."
 },
 "C86": {
  "note": "Full, over abstract p-values (no NaN)."
 },
 "C87": {
  "note": "False in general (3-cycle witness: only direct relations are checked by check_identified_causality); proved when the child decisions are correct for some DAG."
 },
 "C88": {
  "note": "Full, for a child strictly better than the other admissible ones (ties are resolved by set order)."
 },
 "C89": {
  "note": "Full, over abstract HSIC values and coefficients (no NaN). (For one variable the code divides by zero; the quantifier excludes it.)"
 },
 "C90": {
  "note": "Proved without prior knowledge while three or more variables are left (early exit harmless); false for two variables left (statistics with different null distributions compared) and with prior knowledge (only candidates are used as predictors)."
 },
 "C91": {
  "note": "First fit proved; false for later fits (partial orders are consumed), for NaN entries of the unknown block, and for no-path pairs that cancel."
 },
 "C92": {
  "note": "Full."
 },
 "C93": {
  "note": "Full, over abstract CI answers (set-based)."
 },
 "C94": {
  "note": "Full for the choice of variables; the regressions on them are not modelled."
 },
 "C95": {
  "note": "Proved for stable=True and for uc_rule 1, 2; with stable=False and uc_rule=0 the program raises on such runs (witness). With knowledge, uc_rule=0 needs knowledge without double bans (C21's counterexample)."
 },
 "C96": {
  "note": "Full (exact arithmetic)."
 },
 "C97": {
  "note": "Full (exact arithmetic)."
 },
 "C98": {
  "note": "Proved when no variable with causes has a row that sums to zero; otherwise the program takes it for a root and returns a wrong value (witness). The random loop is never stuck in an acyclic model."
 },
 "C99": {
  "note": "Full (exact arithmetic; estimators are arbitrary functions)."
 },
 "C100": {
  "note": "Holds only with the reduced-form residuals in the moving-average terms; with the error variables it is false (witness), because np.dot's third argument is the output array."
 },
 "C101": {
  "note": "Proved for objects created with given coefficients; otherwise every later fit keeps the coefficients of the first data set (general theorem and witness)."
 },
 "C102": {
  "note": "Proved for contemporaneous effects and one lag. With more lags the lag-1 block holds the effects of the last lag and the other blocks are zero (general theorem)."
 },
 "C103": {
  "note": "Proved for rows/time points with enough past. For the others np.roll and negative indices give observations from the end of the series (general theorem)."
 },
 "C104": {
  "note": "Proved for time points with at least n_lags predecessors. For earlier ones only one entry is NaN and the others come from regressions on later time points (witness)."
 },
 "C105": {
  "note": "Full."
 },
 "C106": {
  "note": "get_ancestors: full. is_ancestor_of: proved for histories that only add edges into nodes without outgoing edges; false in general: misses paths, keeps removed and reversed edges (witnesses)."
 },
 "C107": {
  "note": "Proved for histories whose edges happen to be acyclic. Cycles are accepted, denied by exists_directed_cycle, and make get_causal_ordering run forever (general theorem and witness)."
 },
 "C108": {
  "note": "Proved for removing the last node (or nodes not followed by a node with edges) and for subgraphs that leave out one node. remove_node raises whenever an edge remains at a later node; subgraph with two nodes left out raises or moves edges to a wrong node (general theorems)."
 },
 "C109": {
  "note": "False: it raises exactly when two observed nodes are linked neither by an edge nor by a single unobserved node (characterisation proved for all inputs)."
 },
 "C110": {
  "note": "Full, relative to the tests the code performs (which tests it performs is C111)."
 },
 "C111": {
  "note": "Proved: the order is the greedy maximal one for the performed tests, and the tests are the prescribed ones when Z is the first |Z| columns. False in general: the loops test columns 0..|Z|-1 instead of Z; for every input the outcome does not depend on the tests of the last two variables at all, and a witness accepts a pair whose residual depends on all other variables."
 },
 "C112": {
  "note": "Full under the stated bounds on the statistics (initial values of the minima)."
 },
 "C113": {
  "note": "All mixed graphs with tails, arrowheads and circles. The nl criterion is stated exactly as the code decides it (C115 says what is wrong with it)."
 },
 "C114": {
  "note": "The hypotheses are those C69 establishes for FCI runs; a run with a latent variable is shown to meet them."
 },
 "C115": {
  "note": "Proved when no parent of a is adjacent to b (the first criterion of defVisible). Violated otherwise: visibleEdgeHelper accepts any parent of a; witness run of fci without knowledge on a d-separation oracle where the edge has a latent confounder. Also violated the other way: the collider-path search always fails, so a visible edge gets pl."
 },
 "C116": {
  "note": "Real arithmetic."
 },
 "C117": {
  "note": "Real arithmetic; the widths are arguments."
 },
 "C118": {
  "note": "Violated for est_width='median': the width is taken before normalisation, so doubling x changes the statistic (two samples). Proved for the other rules; sample order for the median rule up to 1000 samples (then rows are drawn at random)."
 },
 "C119": {
  "note": "Real arithmetic."
 },
 "C120": {
  "note": "Violated for constant x or y: the p-value is nan (0/0), which callers read as dependence. Proved: nan exactly for constant x or y, otherwise a number in [0,1] with the stated moments (cdf values in [0,1] assumed)."
 },
 "C121": {
  "note": "Violated for constant y: p-value nan. Otherwise proved: whenever a number is returned it is in [0,1] with positive gamma parameters."
 },
 "C122": {
  "note": "Violated twice: half of z is appended to x but not to y (witness: five samples, linear kernels); null_ss raises TypeError because the parameter of KCI_CInd is called nullss. Proved: symmetric for given matrices; the constructor succeeds exactly without null_ss."
 },
 "C123": {
  "note": "Real arithmetic; constant columns (nan in numpy) divide by zero, which is 0 in Lean."
 },
 "C124": {
  "note": "Violated: np.cov divides by n-1 and np.var by n, so the residual has covariance -cov(x_i,x_j)/(n-1) with x_j; it is zero only if it was zero before. With two samples the residual of a variable on itself is its negative."
 },
 "C125": {
  "note": "For fits without prior knowledge."
 },
 "C126": {
  "note": "Real arithmetic."
 },
 "C127": {
  "note": "Prior knowledge is violated by every fit after the first (hence by bootstrap): the partial orders are consumed; witness on concrete data. The rest is proved."
 },
 "C128": {
  "note": "Violated: p-values are rounded to four digits before the comparison (0.00996 is not below 0.01), and the diagonal, which is never tested, is reported as significant at every lag with p-value 0. Proved for different variables up to the rounding."
 },
 "C129": {
  "note": "The lasso is an arbitrary function."
 },
 "C130": {
  "note": "For graphs without latent nodes; latent nodes are C131."
 },
 "C131": {
  "note": "Violated: the code compares the bound method b.get_node_type (without a call) with LATENT, so the node type has no influence; witness with a latent chain node, and the result is the same for all node types."
 },
 "C132": {
  "note": "Termination is proved for every matrix, and the error whenever the cycle can be reached without meeting the target and without returning to the source. Violated for cycles through the source: its list is consumed without a copy, and a walk visiting the source twice is returned as a path."
 },
 "C133": {
  "note": "Proved for all functions except GraphUtils.find_unshielded_triples, which is violated: on every DAG it returns the empty list, because node4 is read from the wrong end of the second edge."
 },
 "C134": {
  "note": "Symmetry is proved, and the exact value and the exact condition for the AttributeError. Violated: a pair absent in both graphs raises, reversed edges cost nothing, the edges of the first node are not compared, and a graph with a bidirected edge has distance 2 to itself."
 },
 "C135": {
  "note": "Exact rationals instead of floats."
 },
 "C136": {
  "note": "np.argsort(-counts) is any descending reordering."
 },
 "C137": {
  "note": "Proved without a threshold. Violated with one: the median is taken over all non-zero effects, also those the threshold excludes."
 },
 "C138": {
  "note": "Proved for min_causal_effect = 0 (the default). Violated otherwise: the argument is ignored."
 },
 "C139": {
  "note": "The regression (adaptive lasso in the code) is assumed to satisfy the normal equations; arithmetic is exact and the errors are uncorrelated in the sample."
 },
 "C140": {
  "note": "hsic_test_gamma is a parameter (see C116-C122 for the test itself)."
 },
 "C141": {
  "note": "The adaptive lasso is an arbitrary function. Proved when the attribute lags equals the number of coefficient matrices. Violated otherwise: fit prunes before it updates lags, so coefficients of dropped lags vanish silently, and given coefficients with more lags raise an error."
 },
 "C142": {
  "note": "Proved for as many errors as observations. Violated: with given coefficients and q >= 1 pruning always raises (fewer errors than rows), and the past of the first rows is taken from the end of the series."
 },
 "C143": {
  "note": "Proved for VAR, Longitudinal and for VARMA without lag. Violated for VARMA with a lag: `from` is always taken at t-1, and a parent in psi_p is replaced by an error term. NaN matrices of Longitudinal LiNGAM count as zero (comparisons with NaN are false)."
 },
 "C144": {
  "note": "estimate_total_effect is a parameter; np.argsort(-counts) is any descending reordering."
 },
 "C145": {
  "note": "Values of minus infinity are not modelled."
 },
 "C146": {
  "note": "Proved for new objects, and for matrix_diff on graphs with directed and undirected edges. Violated: matrix_diff does not tell <-> from ---; a second call of to_nx_graph keeps stale edges."
 },
 "C147": {
  "note": "Text as lists of characters; pandas.read_csv on texts without tabs and quotes. Proved for two or more variables. Violated for one variable: the matrix read back is empty, as the line of names has no separator."
 },
 "C148": {
  "note": "The counter of bidirected edges is only printed and is left out."
 },
 "C149": {
  "note": "The column numbers are given (parsing of the header left out). The loop starts at 1; the missing column keeps the initial value 0, which is right for permutations."
 },
 "C150": {
  "note": "Proved for pwling. The kernel measure never uses the soft knowledge: the set of variables it would exempt never contains the candidate."
 },
 "C152": {
  "note": "Violated: H0 * K * H0 multiplies entry by entry. Proved of the code: the diagonal is (1-1/T)^2, the other entries lie in (0, 1/T^2], and all row sums are positive."
 },
 "C153": {
  "note": "Proved for 2 <= k <= T and non-constant columns. Violated: a constant column gives NaN; without parents a single fold, or more folds than samples, raises ZeroDivisionError."
 },
 "C154": {
  "note": "Exact arithmetic."
 },
 "C155": {
  "note": "Violated: for two or more dimensions the shapes never fit. With one dimension the distances can be formed, but cv_multi without parents raises for k >= 3 and T >= 2k."
 },
 "C156": {
  "note": "Whenever the score is a number (see C153)."
 },
 "C160": {
  "note": "Proved: entries for ordered pairs, 0 otherwise. Violated: inside the block of unknown order the matrix has 0 where estimate_total_effect says NaN; RCD draws N - n_sampling rows without replacement, so any two samples share at least N - 2 n_sampling rows, and it raises for n_sampling >= N."
 },
 "C161": {
  "note": "Violated: groups with different numbers of samples are rejected (np.array of a ragged list, numpy >= 1.24)."
 },
 "C162": {
  "note": "Proved except: hsic_test_gamma with more than 100 samples takes its kernel widths from the first 100 rows only, so the order of the samples matters (witness: the same 101 samples in two orders give NaN and a number)."
 },
 "C163": {
  "note": "Violated: at most three samples raise ZeroDivisionError, four and five give NaN, and hsic_test_gamma gives NaN if a variable is constant on the first 100 rows. From six samples on proved, except the degenerate case where the centred kernel matrices have no common non-zero off-diagonal entry (NaN)."
 },
 "C164": {
  "note": "Violated: a perfect fit (no noise) gives NaN for the true direction, as does a constant variable. Otherwise proved."
 },
 "C165": {
  "note": "Violated for every input: the code calls scipy.stats.ttest_ind, which compares means: re-pairing cause and noise leaves it unchanged, a noise equal to the cause gets the largest p-value, and adding a constant to the noise moves it arbitrarily."
 },
 "C166": {
  "note": "Violated: drop_last drops the samples after the last multiple of 128, in every epoch the same; with fewer than 128 samples the networks are never trained. Proved: every epoch uses each earlier sample exactly once, in order."
 },
 "C167": {
  "note": "Proved for fewer than 2 million repetitions. Violated beyond: the weights are rounded to six decimals, so 2 million equal repetitions all get weight 0 and np.average raises ZeroDivisionError."
 },
 "C168": {
  "note": "Proved."
 },
 "C169": {
  "note": "Violated for every such input: a constant variable gives statistic 0 and only zeros as null samples, and blocks with fewer than six samples are skipped; the strict comparison 0 > 0 then makes the p-value 0."
 },
 "C170": {
  "note": "Proved for one repetition. Violated with two: null samples of different repetitions are averaged before counting, so two repetitions with p = 1/2 each can give p = 0."
 },
 "C171": {
  "note": "Proved."
 },
 "C172": {
  "note": "Proved for up to 500 samples. Violated beyond: the kernel width is computed from the first 500 rows only (witness: one order gives NaN, another a number)."
 },
 "C173": {
  "note": "Proved."
 },
 "C174": {
  "note": "Range proved. Violated: a constant variable gives NaN; the permutation test with two samples always gives p = 0 (only strictly larger statistics count); one feature replaces the chosen approximation silently by hbe."
 },
 "C175": {
  "note": "Proved for linearly independent parents fewer than the samples, and recovery for centred data. Violated: linearly dependent parents (or at least as many as samples) get minus infinity, the best score; there is no intercept, so two unrelated variables with mean 9 are joined by an edge."
 },
 "C176": {
  "note": "Coefficients proved. The order is right for every edge if some pair is not adjacent, otherwise for every edge except possibly one of least weight. Violated: with two variables the order is always [0, 1]; with one variable no order is found (None) and the fit raises. One entry more than n(n+1)/2 is zeroed before the first search."
 },
 "C177": {
  "note": "Proved."
 },
 "C178": {
  "note": "Answers proved exact in every history. Without a crash inside a save every restart works. Violated: a crash while the file is written, at whatever character, makes it unreadable for good: every later construction raises and all saved p-values are lost; a cache file given by a bare name cannot be created (os.makedirs('') raises)."
 },
 "C179": {
  "note": "Proved (also for the comparison-based rules, which a comment in the source says do not work), with caches of the same DAG. Violated: the cache file does not record the DAG: a query saved with one true DAG is answered by it for every other true DAG."
 },
 "C180": {
  "note": "Refused if the printed texts (and their hashes) differ. Violated: the hash is taken of numpy's printed text, which shows only the first and last three rows of more than 1000 entries: data sets that differ in all other samples, or in their number, share cached p-values."
 },
 "C181": {
  "note": "Degree queries proved. get_directed_edge is right for a -> b, undirected and absent edges; violated: it also returns b -> a and a <-> b. exists_trek is sound, but misses treks (witness)."
 },
 "C182": {
  "note": "Proved for graphs without doubled edges and without an edge that has a circle at the earlier and a tail at the later node; violated for such an edge: it is lost."
 },
 "C183": {
  "note": "Proved for graphs whose node list is not shared. Violated: graphs made from one list (for instance G and dag2cpdag(G)) share it: add_node on one gives the other a node without a row, remove_node makes the other name wrong neighbours; G.remove_nodes(G.get_nodes()) keeps every second node; set_nodes leaves the dictionary unchanged, so the new names are unknown. What add_node does to the graph itself, and that == sorts both lists under unchanged dictionaries, is also proved."
 },
 "C184": {
  "note": "to_pydot proved for graphs with single edges (never raises, exact, injective), with labels and colours. to_pgv draws the same on them; violated for a pair joined by a directed and a bidirected edge: the strict pygraphviz graph loses the directed edge if it runs from the earlier to the later node."
 },
 "C185": {
  "note": "Coefficient arrows proved. Double-headed arrows proved for symmetric NaNs, in particular for every matrix fitted by BottomUpParceLiNGAM and RCD; violated: a NaN above the diagonal alone is drawn as nothing at all. The arrows of the prediction model are exactly the requested ones (C185_prediction)."
 },
 "C186": {
  "note": "Proved; a matrix without cycles has at least one of each."
 },
 "C187": {
  "note": "Proved (exact real arithmetic), including independence of the solver and the two-step (Frisch-Waugh) identity. An empty list of features raises.",
  "status": "proved"
 },
 "C188": {
  "note": "Proved (exact real arithmetic, solver assumed to return a minimiser of the lasso for the penalty it selects)."
 },
 "C189": {
  "note": "Proved for at most one non-constant parent, a non-constant variable and four samples or more: the value is the likelihood for the initial length scale and signal variance and some noise variance not worse than 0.1. Violated: two or more parents (unless as many as samples), constant columns and fewer than four samples raise an exception."
 },
 "C190": {
  "note": "The value is proved (every positive definite matrix has a factor, and all covariance matrices of the score are positive definite). Violated for the gradient: the derivative in the noise is computed from the diagonal of the inverse of the factor and is smaller than the true derivative for every input with two samples and one target; the other entries are zero."
 },
 "C191": {
  "note": "Best point, evaluation budget and unchanged coordinates with zero gradient proved. Violated: the slope is the product of the first entries only, so for a gradient whose first entry is zero (the Gaussian process score) every line search counts as failed, the search gives up after at most 41 evaluations and the column of values has only the first one; a quadratic function is left at 0.58 instead of 0.5."
 },
 "C192": {
  "note": "Proved (exact real arithmetic), including the exceptional cases.",
  "status": "proved"
 },
 "C193": {
  "note": "Proved for objects constructed with both coefficient arrays. Violated in every other run: after a fit whose order has an autoregressive and a moving average part, all later fits use its coefficients; after one with a single part, later fits search only orders up to the one selected first."
 },
 "C194": {
  "note": "Proved: the simulated series obeys the equation; the matrices of a VAR sample are those of the original coefficients with the instantaneous matrix of the resampled residuals, and the criterion is restored. Violated: afterwards the object is the model of the last sample; when a fit raises, the criterion stays None; VARMA bootstrap raises whenever the order has a single part, and whenever pruning is on."
 },
 "C195": {
  "note": "Proved.",
  "status": "proved"
 },
 "C196": {
  "note": "Proved for max_explanatory_num 1 and 2 (2 is the default). Violated for 3 and more: with x1 = x0 + x4 + e1, x2 = x1 + e2, x3 = x0 + x4 + e3 RCD reports x3 as an ancestor of x2."
 },
 "C197": {
  "note": "Proved for max_explanatory_num = 1. Violated for the default 2 and for larger numbers: with x0 = h + e0, x1 = h + e1, x2 = x1 + e2 and h hidden, RCD reports x0 as an ancestor of x2."
 },
 "C198": {
  "note": "Proved.",
  "status": "proved"
 },
 "C199": {
  "note": "Proved.",
  "status": "proved"
 },
 "C200": {
  "note": "Refuted for an ideal test and every level: with prior knowledge the candidates are regressed on each other only, without the other variables left, so known causes act as hidden confounders."
 },
 "C201": {
  "note": "Proved.",
  "status": "proved"
 },
 "C202": {
  "note": "Proved for regressions on pairs. With num_explanatory_vals >= 3 the search can record a non-ancestor within a pass (it is dropped again by the final loop in all cases tried); not covered.",
  "status": "proved"
 },
 "C203": {
  "note": "Result and undoing proved for the program with its list objects. Termination holds if scores that differ by less than the tolerance are equal; otherwise it is false: moves that each lose less than 1e-6 may precede an improving one, and with depth 3 a search can succeed and end where it began, for ever."
 },
 "C204": {
  "note": "False: `for x in y_parents` iterates over the list that `update` overwrites, so parents are skipped, and `flipped` is not reset between siblings; for 0 -> 1 <- 2 there are shuffles (4 percent of them) with which grasp returns a complete graph. True for an initial order that lists causes before effects; in general the result is a minimal independence map."
 },
 "C205": {
  "note": "False: the loop tests the columns 0..|Z|-1 instead of Z. Proved for all data: as soon as a residual is never judged independent of its own columns, every reported cluster is a block of consecutive columns, left-over variables are the first columns, and no two clusters have the same size; so two latents with two indicators each, or interleaved indicators, are never recovered."
 },
 "C206": {
  "note": "Proved from some number of samples on, which depends on the model and the measure but not on the data. At a fixed number of samples it is false: the regression coefficient is too large by N/(N-1) (np.cov against np.var), so even the residual on the true cause shares its error; for every N >= 2 there is an ideal measure for which the effect comes first."
 },
 "C207": {
  "note": "Proved from some number of samples on, which depends on the model and the measure but not on the data."
 },
 "C208": {
  "note": "Proved: marks and ancestor matrix are equal, so every theorem on edge histories also holds for graphs that grow. Nodes are numbered in the order of addition; adding the same node twice is not part of the histories."
 },
 "C209": {
  "note": "The edges of a Dag arrive for every history; the ancestors are right if every edge leads to a later node. In general they are not: edges are re-added by row number, and in the chain 0->2->3->1 the receiver does not know that 0 is an ancestor of 1. Edges of other graphs that are not directed are dropped without a message."
 },
 "C210": {
  "note": "With the entropies of the code the order is the order of the code (C210_is_groupOrder). That large samples are needed is shown in C206 (the residual is computed with the factor N/(N-1))."
 },
 "C211": {
  "note": "Proved for data without intercept. The regression has no intercept (trend='n'): the same data measured from another origin get wrong coefficients (C211_offset_violated); nothing is centred before."
 },
 "C212": {
  "note": "Only time points with t >= n_lags; for earlier ones the code takes regressors from the end of the series or too few of them (see C103). The measure is ideal; sklearn's LinearRegression is assumed to minimise the sum of squares."
 },
 "C213": {
  "note": "For queries without repeated variables. LinearRegression is assumed to give least squares residuals; for units and the linear model the correction variables are linearly independent in the complete rows."
 },
 "C214": {
  "note": "The endpoint queries are proved. is_descendant_of misses paths when edges are added below existing ones (C106). __eq__ compares None with None, so names are ignored, and sorts both node lists in place without the matrix. set_nodes keeps the dictionary."
 },
 "C215": {
  "note": "The survival function is any function that is 1 at 0 and strictly decreasing. The bound 2^63 is needed (C73_overflow_violated)."
 },
 "C216": {
  "note": "The marks of fci's result are the subject of C69 (partial)."
 },
 "C217": {
  "note": "Every variable must be in a tier. For other kinds of knowledge maximality fails (C65)."
 },
 "C218": {
  "note": "Completes C52_cdnod_correct (soundness). Without further background knowledge."
 },
 "C34": {
  "note": "Violated: with the default k = 3 and path extension A* can return a DAG of total score -17 where -19 is attainable, because compute_dynamic_h matches the stored patterns (variables still to be placed) against the variables already placed. Proved: termination and admissibility with any heuristic; the stored patterns are exact; applied to the right argument the heuristic never over-estimates (scores not negative) and A* would be optimal."
 },
 "C49": {
  "note": "iamb itself proved. Violated: iamb_markov_network applies its AND rule to a matrix that is already symmetric, so it is an OR rule (harmless with a faithful oracle: C49_network_oracle)."
 },
 "C50": {
  "note": "Proved for every reachable graph with at least one node, no self loops, no doubled edges and no edge with a circle at the lower-numbered and a tail at the higher-numbered node. Violated: such circle-tail edges are lost, and the graph without nodes reads back with a node called 'Graph Edges:'."
 },
 "C51": {
  "note": "Violated only in one point: with stable=True the table entry is the union of all separating sets found at that level and need not itself separate. Everything else (deletions, remaining edges, both orders, eager entries) proved."
 },
 "C52": {
  "note": "Proved for collider rule 2 and for every conflict rule other than 0 and 1, with every CI test and knowledge. Violated: rule 0 (overwrite) turns edges into the surrogate, rule 1 makes them bi-directed, and mvcdnod writes the opposite direction."
 },
 "C58": {
  "note": "Proved for tail, arrow and circle marks on graphs without doubled edges, except the query circle-at-a / tail-at-b, which contains_edge always denies."
 },
 "C59": {
  "note": "Violated: the answer is neither sound nor complete when circles occur (0 <-o 1 <- 2 gives True; 0 o-o 1 o-o 2 and 0 - 1 - 2 give False). Proved: what it computes, and soundness without circles."
 },
 "C219": {
  "note": "Moments proved for at most 1000 samples (unconditional), and for more product columns than samples (C221_kci covers the other case) (conditional); the p-value's convergence always. Violated: above 1000 samples only half of the eigenvalues are used, and the simulated mean can be a quarter of the mean of the gamma approximation; a constant variable gets p-value 0 (dependent) in the unconditional test, and an exception in the conditional one. With null_ss = 1 the code raises (not modelled)."
 },
 "C220": {
  "note": "Exact real arithmetic; singular I - B (where torch gives +inf) excluded. The optimiser is not modelled here (see C75)."
 },
 "C221": {
  "note": "Proved for partitions without degenerate block; also closes the case of C219 with at most n product columns (C221_kci). Violated: a variable y that is constant within a block leaves no eigenvalue, and the test raises."
 },
 "C222": {
  "note": "Exact minimisation over zero/one masks whose acyclicity term vanishes (what the sampled sigmoid masks relax); how far the optimiser gets is not modelled, and how small the penalty must be depends on the data."
 },
 "C223": {
  "note": "For collider rule 0 or the non-stable skeleton the knowledge must not speak for both directions of a pair (otherwise C16/C21's separating sets are missing). What Meek's fourth rule would add is not directed (C65)."
 },
 "C224": {
  "note": "From other starts grasp and boss can stop at a graph with too many edges even with a consistent score (C204_collider_violated, C82_boss_local_optimum_violated), so only the minimal independence map is claimed there. The initial order is the shuffled one."
 },
 "C225": {
  "note": "Unlike PC (C223), knowledge that speaks for both directions of a pair does no harm, because CD-NOD's skeleton phase is run without the knowledge. What Meek's fourth rule would add is not directed (C65)."
 },
 "C226": {
  "note": "The last two parts are false. Written from opposite ends, two objects are equal exactly when an arrowhead faces a tail or a circle; an undirected, bidirected or nondirected edge is not equal to itself written from the other end (C226_equal_violated). Of 0->3 and 1->2 each is smaller than the other (C226_order_violated), so sorting edge objects depends on their initial order."
 }
}