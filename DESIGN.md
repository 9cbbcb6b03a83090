# Formal model of py-why/causal-learn in Lean 4 — design

## Layout

* `lean/Verif/Model/*.lean` — executable, total Lean models of the Python code. Every definition cites file and lines
  in `/repo` and names the simplifications made.
* `lean/Verif/Spec/*.lean` — small specifications written independently of the models (directed paths, DAGs,
  d-separation, Markov equivalence, optimal DAG score, ...).
* `lean/Verif/Proofs/*.lean` — helper lemmas.
* `lean/Verif/Props/*.lean` — the property theorems (named `Cnn_...`) and, beside each, a concrete `example`
  that meets its hypotheses.  A theorem with suffix `_partial` proves part of a property; a theorem whose name contains
  `_violated` proves that the code breaks the property, with a concrete witness.

## Modelling conventions

* A numpy `n × n` matrix is a function `Fin n → Fin n → α`; writing an entry is a pointwise update.
  Python `for i in range(n)` is a left fold over `List.finRange n`.
* Marks are the integers of `Endpoint` (TAIL −1, NULL 0, ARROW 1, CIRCLE 2, STAR 3, TAIL_AND_ARROW 4, ARROW_AND_ARROW 5);
  `graph[i,j]` is the mark at `i` on the edge `i–j`.
* `while` loops are modelled with fuel, and the theorem states that some fuel always suffices (termination),
  or by structural/well-founded recursion. Non-termination of the code is stated as "no fuel suffices".
* CI tests and local scores are arbitrary functions (oracles): the theorems quantify over all of them. Floating point
  is not modelled: scores are elements of a linearly ordered additive group (or `Int`/`Rat`) and p-value comparisons are
  Boolean oracle answers.
* Python dict/set are modelled as functions or association lists; iteration order of sets only where it is observable.

## Plan per property

| id | what is modelled | how it is proved |
|----|------------------|------------------|
| C01 | `Edge.__init__`, `GeneralGraph.add_edge`, `get_edge` on the matrix | case split on marks; circle–tail refusal shown as violation |
| C02 | edge operations as a history (list of operations) | invariant by induction over the history |
| C03 | `add_edge`, `remove_edge` | case split |
| C04 | `adjust_dpath`, `add_edge` | soundness by induction over the history; incompleteness witness; completeness for sink-ward insertion orders |
| C05 | `exists_directed_cycle`, `exists_directed_path_from_to_breadth_first` | never detects a cycle in a graph without doubled edges (theorem), witness |
| C06 | `get_graph_edges`, `get_num_edges`, `get_edge` | list lemma |
| C07 | parent/child/degree queries | case split on marks |
| C08 | named graphs, `__eq__` with in-place sort | witnesses for both failures; partial theorem for identically ordered graphs |
| C09 | `get_causal_order` | termination measure + invariant |
| C10 | `is_dconnected_to`, `reachable` | active-walk semantics; non-termination witness; soundness/completeness when it returns |
| C11, C12 | generator state machines | refinement to the lexicographic list of combinations |
| C13 | heap with lazy deletion (heap abstracted as a bag with minimum) | invariant over histories |
| C14–C17 | `skeleton_discovery` both modes, oracle CI test | equivariance by simulation; invariants over the loops; witnesses for the failures |
| C18 | `orient_by_background_knowledge` | fold invariant |
| C19–C21 | `uc_sepset`, `meek`, `pc_alg` | soundness invariant against any DAG with the same oracle |
| C22 | `BackgroundKnowledge` add/remove/is_* | abstraction to sets of facts over histories |
| C23, C24 | `pdag2dag`, `check2` | invariants of Dor–Tarsi; existence of a removable sink for extendable graphs |
| C25, C26 | `dag2cpdag`, `mec_check` | Chickering's ordering/labelling; soundness first, then completeness |
| C27, C28 | FCI rules as matrix rewriters | each rule is a circle-refining step; measure = number of circles |
| C29 | `removeByPossibleDsep` with the aliased list | witness + what is tested |
| C30 | BFS `existsSemiDirectedPath` | reachability invariant |
| C31–C35 | parent graphs, DP, A*, heuristics | order-graph shortest path = optimal DAG; witness for C34 |
| C36 | GES operators, greedy loop | strict descent on a finite set of graphs |
| C37, C40 | memo tables | invariant "table agrees with function" over histories |
| C38 | GST, BOSS, GRaSP order operations | permutation invariants |
| C39 | key string construction | injectivity of the decimal encoding with separators |
| C41, C42 | SHD and confusion classes | counting identities |
| C43–C47 | DirectLiNGAM, ICA order search, paths, bootstrap counts | permutation/triangularity invariants; refit witness |
| C48 | `merge_overlaping_cluster` | connected components of the overlap graph |
| C49 | `iamb`, `iamb_markov_network` | loop invariants; witness for the AND rule |
| C50 | `__str__` / `txt2generalgraph` | round trip on token level; witness for circle–tail edges |
| C51 | `fas` | loop invariants |
| C52 | `cdnod_alg` pipeline | invariant or witness |
| C53 | `remove_node`, `subgraph` | index maps; witnesses |
| C54 | `make_prior_knowledge` | fold lemmas |
| C55 | `getPossibleDsep` | reachability over ordered pairs |
| C56 | `Edge.set_endpoint1/2` with the hidden `numerical_endpoint_*` fields | case split; witness for `set_endpoint2` |
| C57 | `get_degree`, `get_indegree`, ... on histories | cardinality of neighbour sets |
| C58, C59 | `is_def_collider`, `is_def_noncollider`, `is_directed_from_to`, ... | case split on the two marks of an edge |
| C60 | `grasp`, `dfs` (as an over-approximating relation), `dag2cpdag` on the result | permutation/score invariants for every schedule; measure for termination |
| C61, C62 | grow-shrink trees `gst.py` with their lazily grown nodes | refinement to a pure recursive trace, for every history of queries and resets |
| C63 | the list of recorded step graphs (aliased objects) | last entry exact, others overwritten (witness) |
| C64, C65 | `skeleton_discovery; uc_sepset; meek` with a d-separation oracle | Meek completeness: every undirected edge of the closed graph is reversible in some Markov equivalent DAG (chordality, simplicial orders) |
| C66 | fixpoint of the FCI rule loop | each rule, run on the result, changes nothing; read off the published rule |
| C67 | `ruleR4B`, `ddpOrient`, `doDdpOrientation`, the rule loop | step invariants: the only marks written belong to edges whose mark at B was a circle at the call |
| C68 | `rule0` and the separating-set table | exact characterisation; witness for the one-sided table |
| C69 | the whole of `fci` with a d-separation oracle of a DAG with latent and selection variables | inducing paths (existence of a separating subset of the ancestors), soundness of each rule, induction over the rule schedule; witnesses for R5 and R9 |
| C70 | the whole of `dag2pag` (skeleton over all conditioning sets, collider phase, rule loop with the rules of `FCI`) | invariant of the skeleton loop (`Hit` = a separating set was tried), exact collider phase, reuse of the rule soundness of C69; kernel-run witnesses for R3 and R4 |
| C71 | `fci` with background knowledge (Fas, `fci_orient_bk`, rules) | forbidden pairs leave the skeleton at depth 0; exact marks of `fci_orient_bk`; C67 for the loop; witness for a missing required edge |
| C72 | `rule9`, `rule10`, `find_possible_children`, `existsSemiDirectedPath` | adjacencies and arrowheads are constant during both rules, so the reason can be read in the start graph; witnesses for R10 |
| C73 | `Chisq_or_Gsq` (all of it, with wrapping int64 indices) | mixed-radix indices are exact below 2^63, so each counting routine produces the layers of the textbook table; kernel-run witness of the wrap-around |
| C74 | `local_score_BIC_from_cov`, `local_score_BDeu` | both scores are differences of a set function (log of a principal minor by the Schur complement; Dirichlet-multinomial likelihood); Möbius inversion turns the total into a sum over sets with a common child inside, which skeleton and v-structures determine |
| C75 | `calm`, `get_params`, `compute_h` | a cycle of entries at least 1/2 bounds the trace polynomial from below (shortest cycle, binomial expansion of the matrix power); the two violations are explicit parameter matrices |
| C76 | `FisherZ`, `MV_FisherZ` | the residuals' coefficient vectors times the correlation matrix give the first two rows of its inverse; the residual is the orthogonal projection; specification in `Spec/PartialCorr.lean` |
| C77 | `cit.py` FisherZ + `PC.py` pc | the structural equations are solved along a topological order; d-separation gives separation in the moral graph of the ancestral set (`Proofs/Moral`), so residuals are orthogonal (`Proofs/LinearModel`); the test's answer follows from C76, the output graph from C64 |
| C78 | `MECCheck.py`, `DAG2CPDAG.py`, `PDAG2DAG.py` | the moral-graph criterion for d-separation; reversing a covered edge keeps d-separations; two Markov equivalent DAGs are connected by covered reversals (Chickering); hence the Verma–Pearl theorem, combined with C23–C26, C36, C64 |
| C79 | `ges`, `dp`, `astar` as in C32, C33, C36 | forward end is an independence map (local criterion, Proofs/IMap); improving deletions keep it (contraction); Meek-Chickering gives an improving deletion if not equivalent |
| C80 | `bicData` (np.cov + local_score_BIC), `ges`, `dp` | BIC as least squares (C74), Frisch-Waugh step for one more column, d-separation gives zero partial correlation (C77), then C79 |
| C81 | `gst.py`, `BOSS.py`, `GRaSP.py` with `LocallyConsistent` scores | invariant of grow and shrink; graphoid properties of d-separation (weak union, contraction, intersection) by moral graphs; `imap_of_local`; `meek_chickering` |
| C82 | `BOSS.py` | concrete four-variable score (conditional entropies of shared bits plus a penalty), shown locally consistent by `dconnB_iff` and kernel evaluation and score equivalent by `ScoreEq.score_equiv` |
| C83 | `rcd.py` 80-370 | number of recorded ancestors as termination measure; invariants of the step; fold over pairs |
| C84 | `rcd.py` 141-150, 219-276 | concrete tests on three variables; invariant `M ⊆ ancestors` |
| C85 | `rcd.py` 219-276 | concrete tests on five variables evaluated by the kernel; loop invariant on `hu_history` |
| C86 | `find_parents`, `execute` | a weight (number of recorded parents) grows at each changed pass; invariant `Sane`; the pruning fold over increasing indices is solved exactly |
| C87 | `find_parents`, `check_identified_causality` | counterexample by kernel evaluation; positive part by invariant over the loop |
| C88 | `find_parents`, `get_child` | a pass that changes nothing leaves each step a no-op; induction over the loop collects this for all sizes |
| C89 | `fit`, `_search_causal_order`, `_estimate_adjacency_matrix` | loop invariant (placed and remaining variables partition the variables) and induction over the regressions |
| C90 | `_find_exo_vec`, `_fisher_hsic_test` | the capped loop equals the full sum or exceeds the cap; running-minimum invariant; counterexamples by evaluation |
| C91 | `_extract_partial_orders`, `_search_candidate` | invariant: a stored pair has both ends unplaced, or the later end is placed first; counterexamples by evaluation |
| C92 | `dag2pattern` and its matrix queries | invariant (arrows compelled, skeleton kept); strictly fewer undirected cells per round; fixpoint closed under Meek's rules, which are complete (`compelled_iff_meek`) |
| C93 | `detect_parent`, `get_parent_missingness_pairs` | loop invariant on cut edges; local Markov property of a sink |
| C94 | `cond_perm_c`, `get_prt_mvars`, `get_prt_mw`, `MC_FisherZ.__call__` | the loop computes the reflexive-transitive closure within n+1 rounds |
| C95 | `mvpc_alg`, `skeleton_correction` | first pass keeps all true edges (sound deletions); correction with an oracle cuts exactly the rest; orientation as for C21/C64, transferred to every member of the class |
| C96 | `_check_init_params` | induction on the loop; a source of the remaining acyclic graph always exists |
| C97 | `_get_propagated_effects`, `estimate_effects_on_prediction` | invariant along the order; uniqueness by rank; total effects are Σ B^m |
| C98 | `estimate_optimal_intervention` | loop invariant: outside s the current Ex and alpha are the affine solution in v; counterexample |
| C99 | `fit`, `_calc_residuals`, `_calc_b` | fold lemmas and matrix algebra |
| C100 | `_calc_residuals`, `_calc_psi_and_omega` | recursion on time, matrix algebra; counterexample |
| C101 | `fit` | induction on the history; counterexample |
| C102 | `bootstrap` | what a sequence of cell writes leaves; counter-theorem |
| C103 | `estimate_total_effect`, `_compute_residuals` | index arithmetic; counter-theorem |
| C104 | `fit`, `_compute_residuals` | matrix algebra; counterexample |
| C105 | edge part of `Dag` | invariant: the matrix holds exactly the edges of the history; every query read off it |
| C106 | `collect_ancestors`, `adjust_dpath` | depth-first search invariant with visited list; closure lemma for the table; counterexamples |
| C107 | `get_causal_ordering` | transfer of C09 along equality of `get_parents` |
| C108 | `remove_node`, `subgraph` | index arithmetic of row deletion against the stale dictionary |
| C109 | `dag2pag` | adjacency of the built graph characterised; iff |
| C110 | `GIN` driver | invariant of the cluster loop (permutation of the variables, justified clusters) on top of C48; graph built by induction over the clusters against an explicit mark specification |
| C111 | `GIN` tests | two runs whose oracles differ on the last two columns proved equal, by a bound on |Z|; counterexample |
| C112 | `GIN_MI`, `find_root` | fold invariants for the two argmin searches, C48, graph as in C110 |
| C113 | `get_color_edges` | loop invariant: marks unchanged; C30 on the graph without the edge; the recursive visit is shown to return at once |
| C114 | `get_color_edges` | a directed path of the DAG projects to a semi-directed path (latent-only segments are inseparable), induction on the path length |
| C115 | `defVisible` | inducing walks (C69) for soundness of the first criterion; kernel-evaluated fci runs for the two violations |
| C116 | `kernel` of the three kernel classes | Schur product theorem; power series of exp |
| C117 | `center_kernel_matrix`, `get_gram_matrix`, `hsic_gam` | matrix algebra with the all-ones matrix |
| C118 | `KCI_UInd` | kernels depend on inner products of normalised rows only; Schur product for the sign |
| C119 | `KCI_UInd` with `Linear` | normalised columns sum to zero; exchange of sums |
| C120 | `compute_pvalue`, `get_kappa` | positive semidefinite trace zero means zero; polynomial kernel minus linear kernel is PSD; eigenvalue sums |
| C121 | `KCI_CInd` | PSD plus eps is positive definite; list sums exchanged with finite sums |
| C122 | `KCI_CInd.kernel_matrix`, `cit.KCI` | explicit inverse for the witness; membership lemmas |
| C123 | `DirectLiNGAM.fit` on data | residuals of affine images are affine images; entropy is even |
| C124 | `_residual` | algebra of sums |
| C125 | `_search_causal_order` | argmax of a list; induction over the stages; a concrete data set with bounds for cosh and exp |
| C126 | `_mutual_information` | Fischer's inequality for positive definite block matrices, proved here |
| C127 | `MultiGroupDirectLiNGAM.fit` | reduction to `DirectLiNGAM.fit` with the group score |
| C128 | `granger_test_2d` | rounding bounds; injectivity of the cell index |
| C129 | `granger_lasso` | slices and horizontal concatenation of lists |
| C130 | `GeneralGraph.get_sepset` | termination by a measure on paths, soundness by an invariant on the active paths blocked |
| C131 | `sepset_path_found` | witness; the result does not depend on the types |
| C132 | `find_all_paths` on cyclic matrices | bounded stack depth; a witness for the shared list |
| C133 | `find_triangles`, `find_kites`, `find_unshielded_triples` | membership and Nodup of filtered pairs of edges |
| C134 | `sdh`, `shd_one_edge` | cost table by cases; fold over the pairs |
| C135 | precision and recall | from the exact counters of C42 |
| C136 | `get_directed_acyclic_graph_counts` | distinct values with counts, sorted, truncated |
| C137 | `get_total_causal_effects` | counting; median of an insertion-sorted list has at most half of the values on either side |
| C138 | `get_paths` | C45 for each sample; counts of a concatenation |
| C139 | `estimate_total_effect`, `bootstrap` | the residual is orthogonal to the source's error; covariances with that error follow the recursion of the total effect; paths by induction on their length |
| C140 | `get_error_independence_p_values` | fold over the pairs i < j |
| C141 | `VARLiNGAM._pruning` | flip/roll blocks = past observations; row invariant over the features; sums over blocks |
| C142 | `VARMALiNGAM._pruning` | column blocks of the joined data; scatter of coefficients into a zero row |
| C143 | `estimate_total_effect` (time series) | index arithmetic of column blocks |
| C144 | `LongitudinalLiNGAM.bootstrap`, `LongitudinalBootstrapResult` | nested loops as one pass over the written cells |
| C145 | `_estimate_var_coefs`, `_estimate_varma_coefs` | invariant of the search loop; candidates are sorted |
| C146 | `to_nx_graph`, `to_nx_skeleton`, `matrix_diff` | a networkx graph is a partial colouring of ordered pairs; membership in the edge lists |
| C147 | `adjmat2tetrad`, `tetrad2adjmat` | split and substring lemmas on the written lines; decimal digits; C148 |
| C148 | `tetrad2adjmat` | invariant: the matrix is that of the lines read so far |
| C149 | `rearrange_columns` | inverse permutation by induction over the loop |
| C150 | `_search_candidate`, both search functions | argmax/argmin lemmas; candidate sets are disjoint from `Vj` |
| C151 | index slices | membership and length of slices, arithmetic of `T / k` |
| C152 | kernel matrices | entries of the Hadamard product; contrast with the matrix product `HKH` |
| C153 | `local_score_cv_general` | Schur product theorem, sub-matrices of positive semidefinite matrices, ridge |
| C154 | `local_score_cv_general` | median of a scaled list; commutation of the loop over the parents |
| C155 | array shapes | numpy broadcasting rules |
| C156 | `local_score_cv_general` | Schur complements: the predictive covariance is positive semidefinite; `det (1 + P) >= 1` |
| C157 | the sorting of candidates and the orientation loop | strongest candidate is met before the candidates that would block it; invariants of the loop |
| C158 | NaN as `none` | fold over pairs; errors of rows without NaN are real |
| C159 | fit (C89) and the query | NaN entries of a fitted matrix |
| C160 | loops over the order and the ancestor sets | fold lemmas; inclusion-exclusion for two samples |
| C161 | per-group folds | C139, C140 per group |
| C162 | medians of the positive distances as kernel widths, statistic, gamma parameters, p-value | distances scale; the multiset of distances is invariant under permutations |
| C163 | as C162 | sign of mean and variance under the null hypothesis |
| C164 | the regression is a parameter; test as in C116-C121 | p-value lemmas of KCI |
| C165 | two-sample t statistic | invariance of mean and variance under permutations |
| C166 | batches and the training loop over abstract parameters | list lemmas, induction over epochs |
| C167 | softmax weights, rounding, weighted average, Monte-Carlo p-value | mean argument for one weight above the rounding threshold |
| C168 | statistic per block and sum over blocks | sums over permuted label lists, trace of a product of positive semidefinite matrices |
| C169 | as C167 | all statistics and null samples are zero |
| C170 | as C167 | concrete null samples |
| C171 | standardisation, kernel width, random Fourier features, statistic, p-value | standardised columns agree |
| C172 | as C171 | multisets of distances and sums are invariant under permutations |
| C173 | as C171 | covariance matrices are positive semidefinite; algebra of the ridge residual |
| C174 | as C171 | clamp, counts; the statistic of two samples is invariant under sign |
| C175 | least squares as numpy.linalg.lstsq with its empty residual in the rank-deficient case, the score, dp and A* | normal equations, equality with the centred BIC of C80, concrete data |
| C176 | assignment on 1/|W|, permutation, scaling, order search; FastICA's output, linear_sum_assignment and argsort as parameters | uniqueness of the feasible permutation of an acyclic matrix; counting zeros |
| C177 | registry as a dictionary, dispatch chain | induction over the history |
| C178 | cache file as text, json.dumps/json.load on it, in-place overwrite | round trip of the text; a proper prefix has no closing brace; invariant over histories |
| C179 | query formatting, cache, 0/1 p-values, pcAlg | pc_correct_class (C20); symmetry of d-separation |
| C180 | str(data) with numpy's summarisation, hash, cache | list computations |
| C181 | the four queries on the graph model | fold lemmas; C04 |
| C182 | get_graph_edges, add_edge | induction over the list of edges, frame lemma |
| C183 | heap of node lists and graph objects | frame theorem over histories; list induction |
| C184 | the DOT statements emitted; strict AGraph as overwrite | list of graph edges characterised by the marks; uniqueness of the edge of a pair |
| C185 | edge statements of make_dot | row-major list; C89 and C83 for the fitted matrices |
| C186 | sums of absolute values with absorbing NaN | a sum of non-negative numbers vanishes iff its terms do; rank function of an acyclic relation |
| C187 | in-place loop over features, regression as argument | invariant of the loop; orthogonality characterisation of residuals |
| C188 | rescaled lasso | change of variables |
| C189 | score with Cholesky and targets as arguments; exceptions, NaN | positive definiteness of the covariance, C190, C191; shapes of numpy broadcasting |
| C190 | matrices over the reals, Hadamard products where the code has `*` | triangular inverse, spectral theorem, HasDerivAt of log det and of the quadratic form |
| C191 | extrapolation, interpolation and main loop with evaluation budget | invariants of the three loops |
| C192 | same model | the optimiser commutes with translations of the hyperparameters; kernel widths scale |
| C193 | object state (coefficients, order, criterion, results) and fit as state transition; statsmodels, LiNGAM and pruning are arguments | case analysis of the state after a successful fit |
| C194 | simulation loop, fits on the same object, restoring of the criterion | induction over the samples with an invariant on the object |
| C195 | counts by distinct lists of directions at each time point; total effects through the matrices that bootstrap writes | top_spec, C137, C144 |
| C196 | the search of Model/Rcd with the tests applied to the columns and least squares residuals to which the code applies them; ideal tests are a specification | residuals are combinations of the errors; loop invariant (sound ancestors, history), the pairs complete, no unique sink among triples, regression on parents leaves the error |
| C197 | as C196, the data being some columns of a larger model | soundness invariant of the passes over pairs; the witness runs the loop up to the first pass over triples |
| C198 | the search of Model/Parce with HSIC applied to the centred columns and least squares residuals; an ideal test is a specification | invariant: the variables left contain their parents, those placed point to nothing above; the residual of a sink is its error |
| C199 | as C198, the data being some columns of a larger model | a residual without common errors has no weight on descendants of its target, so it contains the error of the target |
| C200 | as C198 with the prior knowledge of Model/Parce | a fork with three variables for every level |
| C201 | the search of Model/Camuv with its test applied to columns and least squares residuals; an ideal test is a specification | recorded pairs are ancestors; when no pair changes anything, every residual is the variable's error: conditioning on one more ancestor keeps d-separation inside the ancestors (moral graph), so the pair of a variable and the first ancestor whose error it still contains would be recorded |
| C202 | as C201, the data being some columns of a larger model | a regressor that is not an ancestor brings its own error into the residual unless its coefficient is zero, and then nothing was gained by it |
| C203 | `dfs` as a function of the shuffles, with list objects, `covered`, `flipped` and `history` | refinement of the relation of C60 (every step of the function is a step the relation allows); a score on three variables and shuffles with which a round returns to its start |
| C204 | as C203, with the specification of a consistent score | refinement and C81; for the causal start the score cannot fall and only optimal DAGs are equivalent to D; an explicit run on a joint entropy of three variables |
| C205 | `gin` with arbitrary oracles; the only assumption is that a combined test that includes a column of the tested set itself rejects | invariant of the cluster loop: an accepted k-set avoids the first |vs|-k columns, hence is the last k columns |
| C206 | the numerical part of fit with the estimate of the mutual information as a parameter (equal to the code's order by rfl when the code's estimate is supplied); data as combinations of the errors, ideal measure as a continuous function of the coefficients | coefficients of all stages as functions of r = N/(N-1), continuity at r = 1, where placing a variable removes exactly its error; strict inequality between sources and non-sources at r = 1 for the finitely many prefixes |
| C207 | the numerical part of fit with the difference of mutual informations as a parameter (equal to the code's order by rfl when diffMI is supplied) | as C206; a variable with unplaced causes is rejected because of an unplaced ancestor that has no unplaced cause itself |
| C208 | both matrices with the vstack/column_stack of add_node, states of varying size | add_node commutes with every mutator (all reads and writes stay in the old block, the loop of adjust_dpath does nothing at the new row) |
| C209 | the list of get_graph_edges folded into an empty Dag | the marks are determined by the set of edges; with increasing edges the list is sorted by source, which is the order C106 needs |
| C210 | the multi-group score with the difference of mutual informations as a parameter per group | the weighted sum of the group scores is, as a function of the correction factors N/(N-1), continuous at 1, zero at sources of the joint graph and positive elsewhere; eventually_causal |
| C211 | fit with the least squares property of the VAR estimator | Pythagoras for the residuals gives uniqueness; the residuals are generated by the instantaneous model, C207 gives the order; (1-B0)(1-B0)^-1 B = B |
| C212 | the regression of one time point on the lagged values, its residuals and DirectLiNGAM on them | Pythagoras gives uniqueness; residuals are total effects of errors plus a constant; C207 with intercept gives the order; (1-B0)(1-B0)^-1 B = B |
| C213 | the corrected test with the regression and the shuffle as parameters | the test on positions equals the test on names; uniqueness of least squares with independent predictors; C76 |
| C214 | the remaining query methods on the matrix | the invariant of C105; counterexamples by evaluation |
| C215 | `call` and PC as in C73 and C64; the Markov condition on relative frequencies is in `Spec/Discrete` | the global Markov property is proved for counts (factorisation over ancestral sets, moral separation); the chi-square and likelihood-ratio statistics vanish exactly on independent tables (Gibbs' inequality) |
| C216 | the tests of C76 and C73 on the observed columns, `fci`, `cdnodAlg`, `iamb` as in C69, C52, C49 | testing observed columns is testing the same columns of the full table; the global Markov properties of C77 and C215; a finite set of p-values below 1 has a maximum below 1 |
| C217 | `pcAlg` (C64), `BK.run`, `BK.isForbidden`, `BK.isRequired` (C22) | orientations by knowledge survive the later phases; tiers are encoded as an extra source per node pointing to its tier: cross-tier edges become parts of v-structures, so tier-forced edges are compelled in the extended DAG, hence Meek-derivable (completeness of R1-R3, C64), and the result extended by the new nodes is closed under R1-R3 |
| C218 | `cdnodAlg` as in C52 | the context and the other variables form two tiers: C217's extension of the DAG; soundness by running C52_cdnod_correct on every equivalent DAG with the context a source (same d-separations) |
| C219 | both `null_sample_spectral` and the p-values with approx=False, over the reals; `eigvalsh` and the draws are arguments | eigenvalue sums are traces; the discarded terms are at most the threshold; mean and variance of sums of independent variables, strong law of large numbers (Mathlib) |
| C220 | compute_likelihood, compute_sparsity, compute_h, compute_loss, the sampled mask, the (standardised) covariance, over the reals | Hadamard's inequality with its equality case (eigenvalues of the rescaled matrix, log x ≤ x - 1), determinant of a block triangular matrix, diagonal rescaling |
| C221 | `get_uuprod`, `null_sample_spectral` and their sum over blocks, `use_gp=False`, over the reals; `eigh`, `eigvalsh` and the draws are arguments | the non-zero eigenvalues number at most the rank, so truncating the sorted list to the block size loses nothing; traces of AAᵀ and AᵀA agree; C219's threshold lemma |
| C222 | the loss of `CalmLoss` at zero/one masks inside the moral graph with zero acyclicity term | C220's bound and its case of equality; equality makes the masked model a linear model of the data, hence an independence map by faithfulness; the sparsest independence maps are Markov equivalent (Meek/Chickering step); finitely many masks leave a gap above the bound |
| C223 | `pcAlg` with the answers of a `BackgroundKnowledge` history | C22 turns answers into standing calls; C21/C64's correctness for every equivalent DAG the knowledge is true of; induction over the rules; C216's oracle theorems for the two tests |
| C224 | `grasp` and `boss` with minus `bicData` of the repeated data | the BIC of a DAG on r repetitions is rN·A + λ·k·log(rN) plus a term without the graph, so a positive difference of two orders is eventually above any tolerance, which is what C203's termination needs; then C80's consistency and C204/C82 |
| C225 | `cdnodAlg` with the answers of a `BackgroundKnowledge` history | C52's correctness for every equivalent DAG with the root and the knowledge (the oracle transfers between equivalent DAGs); the knowledge leaves no edge it speaks about undirected; C223's induction over the rules |
| C226 | Edge's constructor, accessors and comparisons, Edges' constructors, predicates and traversal | cases on the marks for arbitrary nodes; a separate predicate says which edge an object is |

## Not expressible here

Numerical content: p-values, regression, BIC values, kernel tests, ICA, random resampling. They enter as arbitrary
oracles. Plotting, logging, progress bars and file I/O are not modelled.

## What is modelled and what is not

| model file | code modelled | simplifications (also stated at each definition) |
|---|---|---|
| `Graph`, `MarkQueries` | `graph/Endpoint.py`, `Edge.py`, `GeneralGraph.py` edge operations, queries, `adjust_dpath`, `reconstitute_dpath` | node objects are indices; `transfer_nodes_and_edges`, `set_nodes`, attributes, highlighting not modelled |
| `NamedGraph` | node list, `node_map`, `__eq__`, `remove_node(s)`, `subgraph` of `GeneralGraph` | nodes are names; `Dag.remove_node`, `Dag.subgraph` not modelled |
| `GraphUtils` | path queries, d-connection search, causal ordering | deque order kept; loops with fuel, fuel proved adequate or non-termination proved |
| `Skeleton`, `PC`, `CDNOD`, `FAS`, `Iamb` | `SkeletonDiscovery.py`, `UCSepset.py`, `Meek.py`, `PC.py` `pc_alg`, `CDNOD.py`, `FAS.py`, `iamb.py` | CI test is an arbitrary function; p-values in a linear order (no NaN); `max([])` is `⊥`; permutations of duplicate-free lists; assertions on invalid `uc_priority` and the missing-value variants (`mvpc`, correction of `mvcdnod`) not modelled; FAS `test_results` not modelled |
| `BackgroundKnowledge` | the class, both matching modes | `re.match` is a parameter, sets are lists, argument type checks not modelled |
| `Generators`, `PriorityQueue` | `ChoiceGenerator.py`, `DepthChoiceGenerator.py`, `PriorityQueue` of exact search | `heapq` is an abstract structure whose pop returns a least entry; the generators' shared result list is modelled in `FCI` |
| `Metrics` | `SHD.py`, `ArrowConfusion.py`, `AdjacencyConfusion.py` | counts are integers, quotients rationals |
| `Cache` | `LocalScoreFunctionClass.score`, `CIT_Base` keys, cache loading | md5 and JSON are injective abstract functions |
| `Lingam`, `GIN` | order search, prior knowledge, path and bootstrap counts, cluster merging | regression, ICA and independence measures are oracles |
| `Cpdag`, `Pdag2Dag` | `DAG2CPDAG.py`, `MECCheck.py`, `PDAG2DAG.py`, `check2` | `sign_edges` is keyed by edge instead of row; graphs are matrices (`Dag` and `GeneralGraph` count edges differently, both modelled where used) |
| `Txt` | `__str__` of graphs and `TXT2GeneralGraph.py` | token level, whitespace abstract, a trailing empty line is harmless |
| `ExactSearch` | `ExactSearch.py` (parent graphs, DP, A*, heuristics, path extension) | exact arithmetic, no NaN/−inf; tuples are `Finset`s; `nx.shortest_path` is any shortest path; an `IndexError` for an empty parent graph is `⊤` |
| `Permutation` | `gst.py`, `BOSS.py`, `GRaSP.py` | exact scores of parent sets; tree nodes keyed by path; BOSS and GRaSP use the pure trace (justified by C61); the GRaSP depth-first search is an over-approximating relation because the parent list is mutated while it is iterated; its edge counter not modelled |
| `Ges` | `GES.py`, `GESUtils.py` | scores are functions of a parent set (justified by C37); flags keyed by subset; `maxP` a natural number; recorded graph objects mutated in place are modelled (`mutateLast`) |
| `FCI` | `FCI.py` except colours (`get_color_edges`, `defVisible`) and printing | set iteration order and sort order are parameters (any permutation); `get_edge` returning `None` leaves the graph unchanged; queue fuel proved adequate |
| `Dag2Pag` | `utils/DAG2PAG.py` | `networkx.is_d_separator` is a parameter assumed right about d-separation in acyclic graphs (`NxOk`); the order of the Python set of observed nodes is arbitrary |
| `ChiSq` | `utils/cit.py` 294-442 | exact field arithmetic; `chi2.sf` and `log` arbitrary; integer arithmetic wraps as in numpy |
| `Scores` | `score/LocalScoreFunction.py` 9-172 | exact field arithmetic, `log`/`lgamma` parameters, `np.cov` not modelled (the covariance matrix is the input) |
| `Calm` | `search/ScoreBased/CALM.py`, `utils/CALMUtils.py` | exact arithmetic, sigmoid and optimiser arbitrary, weighted matrix not modelled |
| `FisherZ` | `utils/cit.py` 192-226, 445-488 | exact real arithmetic, `norm.cdf` arbitrary, exceptions and NaN are `none` |
| `Ges`, `ExactSearch` | GES.py, ExactSearch.py | as in C36, C32 |
| `Scores.sampleCov`, `Scores.bicData` | LocalScoreFunction.py 9-75, LocalScoreFunctionClass.py 32-43 | exact reals |
| `Spec.Consistent`, `Model.Permutation` | gst.py, BOSS.py, GRaSP.py | as for C38, C60, C61 |
| `Model.Permutation` | BOSS.py | as for C38 |
| `Rcd` | `search/FCMBased/lingam/rcd.py` 80-370 | tests are arbitrary functions of (variable, set regressed on); the values of the coefficients are not modelled; for integer data `np.zeros_like(X)` truncates residuals, which is not modelled; `estimate_total_effect`, `bootstrap`, p-values not modelled |
| `Rcd` | rcd.py | as for C83 |
| `Rcd` | rcd.py | as for C83 |
| `Model/Camuv.lean` | `lingam/CAMUV.py` 38-178 | p-values are an abstract function of (variable, regressors); GAM regression and HSIC not modelled; NaN p-values excluded; the iteration order of Python sets is an arbitrary enumeration |
| `Model/Parce.lean` | `lingam/bottom_up_parce_lingam.py` 29-325, 473-478 | HSIC values, chi2 tail and lasso coefficients abstract (tail antitone, contributions non-negative, no NaN); `estimate_total_effect`, `get_error_independence_p_values` not modelled |
| `Model/Pattern.lean` | `PCUtils/Helper.py` 195-382 | matrices are total functions into ℤ (NaN on the diagonal is any other integer) |
| `Model/Mvpc.lean` | `PC.py` 141-477; variable choice of `MC_FisherZ` (`Helper.py` 556-657, `cit.py` 499-530) | CI tests are functions of pair, set, parent list and first-pass skeleton (the program shuffles predictors at random) |
| `Model/CausalEffect.lean` | `lingam/causal_effect.py` | exact arithmetic in an ordered field; random choices are a list of draws; the predictor is a function |
| `Model/TimeSeries.lean` | `lingam/var_lingam.py`, `varma_lingam.py`, `longitudinal_lingam.py` | exact arithmetic; statsmodels, DirectLiNGAM and lasso are arbitrary functions; `estimate_total_effect` is a function; only the shape of the regressors is modelled |
| `Model/DagClass.lean` | `graph/Dag.py` | object identity = equal names; dpath not part of the named objects; drawing, attributes and triples lists not modelled |
| `Model/GinDriver.lean` | `GIN.py` drivers | SVD residual, KCI/HSIC, Fisher's method are oracles; set iteration order is an arbitrary permutation; dpath of the output graph not modelled; NaN statistics excluded in `GIN_MI` only |
| `FciLabels` | `FCI.py` 863-948, 1130-1132 | `print` dropped; recursion with fuel |
| `Kci` | `KCI/*.py`, `lingam/hsic.py`, `lingam/hsic2.py`, `cit.py` 227-239 | real numbers, explicit `nan`; without the Gaussian-process branch and the random draws |
| `LingamData` | `direct_lingam.py` 135-260 (both measures on data), `multi_group_direct_lingam.py` 46-92, 246-272 | real numbers; singular values as square roots of eigenvalues of A^T A |
| `Granger` | `Granger.py` | the statsmodels test and the lasso are arbitrary functions |
| `Sepset` | `GraphUtils.py` `get_sepset`, `get_sepset_visit`, `sepset_path_found`; `GeneralGraph.get_sepset` | `Dag.get_sepset` (Dag.py:732) raises on every call and is not modelled |
| `GraphPatterns` | `GraphUtils.py` 295-444 | sdh for graphs with the same node list |
| `Bootstrap` | `lingam/bootstrap.py` 46-54, 123-387; `lingam/base.py` 68-116 | resampling and the adaptive lasso are parameters |
| `TsPrune` | `var_lingam.py` 177-345, `varma_lingam.py` 204-266, 291-313, 356-399, `longitudinal_lingam.py` 197-215 | regressions (adaptive lasso) and statsmodels estimators are parameters |
| `LongBoot` | `longitudinal_lingam.py` 133-160, `bootstrap.py` 451-530, 611-638 | resampling left out |
| `NxGraph` | `GraphClass.py` 78-90, 151-172, `PC.py` 483-497 | node labels and drawing left out |
| `Tetrad` | `Helper.py` 212-215, 330-341, 427-515 | `pandas.read_csv` simplified to lines; `int` on digits only |
| `CvScore` | `LocalScoreFunction.py` 175-432, the shapes of 435-678 and 783-869, the kernels of 681-716; `ScoreUtils.py` 10-66 | real numbers; `pdinv` is the inverse; the Gaussian-process regression of the marginal scores is in `Gp` |
| `ConfounderQueries` | `bottom_up_parce_lingam.py` 327-419, 447-491; `rcd.py` 376-434, 462-502; `multi_group_direct_lingam.py` 93-238; `longitudinal_lingam.py` 217-242 | HSIC test and the adaptive lasso are parameters; exact arithmetic with NaN |
| `HsicWidth` | `hsic.py` 15-42, 112-175; `hsic2.py` 7-21, 94-155; `CAMUV.py` 213-227, 300-359 | real arithmetic; gamma cdf and quantile are parameters |
| `Pairwise` | `ANM.py` 29-80; `PNL.py` 80-166 | GP regression, networks and random generator are parameters; the t-test is modelled exactly |
| `FastKci` | `FastKCI.py` 50-82, 110-187, 375-402, 431-475, 493-542 | real arithmetic; partitions, GP likelihood, eigenvalues and chi-square draws are parameters |
| `Rcit` | `RCIT.py` | real arithmetic; feature draws, permutations and the momentchi2 approximations are parameters; zero variance is `nan` |
| `ExactBic` | `ExactSearch.py` 26-110, 358-371 | real arithmetic; lstsq solved exactly by the normal equations |
| `IcaFit` | `ica_lingam.py` 37-73, 115-147 | real arithmetic; FastICA, linear_sum_assignment and argsort are parameters |
| `CitSession` | `cit.py` 14-130, 559-590 | JSON text of flat dictionaries whose strings need no escapes; floats read back as written; numpy's `str` summarises above 1000 entries; `nx.is_d_separator` trusted |
| `GraphMore` | `GeneralGraph.py` 26-49, 196-221, 318-340, 433-442, 479-489, 548-559, 834-864, 896-901, 986-990 | node lists as shared cells of a heap; `dpath` not part of the heap model |
| `Drawing` | `GraphUtils.py` 472-578, `lingam/utils/__init__.py` 105-302 | layout attributes dropped; coefficients not rounded; solvers are arguments |
| `Gp` | `LocalScoreFunction.py` 681-780, `ScoreUtils.py` 435-760 | real numbers; Cholesky factor and the map from Kx to the targets are arguments; test predictions and as many parents as samples left out |
| `Minimize` | `ScoreUtils.py` 115-337 | negative `length` only; what follows a successful line search (where the direction is no longer a column) left out |
| `TsBoot` | `var_lingam.py` 57-175, `varma_lingam.py` 66-202, 315-352 | statsmodels, the inner LiNGAM, pruning and the random indices are arguments; an exception ends the run and keeps the state |
| `RcdData` | `rcd.py` 81-374 | exact arithmetic; shapiro, pearsonr and HSIC with their levels are arbitrary functions of columns; the result of L-BFGS is arbitrary |
| `ParceData` | `bottom_up_parce_lingam.py` 99-103, 239-270 | exact arithmetic; HSIC and the chi-square tail are arbitrary functions; pinv as a solution of the normal equations |
| `CamuvData` | `CAMUV.py` 124-125, 184-196 | `LinearGAM` as a linear least squares fit, exact arithmetic; the p-value is an arbitrary function of columns |
| `GraspExact` | `GRaSP.py` 24-77, 79-305 | edge counter and printing left out; trees replaced by their values (C61); exact scores; list objects renumbered between rounds |
| `GraphGrow` | `GeneralGraph.py` 196-221, `Dag.py` 123-145 | node objects are row numbers in order of addition |
| `McFisherZ` | `utils/cit.py:491-543`, `Helper.py:521-553, 656-686` | exact reals; regression and shuffle are parameters; columns named by variables |
| `DagMore` | `graph/Dag.py:200-208, 386-396, 504-543, 736-740` | as `DagClass` |
| `KciNull` | utils/KCI/KCI.py:84-90, 178-208, 302-311, 558-580 | exact real arithmetic; eigenvalues and chi-squared draws are parameters |
| `CalmLoss` | search/ScoreBased/CALM.py:60-69, 153-160, 178-210; utils/CALMUtils.py:8-16 | exact real arithmetic; sigmoid and logistic noise are parameters |
| `FastKciNull` | utils/FastKCI/FastKCI.py:110-145, 256-295, 317-342; utils/KCI/KCI.py:511-556 | exact real arithmetic; eigen-decompositions and draws are parameters |
| `EdgeObj` | `Edge.py:201-208`, `Edges.py:13-56` | nodes are indices, compared and ordered as such; type checks are not modelled |

Not modelled at all: the Gaussian-process regression of the marginal scores of `LocalScoreFunction.py`, the Gaussian-process branches of `KCI` and `FastKCI`, the momentchi2 approximations of `RCIT`, the regressions and networks of `ANM` and `PNL`,
`Dataset`, visualisation.

## Where the code and a property disagree

Properties whose claim is false of the code keep their full statement in `properties.jsonl`; the theorem
`Cnn_…_violated` is a proof that the modelled code breaks it on a concrete input, and `Cnn_…_partial` is what holds.

## Trusted base

Lean 4.33.0 kernel; axioms `propext`, `Classical.choice`, `Quot.sound` only (per theorem in `AXIOMS.md`, generated by
`tools/mk_axioms.py` from `#print axioms`); the hand translation from Python to Lean described in the comments of
`Verif/Model`. `decide +kernel` is used for concrete witnesses: it is evaluated by the kernel and adds no axiom.

## Testing against wrong programs

`tools/mutate.py` applies one edit to a model definition in a scratch copy, rebuilds and records which theorems fail;
`seeded/LOG.jsonl` has one line per attempt, with what was tightened.
