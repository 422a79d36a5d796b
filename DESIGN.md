# Design of the formal model of tiny-openml

The code under study is the header-only C++17 library in `/repo/src`. It is never built or run here; it is read as text
and transcribed into Lean 4 definitions under `lean/Verif/Model/`. Property theorems are in `lean/Verif/Props/`, the
auxiliary lemmas in `lean/Verif/Lemmas/` and the small independent specifications in `lean/Verif/Spec/`.

## Conventions

* **Outcome of a call** (`Verif/Model/Res.lean`). A C++ call ends in `ok v`, `throw e` (with the exception class) or `ub`.
  `ub` covers: reading or writing outside a container, dereferencing null, integer division by zero, flowing off the end
  of a value-returning function, violating an `eigen_assert` (which aborts in debug builds and is an unchecked
  access or shape error under `NDEBUG`), reading uninitialised memory in a way that decides the result, and violating a
  documented precondition of a standard algorithm. Where the code does something definite if assertions are off, the model has
  a flag for assertions (naive Bayes, k-means).
* **Non-termination** is made explicit by fuel where a loop is not structurally bounded (`diverge`); theorems show that a
  stated amount of fuel suffices, or hold for every amount.
* **Scalars.** Code that only compares values is modelled over an arbitrary linear order; code that does arithmetic over an
  arbitrary linearly ordered field or over the reals. Floating point rounding, overflow, NaN and infinities are
  **not modelled**, except where named: `Model/Rounding.lean` repeats some functions with rounding (C131) and
  `Model/Saturation.lean` some with infinities and NaN (C132-C134), a quotient 0/0 is `none` or `ub` at the definitions that can produce it, infinite
  start values are `none`, minus infinity is `⊥`.
* **Containers.** `std::vector` and Eigen vectors are lists, a data matrix is the list of its rows, `std::map`/`std::set` are
  sorted association lists; linear-algebra statements use Mathlib matrices indexed by `Fin n`.
* **Randomness** is a parameter: a shuffle is an arbitrary permutation, a random draw an arbitrary number. Theorems quantify
  over all of them. C111 models the shuffle itself (the Fisher-Yates loop of libstdc++) over arbitrary draws.
* **Uninitialised memory** is a parameter as well (hinge loss buffer, history of losses in L-BFGS).
* **`std::size_t`** arithmetic is natural-number arithmetic except where wrap-around is reachable from legal arguments
  (slice), where it is modelled modulo 2^64.
* **Objects** that keep state between calls (hash tree, naive Bayes, decision trees, PCA, Gaussian mixture) are modelled as
  state machines; properties about refitting quantify over call histories.

## Layout

* `Model/X.lean`: transcription; every definition cites file and lines in `/repo` and states simplifications.
* `Spec/X.lean`: what the properties say, written without the model's helpers (sets, sums, order, `Matrix`, `HasGradientAt`, ...).
* `Lemmas/X.lean`: invariants and mathematics that Mathlib lacks in the needed form (Cholesky existence, Gibbs inequality,
  normal densities, BFGS matrices, optimality of singular vectors).
* `Props/X.lean`: the theorems named `Cnn_...`, each followed by an `example` that meets its hypotheses on concrete data.
* `seeded/LOG.jsonl`: mutation tests. Each line is a deliberate mistake in a model definition, the claim it breaks, and the
  theorems that no longer check. Lines with a non-empty `tightened` record theorems that had to be strengthened.

## Trusted base

* The Lean 4 kernel and the axioms `propext` (P), `Quot.sound` (Q), `Classical.choice` (C); nothing else. The letters behind
  the theorem names below are what `#print axioms` reports. No `sorry`, no added axiom, no `native_decide`, no `bv_decide`.
* The transcription of C++ to Lean, checked by eye; each definition cites file and lines and lists its simplifications.
* External semantics taken from documentation: C++ standard algorithms (`sort`, `stable_sort`, `prev_permutation`,
  `set_difference`, `unique`, `nth_element`, `mismatch`, `lower_bound`, `priority_queue`), Eigen 3.4 (`LinSpaced`, `maxCoeff`,
  shape checks, permutation products, decompositions as oracles satisfying their defining equations). Where a contract is
  assumed, an example or theorem shows that an implementation exists (`C04_sorter_exists`, `exists_choleskyRoutine`, ...).

## Not modelled

* Floating point arithmetic except in C131-C134, memory consumption, timing, printing, number parsing and file access.
* The numerical linear algebra inside Eigen, and the library distributions behind `rand`, `randn` and `randint`.
* Some code cannot be compiled as it stands. It is modelled with names and types read as intended, and the definitions say so:
  `methods/cluster/spectral_clustering.hpp` (`X.cols(j)`, `return ;`, unknown type `VecType`; C113), `math::eig` (conversion of
  complex to real numbers; C113), `HuberLoss::gradient` (matrix times array; C114),
  `update_policies/nesterov_momentum_update.hpp` (C112), the brute-force branch of `methods/neighbors/k_nearest_neighbors.hpp`
  (misspelt names; C99). `lasso_regression.hpp` and `ridge_regression.hpp` share one include guard, so a translation unit that
  includes both gets only the first; the models describe each file on its own.

## Surprising behaviour of the code that theorems establish

* `mean_absolute_error` is the mean squared error (C33); `MomentumUpdate` and `NesterovMomentumUpdate` have no momentum (C52, C112);
  `ExponentialDecay` grows (C52); `HuberLoss` is not the Huber loss (C79) and its gradient is that of another
  function (C114); spectral clustering always throws (C113); logistic regression predicts the less likely label (C58); the perceptron ignores
  samples labelled 0 (C81); Gaussian naive Bayes ignores the priors (C71); `logdet` of a negative determinant is minus infinity
  (C74); `lu` loses the column permutation (C75).
* KD-tree queries can miss nearest neighbours if the first split is not along feature 0 (C17); Apriori misses pairs that first
  appear out of order (C22) and usually ends with an exception (C23); hash tree queries accumulate (C14).
* Decision trees read out of bounds at nodes with one or two samples (C65), `absolute_error` always fails (C66), `squared_error`
  fails if a largest feature value is repeated (C69), gini trees split pure nodes (C68).
* Lasso, perceptron and softmax regression cannot be trained with an intercept (C57); truncated SVD works only if
  oversampling exactly fills the feature count (C60); `tied` mixtures with two or more components are undefined and mixtures with
  at most one iteration always throw (C90); the published lower bound of a mixture belongs to the parameters before the last
  estimate (C61); the flag for convergence is shared by the initialisations, so that a run that did not converge can be published
  (C61); precisions of refitted mixtures accumulate (C90); PCA centres with the mean of the data to be transformed (C59) and scores
  with a stale covariance after refitting (C86). Means of mixtures are pulled towards the origin (C130).
* Variances of equal numbers can be negative in floating point (C131); the logarithmic loss is NaN as soon as a sample is classified with
  probability one (C132), the softmax loss as soon as all scores of a sample are far below the largest one (C134).

## Properties

Each entry: status, model file, how it is proved, theorems with axioms.

* **C01** combinations(x,k) enumerates every k-element selection exactly once (proved). Model: `Combinations`.
  `std::prev_permutation` on bit masks steps to the lexicographic predecessor, so the do/while loop lists all masks with k
  bits; induction on the distance to the last mask. Specification: order-preserving selections of positions. Theorems:
  `C01_combinations_enumerates`, `C01_combinations_terminates`, `C01_combinations_mem_iff` [CPQ].
* **C02** remove_duplicate_rows keeps exactly the first occurrence of each row (proved). Model: `Rows`. Two-cursor while loop
  with explicit out-of-bounds outcome; loop invariant over kept rows; specification is the list of first occurrences.
  Theorems: `C02_remove_duplicate_rows`, `C02_remove_duplicate_rows_terminates`, `C02_remove_duplicate_rows_throws_iff`,
  `C02_first_occurrences_meaning` [CPQ].
* **C03** Matrix argsort returns a sorting permutation of every line, with a precise tie rule (proved). Model: `Argsort`.
  LinSpaced per Eigen's integer rule, one stable sort per line on the index vector left by the line before; permutation,
  order and tie rule from the stability of the sort. Theorems: `C03_argsort_rows`, `C03_argsort_columns` [CPQ];
  `C03_argsort_sorts`, `C03_argsort_two_undefined`, `C03_argsort_one_out_of_range` [PQ]; `C03_argsort_bad_axis` [P].
* **C04** Two-dimensional sort orders each line independently (proved). Model: `Sort2D`. Fold over columns with an arbitrary
  sorter satisfying the contract of `std::sort`. Theorems: `C04_sort2D_columns`, `C04_sort2D_rows`, `C04_sort_matrix`,
  `C04_sorter_exists` [CPQ]; `C04_sort2D_rejects` [PQ].
* **C05** sortrows sorts rows lexicographically exactly when rows are pairwise distinct (proved). Model: `Sort2D`. Comparator
  with fall-off-the-end outcome; strictness of the lexicographic order on distinct rows. Theorems: `C05_sortrows`,
  `C05_sortrows_rectangular` [CPQ]; `C05_dictionary_strict`, `C05_sortrows_rejects` [P].
* **C06** difference computes the set difference of sorted inputs (proved). Model: `VecOps`. `std::unique` and the merge of
  `set_difference`; induction on the merge for sorted lists; counterexample for unsorted ones. Theorems: `C06_difference`
  [CPQ]; `C06_difference_unsorted_counterexample` [PQ].
* **C07** Vector helpers contains, merge, is_equal and flatten meet their contracts (proved). Model: `VecOps`. Direct
  inductions over the loops. Theorems: `C07_contains`, `C07_merge`, `C07_is_equal`, `C07_flatten` [PQ].
* **C08** unique returns the strictly increasing distinct values with positions in the sorted array (proved). Model:
  `VecOps`. Sort followed by insertion into a map; invariant of the loop over sorted values. Theorems: `C08_unique` [CPQ];
  `C08_unique_index_not_input_position` [P].
* **C09** slice of a 2-D vector returns the requested block or fails (proved). Model: `VecOps`. size_t arithmetic modulo
  2^64, iterator ranges checked. Theorems: `C09_slice2D_block`, `C09_slice2D_rejects_wide` [PQ]; `C09_slice2D_row_overrun`
  [CPQ].
* **C10** The 1-D slice and the std::vector argsort never deliver a usable result (proved). Model: `VecOps`. All arguments:
  every path throws or leaves the range of valid iterators. Theorems: `C10_slice1D_never_returns`, `C10_slice1D_in_range_ub`
  [PQ]; `C10_argsort_vector` [CPQ].
* **C11** argmax/argmin return the first extreme position (proved). Model: `MatOps`, `Eigen`. The visitor of Eigen as a left
  fold keeps the first extreme position. Theorems: `C11_arg_rows` [PQ]; `C11_arg_columns`, `C11_arg_flat`,
  `C11_flatten_position` [CPQ]; `C11_arg_rejects`, `C11_arg_empty_line` [P].
* **C12** where, clip, fmin, hstack, vstack, repeat and vec2mat are exact (proved). Model: `MatOps`. Entrywise descriptions;
  clip is the nearest point of the interval. Theorems: `C12_clip`, `C12_fmin`, `C12_hstack` [PQ]; `C12_where`, `C12_repeat`
  [CPQ]; `C12_vstack`, `C12_vec2mat` [P].
* **C13** The hash tree is an exact counting map for equally long itemsets (proved). Model: `HashTree`. The tree as an
  inductive type; refinement to a finite counting map by induction over operation sequences, with an invariant on depth and
  bucket keys. Theorems: `C13_hash_tree_counts`, `C13_hash_tree_parameters_irrelevant` [CPQ];
  `C13_mixed_lengths_lose_entries` [PQ]; `C13_zero_branching_undefined` [P].
* **C14** compute_frequency_itemsets accumulates across calls (proved). Model: `HashTree`. Object state includes the member
  lists that are never cleared. Theorems: `C14_compute_frequency_accumulates` [PQ]; `C14_query_twice_duplicates` [P].
* **C15** KD-tree construction partitions the data set (proved). Model: `KDTree`. Explicit-stack construction with fuel; the
  multiset of row numbers on stack and in leaves is invariant, sizes halve. Theorems: `C15_build`, `C15_build_undefined`,
  `C15_leaves_of_three` [CPQ].
* **C16** KD-tree query returns the k nearest neighbours when the first split uses feature 0 (proved). Model: `KDTree`,
  `PQueue`. Search with heap and stack for any lawful priority queue; invariant: regions not on the stack hold no row closer
  than the current k-th distance. Theorems: `C16_k_nearest`, `C16_padding`, `C16_zero_neighbours`, `C16_metrics` [CPQ].
* **C17** KD-tree query can miss the nearest neighbour when the first split uses another feature (proved). Model: `KDTree`.
  Soundness by the weaker invariant (heap entries are true distances of distinct rows); explicit data set for the failure.
  Theorems: `C17_sound` [CPQ]; `C17_misses_nearest`, `C17_not_nearest` [PQ].
* **C18** KD-tree radius query is exact up to points at distance exactly r (proved). Model: `KDTree`. Invariant of the radius
  search; explicit data for the omitted boundary row. Theorems: `C18_radius`, `C18_nonpositive_radius`,
  `C18_answers_are_compacted` [CPQ]; `C18_boundary_row_missed` [PQ].
* **C19** TransactionEncoder encodes each transaction faithfully (proved). Model: `TransactionEncoder`. Triplets of the set
  of items per row; sorted insertion stores each position once. Theorems: `C19_encoder`, `C19_encoder_injective` [CPQ];
  `C19_item_zero_lost` [PQ].
* **C20** Apriori never overstates support on duplicate-free transactions (proved). Model: `Apriori`. Support of candidates
  counted through combinations; induction over levels. Theorems: `C20_never_overstates` [CPQ]; `C20_repetitions_overstate`
  [PQ].
* **C21** Apriori is sound and complete on consistently ordered transactions (proved). Model: `Apriori`. Level induction:
  candidates of a level include all increasing itemsets with frequent parts, counts are exact. Theorems:
  `C21_sound_and_complete`, `C21_positive_threshold`, `C21_min_support` [CPQ].
* **C22** Apriori misses frequent pairs when items first appear out of order (proved). Model: `Apriori`. Explicit database.
  Theorems: `C22_misses_frequent_pair` [PQ].
* **C23** Apriori completes only if some level has exactly one frequent itemset (proved). Model: `Apriori`. Outcome of the
  level loop characterised by the numbers of frequent itemsets per level. Theorems: `C23_outcomes`, `C23_ordered` [CPQ];
  `C23_two_items_throw` [PQ].
* **C24** Association rules carry correct antecedent, consequent and confidence (proved). Model: `Apriori`. Rules from
  sub-itemsets, confidence as an exact quotient; end-to-end form on top of C21. Theorems: `C24_rules`, `C24_end_to_end`,
  `C24_unsorted_overlap`, `C24_order` [CPQ].
* **C25** train_test_split partitions rows and keeps X and y aligned (proved). Model: `Data`. Permutation as scatter of rows;
  truncation of the training size. Theorems: `C25_train_test_split`, `C25_fraction_in_range`, `C25_out_of_range`,
  `C25_mismatched` [CPQ].
* **C26** divide_on_feature is a stable partition by the threshold (proved). Model: `Data`. Induction over rows. Theorems:
  `C26_divide_on_feature`, `C26_feature_out_of_range` [PQ].
* **C27** loadtxt splits a rectangular file into features and last-column labels (proved). Model: `Data`. File contents as a
  table of numbers. Theorems: `C27_loadtxt_matrix`, `C27_loadtxt_matrix_failures` [PQ]; `C27_loadtxt_vectors` [CPQ].
* **C28** var, mean, median, cumsum and mode are the textbook statistics (proved). Model: `Stats`. Exact field arithmetic;
  nth_element as an arbitrary permutation satisfying its postcondition. Theorems: `C28_var`, `C28_mean`, `C28_sum`,
  `C28_median_line`, `C28_median`, `C28_center`, `C28_cumsum`, `C28_mode_line`, `C28_mode`, `C28_empty_line` [CPQ];
  `C28_invalid_axis`, `C28_unchecked_axis` [PQ].
* **C29** sigmoid, softmax and logsumexp are the exact functions and normalise (proved). Model: `Analytic`. Real functions.
  Theorems: `C29_sigmoid`, `C29_sigmoid_range`, `C29_logsumexp`, `C29_logsumexp_bounds`, `C29_softmax`,
  `C29_softmax_distribution` [CPQ].
* **C30** entropy and gini are bounded impurities that never increase on average under a split (proved). Model: `Impurity`.
  Real logarithm, Jensen inequality for both impurities; weighted variants. Theorems: `C30_values`, `C30_gini_range`,
  `C30_entropy_range`, `C30_order_independent`, `C30_gini_split`, `C30_entropy_split`, `C30_weighted` [CPQ].
* **C31** svd_flip preserves the product and fixes the sign convention (proved). Model: `SvdFlip`. Signs of the first entries
  of largest magnitude; product invariance. Theorems: `C31_columns`, `C31_rows`, `C31_zero_column` [CPQ]; `C31_mismatch`
  [PQ].
* **C32** pinv satisfies the Moore-Penrose equations (proved). Model: `LinAlg`. Singular value decomposition as an oracle
  with its defining equations. Theorems: `C32_truncated`, `C32_moore_penrose`, `C32_square` [CPQ].
* **C33** Metric functions (proved). Model: `Metric`, `Norm`. Textbook norms; variance decomposition for explained variance.
  Theorems: `C33_euclidean`, `C33_manhattan`, `C33_minkowski_throws`, `C33_minkowski_values`, `C33_minkowski_metric`,
  `C33_mean_absolute_error`, `C33_explained_variance` [CPQ].
* **C34** Decision tree nodes conserve samples and training rows reach their own leaf (proved). Model: `DecisionTree`.
  Induction over the recursive construction with a predicate on the samples of each node. Theorems: `C34_counts`,
  `C34_children`, `C34_training_sample` [CPQ].
* **C35** Decision tree probabilities are a distribution exactly when the reached leaf is non-empty (proved). Model:
  `DecisionTree`. Positive leaf counts; explicit data for the empty leaf. Theorems: `C35_distribution`, `C35_empty_leaf`
  [CPQ]; `C35_predict_unspecified` [PQ].
* **C36** Decision tree depth and leaf-size limits (proved). Model: `DecisionTree`. Induction over depth. Theorems:
  `C36_classifier`, `C36_regressor`, `C36_split_rule`, `C36_one_more_level` [CPQ].
* **C37** With min_samples_leaf>0 prediction can dereference a missing child (proved). Model: `DecisionTree`. Missing
  children are part of the tree type. Theorems: `C37_total`, `C37_null_child` [CPQ].
* **C38** Decision tree predict returns class positions, not class labels (proved). Model: `DecisionTree`. First largest
  position of the class counts. Theorems: `C38_position`, `C38_not_a_label` [CPQ]; `C38_labels` [PQ].
* **C39** Regression tree predictions stay within the range of training targets (proved). Model: `DecisionTree`. The node
  value is the mean of routed targets; bounds of a mean. Theorems: `C39_mean_of_leaf` [CPQ].
* **C40** k-means assigns each sample to a nearest centroid and never increases inertia (proved). Model: `KMeans`. Huygens
  identity per cluster, strict decrease unless nothing moves, finitely many assignments. Theorems: `C40_predict`,
  `C40_iteration`, `C40_strict`, `C40_fit`, `C40_max_iter`, `C40_converges`, `C40_run` [CPQ].
* **C41** k-means++ picks rows of the data and tracks exact closest distances (proved). Model: `KMeans`. Random draws as
  parameters; invariant on the closest distances; lower_bound on cumulative sums. Theorems: `C41_plusplus`,
  `C41_new_centroid`, `C41_zero_draw`, `C41_fit`, `C41_random` [CPQ].
* **C42** Naive Bayes priors form a distribution only on the first fit (proved). Model: `NaiveBayes`. Object state across
  fits. Theorems: `C42_classes`, `C42_priors`, `C42_refit` [CPQ].
* **C43** Naive Bayes probabilities normalise and predict picks the most probable class position (proved). Model:
  `NaiveBayes`. Subtracting logsumexp; first maximum. Theorems: `C43_predict_prob`, `C43_predict` [CPQ].
* **C44** Multinomial naive Bayes feature probabilities are smoothed distributions (proved). Model: `NaiveBayes`. Sums of
  rows per class. Theorems: `C44_counts`, `C44_smoothed`, `C44_joint` [CPQ].
* **C45** Loss gradients are the derivatives of the reported losses (proved). Model: `Loss`. `HasGradientAt` of Mathlib for
  all weights. Theorems: `C45_mse`, `C45_log`, `C45_softmax` [CPQ].
* **C46** Hinge loss gradient depends on uninitialised memory (proved). Model: `Loss`. Buffer content as parameter;
  subgradient inequality. Theorems: `C46_buffer`, `C46_subgradient` [CPQ].
* **C47** SGD-family loops terminate by convergence or by exception, and weights are published only on convergence (proved).
  Model: `SGD`. Epoch state machine for arbitrary loss, update policy and permutation; runs described by a relation
  independent of the loop. Theorems: `C47_shuffle_pairs`, `C47_publishes_iff`, `C47_throws`, `C47_dichotomy` [CPQ].
* **C48** Samples beyond the last full mini-batch never influence SGD without shuffling (proved). Model: `SGD`. Congruence of
  the batch loop in the first batches. Theorems: `C48_remainder_ignored`, `C48_large_batch`, `C48_large_batch_outcome` [CPQ].
* **C49** SAG's running direction is the sum of stored gradients divided by batch size (proved). Model: `SGD`. Invariant over
  reachable states. Theorems: `C49_sag_direction` [PQ]; `C49_sag_run`, `C49_sag_pass`, `C49_average_iff` [CPQ].
* **C50** Truncated gradient shrinks every weight toward zero by the accumulated amount (proved). Model: `SGD`. Soft
  thresholding. Theorems: `C50_truncate`, `C50_soft_threshold`, `C50_tg_pass` [CPQ].
* **C51** Coordinate descent step is the exact minimiser of its quadratic model (proved). Model: `SGD` (namespace `SCD`).
  Minimiser of a one-dimensional quadratic plus absolute value; descent lemma; subgradient condition at fixpoints. Theorems:
  `C51_step_optimal`, `C51_step_descends`, `C51_fixpoint_optimal`, `C51_run_descends`, `C51_mse` [CPQ].
* **C52** Learning-rate schedules and update policies (proved). Model: `SGD`. Closed forms. Theorems: `C52_step_decay`,
  `C52_exponential_grows`, `C52_exponential_unbounded` [CPQ]; `C52_step_decay_steps`, `C52_momentum`, `C52_momentum_run`,
  `C52_vanilla` [PQ].
* **C53** Line searches honour the condition they claim (proved). Model: `LBFGS`. Loss as an arbitrary partial function;
  induction over the search loop. Theorems: `C53_success`, `C53_failure`, `C53_backtracking_steps`, `C53_bracketing_steps`
  [CPQ]; `C53_armijo_first` [PQ].
* **C54** L-BFGS never ends at a worse point than it started (proved). Model: `LBFGS`. Loop invariant: current loss at most
  the initial loss. Theorems: `C54_never_worse`, `C54_stationary_start`, `C54_past_zero`, `C54_defined_reads` [CPQ];
  `C54_unknown_search`, `C54_bracketing_factors`, `C54_terminates` [PQ].
* **C55** L-BFGS directions come from the BFGS matrix of the most recent correction pairs (proved). Model: `LBFGS`. Two-loop
  recursion equals the product with the BFGS matrix, by induction over stored pairs; ring buffer invariant. Theorems:
  `C55_direction`, `C55_secant` [CPQ].
* **C56** Linear and ridge regression return the exact minimiser (proved). Model: `LinearModel`. Normal equations, positive
  definiteness. Theorems: `C56_linear`, `C56_ridge`, `C56_ridge_zero` [CPQ].
* **C57** Lasso, perceptron and softmax regression fail with an intercept (proved). Model: `LinearFit`. Shapes as lists.
  Theorems: `C57_lasso_intercept`, `C57_lasso_no_intercept`, `C57_perceptron_intercept`, `C57_perceptron_no_intercept`,
  `C57_softmax`, `C57_softmax_untrained` [CPQ].
* **C58** Logistic regression predicts the less likely label under its own training loss (proved). Model: `LinearFit`.
  Monotonicity of the logarithm and the sigmoid. Theorems: `C58_predicts_less_likely`, `C58_all_wrong`, `C58_prob` [CPQ].
* **C59** PCA transform depends on the batch being transformed (proved). Model: `PCA`. Centering with the batch mean.
  Theorems: `C59_transform` [CPQ].
* **C60** Truncated SVD fits only when oversampling exactly fills the feature count (proved). Model: `TruncatedSVD`. Shapes
  of the factors decide whether the sign flip is defined. Theorems: `C60_shapes`, `C60_unknown_solver` [CPQ].
* **C61** Gaussian mixture fit is the EM iteration and keeps the best initialisation (proved). Model: `GMM`. Refinement of
  the loops to the EM sequence of an independent specification (densities, posteriors, update); the stopping index is unique.
  Theorems: `C61_stops_unique`, `C61_fit`, `C61_predict`, `C61_weights` [CPQ].
* **C62** Gaussian mixture log density equals the multivariate normal log density (proved). Model: `GMM`. Cholesky factor of
  the precision, determinant of triangular matrices. Theorems: `C62_log_density` [CPQ].
* **C63** shuffle_data only rearranges whole rows or columns (proved). Model: `Data`. Permutation of rows or columns.
  Theorems: `C63_shuffle_rows` [CPQ]; `C63_shuffle_columns` [PQ].
* **C64** Decision trees choose the best split, ties to the first feature and threshold (proved). Model: `DecisionTree`.
  Invariant of the nested search loops. Theorems: `C64_best_split` [CPQ].
* **C65** Decision tree fitting succeeds for min_samples_split>=3 and reads out of bounds on nodes of one or two samples
  (proved). Model: `DecisionTree`. Totality by induction; explicit failure at one or two samples. Theorems: `C65_returns`,
  `C65_criteria`, `C65_small_node` [CPQ].
* **C66** The absolute_error criterion of regression trees always fails (proved). Model: `DecisionTree`. Sizes of the median
  and of the targets. Theorems: `C66_absolute_error`, `C66_fit_fails`, `C66_unknown_criterion` [CPQ].
* **C67** Refitting a classification tree keeps old classes (proved). Model: `DecisionTree`. Label map across fits. Theorems:
  `C67_refit` [CPQ].
* **C68** Gini trees split pure nodes, entropy trees do not (proved). Model: `DecisionTree`. Values of the criterion on pure
  nodes. Theorems: `C68_gini_splits_pure`, `C68_entropy_keeps_pure` [CPQ].
* **C69** squared_error regression trees fail when a largest feature value is repeated (proved). Model: `DecisionTree`. The
  largest threshold leaves the right side empty. Theorems: `C69_squared_error`, `C69_repeated_maximum` [CPQ].
* **C70** k-means fit aborts with assertions on data that does not have exactly one column (proved). Model: `KMeans`. Model
  with a flag for assertions. Theorems: `C70_assertions` [CPQ].
* **C71** Gaussian naive Bayes fits class moments but predicts without the priors (proved). Model: `NaiveBayes`. Normal log
  density per feature. Theorems: `C71_fit`, `C71_joint`, `C71_predict_ignores_priors`, `C71_checked` [CPQ].
* **C72** Naive Bayes fits break on single-feature data, and the multinomial fit always aborts under assertions (proved).
  Model: `NaiveBayes`. LinSpaced over too few columns. Theorems: `C72_few_features`, `C72_multinomial_checked` [CPQ].
* **C73** Covariance is symmetric, positive semidefinite and unbiased (proved). Model: `LinAlg`. Gram matrix of centred data.
  Theorems: `C73_cov` [CPQ].
* **C74** logdet is the logarithm of a positive determinant (proved). Model: `LinAlg`. Partial pivoting LU as an oracle.
  Theorems: `C74_logdet` [CPQ].
* **C75** lu drops the column permutation (proved). Model: `LinAlg`. Full pivoting LU as an oracle; explicit matrix.
  Theorems: `C75_lu`, `C75_not_recovered` [CPQ].
* **C76** Thin QR multiplies back to a tall matrix (proved). Model: `LinAlg`. Householder QR as an oracle. Theorems:
  `C76_thin_qr` [CPQ].
* **C77** Residuals of linear regression are orthogonal to the features (proved). Model: `LinearModel`. Normal equations.
  Theorems: `C77_residuals` [CPQ].
* **C78** Stationary points of MSE and log loss are global minima (proved). Model: `Loss`. Convexity of both losses along
  lines. Theorems: `C78_mse`, `C78_log` [CPQ].
* **C79** HuberLoss is not the documented Huber loss (proved). Model: `Loss`. One sample, case analysis. Theorems:
  `C79_huber` [CPQ].
* **C80** Logistic regression accepts exactly the supported penalty/solver pairs (proved). Model: `LinearFit`. Case analysis
  over names, shapes of the extended data. Theorems: `C80_solver_penalty` [CPQ].
* **C81** Perceptron training ignores all samples labelled 0 (proved). Model: `LinearFit`. Congruence of the loss in the
  samples labelled 0, lifted through the optimizer. Theorems: `C81_label_zero_ignored` [PQ]; `C81_predict_never_negative`
  [CPQ].
* **C82** Softmax regression predictions ignore the bias and need two samples (proved). Model: `LinearFit`. Shapes and
  softmax. Theorems: `C82_bias_ignored`, `C82_predict` [CPQ].
* **C83** L-BFGS with a Wolfe condition always moves downhill and always ends (proved). Model: `LBFGS`. Curvature of accepted
  points makes pairs positive, so the BFGS matrix stays positive definite; totality. Theorems: `C83_descent`, `C83_total`
  [CPQ].
* **C84** PCA components are orthonormal, ordered and of maximal variance (proved). Model: `PCA`. Thin singular value
  decomposition as an oracle; Bessel inequality for maximality. Theorems: `C84_defined`, `C84_components`,
  `C84_max_variance`, `C84_ratio` [CPQ].
* **C85** PCA model covariance has the components as eigenvectors and the noise variance elsewhere (proved). Model: `PCA`.
  Spectral description of the covariance. Theorems: `C85_covariance` [CPQ].
* **C86** PCA score is the mean normal log density with the batch mean and the last requested covariance (proved). Model:
  `PCA`. State machine of the object; pseudo-inverse equals the inverse above the cut-off. Theorems: `C86_score`,
  `C86_stale`, `C86_order` [CPQ].
* **C87** Truncated SVD is exact for every random draw when oversampling fills the feature count (proved). Model:
  `TruncatedSVD`. Range of the iteration is everything if the sketch is square; for all random matrices with a normalised
  iteration. Theorems: `C87_exact`, `C87_components` [CPQ].
* **C88** Randomised SVD always returns orthonormal vectors with exact left relations (proved). Model: `TruncatedSVD`.
  Orthonormal columns of QR times an orthogonal matrix. Theorems: `C88_left_vectors` [CPQ].
* **C89** Regularised mixture covariances are positive definite and factorise (proved). Model: `GMM`. Scatter matrices are
  positive semidefinite; existence of Cholesky factors is proved. Theorems: `C89_covariances` [CPQ].
* **C90** Gaussian mixture error cases and state after refitting (proved). Model: `GMM`. Case analysis over configurations
  and histories. Theorems: `C90_too_few`, `C90_never_converges`, `C90_tied`, `C90_names`, `C90_unfitted`, `C90_refit` [CPQ].
* **C91** One-component mixture is fitted in closed form (proved). Model: `GMM`. One component: responsibilities are
  constant, second bound equals the first. Theorems: `C91_one_component` [CPQ].
* **C92** EM iterations never lower the likelihood (proved). Model: `GMM`. Gibbs inequality, maximality of weighted moments
  for normal densities (trace and determinant inequality). Theorems: `C92_step`, `C92_loop`, `C92_start` [CPQ].
* **C93** Decision trees ignore the order of the samples (proved). Model: `DecisionTree`. Relation between training on data
  and on moved data: scores agree, thresholds and routing move along. Theorems: `C93_classifier`, `C93_regressor` [CPQ].
* **C94** Decision trees do not depend on units of features (proved). Model: `DecisionTree`. As C93, with the affine map of
  each feature. Theorems: `C94_classifier`, `C94_regressor`, `C94_negative_factor` [CPQ].
* **C95** Naive Bayes ignores the order of the samples (proved). Model: `NaiveBayes`. Class statistics are sums over samples
  of a class, invariant under permutations. Theorems: `C95_order` [CPQ].
* **C96** Gaussian naive Bayes does not depend on the unit of measurement (proved). Model: `NaiveBayes`. Means and variances
  transform along; the smoothing scales with the largest variance. Theorems: `C96_units` [CPQ].
* **C97** Perceptron converges on separable data (proved). Model: `LinearFit`, `SGD`. Novikoff potential argument over all
  epochs with variable rates; Cauchy-Schwarz without square roots. Theorems: `C97_correction_budget`, `C97_separates`,
  `C97_predict`, `C97_perceptron` [CPQ]; `C97_threshold` [PQ].
* **C98** Halving the learning rate confines the perceptron to a box around its random initial weights (proved). Model:
  `LinearFit`, `SGD`. Sum of the rates in closed form; coordinatewise bound of every batch gradient. Theorems: `C98_drift`,
  `C98_stuck` [CPQ].
* **C99** KNearestNeighbors does not classify (proved). Model: `Neighbors`, `KDTree`, `Stats`. Loop invariant of the label
  search; C16 and C28 for the tree solver. Misspelt names read as intended. Theorems: `C99_brute`, `C99_kdtree` [CPQ];
  `C99_brute_throws` [PQ].
* **C100** gaussian_fn is the log density of the normal distribution (proved). Model: `Ops`. Mathlib normal distribution.
  Theorems: `C100_density`, `C100_shape` [CPQ].
* **C101** abs, sign, power, norm2, row_norms and diagmat are the mathematical functions (proved). Model: `Ops`. Entrywise
  case analysis, real powers. Theorems: `C101_sign_abs`, `C101_power`, `C101_power_matrix`, `C101_norm2`, `C101_row_norms`,
  `C101_diagmat` [CPQ].
* **C102** Ridge regularisation trades training error for shorter weights, monotonically (proved). Model: `LinearModel`.
  Comparison of the two strict minimality statements of C56. Theorems: `C102_path`, `C102_bound`, `C102_least_squares` [CPQ].
* **C103** Linear and ridge regression do not depend on coordinates, sample order or the unit of the targets (proved). Model:
  `LinearModel`. Transport of unique minimisers along an invertible map of weights that preserves predictions (and, for
  rotations, the length). Theorems: `C103_features`, `C103_rotations`, `C103_order`, `C103_targets` [CPQ].
* **C104** Logistic training evaluates the probabilities that predict_prob reports (proved). Model: `LinearFit`, `Loss`.
  Entrywise computation. Theorems: `C104_training_loss` [CPQ].
* **C105** L-BFGS stops for one of four reasons (proved). Model: `LBFGS`. Invariant: slot m mod past holds the loss of
  iteration m for the last past iterations; case analysis of the exits. Theorems: `C105_goes_on`, `C105_ends` [CPQ].
* **C106** Gradient descent with one batch: descent, rate and accuracy (proved). Model: `SGD`, `Loss`, `LinearFit`. Quadratic
  upper bounds of both losses (sigmoid has slope at most 1/4) and tangents from below; potential argument over epochs; the
  gradient does not grow in a step (co-coercivity); strong convexity from the ridge term. Theorems: `C106_mse_descends`,
  `C106_mse_rate`, `C106_mse_gradient`, `C106_mse_accuracy`, `C106_log_descends`, `C106_log_rate`, `C106_log_gradient`,
  `C106_log_accuracy` [CPQ].
* **C107** Rate of coordinate descent for the lasso and for logistic regression with l1 penalty (proved). Model: `SCD`,
  `LinearFit`. The chosen coordinate achieves at least the mean of all coordinates toward any other point; iterates stay in
  the level set, which the l1 penalty bounds; recurrence x - x^2/C. Theorems: `C107_lasso`, `C107_logistic` [CPQ].
* **C108** SAG on a single batch (proved). Model: `SGD`, `LinearFit`. Simulation: the only column of the gradient history
  determines the average gradient; relation kept by every batch, hence by every run. Theorems: `C108_sag`, `C108_mse`,
  `C108_logistic`, `C108_logistic_descends` [CPQ].
* **C109** Exchanged labels (proved). Model: `SGD`, `SCD`, `LinearFit`. Simulation of two runs on related data
  (`Lemmas/Simulation`, `Lemmas/Symmetry`); for coordinate descent through the uniqueness of the optimal step (C51).
  Theorems: `C109_logistic`, `C109_probabilities`, `C109_lasso` [CPQ].
* **C110** Reordered features and changed signs (proved). Model: `SGD`, `SCD`, `LinearFit`. As C109 with signed permutations
  of the coordinates. Theorems: `C110_logistic`, `C110_sgd`, `C110_sag`, `C110_lasso` [CPQ].
* **C111** Shuffling is uniform (proved). Model: `Random`, `KMeans`, `Data`. Bijection between sequences of draws and
  permutations by induction on the Fisher-Yates loop; counting by exchanging two values. Theorems: `C111_permutation` [PQ];
  `C111_uniform`, `C111_choices`, `C111_position`, `C111_kmeans`, `C111_split` [CPQ].
* **C112** Nesterov momentum is a larger learning rate (proved). Model: `SGD`. Simulation of two runs with rates in constant
  ratio. Theorems: `C112_step`, `C112_run` [PQ].
* **C113** Spectral clustering (proved). Model: `Spectral`. The quadratic form is half the sum of similarities times squared
  differences. Theorems: `C113_fit_fails`, `C113_laplacian`, `C113_spectrum` [CPQ].
* **C114** Gradient of the Huber loss (proved). Model: `Loss`. The clamp is the derivative of the Huber function (quadratic
  error bound over nine cases); uniqueness of derivatives. Theorems: `C114_gradient`, `C114_single`, `C114_not_of_evaluate`
  [CPQ].
* **C115** SGD in mini-batches (proved). Model: `SGD`, `Loss`, `LinearFit`. Each batch step makes progress towards every
  comparison point since the loss is evaluated after the step (smoothness pays for the squared gradient); induction over
  batches and epochs with an invariant that keeps gradients unclipped. Theorems: `C115_consistent_losses`, `C115_consistent`,
  `C115_log_losses`, `C115_log_best`, `C115_log_fit` [CPQ].
* **C116** The softmax loss is convex, blind to a common shift, and extends the log loss (proved). Model: `Model/Loss`. The
  tangent inequality of log-sum-exp comes from e^x ≥ 1+x; it is summed over the samples with the closed forms of loss and
  gradient from `Lemmas/SoftmaxLoss`. The two-class case compares with the closed form of `LogLoss::evaluate`. `C116_penalty`
  moves the weights by minus their row mean, which makes the penalty (the square of row sums) vanish. Theorems:
  `C116_convex`, `C116_minimum`, `C116_shift`, `C116_penalty`, `C116_two_classes` [CPQ].
* **C117** k-means moves with the data (proved). Model: `Model/KMeans`. `Lemmas/KMeansSymmetry` isolates what k-means needs
  of a transformation (width, squared distances times a positive factor, averages kept), shows it for every similarity, and
  runs both programs side by side by induction over centroids, trials and iterations. For copies, the label of a row is a
  function of the row, and averages do not change under permutation and repetition. The stopping test adds square roots of
  squared moves, which scale by the absolute factor. Theorems: `C117_predict`, `C117_fit`, `C117_plusplus`,
  `C117_plusplus_fit`, `C117_copies` [CPQ].
* **C118** Larger trees never fit the training data worse (proved). Model: `Model/DecisionTree`. Induction over the two runs
  of `build_tree`: as long as the stricter run splits, the looser one makes the same split; where the stricter one stops, the
  subtree of the looser one costs at most the constant of the leaf, because the mean (the majority class) is the best
  constant for the samples of a node and of each part. Costs are the squared error and the number of misses, computed from
  what `predict` returns. Theorems: `C118_regressor`, `C118_regressor_constant`, `C118_classifier`,
  `C118_classifier_majority` [CPQ].
* **C119** Constructors of LogisticRegression and uninitialised parameters (proved). Model: `LogisticObject`. New model of
  the members, the four constructors and `fit` of `LogisticRegression`; a constructor maps the previous content of the memory
  to the members. `Determined`/`Undetermined` (`Spec/LogisticObject.lean`) compare the training of objects built in two
  memories. Dependence is shown on two samples of opposite labels: coordinate descent jumps to zero for one ratio and never
  moves for another; SGD and SAG divide by the batch size; L-BFGS sees a zero gradient for one strength of the penalty and a
  large one for another. Formally reading an indeterminate number is undefined behaviour; the model takes the weaker reading
  that it yields some number. Theorems: `C119_default`, `C119_gradient`, `C119_coordinate`, `C119_quasi_newton` [CPQ].
* **C120** Estimators with default parameters (proved). Model: `Defaults`. Default constructors as instances of the modelled
  `fit` functions. The cases that fail follow from C57 and C60. The cases with fewer samples than a mini-batch rest on a new
  lemma: with no batch in an epoch the sum of losses is zero, the run is declared converged after `num_iters_no_change + 1`
  epochs and the initial state is published, whatever the shuffles (C48 had this without shuffling only). Theorems:
  `C120_lasso`, `C120_perceptron`, `C120_softmax`, `C120_logistic`, `C120_truncated_svd` [CPQ].
* **C121** PCA and TruncatedSVD give the best approximation of the training data of the chosen rank (proved). Model:
  `PCA.fit`, `PCA.transform`, `TruncatedSVD.fit`, `TruncatedSVD.transform`. The theorem of Eckart and Young for the sum of
  squares is proved in `Lemmas/LowRank`: an orthonormal basis of the row space of the competitor, Bessel's inequality for
  both families of vectors, and a pivot argument for weights of bounded sum. The means are dealt with by projecting the
  competitor on centred matrices. Competitors are given by their rank (Mathlib's `Matrix.rank`), not by a factorization.
  Theorems: `C121_pca`, `C121_truncated_svd` [CPQ].
* **C122** Random choices of k-means++ and their expected cost (proved). Model: `KMeans.candidate`, `KMeans.plusPlus`,
  `KMeans.fitFrom`. Probabilities are Lebesgue measures of the set of random numbers; the mean is a lower integral of a cost
  that is infinite for a failing run, so success is part of the claim. The numbers that lead to one row form a half-open
  interval. The bound eight is the argument of Arthur and Vassilvitskii for one uncovered cluster; more trials only lower the
  cost for two clusters. The general bound for more clusters does not carry over to the greedy choice among several trials
  that the code makes and is not claimed. Theorems: `C122_pick`, `C122_first`, `C122_two_clusters` [CPQ].
* **C123** Linear regression is the best unbiased linear predictor, has leverages, a leave-one-out formula, and contains
  ridge regression (proved). Model: `Model/LinearModel.lean`. The fitted predictions are written with the hat matrix
  D(DᵀD)⁻¹Dᵀ of the design matrix. Gauss-Markov follows from orthogonality of the difference of two unbiased coefficient
  vectors to the columns; the leave-one-out formula from replacing one target by the prediction of the reduced model; the
  ridge statement compares both normal equations. Theorems: `C123_gauss_markov`, `C123_leverages`, `C123_leave_one_out`,
  `C123_ridge_rows` [CPQ].
* **C124** What PCA returns is determined by the data and moves with the coordinates (proved). Model: `Model/PCA.lean`,
  `Model/SvdFlip.lean`. Singular values are determined because prefix sums of their squares are the largest sums of squares
  of projections (C121 lemmas); functions of the eigenvalues that vanish at zero give matrices independent of the
  eigenvectors; simple singular vectors are determined up to one sign, which `svd_flip` fixes by the first entry of largest
  absolute value. Theorems: `C124_values`, `C124_components`, `C124_covariance` [CPQ].
* **C125** Where the penalised squared error and the log loss have minima (proved). Model: `Model/Loss.lean`. A mean loss
  with ridge term exceeds its tangents by a multiple of the squared distance, which bounds the sublevel sets (existence by
  compactness) and gives the gradient bounds; zero gradient at the minimum by Fermat. Without ridge term the sum of cross
  entropies is minimised over the subspace of attainable scores, where it grows at least linearly if the classes overlap.
  Theorems: `C125_mse`, `C125_log`, `C125_overlap`, `C125_scores` [CPQ].
* **C126** Mini-batch training always ends with weights if it gets enough epochs (proved). Model: `Model/SGD.lean`,
  `LinearFit.fitLogistic`. An epoch that counts as improving lowers the best loss by tol*batch_size, so a loss bounded below
  has finitely many of them; infinite runs are built by choice from total steps. The linear rate combines the descent of a
  step with the gradient bound of a strongly convex loss. Theorems: `C126_bound`, `C126_mse`, `C126_logistic`,
  `C126_mse_rate`, `C126_logistic_rate` [CPQ].
* **C127** Sparsity of the lasso (proved). Model: `SCD.scdStep`, `LinearFit.fitLasso`. Soft thresholding gives step zero
  exactly under the optimality conditions (case analysis over an ordered field); the zero vector is then a stopping point for
  every shuffle because the mean products are order-free. Strict descent of the first step plus C51 from the second step on
  gives the converse. Theorems: `C127_fixpoint`, `C127_zero`, `C127_nonzero`, `C127_norm`, `C127_dead_feature` [CPQ];
  `C127_sparse` [PQ].
* **C128** Frequent itemsets and rules respond to changes of the thresholds and of the database as they should (proved).
  Model: `Apriori.fitData`, `Apriori.transformData`. Levels of the two runs are compared by induction over the level number
  (threshold and copies, any database); for consistently ordered databases the characterisation of C21 reduces the claims to
  monotonicity of support. Rules: filter lemma over the nested loops, and the characterisation of C24. Theorems:
  `C128_threshold`, `C128_copies`, `C128_order`, `C128_parts`, `C128_added`, `C128_min_confidence`, `C128_antecedent` [CPQ].
* **C129** Nearest neighbour answers do not depend on how the tree was built or how ties are broken (proved). Model:
  `KDTree.build`, `KDTree.querySingle`, `KDTree.radiusSingle`. The exactness of C17 determines the list of distances (sorted,
  sub-multiset, all others not smaller), so it equals the prefix of the sorted list of all distances; everything else follows
  from that list being independent of tree, order and queue. Theorems: `C129_agree`, `C129_self`, `C129_radius` [CPQ].
* **C130** Gaussian mixtures move with the data under rotations and changes of unit, but not under translations (proved).
  Model: `GMM.State.fit`, `GMM.State.predict`, `GMM.State.predictProb`. C61 describes fit as an EM sequence; the sequence is
  equivariant under conformal maps and permutations (determinant and inverse of the transformed covariances), the likelihoods
  shift by a constant, so stopping index and best initialisation are unchanged. The estimate with the added ten epsilons
  gives the coefficients of the means. Theorems: `C130_predict`, `C130_fit`, `C130_means` [CPQ].
* **C131** Rounding errors of sums, means, variances, predictions and nearest centroids are bounded, but variances can be
  negative (proved). Model: `Rounding.Summed`, `Rounding.Var`, `Rounding.Prediction`, `Rounding.Nearest`. The models are
  relations that allow every order of summation. A calculus of error bounds (values, reference, magnitude, number of
  roundings) is proved once and applied; distances use a relative variant because all terms are non-negative. The negative
  variance is computed by evaluating the rounding of binary numbers with 53 digits. The last theorem bounds the factors by
  multiples of the unit roundoff. Theorems: `C131_sum`, `C131_mean`, `C131_predict`, `C131_var`, `C131_distance`,
  `C131_nearest`, `C131_exact`, `C131_negative_variance`, `C131_factor` [CPQ].
* **C132** In floating point a confidently classified sample turns the logarithmic loss into NaN, and training then cannot
  end normally (proved). Model: `Saturation.Evaluate`, `Saturation.stopEpoch`. Numbers are extended by infinities and NaN;
  exponential and logarithm are parameters. Each sample contributes NaN, infinity or a finite term, and NaN absorbs every
  sum. Rounding to 53 binary digits is shown to be monotone and to map numbers just above one to one. The counter of the
  stopping rule is bounded by the number of epochs since the last NaN. In exact arithmetic both models are proved equal to
  `Loss.logEvaluate` and `SGD.optimize`. Theorems: `C132_loss`, `C132_defined`, `C132_threshold`, `C132_epochs`,
  `C132_training`, `C132_exact`, `C132_safe` [CPQ].
* **C133** Sigmoid, softmax and logsumexp use no exponentials of positive numbers and stay finite (proved). Model:
  `Saturation.sigmoid`, `Saturation.LogSumExp`, `Saturation.Softmax`. Arguments after the shift are at most zero because
  rounding is monotone; the largest entry contributes one, so that every bracketing of the sum is at least one. Sums of
  probabilities by the relative error calculus of C131. Exact agreement with `Analytic`. Theorems: `C133_arguments`,
  `C133_logsumexp`, `C133_softmax`, `C133_sigmoid`, `C133_exact` [CPQ].
* **C134** The softmax loss subtracts the largest score of all samples, so samples with small scores turn it into NaN
  (proved). Model: `Saturation.SoftmaxEvaluate`. A sum of non-negative numbers is computed as zero only if all are zero;
  cases per sample as in C132. Exact agreement with `Loss.softmaxEvaluate`. Theorems: `C134_loss`, `C134_defined`,
  `C134_rowwise`, `C134_exact` [CPQ].
* **C135** Weights found by L-BFGS are reached by a bounded chain of accepted line-search steps (proved). Model: `LBFGS`,
  `LogisticObject`. Model of `LBFGS::optimize` as for the earlier L-BFGS properties. Invariant of the main loop: loss and
  gradient in the state belong to the current point, and the point is reached by k-1 accepted steps (`mainLoop_path`). A step
  is specified on its own (`Spec.SearchStep`): non-ascending direction, positive step, selected condition. `C135_logistic`
  instantiates it with the parameters a `LogisticRegression` object hands over, so a mix-up of the constants is visible.
  Theorems: `C135_path`, `C135_logistic` [CPQ].
* **C136** Each further k-means++ centroid is the best of 2 + floor(ln k) independent proposals (proved). Model: `KMeans`.
  `initPlusPlus` hands vectors of `numTrials k` numbers to the model of `kmeans_plusplus`. The event that the inertia exceeds
  t is, inside the unit cube, the product of the events for the single trials (from `C41_plusplus`: greedy choice); its
  measure is a power of the measure of one of them, a union of intervals. The random generator itself is not modelled;
  uniform independent numbers are a hypothesis of the statement. `numTrials 0` differs from the code (logarithm of zero), k
  is at least 2 here. Theorems: `C136_greedy` [CPQ].
* **C137** In floating point a k-d tree answers up to a factor of about 1 + (4n+8)u, and exactly if both kinds of distance
  are added up alike (proved). Model: `KDTree.querySingleWith`, `KDTree.radiusSingleWith`, `Rounding.Norm`,
  `Rounding.normBy`. The traversal takes two norms, one for boxes and one for rows. Invariant of the walk (`visit_near`):
  every row skipped is at least as far as the heap, up to the factor by which the two norms may disagree; that factor comes
  from the relative error calculus. For a common order the computed norm is monotone, so C16 applies. Simplification: the
  axis of a split is chosen by exact spreads (the code rounds the differences); box bounds are entries of the data, so
  nothing else is rounded in the construction. Overflow and underflow are not modelled. Theorems: `C137_kd_tree`,
  `C137_same_order` [CPQ].
* **C138** L-BFGS with a Wolfe condition converges linearly on strongly convex smooth losses and ends without an iteration
  limit (proved). Model: `LBFGS`, `LogisticObject`. Specs `StrongConvexity`, `LipschitzGradient` and the constants
  `bfgsCondition`, `lbfgsGain` are stated on lists without model functions. Invariant of a run (`Rate`): stored pairs are
  good pairs for mu and L, so the two-loop product (proved equal to the BFGS product earlier) has bounded condition number by
  induction over the pairs (`lower_step`, `upper_step`), which bounds the angle of the direction; the Wolfe test bounds the
  step from below. `C138_iterations` adds up the decreases. For mean losses the constants are lambda/n and (c * sum of
  squared features + lambda)/n. Note: the constructor for L-BFGS does not set `lambda_`, so a positive factor is a hypothesis
  on the object. Exact arithmetic over an ordered field. Theorems: `C138_mse`, `C138_logistic`, `C138_decrease`, `C138_rate`,
  `C138_iterations`, `C138_ends` [CPQ].
* **C139** The bracketing search succeeds within a bounded number of trials, so L-BFGS with it reaches the requested gradient
  tolerance (proved). Model: `LBFGS`, `LogisticObject`. Expansion phase: the slope along the direction reaches the curvature
  bound after A doublings. Bisection phase: the bracket halves each round, the slopes at its ends differ by a fixed amount,
  so by the Lipschitz constant it cannot be shorter than a fixed length (`informative`, `expansion`, `bisection`).
  `C139_converges` combines this with the invariant of C138. The limits are collected in `Spec.WideSearch` and met in the
  examples. Backtracking multiplies the step by 0.5 or 2.1 without keeping a bracket, so this argument does not apply to it;
  it is left out. Theorems: `C139_search`, `C139_converges`, `C139_logistic` [CPQ].
* **C140** Gaussian naive Bayes answers NaN for every sample as soon as one variance is not positive, and smoothing prevents
  this exactly if some variance is positive (proved). Model: `Saturation.JointLogLikelihood`, `Saturation.PredictProb`,
  `Saturation.GaussianFit`. Relations over all orders of additions. A zero variance gives -inf in the sum of logarithms, so
  +inf in the score, and +inf or NaN in the sum of reduced squares: the difference is NaN (`summedX_low`, `summedX_high`).
  NaN passes through logsumexp whatever maxCoeff returns for rows with NaN. Adequacy: with exact arithmetic the fit equals
  `NB.fitGaussian` and the scores equal `NB.gaussianLL` plus the logarithm of the prior. Negative variances use
  C131_negative_variance. Overflow is not modelled. Theorems: `C140_class`, `C140_posteriors`, `C140_smoothed`,
  `C140_constant`, `C140_exact`, `C140_dichotomy`, `C140_negative` [CPQ].
* **C141** The k-d tree is balanced, and its depth and size are determined by the number of rows and leaf_size (proved).
  Model: `KDTree.build`. The node vector is the preorder (root, right, left) of a tree (C15), whose shape is the predicate
  `Halved`: sizes n/2 and n - n/2, split only above leaf_size except at the root. Paths are followed by the stored child
  positions (`kdFollow`), independently of the tree type; `follow_sub` connects the two. Theorems: `C141_tree`,
  `C141_levels`, `C141_size` [CPQ].
* **C142** Decision trees in floating point are the exact trees with correctly rounded thresholds (proved). Model:
  `DTree.fitBy`, `DTree.fitRegressorBy`. The models of C34 with any function for averages of neighbours (`midpointsBy`);
  values of features are otherwise only compared, and criterion, node value and early return were arbitrary functions
  already. Simulation of two such functions that separate different values (`build_sim`): candidate lists come from the same
  pairs of neighbours, parts and criteria are equal, so the same pair wins. Rounding to nearest is specified on its own
  (`Spec.RoundsToNearest`); rounding to even with p digits is proved to satisfy it. Overflow and underflow of the average are
  not modelled. Theorems: `C142_classifier`, `C142_regressor`, `C142_range`, `C142_structure`, `C142_adjacent` [CPQ].
* **C143** Destroying a copy of a k-d tree disables the original, copies of hash trees share their counters, copies of
  decision trees are independent (proved). Model: `Objects`. Objects have members of their own and an address; copies copy
  the address, as the implicitly declared copy operations do (a declared destructor suppresses the move operations). `step`
  executes one statement for a class given by its constructor, its member functions and the body of its destructor: `KDTree`
  clears the shared vector, `HashTree` does nothing, `delete_tree` of the decision trees ends in a discarded `std::move` and
  leaves everything as it is. The specification talks about the program text only: `families` numbers constructor calls and
  follows copies, `Bereaved` says that a member of the family was destroyed. Proof by induction over programs extended at the
  end, with the invariant that the address of an object is the number of its family (`addressed_run`, `kd_inv`, `hash_inv`).
  For decision trees `run_view` shows that the shared-memory semantics equals value semantics (`valueRun`), failures
  included. Hash trees are combined with C13. Memory is never freed in the model; exceptions end the program. Theorems:
  `C143_answers`, `C143_no_object`, `C143_without_copies`, `C143_pass_by_value`, `C143_assign_temporary`,
  `C143_vector_growth`, `C143_hash_tree`, `C143_classifier`, `C143_regressor` [CPQ].
* **C144** Shuffles come from one small seed: most orders of 13 or more samples never occur (proved). Model:
  `Model/Seeds.lean`. The engine std::minstd_rand0 (libstdc++ `default_random_engine`) is modelled exactly, with its seeding
  and the reduction of the clock to 32 bits; mt19937 and the way std::shuffle turns outputs into positions are arbitrary
  functions. Counting (pigeonhole) against n! orders and binomial coefficients; non-uniformity because 3 divides n! and not
  2^32. Checked against the value the C++ standard demands of call 10000. Theorems: `C144_engine`,
  `C144_shuffle_unreachable`, `C144_shuffle_count`, `C144_permutation_unreachable`, `C144_not_uniform`, `C144_split`,
  `C144_kmeans` [CPQ]; `C144_clock` [PQ].
* **C145** Stochastic optimizers resume from the weights of earlier calls, even failed ones; L-BFGS starts afresh but may
  keep stale coefficients (proved). Model: `Model/OptimizerObject.lean`. The optimizers as member functions: object state
  (x0_, opt_x_) before and after, also when the call fails. Proved to agree with the functions of `Model/SGD.lean` and
  `Model/LBFGS.lean`, so that all earlier properties hold for every call; induction over the program for histories. The
  weights left by a failure inside a batch are those before it (steps of the model do not fail after assigning the weights).
  Theorems: `C145_sgd_call`, `C145_sag_call`, `C145_tg_call`, `C145_scd_call`, `C145_sgd_history`, `C145_sgd_epochs`,
  `C145_sgd_retry`, `C145_scd_resume`, `C145_lbfgs` [PQ].
* **C146** A linear model answers from its last successful fit only, whatever the program did before (proved). Model:
  `Model/EstimatorObject.lean`. Programs as lists of statements over named objects; an object is the matrix w_ (the classes
  have no other state that a fit changes, their parameters are fixed at construction). The fits are those of
  `Model/LinearFit.lean` and `Model/LogisticObject.lean`. Induction over the program relates objects to histories, which are
  defined without states. A statement whose outcome is undefined ends the program. C24_order (rule order) and C21_min_support
  (rounding of the minimum support) were added in the same step after mutants of lexLt and supportCount had survived.
  Theorems: `C146_history`, `C146_refit`, `C146_failed_fit`, `C146_copy`, `C146_unfitted`, `C146_unfitted_prob`,
  `C146_lbfgs_forgets`, `C146_softmax_answers`, `C146_columns` [CPQ].
* **C147** Loading into filled containers: rows accumulate without labels, are overwritten with labels, while labels
  accumulate (proved). Model: `Model/Data.lean` (loadtxtRows, loadtxtVec, loadRowsEach, loadVecEach). A file is the table of
  numbers its lines hold, or none if it cannot be opened (C115 relates text to tables). Induction over files and rows. Found
  missing when a mutant of loadtxtRows survived. Theorems: `C147_rows` [PQ]; `C147_reload`, `C147_narrow`, `C147_labels`
  [CPQ].
* **C148** Distances and clusterings survive dimension reduction (proved). Model: `PCA`, `TruncatedSVD`, `KMeans`.
  Orthonormal components give Pythagoras for every sample and every centroid taken back (`Reduced.pythagoras`), so all
  squared distances of a sample shift by the same residual: labels stay and the inertia shifts (`C148_pca_labels`). A list of
  K centroids is a matrix of rank at most K-1 plus a constant row, so the optimality of the reconstruction (C121) bounds what
  it loses by the inertia of any K centroids; with the projection being a contraction this gives the factor
  (`C148_pca_guarantee`, `C148_truncated_svd`). Theorems: `C148_pca_distances`, `C148_pca_labels`, `C148_pca_guarantee`,
  `C148_truncated_svd` [CPQ].
* **C149** What linear model objects answer in a program (proved). Model: `EstimatorObject`, `LinearModel`, `LinearFit`.
  `ask_after` (from C145's program semantics) reduces a query to the last successful fit; the fits are then described by C56,
  C107 and C57, restated over lists of samples with the score, error and penalty of `Spec/LinearAnswers`. For
  SoftmaxRegression every weight is 1 after every fit (C57), so all scores of a query row agree. Theorems: `C149_linear`,
  `C149_ridge`, `C149_lasso`, `C149_lasso_intercept`, `C149_perceptron`, `C149_logistic`, `C149_softmax` [CPQ].
* **C150** Gaussian mixture objects after caught exceptions (proved). Model: `GMMObject`. `Call` keeps the members when an
  exception is thrown. The effectful loops are shown to refine the pure ones of `GMM` (`innerLoop_ok`, `outerLoop_ok`: the
  members end as those of the last initialisation), which gives one call from any state (`C150_fit`, `C150_torn`); an
  invariant over programs relates the members to the inductive relation `MixtureHistory` of the specification
  (`C150_program`), which is functional (`C150_unique`). Theorems: `C150_fit`, `C150_program`, `C150_unique`, `C150_torn`
  [CPQ].
* **C151** L-BFGS with the Armijo condition is safe on strictly monotone gradients and fails on linear losses (proved).
  Model: `LBFGS`, `Loss`, `LogisticObject`. The invariant of C83 with a different reason for positive curvature: a strictly
  monotone gradient (list-level definition in `Spec/Armijo`) gives each correction pair a positive product, so the BFGS
  matrix stays positive definite; strong convexity (C138) gives monotonicity for the penalised losses. For linear losses the
  first iteration is computed: the difference of the gradients is zero, and the first quotient of the recursion is undefined.
  Theorems: `C151_total`, `C151_descent`, `C151_linear`, `C151_losses`, `C151_logistic` [CPQ].
* **C152** Random mini-batches and hold-out sets are fair samples, but the ridge penalty grows with smaller batches (proved).
  Model: `Random`, `Data`, `SGD`, `Loss`. The draws are in bijection with the permutations of `Fin n` (C111), so averages
  over draws are averages over the symmetric group. Moments are found by re-indexing with transpositions: all positions have
  equal first moments, all pairs equal mixed moments, and the mixed moments of centred values add up to minus the second
  moment. No counting of permutations with prescribed values is needed. Losses enter through their form as mean plus ridge
  term (`isMean_mse`, `isMean_log`). Theorems: `C152_batch`, `C152_mse`, `C152_log`, `C152_bias`, `C152_holdout` [CPQ].
* **C153** SGD on the softmax loss with one batch descends, at a guaranteed rate, to a small gradient (proved). Model: `SGD`,
  `Loss`. Hoeffding's lemma for the class probabilities bounds log-sum-exp by its tangent plus a quarter of the squared
  change of the scores; with the Cauchy-Schwarz inequality the penalised likelihood is smooth with the stated constant, and
  convex by C116. The lemmas on gradient descent of C106 are generic in the index type and are used with pairs of feature and
  class. An epoch with one batch is one such step, whatever the order of samples. Publication follows from the general
  liveness lemma of C126. Theorems: `C153_descends`, `C153_rate`, `C153_gradient`, `C153_publishes` [CPQ].
* **C154** Gradient clipping bounds how far mini-batch training can carry the weights (proved). Model: `SGD`. One lemma for
  all optimizers: if every batch moves the weights by at most c times the rate in a relation that is reflexive and additive,
  a run moves them by at most c times batches times the sum of rates. The relations are entrywise distance (vectors,
  matrices) and growth of magnitudes (truncated gradient). For SAG the direction is bounded through C49. Theorems:
  `C154_sgd`, `C154_sag`, `C154_truncated`, `C154_softmax` [CPQ].
* **C155** An Apriori object remembers databases on which it has thrown, and reports their rules later (proved). Model:
  `AprioriObject`. `fit_data` is modelled again as an effect on the members (`all_frequency_` grows before `sortrows` can
  throw) and proved to agree with the earlier model (C155_agrees). C155_program describes every program by the small
  specification `mined`; C155_grows, C155_repeat, C155_stale and C155_confidence_above_one are consequences in terms of
  supports. C155_lines and C155_text parse the output of `print_rules` back; the text of a confidence is a parameter (any
  function to text without line break), items are non-negative integers. Theorems: `C155_agrees`, `C155_program`,
  `C155_grows`, `C155_repeat`, `C155_stale`, `C155_lines`, `C155_text`, `C155_confidence_above_one` [CPQ].
* **C156** Ridge regression is stable: changed targets, samples or regularisation move weights and predictions by bounded
  amounts (proved). Model: `LinearModel`. All parts test the normal equations of both fits with the difference of the weights
  (`Stability.normal`), which turns the change into a positive quadratic form; Cauchy-Schwarz gives the bounds. C156_attained
  shows that the constant for changed targets cannot be improved. Theorems: `C156_targets`, `C156_linear`, `C156_leave_out`,
  `C156_replace`, `C156_regularisation`, `C156_attained` [CPQ].
* **C157** Nearest neighbour distances are stable under moved points, added rows and the choice of the metric (proved).
  Model: `KDTree`. Reported distances are the order statistics of the true distances (C129); `KDStability.sorted_le` compares
  order statistics of two lists by counting the entries below a threshold, so a bound row by row carries over to each
  position. C157_metrics shows that the three norms satisfy the triangle inequality. Theorems: `C157_metrics`, `C157_moved`,
  `C157_more_rows`, `C157_radius`, `C157_order` [CPQ].
* **C158** Tables are loaded from text exactly, and what other text does (proved). Model: `Text`, `Data`. `operator>>` and
  `std::getline` are modelled on lists of characters as in libstdc++ and the C locale. The layouts are an inductive
  specification (`LineText`, `TableText` over `IntText`, `DecText`); `Text.Reads` states that a reader takes exactly the text
  of a number when a blank, a comma or nothing follows, and is proved for signed, unsigned and decimal readers. Rounding of
  decimals to doubles is not modelled. Theorems: `C158_decimals`, `C158_integers`, `C158_carriage_returns`, `C158_commas`,
  `C158_blank_line`, `C158_out_of_range`, `C158_unsigned_negative`, `C158_string_to_integer`, `C158_texts_exist` [CPQ].
* **C159** Random matrices have their range and every such matrix can occur; k-means++ is defined for every seed (proved).
  Model: `RandomMat`, `KMeans`. The numbers of the generator are a parameter. Entries are filled column by column;
  `RandomMatLemmas.fill_onto` inverts the filling, so every matrix of the range occurs. The law of an entry is a Lebesgue
  measure; the balance of randint counts the numbers of whole rounds through the range. C159_kmeans joins the random index
  and the random vectors to the k-means++ of C41. Theorems: `C159_rand`, `C159_rand_law`, `C159_randn`, `C159_randint`,
  `C159_kmeans` [CPQ].
* **C160** Linear classifiers, k-means and multinomial naive Bayes divide the samples into convex regions, trees into boxes
  (proved). Model: `LinearFit`, `KMeans`, `NaiveBayes`, `DecisionTree`. scores that are affine in the sample up to an offset
  common to all classes have convex regions of the first maximum (`Regions.convex_of_max`); squared distances and
  shared-variance normal densities differ from affine functions by such an offset. Trees: the list of boxes is built by
  recursion on the tree, and induction shows that exactly one box contains a sample and that the descent ends with its
  answer. Non-convexity is shown on a concrete fitted mixture of variances 1 and 100. Theorems: `C160_affine`,
  `C160_perceptron`, `C160_logistic`, `C160_softmax`, `C160_kmeans`, `C160_multinomial`, `C160_gaussian`,
  `C160_gaussian_not_convex`, `C160_classifier`, `C160_regressor` [CPQ].
* **C161** What a KMeans object answers in any program of fit and predict calls (proved). Model: `KMeansObject`. `fit` and
  `predict` as transitions of an object whose centroid matrix holds rows or was never written; induction over the program
  with the shape of the centroids as invariant, using C40, C41, C70 and C159 for single calls. `MayRun` characterises the
  defined programs exactly; `Explained` is a separate inductive description of the answers. Theorems: `C161_program`,
  `C161_last_fit`, `C161_unknown`, `C161_no_clusters` [CPQ].
* **C162** Training on every sample several times (proved). Model: `DecisionTree`, `NaiveBayes`, `Loss`, `LBFGS`, `SGD`,
  `SCD`, `LinearFit`, `LinearModel`. `Copied r X y X' y'`: the labelled samples of one data set are those of the other r
  times, in any order. Trees: both searches choose splits that part the training samples equally (induction over `build`,
  every midpoint between copies is a midpoint or a repeated value), hence the same leaves with r-fold counts. Losses: sums
  over copies are r-fold sums and the divisor is r-fold too; L-BFGS, SGD and SCD by congruence in loss and gradient. Ridge:
  the Gram matrix becomes r-fold. k-means is covered by C117_copies. Theorems: `C162_gini`, `C162_entropy`,
  `C162_new_sample`, `C162_regression`, `C162_ridge`, `C162_mse`, `C162_log`, `C162_lbfgs`, `C162_lasso`, `C162_sgd`,
  `C162_bayes`, `C162_multinomial` [CPQ].
* **C163** Appending a feature without new information (proved). Model: `DTree`, `KMeans`, `NB`, `LinearModel`. Trees: the
  splits offered by the new feature induce partitions that the existing feature offers too (or empty ones, never better for
  gini and entropy), so with the strict comparison of `best_split` none of them wins; induction over the recursion. k-means:
  distances of appended vectors with equal last coordinate; induction over the iterations and the draws of k-means++.
  Gaussian: the largest variance is unchanged, so the likelihoods of all classes change by the same amount per sample, which
  softmax and arg max ignore. Ridge: uniqueness of the minimiser (C56). Linear: both fail iff the weights are not unique
  (C56). Theorems: `C163_gini`, `C163_entropy`, `C163_in_front`, `C163_regressor`, `C163_kmeans`, `C163_gaussian`,
  `C163_ridge`, `C163_linear` [CPQ].
* **C164** What naive Bayes objects answer in any program of fit calls and questions (proved). Model: `NBObject`. Objects
  carry the label map, the priors and the parameters of the derived class; a `fit` that throws (different numbers of labels
  and samples, thrown by `hstack`) has already updated the map, the priors and, for the multinomial class, `num_features_`.
  Invariant over programs: the map counts the labels of all calls, the priors belong to the last call, the parameters to the
  last call with as many labels as samples. Gaussian: the priors shift all joint log likelihoods of a sample by the same
  amount. A class without samples has the mean of no rows (NaN in C++), which the model leaves undefined. Not modelled: calls
  of `fit` without labels (division by zero). Theorems: `C164_priors`, `C164_unfitted`, `C164_gaussian`,
  `C164_gaussian_missing`, `C164_multinomial`, `C164_moments`, `C164_multinomial_memory` [CPQ].
* **C165** What a PCA object answers in any program of calls (proved). Model: `PCAObject`. A program is a list of calls of
  the public members on one object; its members are those of `PCA.State`. The specification speaks of the program text only:
  the last call of a kind, and the data fitted last before it. Invariant by induction on the program from its end: the fitted
  members come from the last `fit`, the covariance from the last `fit` before the last `get_covariance`, the precision from
  the last `get_covariance` before the last `get_precision`. Answers are compared with those of a new object after the
  shortest program; the density is C85 and C86 applied there. Theorems: `C165_defined`, `C165_latest`, `C165_precision`,
  `C165_score`, `C165_density`, `C165_frozen`, `C165_values` [CPQ].
* **C166** What decision tree objects answer in any program of calls, also after fit has thrown (proved). Model:
  `DTreeObject.run`, `DTreeObject.grow`, `DTreeObject.classifier`, `DTreeObject.regressor`. `grow` is `build_tree` with the
  tree that exists when an exception leaves it (`build_grow` relates it to the model of C29). The tree of counts for the
  labels `K` is a tree of label lists, independent of `K`, with `counts` applied at every node (`grow_map`); so objects with
  different labels have the same tree. The labels of an object after any program are the distinct labels of all calls
  (induction on the program). The first maximum among the counts for more labels belongs to the same label as the labels are
  sorted. Theorems: `C166_probabilities`, `C166_predict`, `C166_outcome`, `C166_unknown`, `C166_regressor_unknown` [CPQ];
  `C166_unfitted`, `C166_regressor` [PQ].
* **C167** Penalised logistic regression is stable and therefore generalises (proved). Model: `Loss.logEvaluate`,
  `Loss.logGradient`, `LinearFit.logisticProb`. The sum of all gradients is strongly monotone with constant lambda, as the
  sigmoid is monotone (`force_mono`), so distances of weights are bounded by differences of gradients (`force_gap`); the
  gradient of one sample is not longer than the sample. The averages over draws are exact finite sums over all functions from
  positions to samples; exchanging a drawn sample with a further one is an involution of the pairs of a draw and a sample,
  which turns the loss on the population into the loss on a drawn sample of weights trained on a neighbouring draw. Theorems:
  `C167_replace`, `C167_remove`, `C167_label`, `C167_penalty`, `C167_length`, `C167_probability`, `C167_generalisation`,
  `C167_rate` [CPQ].
* **C168** What a TruncatedSVD object answers in any program of calls (proved). Model: `Model/TruncatedSVDObject`. A program
  is a list of calls with caught exceptions; the random matrix of each fit is part of the call. Proved by induction over the
  program (the state is that of the last returning fit), `C60_shapes` for the outcomes of fit, `C87_exact` with the
  uniqueness of singular values and vectors (`Lemmas/SvdUnique`) and the sign rule for the independence of the random
  numbers. Theorems: `C168_defined`, `C168_answers`, `C168_outcome`, `C168_values`, `C168_draws`, `C168_singular`,
  `C168_unknown_solver` [CPQ].
* **C169** Leave-one-out errors of ridge regression estimate its test error without bias, and it generalises (proved). Model:
  `LinearModel`, spec `RidgeGeneralises`. Deleting a sample equals refitting with its target replaced by the prediction of
  the smaller model (normal equations); with the hat matrix this gives the leave-one-out formula; diagonal bound from
  idempotence defect (leverage), trace bound from positive semidefinite difference; the averages exchange the left out sample
  with a fresh draw (Fin.insertNth equivalence). Draws are finite averages over all functions from positions to population
  members. Theorems: `C169_leave_one_out`, `C169_unbiased`, `C169_generalisation` [CPQ].
* **C170** The solvers of penalised logistic regression agree (proved). Model: `LogisticObject`, `LinearFit`, `SGD`, `LBFGS`,
  spec `SolversAgree`. Combines C125 (distance from the minimum by the gradient), C106 and C108 (gradient where one-batch
  descent stops), C139 (gradient where L-BFGS stops), C58 and C167 (predictions); settings are structures of hypotheses, an
  example satisfies both for one data set. Theorems: `C170_weights`, `C170_predictions`, `C170_descent`, `C170_solvers`
  [CPQ].
* **C171** PCA and TruncatedSVD are stable under changed data (proved). Model: `PCA`, `TruncatedSVD`. Weyl: a combination of
  the first i right vectors of one decomposition orthogonal to the earlier ones of the other exists by a singular matrix; its
  images bound the values. Captured variance from the optimality of projections (C121) and two triangle inequalities. Angles
  (Davis-Kahan): the matrix of products of components times differences of variances is the change of the covariance between
  the two bases. Theorems: `C171_variances`, `C171_captured`, `C171_angles`, `C171_direction`, `C171_truncated` [CPQ].
* **C172** Mini-batch training of logistic regression is stable and generalises (proved). Model: `SGD.optimize`,
  `logGradient`, `LogisticObject.fit`. Two runs are compared step by step. The step map of a batch is non-expansive (the
  gradient is monotone and (R²/4 + λ/b)-Lipschitz), shrinks distances by 1 - ηλ/b through the penalty, and replaced samples
  push the weights apart by at most η/b times their lengths, because the slopes of the cross entropy lie in [-1, 1]; weights
  that start small stay small, so that no gradient is clipped. An epoch uses every sample at most once, whatever the shuffle,
  so the pushes of an epoch sum to η/b · changed. The rates form a halved-every-ten-epochs series with sum below 19 α.
  Generalisation follows from the exchange argument of C167 with the per-sample loss instead of the minimiser. Theorems:
  `C172_runs`, `C172_rates`, `C172_fit`, `C172_generalisation` [CPQ].
* **C173** Penalised softmax regression has one resting point, which is stable and is logistic regression for two classes
  (proved). Model: `Loss`. the gradient model is put into closed form by `gradient_named` and read in the Euclidean space on
  pairs (feature, class). The probabilities minus the indicator of the label sum to 0 over the classes, which gives the row
  sums, and have squared length at most 2, which gives the constant √2. Strong convexity (`strong`) is the tangent inequality
  of log-sum-exp plus the identity for squares; it gives monotonicity of the gradient and so the distance bounds. A minimum
  exists because the sublevel sets are bounded, and the gradient vanishes there by the descent inequality of C153. For two
  classes the excess probability at opposite weights is the sigmoid of the score minus the label. Generalisation uses the
  exchange argument of C172. Theorems: `C173_sums`, `C173_minimum`, `C173_stable`, `C173_two_classes`, `C173_generalisation`
  [CPQ].
* **C174** Training softmax regression with two classes is training logistic regression with twice the rate, but the answers
  are opposite (proved). Model: `SGD`, `Loss`, `LinearFit`. simulation (`optimize_rel`) between the two loops: related states
  are softmax weights with means m and differences w, and w; the gradient of the softmax loss at such weights is the logistic
  gradient at w once with either sign (`grad_around`), clipping commutes with the sign, so a step with rate η keeps the means
  and moves the differences by a logistic step with rate 2η; the losses agree by C116. Predictions: both are put in closed
  form from C82 and `predictLogistic_eq`. Theorems: `C174_training`, `C174_predict` [CPQ].
* **C175** k-means finds well separated groups (proved). Model: `KMeans.lloyd`, `predict`, `initRandom`, `initPlusPlus`.
  Vectors of a Euclidean space: the mean of points in a ball lies in the ball, so samples are within δ of the mean of their
  group and, by the triangle inequality, more than δ from other means. The labels are the groups in the first iteration, the
  means are then a fixed point (induction on the iterations). Groups are renumbered by the place of their initial centroid.
  For k-means++ each pick is new (C41) while some row is not among the centroids; k different rows among k are all of them,
  and the case δ = 0 applies. Theorems: `C175_recovers`, `C175_random`, `C175_plusplus` [CPQ].
* **C176** k-means finds well separated groups also with rounding errors (proved). Model: `Rounding.Lloyd`, `Iteration`,
  `Moves`, `MeanRow`, `Labels`. The loop of k-means as a relation between centroids and possible results with rounding
  (assertions off, stopping test left open). The error of a mean (C131) gives centroids within ε of the means of the groups,
  these separate the groups as in C175 with δ + ε and Δ − δ − ε, and the computed nearest centroid is the right one by C131;
  induction on the iterations. In exact arithmetic the relation is the function of `Model/KMeans`. Theorems: `C176_recovers`,
  `C176_exact` [CPQ].
* **C177** Errors in the gradients do not build up in mini-batch training of penalised logistic regression (proved). Model:
  `SGD.sgdStep`, `epochLoop` (runs), `Loss.logGradient`. The step on a batch is nonexpansive and shrinks by 1 − ηλ/b (C172),
  so an error of ηρ per step gives the recursion g ≤ (1 − ηλ/b) g + ηρ, of which ρ b/λ is a fixed point; weights stay so
  small that no gradient is clipped also with errors. Induction on batches and epochs. The errors are a parameter of the
  statement (`Spec.withError`); no floating point model of `exp` is assumed. Runs of the same number of epochs are compared,
  the stopping test may end them in different epochs. Theorems: `C177_errors` [CPQ].
* **C178** Coordinate descent: the answers depend little on the run and do not enlarge changes of the targets (proved).
  Model: `LinearFit`, `SCD`, `Loss`. C107 bounds how far the objective is from any other value. Comparing each of two near
  minima with points on the way to the other one, the sums of absolute weights cancel and the squared errors leave the
  squared difference of the scores (`LassoStability.exchange`, `middle`); for the log loss the ridge term leaves the squared
  difference of the weights (`strong_middle`). The limit follows by choosing the point on the way near the own weights. The
  statement for the lasso is on the answers for the training samples, as weights are not unique with dependent features.
  Theorems: `C178_same`, `C178_targets`, `C178_limit`, `C178_logistic` [CPQ].
* **C179** Naive Bayes fits have the largest likelihood (proved). Model: `NB.fitGaussian`, `fitMultinomial`, `priorsOf`. The
  fitted parameters are known from C42, C44 and C71. The logarithm of the normal likelihood separates into features; for one
  feature log t ≤ t − 1 and the decomposition of the squared deviations give the maximum with the case of equality
  (`Likelihood.normal_best`). Counts and labels: Gibbs inequality with the case of equality (`Likelihood.gibbs`). With
  smoothing the Gaussian fit is not the maximum, so the theorem has smoothing 0. Theorems: `C179_gaussian`,
  `C179_multinomial`, `C179_priors` [CPQ].
* **C180** How reliable errors on a hold-out set are (proved). Model: `Data.trainTestSplit`, `Random.permutation`,
  `SGD.middleRows`. Mean and variance over the shuffles are those of C152; the inequality of Chebyshev, the bound 1/4 for the
  variance of numbers in [0, 1] and the sum over the models give the shares. The models must not depend on the split. The
  seed of the library gives fewer orders (C144); the statement is for uniform draws. Theorems: `C180_holdout`, `C180_choice`,
  `C180_batch` [CPQ].
* **C181** Misleading hold-out sets are exponentially rare (proved). Model: `Data`, `Random`. For positive values z and
  different positions T, the sum over all orders of the product of z at T is at most n! times a power of the mean of z
  (`product_le`): a position taken twice gives at least as much as a new one, by exchanging the two positions. With z =
  exp(s(x - mean)) and Hoeffding's lemma from Mathlib (for the uniform distribution on the samples) the moment generating
  function of the sum over a block is bounded by exp(b s^2 / 8); Markov with s = 4 t and -4 t gives both tails, and the draws
  correspond one to one to the orders (C111). Theorems: `C181_batch`, `C181_holdout`, `C181_choice` [CPQ].
* **C182** Mini-batch gradients far from the full gradient are exponentially rare (proved). Model: `Loss`, `SGD`, `Random`.
  Each entry of a batch gradient is the average over the batch of a number between -B and B attached to the samples, plus the
  ridge term; rescaled to [0, 1] the tail bound of C181 applies, and the d entries are added up. Theorems: `C182_log`,
  `C182_mse` [CPQ].
* **C183** Models chosen from finitely many with the training part do as well on the test part for most splits (proved).
  Model: `Data`, `Random`. The training part is the first block of the shuffled samples, so the tail bound behind C181 holds
  for it and for all M models at once; the error on all samples is a weighted mean of those on the two parts
  (`parts_average`). Theorems: `C183_train`, `C183_test`, `C183_least` [CPQ].
* **C184** k-means with k-means++ finds far groups for nearly all random numbers (proved). Model: `KMeans`. Induction over
  the centroids still to be chosen, with the mean over independent random numbers as an iterated integral. While the
  centroids are of different groups, the weights of the samples of covered groups are at most delta^2 and the total weight at
  least Delta^2, so the first trial proposes a sample of a new group except with probability n delta^2 / Delta^2
  (`pick_lintegral` of C122); a proposal of a new group lowers the potential by Delta^2 and one of a covered group by at most
  n (2 D delta + delta^2), so the best of the trials is then of a new group. With one sample of each group C175 applies.
  Theorems: `C184_groups` [CPQ].
* **C185** Splits and mini-batches rarely lose a class (proved). Model: `Data`, `Random`. The indicator of "no sample of
  class a in the block" is a product over the block of indicators "not of class a". By the negative association lemma of C181
  (`product_le`) its average over the shuffles is at most the power of the plain mean, and the union bound over the distinct
  labels gives the second claim. The exact share counts the choices of k different samples outside the class, each of which
  begins (n - k)! permutations. Theorems: `C185_exact`, `C185_split`, `C185_batch` [CPQ].
* **C186** Mini-batch gradients of the softmax loss are unbiased for an enlarged penalty and rarely far from their mean
  (proved). Model: `Data`, `Random`, `Loss`, `SGD`. An entry of the gradient is the average over the batch of (probability of
  the class minus indicator of the label) times the feature, plus a constant (`softmaxGradient_eq`). Its mean over the
  shuffles is the average over all samples (C152), its terms are at most B in size, so the exponential bound of C182 applies
  to each entry, and the union bound over features and classes gives the claim. Theorems: `C186_gradient` [CPQ].
* **C187** How often k-means with random initialisation starts with one sample of each group (proved). Model: `KMeans`,
  `Random`. By C111 draws and permutations correspond one to one. Permutations with given different first k entries number (n
  - k)! (composition with one of them gives the permutations that fix the first k entries), and choices of one sample of each
  group number k! times the product of the sizes. With one sample of each group C175 applies. Theorems: `C187_one_of_each`,
  `C187_groups` [CPQ].
* **C188** Naive Bayes learns the right classes and nearly the right priors from most splits (proved). Model: `Data`,
  `Random`, `NaiveBayes`. Priors of a first fit are the shares of the labels (C42); the share of a label in the training part
  is an average over a block of the shuffled labels, for which the exponential bound of C181 and the union bound over the
  distinct labels hold. The classes are the distinct labels in increasing order (C42), so they differ only if the training
  part lacks one (C185). Theorems: `C188_priors`, `C188_classes` [CPQ].
* **C189** k-means never moves a centroid from one far group of samples to another (proved). Model: `KMeans`. Invariant of
  the iterations: every centroid is within `δ` of all samples of the far group it started in. Then it is more than `δ` from
  all other samples, so the nearest centroid of a sample is one of its far group, and the mean of samples of one far group is
  again within `δ` of all of them. The second part is the pigeonhole principle: different groups need different labels.
  Theorems: `C189_stays`, `C189_not_found`, `C189_random` [CPQ].
