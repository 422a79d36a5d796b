{"id": "C01", "title": "combinations(x,k) enumerates every k-element selection exactly once", "statement": "common::combinations(x,k) returns an empty list when k exceeds the length of x; otherwise it terminates and returns exactly the k-element order-preserving selections of positions of x, each position set exactly once, listed in lexicographic order of positions (earliest positions first), so the number of results is the binomial coefficient C(|x|,k).", "quantifier": "for every input list x (any element type, duplicates allowed) and every k", "why_tests_cant": "The number of selections is unbounded and a missing or repeated selection shows only for particular (n,k); tests sample a few sizes.", "anchors": ["src/core/common.hpp: combinations"]}
{"id": "C02", "title": "remove_duplicate_rows keeps exactly the first occurrence of each row", "statement": "common::remove_duplicate_rows(X) throws invalid_argument iff X is empty or its first row is empty; otherwise it terminates without ever indexing outside X or its bookkeeping array and returns the distinct rows of X, each once, in order of first occurrence.", "quantifier": "for every list of rows, whatever the duplication pattern", "why_tests_cant": "The search uses two cursors and a visited array with an early-exit test; an index overrun depends on the duplication pattern, of which there are exponentially many.", "anchors": ["src/core/common.hpp: remove_duplicate_rows"]}
{"id": "C03", "title": "Matrix argsort returns a sorting permutation of every line, with a precise tie rule", "statement": "For a matrix whose sorted dimension has length at least 3, common::argsort returns for every row (axis 1) or column (axis 0) a permutation of 0..n-1 that lists that line in non-decreasing (reverse: non-increasing) order; ties keep index order in the first line, and in every later line keep the relative order produced for the preceding line. When the sorted dimension has length 2 the call reads out of bounds, when it has length 1 it returns the out-of-range index 1, and an axis other than 0 or 1 throws invalid_argument.", "quantifier": "for every matrix over a linearly ordered scalar type, every axis and both directions", "why_tests_cant": "Tie behaviour depends on the history of previous lines, and the failure at lengths 1 and 2 comes from the integer LinSpaced rule; sampled tests on iris-sized data never see it.", "anchors": ["src/core/common.hpp: argsort(const MatType&,int,bool)"]}
{"id": "C04", "title": "Two-dimensional sort orders each line independently", "statement": "common::sort on a vector of vectors (axis 0) returns a matrix of the same shape whose every column is the sorted rearrangement of the same column of the input even though the implementation permutes whole rows between columns; axis 1 sorts every row; reverse gives non-increasing order; empty input or empty first row and any other axis throw invalid_argument.", "quantifier": "for every rectangular non-empty table over a linear order, both axes, both directions", "why_tests_cant": "Row permutations performed for column i disturb all other columns; that this never leaks into the result is a property of all tables.", "anchors": ["src/core/common.hpp: sort(std::vector<std::vector<DataType>>)", "src/core/common.hpp: sort(const MatType&)"]}
{"id": "C05", "title": "sortrows sorts rows lexicographically exactly when rows are pairwise distinct", "statement": "For a non-empty table with equally long, pairwise distinct, non-empty rows common::sortrows returns the rearrangement of the rows that is increasing (reverse: decreasing) in lexicographic order. If two rows are equal the comparator reaches its end without a return value, so the call is undefined; an empty table or empty first row throws invalid_argument.", "quantifier": "for every table of rows over a linear order and both directions", "why_tests_cant": "Undefined behaviour on equal rows may look correct under one compiler; the ordering claim ranges over all tables.", "anchors": ["src/core/common.hpp: sortrows"]}
{"id": "C06", "title": "difference computes the set difference of sorted inputs", "statement": "If both inputs are non-decreasing, or the flag is set, common::difference(v1,v2,flag) returns, in increasing order and without repetition, exactly the elements of v1 that do not occur in v2. Without the flag and with unsorted input the result may contain elements of v2.", "quantifier": "for all pairs of lists over a linear order and both flag values", "why_tests_cant": "The merge-style algorithm is only correct under an ordering precondition; tests on small sorted lists cannot establish it for all lists nor expose the precondition.", "anchors": ["src/core/common.hpp: difference"]}
{"id": "C07", "title": "Vector helpers contains, merge, is_equal and flatten meet their contracts", "statement": "contains(v1,v2) is true iff every element of v1 occurs in v2; merge(v1,v2) is the alternate interleaving: it keeps both inputs as subsequences in order, alternates while both last and has length |v1|+|v2|; is_equal(x,y) returns true iff x = y whenever y is not a proper prefix of x, and reads past the end of y when it is; flatten concatenates rows in order.", "quantifier": "for all input lists", "why_tests_cant": "Statements quantify over lists of every length including unequal lengths.", "anchors": ["src/core/common.hpp: contains", "src/core/common.hpp: merge", "src/core/common.hpp: is_equal", "src/core/common.hpp: flatten"]}
{"id": "C08", "title": "unique returns the strictly increasing distinct values with positions in the sorted array", "statement": "common::unique(x) returns the distinct values of x in strictly increasing order, and the i-th returned index is the first position of the i-th value in the sorted copy of x (not in x itself, as the documentation says).", "quantifier": "for every vector over a linear order", "why_tests_cant": "Agreement with the documented meaning happens on sorted inputs, which is what examples use; the real relation needs all inputs.", "anchors": ["src/core/common.hpp: unique"]}
{"id": "C09", "title": "slice of a 2-D vector returns the requested block or fails", "statement": "common::slice(x,r0,r1,c0,c1) with r0<=r1<|x|, c0<=c1, c1 inside every selected row and c1-c0<|x| returns exactly the inclusive block. A column span that is not smaller than the number of rows is rejected with invalid_argument even if the columns exist, and a row range whose end is not inside x but whose span is below |x| is not rejected and reads out of bounds.", "quantifier": "for every table and every four indices", "why_tests_cant": "Requires every combination of the bounds, including the wide-table case that a square example never shows.", "anchors": ["src/core/common.hpp: slice (2-D)"]}
{"id": "C10", "title": "The 1-D slice and the std::vector argsort never deliver a usable result", "statement": "common::slice(x,s,e) on a 1-D vector never returns normally: it throws or forms an iterator past the end. common::argsort on a std::vector returns normally only for the empty vector, and writes outside its result buffer for every non-empty vector.", "quantifier": "for every vector and every pair of 64-bit indices", "why_tests_cant": "Undefined behaviour can appear to work in a test run; only a proof covers all arguments.", "anchors": ["src/core/common.hpp: slice (1-D)", "src/core/common.hpp: argsort(const std::vector<DataType>&,bool)"]}
{"id": "C11", "title": "argmax/argmin return the first extreme position", "statement": "common::argmax/argmin with axis 0 or 1 return for each column or row the least index at which the extreme value of that line is attained; axis -1 returns the least row-major position of the extreme of the whole matrix; other axes throw invalid_argument and an empty line is undefined.", "quantifier": "for every matrix over a linear order and every axis value", "why_tests_cant": "Tie-breaking and emptiness need all matrices.", "anchors": ["src/core/common.hpp: argmax", "src/core/common.hpp: argmin", "src/core/common.hpp: flatten(const MatType&)"]}
{"id": "C12", "title": "where, clip, fmin, hstack, vstack, repeat and vec2mat are exact", "statement": "where returns the increasing list of all positions holding a non-zero value; clip(x,max,min) with min<=max returns the nearest value of [min,max] to each entry and is idempotent; fmin is the entrywise minimum; hstack/vstack throw iff the shared dimension differs and otherwise contain the first operand followed by the second; repeat tiles; vec2mat preserves every entry and throws iff some later row has another length.", "quantifier": "for all inputs of every shape", "why_tests_cant": "Shape and boundary behaviour quantify over all shapes.", "anchors": ["src/core/common.hpp: where, clip, fmin, hstack, vstack, repeat, vec2mat"]}
{"id": "C13", "title": "The hash tree is an exact counting map for equally long itemsets", "statement": "After any sequence of build_tree and add_support calls with itemsets of one common length, on a tree whose branching factor is positive, the first compute_frequency_itemsets(s) returns every itemset that was ever inserted and whose counter is at least s, each exactly once, paired with the number of add_support calls for it made after its first insertion; nothing else is returned and no operation fails. This is independent of the bucket size and branching factor.", "quantifier": "for every operation sequence, every itemset length, every bucket size and positive branching factor", "why_tests_cant": "Splitting, hashing collisions and lookups interact; the state space of operation sequences is infinite.", "anchors": ["src/core/tree/hash_tree.hpp: HashTree::insert, build_tree, add_support, compute_frequency_itemsets, dfs"]}
{"id": "C14", "title": "compute_frequency_itemsets accumulates across calls", "statement": "Each further call of compute_frequency_itemsets on the same tree returns the earlier result followed by the newly collected entries, so calling it twice without changes reports every frequent itemset twice.", "quantifier": "for every tree state and every pair of thresholds", "why_tests_cant": "Tests call it once per tree; the accumulation law is about every history.", "anchors": ["src/core/tree/hash_tree.hpp: compute_frequency_itemsets, dfs, itemset_list_, count_list_"]}
{"id": "C15", "title": "KD-tree construction partitions the data set", "statement": "Building a KD-tree from at least 3 rows with at least 1 feature and leaf_size>=2 terminates normally; the row numbers stored in the leaves are each of 0..n-1 exactly once, each leaf holds the data rows belonging to its row numbers and has between 1 and leaf_size rows. For leaf_size>=5 and n>=6 every leaf has at least 3 rows. With fewer than 3 rows, no feature or leaf_size<2 construction always ends in an out-of-bounds read; it never loops for ever.", "quantifier": "for every data matrix over an ordered field and every leaf_size", "why_tests_cant": "Worklist construction over arbitrarily many nodes; termination and partition are statements over all data sets.", "anchors": ["src/core/tree/kd_tree.hpp: KDTree::build_tree, find_partition_axis"]}
{"id": "C16", "title": "KD-tree query returns the k nearest neighbours when the first split uses feature 0", "statement": "If the widest feature of the training data is feature 0 and no leaf holds one or two rows, query(x,k) for 1<=k<=n returns k pairs in non-decreasing distance, with distinct row numbers, each distance being the chosen metric's distance to that row, and no other training row is strictly closer than the last reported one. For k>n the list is padded by (infinity,0) entries.", "quantifier": "for every training set, query point, k, leaf size and each of the metrics manhattan, euclidean, chebyshev", "why_tests_cant": "Pruning correctness is a geometric invariant over all trees and points; random tests rarely hit a wrongly pruned branch.", "anchors": ["src/core/tree/kd_tree.hpp: query_single_data, query, check_intersection, compute_distance, build_tree"]}
{"id": "C17", "title": "KD-tree query can miss the nearest neighbour when the first split uses another feature", "statement": "There are training sets whose widest feature is not feature 0 for which query returns a row that is not the nearest neighbour, because the root stores its split value as a bound for feature 0. What survives for all data (no leaf of one or two rows, 1<=k<=n): k distinct rows with their true distances in non-decreasing order.", "quantifier": "existential refutation of the unrestricted nearest-neighbour guarantee; the positive statement C16 is universal", "why_tests_cant": "The defect does not show on data whose widest feature comes first.", "anchors": ["src/core/tree/kd_tree.hpp: build_tree lines 121-122, query_single_data"]}
{"id": "C18", "title": "KD-tree radius query is exact up to points at distance exactly r", "statement": "For every built tree query_radius(x,r) reports for each query row only training rows at distance at most r, with their true distances and each row at most once; if feature 0 has the widest spread it reports every row at distance strictly below r. Rows at distance exactly r may be omitted; with r<=0 nothing is ever found; queries without any hit are dropped from the answer, so answers no longer line up with query rows.", "quantifier": "for every training set, every list of query points and every radius", "why_tests_cant": "Boundary points and empty answers are measure-zero in random tests.", "anchors": ["src/core/tree/kd_tree.hpp: query_radius_single_data, query_radius"]}
{"id": "C19", "title": "TransactionEncoder encodes each transaction faithfully", "statement": "fit_transform(X) yields a matrix with one row per transaction and one column per distinct item in increasing item order; the entry of row i and column of item v is stored iff v occurs in transaction i, stored once, and its value is v itself. Hence stored positions determine the item set of every transaction; reading values instead of positions loses item 0.", "quantifier": "for every list of transactions, with duplicates and any order", "why_tests_cant": "Faithfulness is a round-trip statement over all transaction lists.", "anchors": ["src/core/preprocessing/transaction_encoder.hpp: TransactionEncoder::fit_transform"]}
{"id": "C20", "title": "Apriori never overstates support on duplicate-free transactions", "statement": "If no transaction repeats an item, every itemset with more than one item that Apriori reports as frequent carries a count not larger than the number of transactions containing all its items; single items carry exactly that number.", "quantifier": "for every duplicate-free transaction list and every minimum support", "why_tests_cant": "Ranges over all databases; counting goes through subset generation and the hash tree.", "anchors": ["src/methods/rule_model/apriori.hpp: Apriori::fit_data, generate_k_subsets"]}
{"id": "C21", "title": "Apriori is sound and complete on consistently ordered transactions", "statement": "If every transaction is strictly increasing and items make their first appearance in increasing order, and fit_transform completes, then the reported frequent itemsets are exactly the strictly increasing itemsets whose support is at least the threshold (for a positive threshold), each once with its exact support. The threshold is the requested fraction of the transactions rounded down to a whole number.", "quantifier": "for every such database, every minimum support", "why_tests_cant": "The anti-monotone pruning argument is an induction over levels; tests use a handful of small databases.", "anchors": ["src/methods/rule_model/apriori.hpp: Apriori::fit_data, is_prefix, generate_k_subsets", "src/core/tree/hash_tree.hpp"]}
{"id": "C22", "title": "Apriori misses frequent pairs when items first appear out of order", "statement": "There are databases with sorted duplicate-free transactions in which a pair of items occurs together at least as often as the threshold but is not reported, because candidates follow first-appearance order while occurrences are counted in transaction order.", "quantifier": "existential refutation of unrestricted completeness (C21 is the universal positive part)", "why_tests_cant": "The shipped example does not compare with ground truth.", "anchors": ["src/methods/rule_model/apriori.hpp: Apriori::fit_data"]}
{"id": "C23", "title": "Apriori completes only if some level has exactly one frequent itemset", "statement": "fit_transform throws runtime_error if no single item is frequent; otherwise it returns normally iff some level of the search has exactly one frequent itemset before a level has none, and throws invalid_argument as soon as a level has none.", "quantifier": "for every database of transactions and every threshold", "why_tests_cant": "Depends on all possible level-size sequences.", "anchors": ["src/methods/rule_model/apriori.hpp: Apriori::fit_data", "src/core/common.hpp: sortrows"]}
{"id": "C24", "title": "Association rules carry correct antecedent, consequent and confidence", "statement": "For sorted frequent itemsets, each generated rule (a,c,conf) comes from a frequent itemset f with a a non-empty proper sub-itemset of f that is itself recorded, c = f minus a, conf = count(f)/count(a) >= the minimum confidence; and every such pair gives a rule. The rules are listed by itemset in lexicographic order, then by length of the antecedent, then by antecedent, whatever the order of the records. For an unsorted recorded itemset the consequent can overlap the antecedent.", "quantifier": "for every recorded table of frequent itemsets and every minimum confidence", "why_tests_cant": "Rules range over all sub-itemsets of all itemsets.", "anchors": ["src/methods/rule_model/apriori.hpp: Apriori::transform_data, get_rules", "src/core/common.hpp: difference"]}
{"id": "C25", "title": "train_test_split partitions rows and keeps X and y aligned", "statement": "train_test_split returns trunc(n*train_size) training rows and the remaining rows for testing; training rows followed by test rows are a rearrangement of the input rows (the identity when not shuffled) and the same rearrangement is applied to labels, so every row keeps its label. Outside of that range the call violates an assertion. With a different number of labels than rows a shuffled split violates an assertion, an unshuffled one silently takes the first labels for training and the last ones for testing if there are enough.", "quantifier": "for every data set, every permutation the random shuffle may choose, every split count between 0 and n", "why_tests_cant": "The shuffle is random; the guarantee must hold for all n! outcomes.", "anchors": ["src/core/data/split.hpp: train_test_split", "src/core/math/shuffle.hpp: shuffle_data"]}
{"id": "C26", "title": "divide_on_feature is a stable partition by the threshold", "statement": "divide_on_feature sends every row number to exactly one side: rows whose feature value is <= threshold to the left, the others to the right, each in increasing order; a feature number outside of a non-empty matrix is read out of bounds.", "quantifier": "for every data set, feature number inside range, threshold", "why_tests_cant": "All data sets; used at each tree node.", "anchors": ["src/core/data/split.hpp: divide_on_feature"]}
{"id": "C27", "title": "loadtxt splits a rectangular file into features and last-column labels", "statement": "On a file with at least one row, at least one number per row and equally long rows loadtxt returns the features as all but the last column and labels as the last column, in file order; a missing file throws; for an empty file, an empty first row or a row shorter than the first the matrix variant reads out of bounds; the variant filling std::vector appends labels to those already in the caller's vector although the features restart at row 0.", "quantifier": "for every parsed table of numbers", "why_tests_cant": "Malformed files are an infinite family.", "anchors": ["src/core/data/load.hpp: loadtxt"]}
{"id": "C28", "title": "var, mean, median, cumsum and mode are the textbook statistics", "statement": "On non-empty lines: var equals the mean squared deviation from the mean and is non-negative; median has at most half of the entries on either side and is independent of the order produced by nth_element; cumsum's k-th entry is the sum of the first k+1 entries; mode returns a value of maximal multiplicity together with that multiplicity, except that when all entries are distinct the minimum is returned. On other axes var, sum and mean throw, median and cumsum have no defined result and mode reports nothing.", "quantifier": "for every matrix over an ordered field and each axis", "why_tests_cant": "Algebraic identities and order statistics over all inputs; nth_element leaves the order of other entries unspecified.", "anchors": ["src/core/math/ops.hpp: var, mean, median, cumsum, mode, sum, center"]}
{"id": "C29", "title": "sigmoid, softmax and logsumexp are the exact functions and normalise", "statement": "Over the reals: sigmoid(x) = 1/(1+e^-x), lies strictly in (0,1), is strictly increasing and sigmoid(-x)=1-sigmoid(x); softmax lines are positive, sum to 1 and are invariant under adding a constant to a line; logsumexp subtracting the maximum equals log of the sum of exponentials and lies between max and max+log n. softmax throws when the input has one row or one column.", "quantifier": "for every real matrix with at least two rows and columns", "why_tests_cant": "Identities over all reals; tests check finitely many values.", "anchors": ["src/core/math/extmath.hpp: sigmoid, softmax", "src/core/math/linalg.hpp: logsumexp"]}
{"id": "C30", "title": "entropy and gini are bounded impurities that never increase on average under a split", "statement": "For a non-empty label vector gini lies in [0,1) and entropy is non-negative, each is 0 iff all labels agree, both are invariant under reordering the samples; for every split into two parts the size-weighted impurity of the parts does not exceed the impurity of the whole.", "quantifier": "for every label vector and every two-way split of it", "why_tests_cant": "Concavity statement over all distributions.", "anchors": ["src/core/math/extmath.hpp: entropy, gini", "src/methods/tree/decision_tree_classifier.hpp: compute_impurity"]}
{"id": "C31", "title": "svd_flip preserves the product and fixes the sign convention", "statement": "If no column of U is zero, svd_flip leaves U*diag(s)*Vt unchanged for every s and makes the entry of largest absolute value of every column of U non-negative; a zero column wipes the corresponding row of Vt.", "quantifier": "for all real matrices of compatible shape", "why_tests_cant": "Algebraic identity over all matrices.", "anchors": ["src/core/math/extmath.hpp: svd_flip"]}
{"id": "C32", "title": "pinv satisfies the Moore-Penrose equations", "statement": "Given an exact singular value decomposition, if all singular values are either zero or above the cut-off, pinv(x) satisfies the four Moore-Penrose equations; for invertible x it is the inverse.", "quantifier": "for every real matrix and every exact SVD the library may return", "why_tests_cant": "Equations over all matrices; SVD is not unique.", "anchors": ["src/core/math/linalg.hpp: pinv"]}
{"id": "C33", "title": "Metric functions", "statement": "minkowski, euclidean and manhattan distances have their textbook values and are non-negative, symmetric, zero iff the points agree and satisfy the triangle inequality for equal shapes; minkowski throws exactly for mismatching shapes and p outside {1,2,Eigen::Infinity}; euclidean and manhattan read out of bounds when the second vector is shorter; mean_absolute_error in fact returns the mean squared error; explained_variance_score of non-constant targets is at most 1 and is 1 exactly when all errors are equal.", "quantifier": "for all real vectors of every length", "why_tests_cant": "Triangle inequality and the metric identities quantify over all vectors.", "anchors": ["src/core/metric.hpp: mean_absolute_error, explained_variance_score, euclidean_distance, manhattan_distance, minkowski_distance"]}
{"id": "C34", "title": "Decision tree nodes conserve samples and training rows reach their own leaf", "statement": "In every fitted classification tree with min_samples_leaf = 0, each node stores the class counts of exactly the training rows that prediction routes to it; children counts add up to the parent's counts; hence each training row is predicted from the leaf whose counts include it.", "quantifier": "for every training set and hyper-parameters for which fitting returns normally", "why_tests_cant": "An invariant over all trees of every depth.", "anchors": ["src/methods/tree/decision_tree_classifier.hpp: build_tree, predict_label_prob", "src/core/data/split.hpp: divide_on_feature", "src/methods/tree/base.hpp: best_split"]}
{"id": "C35", "title": "Decision tree probabilities are a distribution exactly when the reached leaf is non-empty", "statement": "predict_prob rows are non-negative and sum to 1 whenever the reached node holds at least one training row; trees fitted on data with a repeated maximal feature value can contain an empty leaf, and a query routed there yields 0/0 for every class. On queries of which one reaches an empty leaf the classes returned by predict are unspecified.", "quantifier": "for every fitted tree and every query", "why_tests_cant": "Empty leaves need special duplicates in training data and a query outside of the training range.", "anchors": ["src/methods/tree/decision_tree_classifier.hpp: predict_label_prob, compute_node_value, build_tree"]}
{"id": "C36", "title": "Decision tree depth and leaf-size limits", "statement": "No path of a fitted tree has more than max_depth+1 splits (one more than the parameter says); every non-root node holds at least min_samples_leaf rows; every split node holds at least min_samples_split rows.", "quantifier": "for every training set and all hyper-parameters for which fitting returns", "why_tests_cant": "Depth bound over all training sets.", "anchors": ["src/methods/tree/decision_tree_classifier.hpp: build_tree", "src/methods/tree/decision_tree_regressor.hpp: build_tree"]}
{"id": "C37", "title": "With min_samples_leaf>0 prediction can dereference a missing child", "statement": "With positive min_samples_leaf a fitted tree may have a left child but no right child; a query going right at such a node dereferences a null pointer. With min_samples_leaf=0 prediction never fails.", "quantifier": "existential witness for the failure, universal for min_samples_leaf=0", "why_tests_cant": "Needs a particular imbalance in the training data.", "anchors": ["src/methods/tree/decision_tree_classifier.hpp: build_tree, predict_label_prob"]}
{"id": "C38", "title": "Decision tree predict returns class positions, not class labels", "statement": "DecisionTreeClassifier::predict returns the position of the most probable class in increasing label order (ties to the smallest); it equals the label only when labels are 0..K-1.", "quantifier": "for every fitted tree and query", "why_tests_cant": "Test data uses labels 0,1,2, hiding the difference.", "anchors": ["src/methods/tree/decision_tree_classifier.hpp: predict"]}
{"id": "C39", "title": "Regression tree predictions stay within the range of training targets", "statement": "With squared_error criterion every prediction of a fitted DecisionTreeRegressor lies between the minimum and maximum training target, and equals the mean of the targets routed to the reached leaf.", "quantifier": "for every training set, criterion, hyper-parameters and query for which fitting and prediction return", "why_tests_cant": "Invariant over all trees.", "anchors": ["src/methods/tree/decision_tree_regressor.hpp: build_tree, compute_node_value, predict_label"]}
{"id": "C40", "title": "k-means assigns each sample to a nearest centroid and never increases inertia", "statement": "predict returns the least index of a centroid with minimal squared distance; each Lloyd iteration moves every centroid with samples to their mean, leaves a centroid without samples unchanged and lowers the sum of squared distances of samples to their nearest centroid by at least the sum of cluster size times squared move; centroids stop moving after at most K^n iterations, so for a positive tolerance max_iter does not matter beyond that.", "quantifier": "for every data set, centroid set and number of iterations", "why_tests_cant": "Monotonicity and termination over all data sets.", "anchors": ["src/methods/cluster/kmeans.hpp: kmeans_lloyd, predict_label"]}
{"id": "C41", "title": "k-means++ picks rows of the data and tracks exact closest distances", "statement": "Whatever random numbers are drawn, all initial k-means++ centroids are rows of the data matrix, each found by roulette selection with the squared distances to the centroids chosen so far as weights and best among its trials; the maintained closest-distance array equals the minimum squared distance to the chosen centroids at each step; positive draws never repeat a centroid while some sample is not one, a zero draw can. Random initialisation takes rows at distinct indices and reads out of bounds iff there are more clusters than samples.", "quantifier": "for every data set and every random draw sequence", "why_tests_cant": "Random draws.", "anchors": ["src/methods/cluster/kmeans.hpp: kmeans_plusplus, init_centroid"]}
{"id": "C42", "title": "Naive Bayes priors form a distribution only on the first fit", "statement": "After any sequence of fits the classes are the distinct labels of all fits in increasing order and the priors are the occurrences over all fits divided by the number of samples of the last fit; they sum to 1 exactly when the earlier fits were empty, and repeating a fit m times multiplies the priors by m, since counts accumulate.", "quantifier": "for every label vector and number of fits", "why_tests_cant": "Refit behaviour over all histories.", "anchors": ["src/methods/naive_bayes/base.hpp: compute_prior_prob"]}
{"id": "C43", "title": "Naive Bayes probabilities normalise and predict picks the most probable class position", "statement": "predict_prob rows are positive and sum to one for every joint log-likelihood matrix; predict returns the least position of a maximal posterior, which is also the least position of a maximal joint log likelihood; it is a position, not a label.", "quantifier": "for every real joint log likelihood matrix", "why_tests_cant": "All matrices.", "anchors": ["src/methods/naive_bayes/base.hpp: predict_log_prob, predict_prob, predict"]}
{"id": "C44", "title": "Multinomial naive Bayes feature probabilities are smoothed distributions", "statement": "With assertions disabled, at least two features and a first fit, the stored counts of a class are the column sums of its rows; for alpha>0 and non-negative counts each class's feature probabilities (count+alpha)/(total+alpha*features) are positive and sum to 1, and the joint log likelihood of a row is the log of the class prior times the product of the probabilities raised to the row's counts.", "quantifier": "for every count matrix, label vector", "why_tests_cant": "All data.", "anchors": ["src/methods/naive_bayes/multinomial_naive_bayes.hpp: compute_feature_prob, compute_log_likelihood"]}
{"id": "C45", "title": "Loss gradients are the derivatives of the reported losses", "statement": "For MSE and log loss, gradient(X,y,W) is the gradient of W -> evaluate(X,y,W) including regularisation at every point; for softmax loss it is the gradient exactly if lambda = 0 or every weight equals the sum of its row.", "quantifier": "for every data set, weight vector and lambda over the reals", "why_tests_cant": "Finite-difference tests cover finitely many points to limited precision.", "anchors": ["src/core/loss/mean_squared_error.hpp", "src/core/loss/log_loss.hpp", "src/core/loss/softmax_loss.hpp"]}
{"id": "C46", "title": "Hinge loss gradient depends on uninitialised memory", "statement": "HingeLoss::gradient returns a sub-gradient of evaluate (for non-negative lambda) plus whatever was in the freshly allocated buffer: two calls with equal arguments can differ by an arbitrary vector.", "quantifier": "for every data set, weights and buffer content", "why_tests_cant": "Freshly allocated memory is often zero in tests.", "anchors": ["src/core/loss/hinge_loss.hpp: gradient"]}
{"id": "C47", "title": "SGD-family loops terminate by convergence or by exception, and weights are published only on convergence", "statement": "For batch_size>=1 each of SGD, SAG and TruncatedGradient runs at most max_iter epochs. It returns normally iff there is an epoch such that it and the epochs before it, num_iters_no_change in number, each fail to improve on some earlier epoch by tol*batch_size; the published weights are those after the first such epoch. If no epoch fails and none qualifies it throws runtime_error and publishes nothing. Shuffling permutes samples and labels alike. SCD always publishes after max_iter iterations.", "quantifier": "for every loss, data, parameter setting and shuffle outcome", "why_tests_cant": "All loss sequences.", "anchors": ["src/core/optimizer/sgd/sgd.hpp: optimize", "src/core/optimizer/sgd/sag.hpp: optimize", "src/core/optimizer/sgd/tg.hpp: optimize", "src/core/optimizer/sgd/scd.hpp: optimize"]}
{"id": "C48", "title": "Samples beyond the last full mini-batch never influence SGD without shuffling", "statement": "With shuffling off the result of SGD, SAG and TruncatedGradient does not depend on the samples beyond the last full mini-batch. If batch_size>n no weights but the initial ones can be published; with positive tolerance they are published after num_iters_no_change+1 epochs although no sample was used.", "quantifier": "for all data sets that agree on the first floor(n/b)*b samples", "why_tests_cant": "A non-interference statement relates pairs of executions.", "anchors": ["src/core/optimizer/sgd/sgd.hpp: optimize"]}
{"id": "C49", "title": "SAG's running direction is the sum of stored gradients divided by batch size", "statement": "In every reachable state of SAG the running direction equals (sum of the stored per-batch gradients)/batch_size; after each epoch these are the clipped gradients of this epoch. Hence the direction is their average exactly if the number of batches equals batch_size.", "quantifier": "for every loss and execution", "why_tests_cant": "Loop invariant.", "anchors": ["src/core/optimizer/sgd/sag.hpp: optimize"]}
{"id": "C50", "title": "Truncated gradient shrinks every weight toward zero by the accumulated amount", "statement": "truncate with zero per-weight accumulators and a non-negative cumulative penalty u maps each weight w to sign(w)*max(0,|w|-u); it never changes the sign, never increases magnitude, and maps 0 to 0. In the optimizer u grows by l1_ratio*lr*alpha with each batch and the weights are moved by the whole of u after each batch, as the accumulators are reset to zero each time.", "quantifier": "for every weight vector and penalty", "why_tests_cant": "All reals.", "anchors": ["src/core/optimizer/sgd/tg.hpp: truncate"]}
{"id": "C51", "title": "Coordinate descent step is the exact minimiser of its quadratic model", "statement": "In SCD the step chosen for each coordinate is the only maximiser of the predicted descent; the predicted descent is never negative; the updated coordinate has the largest predicted descent, lowest index first. If the loss has coordinate-wise curvature bounded by the step constant the penalised objective never increases, in particular for the mean squared error if the constant is at least the mean square of each feature. An iteration that changes nothing has reached a global minimum of the penalised objective if the loss is convex.", "quantifier": "for every gradient, weight vector, lambda>=0 and step constant>0", "why_tests_cant": "Optimality over all reals.", "anchors": ["src/core/optimizer/sgd/scd.hpp: optimize"]}
{"id": "C52", "title": "Learning-rate schedules and update policies", "statement": "StepDecay with 0<=gamma<=1 and non-negative initial rate never increases and is multiplied by gamma once in step_size epochs, first in epoch step_size-1; ExponentialDecay with positive gamma and positive initial rate strictly increases every epoch and exceeds every bound (it does not decay); MomentumUpdate always produces the same weights as VanillaUpdate whatever the momentum factor.", "quantifier": "for all parameters, epochs, weights, gradients", "why_tests_cant": "All parameter values and histories.", "anchors": ["src/core/optimizer/sgd/decay_policies/step_decay.hpp", "src/core/optimizer/sgd/decay_policies/exponential_decay.hpp", "src/core/optimizer/sgd/update_policies/momentum_update.hpp", "src/core/optimizer/sgd/update_policies/vanilla_update.hpp"]}
{"id": "C53", "title": "Line searches honour the condition they claim", "statement": "A positive return value of the backtracking or bracketing search means that the final point is start + step*direction, that its loss and gradient are those returned, and that the selected Armijo/Wolfe/strong Wolfe condition holds there; the value is the number of points tried, at most max(1,max_linesearch), and every point before the last one violates the condition and has a step in [min_step,max_step] (the last one need not be in this range). The backtracking steps are multiplied by the increase factor exactly after points that were too short and by the decrease factor otherwise; bracketing steps stay between the longest too short and the shortest too long step. A negative value means a non-positive step, an ascent direction, or that no point tried satisfies the condition.", "quantifier": "for every loss function, start, direction and parameters", "why_tests_cant": "All loss functions.", "anchors": ["src/core/optimizer/lbfgs/search_policies/backtracking.hpp: search", "src/core/optimizer/lbfgs/search_policies/bracketing.hpp: search"]}
{"id": "C54", "title": "L-BFGS never ends at a worse point than it started", "statement": "If LBFGS::optimize publishes a result, the loss there is not larger than the loss at the initial weights; it publishes nothing exactly if the gradient test holds at the start; unknown line search names are rejected; with a positive limit it ends after at most that many iterations; past=0 divides by zero unless the first iteration ends the run; the uninitialised entries of the past losses have no influence if past<=1 or the iteration limit is at most past (and can decide the result otherwise); with the bracketing line search the factors for shrinking and growing a step have no influence.", "quantifier": "for every loss function and parameters with ftol>=0", "why_tests_cant": "All loss functions and iteration counts.", "anchors": ["src/core/optimizer/lbfgs/lbfgs.hpp: optimize"]}
{"id": "C55", "title": "L-BFGS directions come from the BFGS matrix of the most recent correction pairs", "statement": "The direction after each iteration is minus the product of the gradient with the BFGS matrix made of the min(k,mem_size) most recent correction pairs, starting from (y.s/y.y) times the unit matrix; this matrix satisfies the secant equation for the most recent pair, and the history buffer is never read outside the slots holding these pairs.", "quantifier": "for every iteration number and mem_size>=1", "why_tests_cant": "All iteration counts.", "anchors": ["src/core/optimizer/lbfgs/lbfgs.hpp: optimize"]}
{"id": "C56", "title": "Linear and ridge regression return the exact minimiser", "statement": "If the normal matrix is invertible LinearRegression::fit returns the unique minimiser of the squared error; RidgeRegression with lambda>0 always has an invertible normal matrix and returns the unique minimiser of squared error plus lambda*|w|^2, with the intercept weight penalised too.", "quantifier": "for all real data sets", "why_tests_cant": "Optimality over all weights.", "anchors": ["src/methods/linear_model/linear_regression.hpp: fit", "src/methods/linear_model/ridge_regression.hpp: fit", "src/methods/linear_model/base.hpp: predict_label"]}
{"id": "C57", "title": "Lasso, perceptron and softmax regression fail with an intercept", "statement": "With intercept enabled, LassoRegression, Perceptron and SoftmaxRegression (which always has it) pass the original design matrix together with a weight vector that has one more entry, so the first matrix product has mismatching inner dimensions as soon as max_iter is positive and, for the latter two, there is at least one full mini-batch; without intercept Lasso publishes one weight per feature and the perceptron publishes weights or throws runtime_error. With fewer samples than a mini-batch SoftmaxRegression succeeds without training: all weights are one, one column per distinct label.", "quantifier": "for every well-formed data set with matching label count and valid shuffling", "why_tests_cant": "Builds without assertions read out of bounds silently.", "anchors": ["src/methods/linear_model/lasso_regression.hpp: fit", "src/methods/linear_model/perceptron.hpp: fit", "src/methods/linear_model/softmax_regression.hpp: fit"]}
{"id": "C58", "title": "Logistic regression predicts the less likely label under its own training loss", "statement": "LogisticRegression trains with a log loss in which sigmoid(score) is the probability of label 1, but predict returns 0 when sigmoid(score)>0.5 and 1 otherwise; hence for every non-zero score the predicted label has a larger per-sample log loss than the other one, and on data separated by the weights every prediction is wrong. predict_prob rows are positive and sum to one, their first entry is the probability of label 1, and predict returns the number of the column with the larger entry.", "quantifier": "for every weight vector and sample", "why_tests_cant": "All weights; accuracy tests are absent.", "anchors": ["src/methods/linear_model/logistic_regression.hpp: predict, predict_label_prob", "src/core/loss/log_loss.hpp"]}
{"id": "C59", "title": "PCA transform depends on the batch being transformed", "statement": "PCA::transform centres with the mean of its argument, not of the training data: a single-row argument always maps to the zero row, adding a constant vector to all rows does not change the result, and every column of the result has sum zero.", "quantifier": "for every fitted model and argument", "why_tests_cant": "Tests transform the training matrix itself.", "anchors": ["src/methods/decomposition/pca.hpp: transform_data"]}
{"id": "C60", "title": "Truncated SVD fits only when oversampling exactly fills the feature count", "statement": "TruncatedSVD::fit with the randomized solver throws invalid_argument if num_components+num_oversamples exceeds the number of samples or features, or if a power iteration meets an unknown normaliser; otherwise it returns normally exactly if num_components+num_oversamples equals the number of features, and multiplies mismatching shapes if it is smaller. With an unknown solver it succeeds silently and the first transform fails.", "quantifier": "for every data shape and parameters", "why_tests_cant": "The shipped test uses 4 features with 2+2.", "anchors": ["src/methods/decomposition/truncated_svd.hpp: fit", "src/core/math/linalg.hpp: randomized_svd"]}
{"id": "C61", "title": "Gaussian mixture fit is the EM iteration and keeps the best initialisation", "statement": "fit with full covariances (or 'tied' and one component) follows the EM iteration from every random initialisation and stops each at the first iteration from the second on whose mean log likelihood changed by less than the tolerance; it throws if no initialisation got there, and otherwise publishes the parameters of the first initialisation with the largest final bound, where the bound belongs to the parameters one estimate before the published ones. predict_prob returns the posterior probabilities, which are positive and sum to one per sample; predict returns the first most probable component; weights sum to 1 + 10*eps*K/n.", "quantifier": "for every data set, initialisation and parameter", "why_tests_cant": "All data and random initialisations.", "anchors": ["src/methods/mixture/gaussian_mixture.hpp: estimate_log_prob_resp, estimate_gaussian_parameters, fit_data"]}
{"id": "C62", "title": "Gaussian mixture log density equals the multivariate normal log density", "statement": "Given the Cholesky factor of a positive definite covariance, the per-component log probability equals the log density of the normal distribution with that mean and covariance.", "quantifier": "for all means, covariances and samples", "why_tests_cant": "Identity over all matrices.", "anchors": ["src/methods/mixture/gaussian_mixture.hpp: compute_precision_cholesky, estimate_log_prob"]}
{"id": "C63", "title": "shuffle_data only rearranges whole rows or columns", "statement": "shuffle_data(X, out, axis) with axis 0 returns X with its columns rearranged and with any other axis (including values that are neither 0 nor 1) X with its rows rearranged; no entry is lost, duplicated or moved to another row, respectively column.", "quantifier": "for every matrix, axis and permutation drawn by the generator", "why_tests_cant": "The permutation is random; all n! permutations must be covered for all sizes.", "anchors": ["src/core/math/shuffle.hpp: shuffle_data"]}
{"id": "C64", "title": "Decision trees choose the best split, ties to the first feature and threshold", "statement": "At every node with at least three samples the chosen split is a feature together with the average of two neighbouring values of it, its criterion is the largest over all such candidates, and among equally good candidates the smallest feature and then the smallest threshold is taken; no split is chosen exactly if no candidate exceeds the initial value.", "quantifier": "for every data matrix, target vector and criterion", "why_tests_cant": "Optimality over all candidates of all data sets.", "anchors": ["src/methods/tree/base.hpp: best_split, choose_feature_threshold"]}
{"id": "C65", "title": "Decision tree fitting succeeds for min_samples_split>=3 and reads out of bounds on nodes of one or two samples", "statement": "With min_samples_split at least 3, fitting a classification tree with gini or entropy returns normally on every non-empty training set; a training set of one or two samples that min_samples_split allows to split (2 is the default) makes fitting access a vector out of bounds.", "quantifier": "for every training set, labels, criterion and hyper-parameters", "why_tests_cant": "The failure needs a node of one or two samples; out-of-bounds reads often go unnoticed in tests.", "anchors": ["src/methods/tree/base.hpp: choose_feature_threshold", "src/methods/tree/decision_tree_classifier.hpp: build_tree, fit", "src/core/common.hpp: argsort"]}
{"id": "C66", "title": "The absolute_error criterion of regression trees always fails", "statement": "Fitting a regression tree with criterion absolute_error violates an Eigen size assertion on every training set of at least max(3,min_samples_split) samples whose targets are not (almost) constant. An unknown criterion is noticed only when a split is looked for: then regression and classification trees throw invalid_argument, while with fewer samples than min_samples_split fitting succeeds.", "quantifier": "for every training set and hyper-parameters", "why_tests_cant": "Universal failure statement over all data sets.", "anchors": ["src/methods/tree/decision_tree_regressor.hpp: compute_impurity", "src/methods/tree/decision_tree_classifier.hpp: compute_impurity"]}
{"id": "C67", "title": "Refitting a classification tree keeps old classes", "statement": "After fitting the same classifier object twice, the columns of predict_prob are all labels of both fits in increasing order; labels that only occurred in the first fit have probability 0 at every node that holds a sample, and predicted positions refer to the enlarged list.", "quantifier": "for every pair of training sets for which fitting returns", "why_tests_cant": "Needs two fits on different label sets.", "anchors": ["src/methods/tree/decision_tree_classifier.hpp: fit, compute_node_value"]}
{"id": "C68", "title": "Gini trees split pure nodes, entropy trees do not", "statement": "With criterion gini, a training set with one single label is split whenever it is large enough and min_impurity_decrease<1, because the criterion is one minus the impurity of the parts; with criterion entropy it is never split.", "quantifier": "for every training set with a single label", "why_tests_cant": "Quantifies over all data sets; only visible in the structure of the tree.", "anchors": ["src/methods/tree/decision_tree_classifier.hpp: compute_impurity, build_tree"]}
{"id": "C69", "title": "squared_error regression trees fail when a largest feature value is repeated", "statement": "Fitting a regression tree with squared_error violates an assertion (mean of an empty vector) whenever the root is considered for a split and the largest value of some feature occurs at least twice.", "quantifier": "for every training set with a repeated maximal feature value and all hyper-parameters", "why_tests_cant": "Random real-valued test data has no repeated values.", "anchors": ["src/methods/tree/decision_tree_regressor.hpp: compute_impurity", "src/methods/tree/base.hpp: best_split, choose_feature_threshold"]}
{"id": "C70", "title": "k-means fit aborts with assertions on data that does not have exactly one column", "statement": "In a build with Eigen assertions KMeans::fit on at least one sample with a number of features other than one aborts in its first iteration (a column is assigned to a row of the centroid matrix); without assertions the entries are copied correctly.", "quantifier": "for every data set with at least one row, every initialisation and every max_iter >= 1", "why_tests_cant": "Depends on the build mode; the shipped tests run one mode on one data set.", "anchors": ["src/methods/cluster/kmeans.hpp: kmeans_lloyd"]}
{"id": "C71", "title": "Gaussian naive Bayes fits class moments but predicts without the priors", "statement": "On the first fit the stored means and variances are the per-class feature means and mean squared deviations, each variance enlarged by smoothing times the largest one. With library assertions disabled the joint log likelihood of every class is the log of its independent normal density plus the log prior of the first class, so prediction returns the first class of largest density whatever the priors; with assertions enabled prediction aborts for two or more classes.", "quantifier": "for every data matrix with at least two features, label vector, smoothing value, priors and query rows", "why_tests_cant": "All data and all priors.", "anchors": ["src/methods/naive_bayes/gaussian_naive_bayes.hpp: fit, update_mean_variance, joint_log_likelihood"]}
{"id": "C72", "title": "Naive Bayes fits break on single-feature data, and the multinomial fit always aborts under assertions", "statement": "With fewer than two features and at least one sample both fits read outside the data, after any history of fits; with library assertions enabled the multinomial fit aborts on every non-empty data set.", "quantifier": "for every non-empty data set and history of fits", "why_tests_cant": "All data and all histories.", "anchors": ["src/methods/naive_bayes/gaussian_naive_bayes.hpp: update_mean_variance", "src/methods/naive_bayes/multinomial_naive_bayes.hpp: compute_feature_prob"]}
{"id": "C73", "title": "Covariance is symmetric, positive semidefinite and unbiased", "statement": "For at least two rows cov returns a symmetric positive semidefinite matrix whose entries are sums of products of deviations from the column means divided by rows minus one; adding a constant row to all rows does not change it; for one row it divides by zero and no finite result exists.", "quantifier": "for every real matrix", "why_tests_cant": "Definiteness quantifies over all vectors and all matrices.", "anchors": ["src/core/math/linalg.hpp: cov"]}
{"id": "C74", "title": "logdet is the logarithm of a positive determinant", "statement": "Whatever rows the pivoting LU decomposition exchanges, logdet returns log(det A) if det A is positive and minus infinity otherwise.", "quantifier": "for every square matrix and every valid pivoting", "why_tests_cant": "All matrices and all pivot choices.", "anchors": ["src/core/math/linalg.hpp: logdet"]}
{"id": "C75", "title": "lu drops the column permutation", "statement": "The factors returned by lu multiply to the argument with its columns permuted as well; there are matrices the returned triple does not reproduce.", "quantifier": "for every matrix and valid full pivoting", "why_tests_cant": "Tests only use matrices whose column permutation they do not check.", "anchors": ["src/core/math/linalg.hpp: lu"]}
{"id": "C76", "title": "Thin QR multiplies back to a tall matrix", "statement": "For a matrix with at least as many rows as columns the thin QR factors multiply to the argument, the first has orthonormal columns and the second is upper triangular.", "quantifier": "for every tall matrix and valid Householder factorisation", "why_tests_cant": "All matrices.", "anchors": ["src/core/math/linalg.hpp: qr"]}
{"id": "C77", "title": "Residuals of linear regression are orthogonal to the features", "statement": "If LinearRegression::fit returns finite weights, the residuals of predict on the training data are orthogonal to each feature, and with an intercept they sum to zero.", "quantifier": "for every real data set", "why_tests_cant": "All data sets.", "anchors": ["src/methods/linear_model/linear_regression.hpp: fit", "src/methods/linear_model/base.hpp: predict"]}
{"id": "C78", "title": "Stationary points of MSE and log loss are global minima", "statement": "For non-negative lambda, wherever gradient returns the zero vector evaluate is not larger than at any other weights.", "quantifier": "for every data set, weights and competing weights", "why_tests_cant": "Optimality over all weights.", "anchors": ["src/core/loss/mean_squared_error.hpp", "src/core/loss/log_loss.hpp"]}
{"id": "C79", "title": "HuberLoss is not the documented Huber loss", "statement": "On a single sample HuberLoss::evaluate equals the documented loss only if the residual is zero, has magnitude one within the threshold, or exceeds the threshold from above.", "quantifier": "for every sample, weights and positive threshold", "why_tests_cant": "All residuals and thresholds.", "anchors": ["src/core/loss/huber_loss.hpp: evaluate"]}
{"id": "C80", "title": "Logistic regression accepts exactly the supported penalty/solver pairs", "statement": "LogisticRegression::fit throws invalid_argument exactly when the pair is none of (l2 or None) with (sgd, sag, lbfgs), or l1 with scd. For the supported pairs the shapes agree although an intercept column is always added: sgd and sag publish weights or throw runtime_error when max_iter epochs pass without the stopping rule, scd always publishes.", "quantifier": "for every data set, penalty and solver string, positive batch size and valid shuffling", "why_tests_cant": "The strings range over an infinite set and the claim covers every run of three optimizers on data of every shape.", "anchors": ["src/methods/linear_model/logistic_regression.hpp: fit_data"]}
{"id": "C81", "title": "Perceptron training ignores all samples labelled 0", "statement": "Perceptron::predict returns labels 1 and 0, never -1, but with label 0 a sample contributes nothing to the hinge loss with threshold 0 nor to its gradient: replacing the features of all samples labelled 0 by any other features changes neither the outcome of fit nor the published weights, with or without shuffling.", "quantifier": "for every two data sets with the same labels that agree on the samples with non-zero labels, all initial weights and parameters", "why_tests_cant": "It is a non-interference statement about pairs of complete training runs.", "anchors": ["src/methods/linear_model/perceptron.hpp: fit, predict", "src/core/loss/hinge_loss.hpp: evaluate, gradient"]}
{"id": "C82", "title": "Softmax regression predictions ignore the bias and need two samples", "statement": "SoftmaxRegression::predict and predict_prob do not depend on the bias weights, throw invalid_argument for a single sample or a single class, and otherwise return for each sample the first class with the largest product of weights and features, with positive probabilities that sum to one.", "quantifier": "for every weight matrix and every non-empty batch of samples", "why_tests_cant": "Independence of the bias is a statement about all pairs of weight matrices.", "anchors": ["src/methods/linear_model/softmax_regression.hpp: compute_decision_boundary, predict, predict_prob", "src/core/math/extmath.hpp: softmax"]}
{"id": "C83", "title": "L-BFGS with a Wolfe condition always moves downhill and always ends", "statement": "With the Wolfe or strong Wolfe condition and a Wolfe constant below one, every search direction has a negative product with the gradient and every correction pair has a positive product, so the recursion never divides by zero; with a known line search, mem_size>=1, past>=1 and a positive iteration limit, LBFGS::optimize returns normally with weights of the right length for every loss function defined on all weights.", "quantifier": "for every loss function, start, iteration number and parameters", "why_tests_cant": "All loss functions and numbers of iterations; needs positive definiteness of the implicit BFGS matrix as an invariant.", "anchors": ["src/core/optimizer/lbfgs/lbfgs.hpp: optimize", "src/core/optimizer/lbfgs/search_policies/backtracking.hpp: search", "src/core/optimizer/lbfgs/search_policies/bracketing.hpp: search"]}
{"id": "C84", "title": "PCA components are orthonormal, ordered and of maximal variance", "statement": "PCA::fit with at least two samples succeeds exactly when num_components <= min(n_samples, n_features); the components are orthonormal, the transformed training data have diagonal sample covariance with the explained variances in decreasing order, every component maximises the sample variance of the projection among unit vectors orthogonal to the earlier components, ratios divide by the total variance of the features, and the noise variance is the mean of the unexplained variance over the remaining directions.", "quantifier": "for every data matrix, number of components and decomposition satisfying the contract of Eigen's thin SVD", "why_tests_cant": "Optimality ranges over all unit vectors and all data sets.", "anchors": ["src/methods/decomposition/pca.hpp: fit_data", "src/core/math/extmath.hpp: svd_flip"]}
{"id": "C85", "title": "PCA model covariance has the components as eigenvectors and the noise variance elsewhere", "statement": "The covariance computed by a fitted PCA is symmetric, maps every component to its explained variance times itself and every vector orthogonal to the components to the noise variance times itself; its trace is the total variance when n_samples >= n_features, and with all components it equals the sample covariance.", "quantifier": "for every data set with at least two samples and every number of components", "why_tests_cant": "A matrix identity over all data sets.", "anchors": ["src/methods/decomposition/pca.hpp: compute_data_covariance"]}
{"id": "C86", "title": "PCA score is the mean normal log density with the batch mean and the last requested covariance", "statement": "After fit, get_covariance and get_precision, score(Y) is the mean over the rows of Y of the log density of the normal distribution with the mean of Y and the model covariance, if the noise variance exceeds 1e-6; fitting other data afterwards does not change the score, even after calling get_precision again; without the earlier calls the score is undefined behaviour.", "quantifier": "for every data set, batch, and sequence fit/get_covariance/get_precision/fit/score", "why_tests_cant": "Stale state only shows up in refit sequences; the identity covers all matrices.", "anchors": ["src/methods/decomposition/pca.hpp: score, compute_score_samples, get_precision", "src/core/math/linalg.hpp: pinv, logdet"]}
{"id": "C87", "title": "Truncated SVD is exact for every random draw when oversampling fills the feature count", "statement": "If num_components+num_oversamples equals the number of features and is at most the number of samples, and there is at least one LU- or QR-normalised power iteration (or the random matrix is invertible), the randomised SVD returns the leading part of an exact singular value decomposition of the data: components are orthonormal, singular value i is the length of the image of component i and the maximum over unit vectors orthogonal to the earlier components, the reconstruction error is the squared length minus the squared singular values, and explained variance ratios sum to at most one.", "quantifier": "for every data matrix, every random matrix, iteration count and normaliser", "why_tests_cant": "The result depends on random numbers; the claim is for all draws.", "anchors": ["src/core/math/linalg.hpp: randomized_svd", "src/methods/decomposition/truncated_svd.hpp: fit_data"]}
{"id": "C88", "title": "Randomised SVD always returns orthonormal vectors with exact left relations", "statement": "Whenever randomized_svd returns, its left and right vectors are orthonormal, the values are non-negative and decreasing, and the transposed data map left vector i to value i times right vector i.", "quantifier": "for every data matrix, random matrix, number of components, oversampling, iterations, normaliser and sign flag", "why_tests_cant": "All random draws.", "anchors": ["src/core/math/linalg.hpp: randomized_svd, qr, exact_svd"]}
{"id": "C89", "title": "Regularised mixture covariances are positive definite and factorise", "statement": "With a positive regularisation, the covariances estimated from any non-negative responsibilities with rows summing to one are symmetric and positive definite with diagonal entries at least the regularisation (for 'full' and for 'tied'), so the Cholesky decompositions never fail; the published Cholesky factor of each precision is upper triangular with positive diagonal and its product with its transpose is the inverse covariance.", "quantifier": "for all data sets, responsibilities, numbers of components and positive regularisations", "why_tests_cant": "Degenerate data (constant columns, duplicates, fewer points than dimensions) and all responsibilities.", "anchors": ["src/methods/mixture/gaussian_mixture.hpp: estimate_gaussian_covariances_full, estimate_gaussian_covariances_tied, compute_precision_cholesky"]}
{"id": "C90", "title": "Gaussian mixture error cases and state after refitting", "statement": "fit throws out_of_range exactly if there are fewer samples than components; with at most one iteration, a tolerance that is not positive or no initialisations it always throws runtime_error; 'tied' with two or more components, an unknown covariance type and an unknown initialisation name are undefined behaviour; a second fit appends to the precisions, so the first entries stay those of the first fit.", "quantifier": "for all data sets, configurations and random draws", "why_tests_cant": "All configurations; undefined behaviour may go unnoticed in a test run.", "anchors": ["src/methods/mixture/gaussian_mixture.hpp: fit, fit_data, estimate_log_prob, get_precisions"]}
{"id": "C91", "title": "One-component mixture is fitted in closed form", "statement": "With one component, at least two iterations and a positive tolerance, fit always succeeds; the weight is 1 + 10*eps/n, the mean is the sum of the samples over n + 10*eps, the covariance the scatter around this mean over n + 10*eps plus the regularisation on the diagonal.", "quantifier": "for all data sets and random draws", "why_tests_cant": "All data sets and draws.", "anchors": ["src/methods/mixture/gaussian_mixture.hpp: fit_data, estimate_gaussian_parameters"]}
{"id": "C92", "title": "EM iterations never lower the likelihood", "statement": "Without regularisation and in exact arithmetic, each iteration of fit with full covariances keeps weights positive with sum one and covariances positive definite, and the mean log likelihood never decreases; the bound at the end of the iterations lies between the likelihoods of the parameters at the start and at the end.", "quantifier": "for all data sets, initial parameters and numbers of iterations for which the Cholesky decompositions succeed", "why_tests_cant": "A statement about all trajectories of an iteration.", "anchors": ["src/methods/mixture/gaussian_mixture.hpp: e_step, m_step, fit_data"]}
{"id": "C93", "title": "Decision trees ignore the order of the samples", "statement": "Fitting a classification tree (either criterion) or a regression tree (squared_error) on the same labelled samples in another order gives the same tree and the same known classes, and fails on one order exactly if it fails on the other.", "quantifier": "for all data sets, permutations and hyper-parameters", "why_tests_cant": "All permutations of all data sets.", "anchors": ["src/methods/tree/base.hpp: best_split, choose_feature_threshold", "src/methods/tree/decision_tree_classifier.hpp: build_tree, fit", "src/methods/tree/decision_tree_regressor.hpp: build_tree, fit"]}
{"id": "C94", "title": "Decision trees do not depend on units of features", "statement": "Multiplying every feature by its own positive factor and adding its own offset, in the training data and in the queries, leaves the class probabilities, predicted classes and predicted values of decision trees unchanged. With a negative factor predictions may change, because ties between thresholds go to the smaller one.", "quantifier": "for all data sets, queries, hyper-parameters, positive factors and offsets", "why_tests_cant": "All rescalings of all data sets.", "anchors": ["src/methods/tree/base.hpp: best_split, choose_feature_threshold", "src/methods/tree/decision_tree_classifier.hpp: build_tree, predict_prob, predict", "src/methods/tree/decision_tree_regressor.hpp: build_tree, predict"]}
{"id": "C95", "title": "Naive Bayes ignores the order of the samples", "statement": "Fitting Gaussian or multinomial naive Bayes on the same labelled samples in another order gives the same label counts and parameters, also after earlier fits, and fails on one order exactly if it fails on the other.", "quantifier": "for all data sets, permutations and earlier fits", "why_tests_cant": "All permutations of all data sets.", "anchors": ["src/methods/naive_bayes/base.hpp: compute_prior_prob", "src/methods/naive_bayes/gaussian_naive_bayes.hpp: update_mean_variance, fit", "src/methods/naive_bayes/multinomial_naive_bayes.hpp: compute_feature_prob, fit"]}
{"id": "C96", "title": "Gaussian naive Bayes does not depend on the unit of measurement", "statement": "Multiplying all features by one non-zero factor and shifting each by its own offset, in the training data and in the queries, leaves the classes, probabilities and predictions of Gaussian naive Bayes unchanged (assertions disabled, first fit, positive smoothing, some feature not constant within some class).", "quantifier": "for all data sets, queries, factors and offsets", "why_tests_cant": "All changes of units of all data sets.", "anchors": ["src/methods/naive_bayes/gaussian_naive_bayes.hpp: update_mean_variance, fit, joint_log_likelihood", "src/methods/naive_bayes/base.hpp: predict_prob, predict"]}
{"id": "C97", "title": "Perceptron converges on separable data", "statement": "For linearly separable data (penalty 0, one sample per batch, gradient sums starting with zeros, no clipped entries), the learning rates of all epochs that change the weights sum up to at most 2·U·V/γ + ηmax·U²·R²/γ², where γ is the margin of a separating vector of length U, V the length of the initial weights and R the length of the largest sample, however many epochs are run and however samples are shuffled. If the rates of the first num_iters_no_change epochs exceed this bound and max_iter is at least twice as large, training does not throw and the published weights classify every training sample correctly, so that predict returns 1 for the samples with positive label and 0 for the others. For any weights predict returns 1 for positive scores and 0 otherwise, also for score zero.", "quantifier": "for all separable data sets, initial weights, shuffles, learning rate schedules and epoch numbers", "why_tests_cant": "The bound covers all separable data sets, all orders of the samples and arbitrarily many epochs.", "anchors": ["src/methods/linear_model/perceptron.hpp: fit_data, predict", "src/core/optimizer/sgd/sgd.hpp: optimize", "src/core/loss/hinge_loss.hpp: evaluate, gradient", "src/core/optimizer/sgd/decay_policies/step_decay.hpp: compute"]}
{"id": "C98", "title": "Halving the learning rate confines the perceptron to a box around its random initial weights", "statement": "Perceptron halves its learning rate every ten epochs, so that without penalty (gradient sums starting with zeros) each weight ends within 19·alpha·Σ|y_i·x_ij| of its random initial value, for every number of epochs, batch size, tolerance and stopping rule. A sample whose initial score is on the wrong side by more than this allows is never classified correctly, even if the data is separable.", "quantifier": "for all data sets, initial weights, batch sizes, shuffles and numbers of epochs", "why_tests_cant": "The bound holds for arbitrarily many epochs and all initial weights; a test sees finitely many.", "anchors": ["src/methods/linear_model/perceptron.hpp: fit_data, predict", "src/core/optimizer/sgd/sgd.hpp: optimize", "src/core/loss/hinge_loss.hpp: evaluate, gradient", "src/core/optimizer/sgd/decay_policies/step_decay.hpp: compute"]}
{"id": "C99", "title": "KNearestNeighbors does not classify", "statement": "Read with the misspelt names of brute_force corrected (the header does not compile as shipped): with solver \"brute\" predict returns -1 for every query, whatever the training data, if there are at least num_neighbors samples, and throws out_of_range otherwise and invalid_argument for unknown metrics. With solver \"kdtree\" predict aborts for two or more neighbours in a build with assertions; in a build without it returns a single label however many queries there are, a most frequent label among the nearest samples of all queries (feature 0 widest, no leaf below three rows).", "quantifier": "for all training sets, labels, queries, norms, hash orders and priority queue tie orders", "why_tests_cant": "The class is not covered by tests and cannot be compiled; the claim is about all data sets and queries.", "anchors": ["src/methods/neighbors/k_nearest_neighbors.hpp: brute_force, fit, predict", "src/core/math/ops.hpp: mode", "src/core/tree/kd_tree.hpp: query"]}
{"id": "C100", "title": "gaussian_fn is the log density of the normal distribution", "statement": "For positive variance v the exponential of gaussian_fn(x, u, v) is integrable over the real line with integral 1, mean u and variance v, and gaussian_fn decreases strictly with the distance of x from u.", "quantifier": "for all real means, positive variances and points", "why_tests_cant": "Integrals over the whole line for all parameters.", "anchors": ["src/core/math/proba.hpp: gaussian_fn"]}
{"id": "C101", "title": "abs, sign, power, norm2, row_norms and diagmat are the mathematical functions", "statement": "sign has entries -1, 0, 1 with abs(x) = x*sign(x) and x = abs(x)*sign(x); power with a natural exponent is repeated multiplication for entries of any sign, has no value for negative entries and non-integer exponents, and satisfies the laws of exponents on positive entries; norm2 returns the Euclidean length of each column (axis 0) or row (axis 1) and has no defined result for other axes; row_norms returns the lengths of the rows or their squares; diagmat(x) times a vector multiplies entry by entry.", "quantifier": "for all real matrices and exponents", "why_tests_cant": "All real entries and exponents.", "anchors": ["src/core/math/ops.hpp: abs, power, sign, norm2", "src/core/math/extmath.hpp: row_norms, diagmat"]}
{"id": "C102", "title": "Ridge regularisation trades training error for shorter weights, monotonically", "statement": "With 0<lambda<mu, RidgeRegression fitted with mu has strictly shorter weights (intercept included) and a strictly larger training error than fitted with lambda, unless both fits are equal; the squared length of the weights is at most (sum of squared targets)/lambda; compared with LinearRegression, where that has a solution, ridge weights are not longer and the training error exceeds the least one by at most lambda*|w|^2 of the least squares weights.", "quantifier": "for every data set, with and without intercept, and all positive regularisations", "why_tests_cant": "Monotonicity along a continuous path for all data sets.", "anchors": ["src/methods/linear_model/ridge_regression.hpp: fit", "src/methods/linear_model/linear_regression.hpp: fit"]}
{"id": "C103", "title": "Linear and ridge regression do not depend on coordinates, sample order or the unit of the targets", "statement": "Replacing the features x by an invertible linear map of x (with intercept: plus a shift) changes the weights of LinearRegression but no prediction, neither for training samples nor for others, and singularity is preserved; RidgeRegression has this for rotations and reflections, which also keep the length of the weights. Reordering the samples changes nothing, and the weights are linear in the targets.", "quantifier": "for every data set, transformation, permutation and query matrix", "why_tests_cant": "Relates pairs of fits over all transformations and all queries.", "anchors": ["src/methods/linear_model/linear_regression.hpp: fit", "src/methods/linear_model/ridge_regression.hpp: fit", "src/methods/linear_model/base.hpp: predict_label"]}
{"id": "C104", "title": "Logistic training evaluates the probabilities that predict_prob reports", "statement": "For labels 0 and 1 and penalty 0 the loss LogisticRegression trains with, evaluated at any weights, is the mean over the samples of minus the logarithm of the entry of predict_prob for the same weights and samples: of the first column for samples with label 1 and of the second one for samples with label 0.", "quantifier": "for every weight vector, data set and 0/1 labels", "why_tests_cant": "Couples two code paths (training on the matrix with a column of ones, prediction with the last weight as bias) for all weights.", "anchors": ["src/methods/linear_model/logistic_regression.hpp: fit, predict_prob", "src/core/loss/log_loss.hpp: evaluate", "src/methods/linear_model/base.hpp: predict_label"]}
{"id": "C105", "title": "L-BFGS stops for one of four reasons", "statement": "With past>0, L-BFGS continues after an iteration only if the norm of the gradient exceeds tol*max(1,|x|), the iteration limit is not reached, and the loss differs from the loss `past` iterations before by at least delta*max(1,|loss|) (compared in iteration number past and from number 2*past on). Conversely, when it ends, the line search failed and the last point is kept, or the gradient at the published point is that small, or the limit is reached, or the loss changed by less than that.", "quantifier": "for every loss, data, parameter setting, start and length of the run", "why_tests_cant": "Invariant of a ring buffer over runs of any length.", "anchors": ["src/core/optimizer/lbfgs/lbfgs.hpp: optimize"]}
{"id": "C106", "title": "Gradient descent with one batch: descent, rate and accuracy", "statement": "Let the SGD optimizer with plain updates minimise the mean squared error or the log loss (logistic regression with solver sgd), with or without ridge term, with the batch size equal to the number of samples, with or without shuffling. Let S be (c times the sum of all squared features plus the ridge parameter) divided by the number of samples, with c = 1 for least squares and c = 1/4 for the log loss (column of ones included). (1) If no learning rate exceeds 2/S and weights are published, their loss is at most the loss of the initial weights, even if gradients are clipped. (2) If no learning rate exceeds 1/S and 2 S times the initial loss is at most 10^20 (then no gradient is clipped), there is a number K of epochs, more than the patience and at most the epoch limit, such that the published loss exceeds the loss of any other weights u by at most |start - u|^2 / (2 sum of the first K rates). (3) With positive rates and a positive patience, the squared length of the gradient at the published weights is below 2 tol n / rate of the last epoch, and with a positive ridge parameter lambda the published loss exceeds the smallest possible one by less than tol n^2 / (lambda rate).", "quantifier": "all data, labels (between 0 and 1 for the log loss), initial weights, ridge parameters, tolerances, patience and epoch limits, all sequences of learning rates within the bound, all permutations drawn by the shuffling", "why_tests_cant": "The statements compare with all other weight vectors and concern all sequences of learning rates; a test only sees that a loss went down on some data.", "anchors": ["src/core/optimizer/sgd/sgd.hpp:50-130", "src/core/optimizer/sgd/update_policies/vanilla_update.hpp:19-24", "src/core/loss/mean_squared_error.hpp", "src/core/loss/log_loss.hpp", "src/methods/linear_model/logistic_regression.hpp:41-152"]}
{"id": "C107", "title": "Rate of coordinate descent for the lasso and for logistic regression with l1 penalty", "statement": "LassoRegression without intercept, and LogisticRegression with penalty l1 and solver scd (labels between 0 and 1): let the l1 ratio, which is the step constant, be positive and not below the curvature of the loss along any coordinate (mean square of the feature; a quarter of it plus lambda/n for the log loss), and lambda positive. After T = max_iter iterations the objective (loss plus lambda times the sum of absolute weights) of the published weights exceeds the objective of any other weights by at most 2 d max(P, ratio (2 P / lambda)^2) / T, where d is the number of weights and P the objective at the start. So the published weights come arbitrarily close to a lasso solution if only max_iter is large enough.", "quantifier": "all data, labels, parameters meeting the curvature condition, iteration limits, initial weights (logistic regression), permutations drawn by the shuffling, and all weights compared with", "why_tests_cant": "A bound for all iteration limits and against all weight vectors cannot be sampled.", "anchors": ["src/core/optimizer/sgd/scd.hpp:43-104", "src/methods/linear_model/lasso_regression.hpp:27-58", "src/methods/linear_model/logistic_regression.hpp:41-152"]}
{"id": "C108", "title": "SAG on a single batch", "statement": "With a batch size equal to the number of samples, SAG produces exactly the weights (or exactly the failure) that SGD produces with every learning rate divided by the number of samples, for the mean squared error and for logistic regression with solver \"sag\" compared to \"sgd\". Hence logistic regression with solver \"sag\" and one batch never ends with a larger log loss than it started with if no learning rate exceeds twice the number of samples divided by the steepness of the loss.", "quantifier": "for all data, labels, initial weights, learning-rate schedules, shuffles, tolerances and numbers of epochs", "why_tests_cant": "Equality of whole runs for every schedule and every data set.", "anchors": ["src/core/optimizer/sgd/sag.hpp", "src/core/optimizer/sgd/sgd.hpp", "src/methods/linear_model/logistic_regression.hpp"]}
{"id": "C109", "title": "Exchanged labels", "statement": "Training logistic regression on exchanged labels (1 - y) from negated initial weights yields the negated weights or the same failure, for the solvers sgd, sag and scd; negated weights exchange the two columns of predict_prob for every input. Lasso regression without intercept on negated targets yields the negated weights.", "quantifier": "for all data, labels, initial weights, penalties, schedules, shuffles", "why_tests_cant": "Relates two runs for all data.", "anchors": ["src/methods/linear_model/logistic_regression.hpp", "src/methods/linear_model/lasso_regression.hpp", "src/core/optimizer/sgd/scd.hpp"]}
{"id": "C110", "title": "Reordered features and changed signs", "statement": "SGD and SAG on the mean squared error, and logistic regression with the solvers sgd and sag, treat all features alike: if the features are reordered or multiplied by -1 and the initial weights are rearranged in the same way, then the resulting weights are rearranged in the same way (intercept unchanged), or the run fails in the same way. For lasso regression the same holds for changed signs; reordering can change its result since ties are won by the first feature.", "quantifier": "for all data, labels, initial weights, permutations of features, signs, schedules, shuffles", "why_tests_cant": "Relates two runs for all data, permutations and signs.", "anchors": ["src/core/optimizer/sgd/sgd.hpp", "src/core/optimizer/sgd/sag.hpp", "src/core/optimizer/sgd/scd.hpp", "src/methods/linear_model/logistic_regression.hpp"]}
{"id": "C111", "title": "Shuffling is uniform", "statement": "random::permutation yields a permutation whatever numbers are drawn, and every permutation results from exactly one of the n! possible sequences of draws, so that it is uniform if the draws are. Every number is at every place for exactly (n-1)! sequences. Hence random initialisation of k-means makes each sample a centroid for exactly k (n-1)! sequences, and shuffled train_test_split puts each sample into the training set for exactly k (n-1)! sequences where k is the number of training samples.", "quantifier": "for all sizes, draws, permutations, positions and samples", "why_tests_cant": "Uniformity of a distribution over n! outcomes for every n.", "anchors": ["src/core/math/random.hpp", "src/core/data/split.hpp", "src/methods/cluster/kmeans.hpp"]}
{"id": "C112", "title": "Nesterov momentum is a larger learning rate", "statement": "SGD with the Nesterov momentum update produces exactly the weights, or the failure, that plain SGD produces with every learning rate multiplied by 1 + mu: no velocity is carried from one step to the next.", "quantifier": "for all losses, data, weights, schedules, shuffles, momentum factors and numbers of epochs", "why_tests_cant": "Equality of whole runs for every loss and schedule.", "anchors": ["src/core/optimizer/sgd/update_policies/nesterov_momentum_update.hpp", "src/core/optimizer/sgd/sgd.hpp"]}
{"id": "C113", "title": "Spectral clustering", "statement": "fit_transform fails with an exception on every input since no Laplacian is ever computed. The Laplacian that would be used is built from similarities of features instead of samples: it reads out of bounds if there are more samples than features; otherwise its entry (i, j) is the negated Gaussian similarity of features i and j restricted to i, j below the number of samples, its rows sum to zero, it is symmetric and positive semidefinite, and its quadratic form vanishes exactly on the constant vectors.", "quantifier": "for all data, non-zero widths of the similarity and eigenvalue solvers", "why_tests_cant": "Definiteness and the kernel are statements about all vectors for all data.", "anchors": ["src/methods/cluster/spectral_clustering.hpp"]}
{"id": "C114", "title": "Gradient of the Huber loss", "statement": "HuberLoss::gradient is the gradient of the documented mean Huber loss plus ridge term whenever the norm of the vector of all residuals is at most delta, or no residual is smaller than delta in magnitude; in particular always for a single sample. With residuals on both sides it can be wrong. It is not the gradient of what evaluate computes: for a single sample with residual strictly between zero and delta these agree only if the residual is one half in magnitude.", "quantifier": "for all data, weights, thresholds and penalties", "why_tests_cant": "Gradients are limits; finite differences on samples cannot establish them for all weights.", "anchors": ["src/core/loss/huber_loss.hpp"]}
{"id": "C115", "title": "SGD in mini-batches", "statement": "With batches of any size and any shuffles: (a) least squares without ridge term on data that some weights u fit exactly, with learning rates up to the inverse squared length of every sample, never moves the weights farther from u, and the losses of all epochs weighted with twice the learning rates sum up to at most the initial squared distance from u; (b) for the log loss with ridge term, labels between 0 and 1 and learning rates up to the inverse steepness of every batch, the losses of the epochs, weighted with the learning rates, exceed those of any fixed weights u by at most half the initial squared distance from u, so that the best epoch is within distance^2 / (2 sum of rates) of the optimum; logistic regression with solver sgd returns weights whose squared distance from any u exceeds the initial one by at most twice the sum of rates times the epoch loss of u. Features and initial weights are assumed small enough that no gradient is clipped (10^10).", "quantifier": "for all data, batch sizes, shuffles, learning-rate schedules, initial and comparison weights and numbers of epochs", "why_tests_cant": "Bounds on whole runs for all data, orders and comparison weights.", "anchors": ["src/core/optimizer/sgd/sgd.hpp", "src/core/loss/log_loss.hpp", "src/core/loss/mean_squared_error.hpp", "src/methods/linear_model/logistic_regression.hpp"]}
{"id": "C116", "title": "The softmax loss is convex, blind to a common shift, and extends the log loss", "statement": "Without penalty, the loss of multinomial regression lies above its tangents taken with the returned gradient, so weights at which the returned gradient is zero have the smallest loss of all weights. Adding the same weights to every class changes neither the loss nor the gradient. With two classes the loss equals the binary log loss at the difference of the two weight columns. Because the penalty looks only at the sum of the weights over classes, every loss reachable without penalty is reached with any penalty, at weights with the same differences between classes.", "quantifier": "all data matrices with at least one sample, all numbers of classes, all label vectors naming them, all weights and penalty factors, in exact arithmetic", "why_tests_cant": "A test compares the loss at finitely many weights; convexity and global optimality speak about all weights, and that the penalty never limits the fit is invisible in single evaluations.", "anchors": ["src/core/loss/softmax_loss.hpp", "src/core/loss/log_loss.hpp"]}
{"id": "C117", "title": "k-means moves with the data", "statement": "If all samples and the initial centroids are rotated, mirrored, scaled by one non-zero factor and moved (and the tolerance scaled accordingly), the fitted centroids are transformed in the same way and every sample keeps its cluster index; with the same random numbers k-means++ selects the same samples. Given the initial centroids, neither the order of the samples nor repeating the whole data set any number of times changes the fitted centroids.", "quantifier": "all data sets, initial centroids, random numbers, tolerances, iteration limits, orthogonal matrices, non-zero scales and translations, all reorderings and numbers of copies, in exact arithmetic (builds without assertions, or one column)", "why_tests_cant": "The claim compares runs over infinitely many pairs of data sets and transformations; a test checks a few of them, with rounding.", "anchors": ["src/methods/cluster/kmeans.hpp", "src/core/math/extmath.hpp"]}
{"id": "C118", "title": "Larger trees never fit the training data worse", "statement": "With min_samples_leaf 0, raising max_depth or lowering min_samples_split, min_impurity_decrease or (regression) min_stdev never lowers the number of training samples a classification tree predicts correctly and never raises the squared training error of a regression tree, whatever the split criterion. A classification tree predicts at least as many training samples correctly as the most frequent class has, and a regression tree is at least as good as every constant.", "quantifier": "all training sets, criteria and hyper-parameters with which both fits and predictions succeed, in exact arithmetic", "why_tests_cant": "It compares two trees of unbounded size over all training sets; a test sees a few pairs of trees.", "anchors": ["src/methods/tree/base.hpp", "src/methods/tree/decision_tree_classifier.hpp", "src/methods/tree/decision_tree_regressor.hpp"]}
{"id": "C119", "title": "Constructors of LogisticRegression and uninitialised parameters", "statement": "A LogisticRegression object is trained independently of what was in memory before its construction if it comes from the default constructor, or from the SGD/SAG constructor with any solver but coordinate descent, or from the coordinate-descent constructor with any solver but SGD and SAG. In the remaining cases it is not: the SGD/SAG constructor with penalty l1 and solver scd uses an uninitialised step ratio, the coordinate-descent constructor with sgd or sag an uninitialised batch size, and the L-BFGS constructor with every accepted solver uses an uninitialised parameter; with lbfgs itself this is the strength of the penalty, so that there are valid data on which two memory contents lead to different weights.", "quantifier": "for all arguments of the constructors (nonnegative penalty strength, nonnegative tolerance where dependence is claimed), all data, initial weights, shuffles and memory contents", "why_tests_cant": "fresh memory is often zero, so that tests of the L-BFGS constructor see the unpenalised fit by luck; tests cannot enumerate memory contents", "anchors": ["src/methods/linear_model/logistic_regression.hpp", "src/methods/linear_model/base.hpp", "src/core/optimizer/lbfgs/params.hpp", "src/core/optimizer/sgd/decay_policies/step_decay.hpp", "src/core/optimizer/base.hpp"]}
{"id": "C120", "title": "Estimators with default parameters", "statement": "With the parameters of the default constructors: LassoRegression fails on every data set (mismatching matrix product); Perceptron publishes its random initial weights when given fewer than 32 samples and fails otherwise; SoftmaxRegression gets weights that are all one when given fewer than four samples and fails otherwise; LogisticRegression publishes its random initial weights, untouched by the data, when given fewer than 16 samples, and otherwise publishes weights or throws runtime_error; TruncatedSVD can be fitted exactly to data with four features and at least four samples, throws invalid_argument with fewer features or samples, and fails with more features.", "quantifier": "for all data, shuffles, initial weights and memory contents", "why_tests_cant": "the outcome 'random weights' looks like a trained model; tests with a fixed data size see only one of the cases", "anchors": ["src/methods/linear_model/lasso_regression.hpp", "src/methods/linear_model/perceptron.hpp", "src/methods/linear_model/softmax_regression.hpp", "src/methods/linear_model/logistic_regression.hpp", "src/methods/decomposition/truncated_svd.hpp"]}
{"id": "C121", "title": "PCA and TruncatedSVD give the best approximation of the training data of the chosen rank", "statement": "Let PCA be fitted with k components by a correct thin singular value decomposition. The column means plus transform(X) times the components (the reconstruction of the training data X) has the smallest sum of squared differences to X among all matrices that are a constant row plus a matrix of rank at most k, and this sum is the sum of squared differences of X from its column means minus the sum of the squared singular values. Let TruncatedSVD be fitted with as many random vectors as features, at least as many samples, and a normalized power iteration or an invertible random matrix. Then transform(X) times the components has the smallest sum of squared differences to X among all matrices of rank at most k.", "quantifier": "For all data, all numbers of components, all correct decompositions, all offsets and all competing matrices of rank at most k.", "why_tests_cant": "The competitors are all matrices of bounded rank, a continuum; a test can only compare with a few of them.", "anchors": ["src/methods/decomposition/pca.hpp", "src/methods/decomposition/truncated_svd.hpp", "src/core/math/linalg.hpp"]}
{"id": "C122", "title": "Random choices of k-means++ and their expected cost", "statement": "With uniform random numbers from [0,1) each trial of k-means++ proposes row i with probability equal to its squared distance to the nearest centroid chosen so far divided by the sum of these distances (if the sum is positive). The mean over a uniformly chosen first row of the inertia with that row as the only centroid is at most twice the inertia of any single centroid. For two clusters, the mean inertia after k-means++ and any number of iterations of fit, over the first row and the random number of the first trial, is at most eight times the inertia of any two centroids, whatever the random numbers of the further trials are.", "quantifier": "For all data, all competing centroids, all further random numbers, all iteration limits and stopping tests.", "why_tests_cant": "The claims are about exact probabilities and expectations over real random numbers and compare with all possible centroids.", "anchors": ["src/methods/cluster/kmeans.hpp", "src/core/math/random.hpp"]}
{"id": "C123", "title": "Linear regression is the best unbiased linear predictor, has leverages, a leave-one-out formula, and contains ridge regression", "statement": "When linear regression can be fitted: (1) for any new sample its prediction is a fixed linear combination of the training targets, that reproduces every linear model exactly, and every other combination with that property has a strictly larger sum of squared coefficients, hence variance (Gauss-Markov); (2) the predictions on the training samples are a symmetric idempotent matrix times the targets, whose diagonal entries lie between 0 and 1 and add up to the number of weights; (3) removing sample i makes the fit fail exactly if its diagonal entry is 1, and otherwise the error of the model of the other samples at sample i is the residual of the full model divided by one minus that entry. (4) Ridge regression with a positive penalty and no intercept returns exactly what linear regression returns on the data extended by sqrt(lambda) times the identity with zero targets.", "quantifier": "all data matrices, targets, new samples, competing coefficient vectors, left-out samples, positive penalties, with or without intercept", "why_tests_cant": "Optimality is over an infinite family of competing estimators, and the identities hold for all real data; a test compares a few numbers up to rounding.", "anchors": ["src/methods/linear_model/linear_regression.hpp", "src/methods/linear_model/ridge_regression.hpp"]}
{"id": "C124", "title": "What PCA returns is determined by the data and moves with the coordinates", "statement": "Fit PCA with any two correct singular value decompositions on a data set and on the same samples in another order, rotated or reflected and shifted. Then singular values, explained variances, variance ratios and noise variance are equal. If the kept singular values are positive and different from all others, then (samples in the same order) the components are exactly the rotated components, including signs, and the transform of the training data is unchanged; in particular the result does not depend on which decomposition the library returns. If all components are kept or the kept singular values are larger than the others, the covariance is the rotated covariance.", "quantifier": "all data sets, orders of samples, orthogonal matrices, shifts, numbers of components and pairs of correct decompositions", "why_tests_cant": "A test sees one decomposition routine and a few data sets; independence of the routine and invariance under all rotations are statements about all of them.", "anchors": ["src/methods/decomposition/pca.hpp", "src/core/math/extmath.hpp"]}
{"id": "C125", "title": "Where the penalised squared error and the log loss have minima", "statement": "With a penalty lambda > 0 and at least one sample, exactly one weight vector minimises MSE::evaluate, and exactly one minimises LogLoss::evaluate. For arbitrary weights v with value b, gradient g and n samples, the excess b - m over the minimum is at least lambda/(2n) times the squared distance from the minimiser and at most n/(2 lambda) times the squared norm of g, and the squared distance is at most (n/lambda)^2 times the squared norm of g; so a small gradient returned by the code certifies nearness to the optimum. Without penalty and with labels 0 and 1, LogLoss has a minimum if and only if the classes overlap (no weights put every sample on the correct side of, or on, the hyperplane unless all samples lie on it), and LogLoss::gradient vanishes somewhere if and only if they overlap; two weight vectors are both minimisers exactly if they give every sample the same score. Hence on separable data training without penalty has no solution to converge to.", "quantifier": "All data matrices with at least one row, all label vectors of matching length (labels 0/1 for the unpenalised case), all penalties > 0, all weights.", "why_tests_cant": "Existence and uniqueness of a minimum quantify over all real weight vectors; a test compares finitely many, and on separable data every run of finite length looks like slow convergence.", "anchors": ["src/core/loss/mean_squared_error.hpp", "src/core/loss/log_loss.hpp"]}
{"id": "C126", "title": "Mini-batch training always ends with weights if it gets enough epochs", "statement": "The convergence test of SGD, SAG and TruncatedGradient counts epochs that fail to lower the best loss by tol*batch_size; with a loss that is bounded below such epochs must come, so training cannot run on forever: if the summed loss of the first epoch is less than N*tol*batch_size above a lower bound of all epoch losses, then max_iter > N*num_iters_no_change suffices for optimize to return weights, whatever the learning rates do. For the squared error with SGD and for logistic regression with solver sgd or sag (labels in [0,1], tol > 0, any batch size, rates and shuffling) there is a number M such that fitting throws for max_iter <= M and returns one and the same weight vector for every max_iter > M; this holds even when the weights diverge, which is then reported as success. With a ridge penalty lambda > 0, one batch and rates up to the inverse steepness, each epoch multiplies the excess of the loss over that of any other weights by at most 1 - rate*lambda/n.", "quantifier": "All losses bounded below, all steps, data, labels, tolerances > 0, batch sizes > 0, schedules, shufflings, and all max_iter.", "why_tests_cant": "Termination for some max_iter, and equality of the results for all larger ones, concern infinitely many runs; a test sees a single exception or a single result.", "anchors": ["src/core/optimizer/sgd/sgd.hpp", "src/core/optimizer/sgd/sag.hpp", "src/core/optimizer/sgd/tg.hpp", "src/methods/linear_model/logistic_regression.hpp"]}
{"id": "C127", "title": "Sparsity of the lasso", "statement": "Coordinate descent (SCD, as used by LassoRegression) leaves the weights unchanged in an iteration exactly if they meet the optimality conditions of the penalised loss: the partial derivative is -lambda for positive weights, lambda for negative ones and at most lambda in size for zero weights. Each iteration makes at most one more weight non-zero, so max_iter iterations from zero give at most max_iter non-zero weights. LassoRegression without intercept returns exactly zero weights if no feature has a mean product with the targets above lambda in size; if some feature has, and the smoothness constant is at least every mean squared feature, the returned weights are not zero and have a smaller penalised error than zero weights. The sum of the absolute weights is then at most mean(y^2)/(2 lambda), and a feature that is zero in all samples gets weight zero.", "quantifier": "All data with targets of matching length, all smoothness constants > 0, penalties >= 0 (> 0 for the norm bound), iteration counts, shufflings; for the stopping rule and the count of non-zero weights all losses.", "why_tests_cant": "Exact zeros and the threshold for lambda concern all data sets and all shufflings; a test sees weights near zero for one data set and cannot tell a stopping point from slow progress.", "anchors": ["src/core/optimizer/sgd/scd.hpp", "src/methods/linear_model/lasso_regression.hpp", "src/core/loss/mean_squared_error.hpp"]}
{"id": "C128", "title": "Frequent itemsets and rules respond to changes of the thresholds and of the database as they should", "statement": "Raising the minimal support only removes itemsets from the recorded table and keeps the counts of the others; a database repeated m times with an m-fold threshold leads to the same outcome with m-fold counts; both for every database. For databases whose transactions list the items in one common order, the order of the transactions is irrelevant, every non-empty part of a recorded itemset is recorded with at least its count, and further transactions neither remove an itemset nor lower a count. Raising the minimal confidence keeps exactly the rules that reach it. Confidences are positive and at most one, and a rule with more of the same itemset on the left side has at least the same confidence and is reported too.", "quantifier": "all databases, thresholds and numbers of copies; for the ordered part all pairs of consistently ordered databases; all itemset tables and confidences", "why_tests_cant": "These relate two runs on arbitrary databases and thresholds; tests compare a few runs.", "anchors": ["src/methods/rule_model/apriori.hpp: Apriori::fit_data, transform_data, fit_transform"]}
{"id": "C129", "title": "Nearest neighbour answers do not depend on how the tree was built or how ties are broken", "statement": "Under the conditions in which the k nearest neighbour query is exact, the reported distances are the k smallest distances from the query point to the rows, in increasing order. They are the same for all leaf sizes, for the rows in any order and for any priority queue, and the answer for fewer neighbours is the beginning of the answer for more. If the distances are distinct, the whole answer with indices is determined. A row of the data asked for itself comes first with the distance of the point to itself, and its own index is reported if all other rows are farther away. Neighbours strictly inside a radius are exactly consistent with the radius query.", "quantifier": "all data sets in which every leaf holds at least three rows and the first feature is the widest, all query points, all k up to the number of rows, all leaf sizes, all orders of rows, all lawful priority queues, all monotone norms", "why_tests_cant": "The claim compares the answers of arbitrary pairs of trees and queues; a test can compare a few trees and runs one queue.", "anchors": ["src/core/tree/kd_tree.hpp: build_tree, query_single_data, query_radius_single_data", "src/methods/neighbors/k_nearest_neighbors.hpp"]}
{"id": "C130", "title": "Gaussian mixtures move with the data under rotations and changes of unit, but not under translations", "statement": "Multiplying the samples by a rotation or reflection and by a factor c, with the regularisation multiplied by the square of c, reordering the samples and renumbering the components in the initial responsibilities changes the result of fit accordingly: the call throws in the same cases, the weights are renumbered, means and covariances are transformed in the same way as the samples, the bound decreases by d log c, and posteriors of transformed points are the renumbered old ones, with the same predicted components if the numbering is kept. Means however are combinations of the samples whose coefficients add up to one minus ten machine epsilons over the size of the component: for equal samples v the published means are v times a factor less than one, so translations of the data are not respected exactly.", "quantifier": "all data sets, numbers of components (one for the tied type), initial responsibilities, tolerances, numbers of initialisations and of iterations, all matrices A with A^T A = c^2 I, c > 0, and all permutations of samples and components, in real arithmetic", "why_tests_cant": "The equivariance is a statement about pairs of complete EM runs for a continuous family of transformations; the deficit in the means is of the order of the machine epsilon.", "anchors": ["src/methods/mixture/gaussian_mixture.hpp: fit_data, estimate_gaussian_parameters, predict, predict_prob"]}
{"id": "C131", "title": "Rounding errors of sums, means, variances, predictions and nearest centroids are bounded, but variances can be negative", "statement": "With an arithmetic whose operations have a relative error of at most u, in any order of summation and with or without fused operations: a sum, mean and linear prediction differ from the exact value by at most ((1+u)^k - 1) times the value for absolute numbers, with k the number of operations on the longest path; the label of a linear classifier is the exact one unless the score is that small; a variance is within twice that factor times the mean square; a distance to a centroid has a small relative error and is zero only for equal points; the centroid chosen for a sample is nearest up to that factor, is the nearest one if it is nearest by a margin, and is the first equal one if there is one. With exact arithmetic these reduce to the real-number results. In double precision the variance of three samples 0.1 can however be computed as -2^-59.", "quantifier": "all arithmetics with relative error bound u < 1, all data, all orders and bracketings of sums, all choices of fused or separate products; overflow and underflow are left out", "why_tests_cant": "The order of the additions depends on compiler, vector unit and length; the bounds hold for all of them and for all data, a test sees one machine.", "anchors": ["src/core/math/ops.hpp: var, mean", "src/methods/cluster/kmeans.hpp: nearest centroid", "src/methods/linear_model/base.hpp: predict_label"]}
{"id": "C132", "title": "In floating point a confidently classified sample turns the logarithmic loss into NaN, and training then cannot end normally", "statement": "With an arithmetic with rounding, infinities and NaN: for labels 0 and 1 the logarithmic loss is NaN exactly if the computed probability of some sample is one for its own label, otherwise infinite exactly if the computed probability is zero for the own label of some sample, otherwise finite; in any order of summation. In double precision computed probabilities are exactly one from the score 37 on (17 in single precision), and scores between -36 and 36 are safe. A NaN epoch resets the counter of epochs without improvement, so that a mini-batch optimizer that meets one in every num_iters_no_change consecutive epochs runs into its exception; in particular if a sample with label 1 keeps such a score. In exact arithmetic loss and stopping epoch are those of the other properties.", "quantifier": "all scores, labels, penalties, orders of summation, arithmetics with monotone rounding and all library exponentials with the stated accuracy; all sequences of epoch losses, tolerances and iteration limits", "why_tests_cant": "A test sees NaN for the data and machine it runs on; the exact condition and the consequence for every later epoch are statements about all data and arithmetics.", "anchors": ["src/core/loss/log_loss.hpp: evaluate", "src/core/math/extmath.hpp: sigmoid", "src/core/optimizer/sgd/sgd.hpp: optimize", "src/core/optimizer/sgd/sag.hpp", "src/core/optimizer/sgd/tg.hpp"]}
{"id": "C133", "title": "Sigmoid, softmax and logsumexp use no exponentials of positive numbers and stay finite", "statement": "The results of sigmoid, of softmax and of logsumexp of a line do not depend on the exponential function at positive arguments, so nothing can overflow there. With rounding, in any order of summation: probabilities of the sigmoid are between zero and one for every score; logsumexp of a non-empty line is finite; softmax of a non-empty line has entries between zero and one, never 0/0, with positive entries where the input is largest, and the entries add up to one up to the rounding factor.", "quantifier": "all finite inputs, all arithmetics with monotone rounding, all exponential functions with values between zero and one for arguments that are not positive, all orders of summation", "why_tests_cant": "Absence of overflow and division by zero is a claim about all inputs and all orders of summation.", "anchors": ["src/core/math/extmath.hpp: sigmoid, softmax", "src/core/math/linalg.hpp: logsumexp"]}
{"id": "C134", "title": "The softmax loss subtracts the largest score of all samples, so samples with small scores turn it into NaN", "statement": "The softmax loss is NaN exactly if for some sample the exponentials of all its scores minus the largest score of all samples are computed as zero; otherwise infinite exactly if that holds for the score of the label of some sample; otherwise finite. If the largest score of each sample were subtracted, the first case could not occur. In double precision two samples with finite individual losses can have the loss NaN together.", "quantifier": "all scores, labels, penalties, orders of summation, arithmetics with monotone rounding and library exponentials that may underflow", "why_tests_cant": "The failure needs scores far apart in one batch; the exact condition quantifies over all batches.", "anchors": ["src/core/loss/softmax_loss.hpp: evaluate"]}
{"id": "C135", "title": "Weights found by L-BFGS are reached by a bounded chain of accepted line-search steps", "statement": "If LBFGS::optimize publishes weights, these are reached from the initial weights by at most max_iter steps (any number if max_iter is zero). Each step goes along a direction in which the loss does not increase to first order, by a positive step length, to a point that satisfies the selected search condition (sufficient decrease with constant ftol; for WOLFE also the curvature condition with constant wolfe; otherwise the strong version). For logistic regression with the solver lbfgs the loss is the logarithmic loss of the data with the intercept column and the constants are those given to the constructor; the other outcome is that the gradient at the initial weights is already small relative to the weights, and then no weights are stored.", "quantifier": "all losses, data, initial weights, constants, policies, contents of uninitialised memory and numbers of iterations", "why_tests_cant": "The chain of intermediate points is not observable from outside; its existence with the right constants for every loss and run needs an invariant of the loop.", "anchors": ["src/core/optimizer/lbfgs/lbfgs.hpp: optimize", "src/core/optimizer/lbfgs/search_policies/backtracking.hpp: search", "src/core/optimizer/lbfgs/search_policies/bracketing.hpp: search", "src/methods/linear_model/logistic_regression.hpp: fit"]}
{"id": "C136", "title": "Each further k-means++ centroid is the best of 2 + floor(ln k) independent proposals", "statement": "KMeans with init \"kmeans++\" and k clusters: the centroids chosen before a given one do not depend on the random numbers drawn for it, and with independent uniform numbers from [0,1) the inertia after adding it exceeds t with probability p to the power 2 + floor(ln k), where p is the share, in the inertia before, of the rows whose addition would leave more than t.", "quantifier": "all data sets, numbers of clusters, first rows, random numbers for the other centroids, thresholds t", "why_tests_cant": "An exact probability over a continuous distribution for all data cannot be obtained by sampling.", "anchors": ["src/methods/cluster/kmeans.hpp: kmeans_plusplus, init_centroid"]}
{"id": "C137", "title": "In floating point a k-d tree answers up to a factor of about 1 + (4n+8)u, and exactly if both kinds of distance are added up alike", "statement": "A k-d tree over rows of n features whose first feature has the largest spread, with leaves of at least three rows, under rounding with unit roundoff u, where the distances of boxes and of rows are added up in any orders, for each of the three metrics. A k-nearest query returns k different rows with computed distances in order; for a returned row with exact distance r and a row left out with exact distance p, (1-u)^(2n+4) r <= (1+u)^(2n+4) p. A radius query returns different rows whose computed distances are at most the radius, among them every row with (1+u)^(2n+4) p < (1-u)^(n+2) radius. If both distances are added up in the same order and rounding is monotone and symmetric, the answer consists of the rows nearest by computed distance.", "quantifier": "all data sets with that spread, leaf sizes, queries, k, radii, metrics, roundings with relative error at most u, orders of summation", "why_tests_cant": "The order of additions depends on the vector unit and the compiler; a row wrongly pruned because of rounding appears only for rare almost equal distances.", "anchors": ["src/core/tree/kd_tree.hpp: check_intersection, compute_distance, query, query_radius", "src/core/common.hpp: norm", "src/core/metric.hpp: minkowski_distance"]}
{"id": "C138", "title": "L-BFGS with a Wolfe condition converges linearly on strongly convex smooth losses and ends without an iteration limit", "statement": "Let the loss be strongly convex with constant mu and let its gradient have Lipschitz constant L. Run L-BFGS with m correction pairs, a Wolfe condition (regular or strong), sufficient-decrease constant c1 > 0 and curvature constant c2 < 1. Every completed iteration lowers the loss by at least c1 (1-c2) / (L kappa) times the squared gradient, where kappa depends only on m and L/mu. So the excess over any other weights shrinks by a fixed factor below one per iteration. With a positive tolerance the run ends after a number of iterations bounded by the first gradient, even when the maximal number of iterations is 0, which means unlimited. This holds for ridge-penalised mean squared error and for logistic regression with a positive ridge factor.", "quantifier": "all losses with bounded curvature, both line searches, all initial weights, memory sizes, histories and contents of uninitialised memory; for the instances all data sets and labels", "why_tests_cant": "A bound on the number of iterations for every data set, and a contraction factor for every iteration, cannot be observed on finitely many runs; a test that loops forever gives no verdict.", "anchors": ["src/core/optimizer/lbfgs/lbfgs.hpp: optimize", "src/core/optimizer/lbfgs/search_policies/backtracking.hpp: search", "src/core/optimizer/lbfgs/search_policies/bracketing.hpp: search", "src/core/loss/log_loss.hpp: evaluate, gradient", "src/core/loss/mean_squared_error.hpp: evaluate, gradient", "src/methods/linear_model/logistic_regression.hpp: fit_data"]}
{"id": "C139", "title": "The bracketing search succeeds within a bounded number of trials, so L-BFGS with it reaches the requested gradient tolerance", "statement": "On a strongly convex loss with Lipschitz gradient, the bracketing line search with a Wolfe condition finds an accepted step along any descent direction if the step limits are wide enough and the number of trials is at least A + B + 1, where 2^A times the first step is long enough and the 2^B-th part of that is short enough. If these limits suit the problem, the test of the loss decrease is off (delta <= 0) and the iteration limit is not reached, L-BFGS returns weights whose gradient has length at most tol * max(1, length of the weights), and whose loss exceeds that of any other weights by at most the square of this number over 2 mu; the only other result is no weights, when the initial weights already pass the test. Logistic regression inherits this.", "quantifier": "all losses with bounded curvature, initial weights, directions, parameters within the stated limits; for logistic regression all data sets, labels, initial weights and positive ridge factors", "why_tests_cant": "That a line search never gives up and that the returned weights are near the optimum must hold along every run; the optimum itself is unknown to a test.", "anchors": ["src/core/optimizer/lbfgs/search_policies/bracketing.hpp: search", "src/core/optimizer/lbfgs/lbfgs.hpp: optimize", "src/methods/linear_model/logistic_regression.hpp: fit_data"]}
{"id": "C140", "title": "Gaussian naive Bayes answers NaN for every sample as soon as one variance is not positive, and smoothing prevents this exactly if some variance is positive", "statement": "Computing with rounding, infinities and NaN: if all variances after fit are positive, all log probabilities and probabilities of every sample with finite features are numbers. If a single variance of a single class is zero or negative, the probabilities of all classes are NaN for every sample. Positive smoothing makes all variances positive if no computed variance is negative and one is positive. If within every class all samples are equal, smoothing has no effect (for representable sums and in exact arithmetic the variances stay zero) and all answers are NaN; training with one sample per class is such a case. In exact arithmetic these are the only two cases. In double precision, three copies of 0.1 per feature and class can even give negative variances for every non-negative smoothing, with NaN for every sample. In exact arithmetic the model agrees with the fit and scores of the model over the real numbers.", "quantifier": "all training sets, numbers of classes and features, smoothing factors, samples, roundings and orders of additions", "why_tests_cant": "Tests see NaN on single data sets; that one bad variance spoils all classes for every sample, and exactly when smoothing helps, ranges over all data, roundings and orders of additions.", "anchors": ["src/methods/naive_bayes/gaussian_naive_bayes.hpp: joint_log_likelihood, update_mean_variance, fit", "src/methods/naive_bayes/base.hpp: predict_log_prob, predict_prob", "src/core/math/ops.hpp: var", "src/core/math/linalg.hpp: logsumexp"]}
{"id": "C141", "title": "The k-d tree is balanced, and its depth and size are determined by the number of rows and leaf_size", "statement": "After construction the nodes form a binary tree: each node is reached from the root by exactly one sequence of left and right turns. A leaf after d turns holds n / 2^d rows, rounded up or down. A node after d > 1 turns exists only if leaf_size * 2^(d-1) < n, so the depth is at most 1 + log2(n / leaf_size). The number of nodes is twice the number of leaves minus one. There are at least n / leaf_size leaves, and with more than leaf_size rows at most n / floor((leaf_size + 1) / 2). With at most leaf_size rows there are exactly two leaves.", "quantifier": "all data sets for which the construction succeeds, all leaf sizes", "why_tests_cant": "Balance for every number of rows and every data set, including sets with repeated rows, is an induction over the construction; tests see single trees and the tree is not accessible from outside.", "anchors": ["src/core/tree/kd_tree.hpp: build_tree"]}
{"id": "C142", "title": "Decision trees in floating point are the exact trees with correctly rounded thresholds", "statement": "If the features are floating point numbers, averages are rounded to nearest and between any two different values of a feature lies another floating point number, then a fitted classification or regression tree has the same nodes, values and split features as the tree fitted in exact arithmetic. Each threshold is the floating point number nearest to the exact threshold. Predictions for the training samples are the same, and so are those for all other floating point queries without a value equal to a threshold. Without the condition on the data every threshold still lies between two feature values of the samples of its node, and counts and limits are as in exact arithmetic. The condition cannot be dropped: with three consecutive numbers of type double a sample gets the wrong class although exact arithmetic separates it.", "quantifier": "all formats closed under doubling and halving, all ways to break ties, all training data in the format, all criteria and hyper-parameters", "why_tests_cant": "Tests use data with few digits, where averages are exact. The effect of rounding needs neighbouring numbers, and the agreement with exact arithmetic cannot be tested without an exact implementation.", "anchors": ["src/methods/tree/base.hpp: choose_feature_threshold", "src/methods/tree/base.hpp: best_split", "src/methods/tree/decision_tree_classifier.hpp: build_tree", "src/methods/tree/decision_tree_regressor.hpp: build_tree"]}
{"id": "C143", "title": "Destroying a copy of a k-d tree disables the original, copies of hash trees share their counters, copies of decision trees are independent", "statement": "Copying, assigning or moving a KDTree shares its nodes, and the destructor empties them for all. In every program that constructs, copies, assigns and destroys k-d trees, a tree answers query and query_radius like a freshly built one as long as no tree of its family (itself, its copies and what it was copied or assigned from) has been destroyed, and every query fails with std::out_of_range once one has. So a tree is unusable after it was passed by value, after a temporary was assigned to it, and after a std::vector holding it has grown; programs that never copy or assign are safe. Copies of a HashTree are one and the same tree: each counts what was registered and added through any of them, only the lists of earlier reports are separate. Decision trees behave like values although copies share their nodes: fitting or destroying one object never changes the predictions of another.", "quantifier": "all programs (sequences of construct, copy, assign, destroy and the member functions) on any number of objects, all data, all queries", "why_tests_cant": "Tests create one tree, query it and let it go out of scope. The order of copies and destructions that spoils a tree depends on the surrounding program, for instance on the capacity of a vector.", "anchors": ["src/core/tree/kd_tree.hpp: KDTree", "src/core/tree/kd_tree.hpp: query", "src/core/tree/hash_tree.hpp: HashTree", "src/methods/tree/decision_tree_classifier.hpp: delete_tree", "src/methods/tree/decision_tree_regressor.hpp: delete_tree"]}
{"id": "C144", "title": "Shuffles come from one small seed: most orders of 13 or more samples never occur", "statement": "shuffle_data, and with it train_test_split and the epochs of the stochastic optimizers, takes its whole permutation from the clock reduced to 32 bits and then to one of 2^31 - 2 engine states. So at most 2^31 - 2 orders can occur whatever the number of samples, with 13 or more samples some order never occurs, and two shuffles 2^32 clock ticks apart are the same. If there are more than 2^31 - 2 ways to choose the training samples (34 samples split in half suffice), some choice is never made. The outputs of the engine for neighbouring clock readings differ by a constant. random::permutation, used to initialise k-means, takes its permutation from one 32-bit word: with 13 or more entries some order never occurs, and with three or more entries the orders are not equally likely even if the words are.", "quantifier": "all numbers of samples, all clock readings and words of the random device, all Mersenne twisters, all ways to turn engine outputs into positions", "why_tests_cant": "That something never occurs cannot be seen in samples; there are more orders of 13 samples than can be tried.", "anchors": ["src/core/math/shuffle.hpp: shuffle_data", "src/core/math/random.hpp: permutation", "src/core/data/split.hpp: train_test_split"]}
{"id": "C145", "title": "Stochastic optimizers resume from the weights of earlier calls, even failed ones; L-BFGS starts afresh but may keep stale coefficients", "statement": "Each call of optimize on an SGD, SAG, truncated gradient or coordinate descent object acts as a new optimizer constructed with the weights the object has reached: a call that returns publishes its weights through get_coef, a call that fails leaves get_coef as it was (empty at first) but keeps the weights it reached. After any sequence of calls on an SGD object, whatever their outcomes, the weights are the first ones with batches applied one after the other, of each call a first part of its batches in order; a call that fails to converge has applied all its epochs. Without shuffling and with constant learning rate, repeated failing calls leave the weights of one longer failing call; k calls of coordinate descent with m iterations are one call with k * m. Calls on an L-BFGS object all start at the weights given to the constructor and do not influence each other, but get_coef answers with the last call that computed something: a call for data that the initial weights already minimise returns normally and leaves the coefficients of earlier data in place.", "quantifier": "all sequences of calls with any data, all losses, update policies, hyper-parameters and shuffles", "why_tests_cant": "Tests construct an optimizer, call optimize once and read the coefficients. The state left behind by a failed call shows only in a later call.", "anchors": ["src/core/optimizer/base.hpp: get_coef", "src/core/optimizer/sgd/sgd.hpp: optimize", "src/core/optimizer/sgd/sag.hpp: optimize", "src/core/optimizer/sgd/tg.hpp: optimize", "src/core/optimizer/sgd/scd.hpp: optimize", "src/core/optimizer/lbfgs/lbfgs.hpp: optimize"]}
{"id": "C146", "title": "A linear model answers from its last successful fit only, whatever the program did before", "statement": "In every program that constructs, copies, assigns, destroys, fits and queries linear models and catches their exceptions, the answer of an object depends only on the last fit that returned in its history (continued from the object it was copied from): refitting forgets everything earlier, a fit that throws changes no later answer, copies are independent. Before a fit has returned, asking for coefficients, predictions or probabilities violates an assertion in every class. Logistic regression with L-BFGS whose random initial weights already have a gradient within the tolerance returns from fit normally but has forgotten what it knew: every later question violates an assertion. A softmax regression never answers both kinds of questions: after a single class predictions throw, otherwise get_coef violates an assertion. A linear model with intercept and d + 1 weights accepts matrices of 0 to d + 1 columns and silently uses as many weights as there are columns plus the last weight; without intercept the number of columns must match.", "quantifier": "all programs over any number of objects, all data and random draws, all linear model classes", "why_tests_cant": "Tests construct an object, fit it once and query it. Programs can interleave any number of objects, copies and failures.", "anchors": ["src/methods/linear_model/base.hpp: predict", "src/methods/linear_model/linear_regression.hpp: fit", "src/methods/linear_model/ridge_regression.hpp: fit", "src/methods/linear_model/lasso_regression.hpp: fit", "src/methods/linear_model/perceptron.hpp: fit", "src/methods/linear_model/logistic_regression.hpp: fit", "src/methods/linear_model/softmax_regression.hpp: predict"]}
{"id": "C147", "title": "Loading into filled containers: rows accumulate without labels, are overwritten with labels, while labels accumulate", "statement": "Loading any sequence of files into the same rows without labels appends the rows of all files that can be opened, in order. The labelled variant on filled vectors replaces rows, cutting surplus rows and keeping surplus entries of old rows, and appends the labels to those already there; an old row that is reused and shorter than the features of the file is written outside its bounds. So loading several labelled tables of the same width one after the other leaves the rows of the last beside the labels of all.", "quantifier": "all sequences of files, all contents of the containers", "why_tests_cant": "Tests load one file into empty containers. The containers may hold anything.", "anchors": ["src/core/data/load.hpp: loadtxt"]}
{"id": "C148", "title": "Distances and clusterings survive dimension reduction", "statement": "Transforming the training data with PCA or (with as many random vectors as features) TruncatedSVD never increases the distance of two samples; PCA leaves all distances unchanged if the centred samples have a rank of at most the number of components. Cluster centroids found on the transformed data can be taken back to the original space through the components: every sample keeps its KMeans label, and the inertia grows by exactly what the reconstruction loses. If the centroids are within a factor g of the best K on the transformed data, they are within g+1 of the best K on the original data, provided there are at least K-1 (PCA) or K (TruncatedSVD) components.", "quantifier": "all data sets, numbers of components and clusters, all lists of centroids; exact arithmetic, correct decompositions", "why_tests_cant": "Compares one clustering with all clusterings of all data sets.", "anchors": ["src/methods/decomposition/pca.hpp: fit_data, transform_data", "src/methods/decomposition/truncated_svd.hpp: fit_data, transform_data", "src/methods/cluster/kmeans.hpp: predict_label"]}
{"id": "C149", "title": "What linear model objects answer in a program", "statement": "In any program that constructs, fits and queries linear model objects, a query of an object whose last fit succeeded is answered from that fit alone. LinearRegression (with samples on which different weights give different scores) reports the one weight list with the least squared training error, and RidgeRegression the one with the least squared error plus lambda times the squared weights; predict returns the scores of these weights. LassoRegression without intercept reports weights whose penalised loss exceeds the minimum by at most a bound divided by max_iter; with intercept a fit after any history has undefined behaviour. Perceptron answers 1 for positive scores and 0 otherwise, and gives the positive training samples 1 if its weights classify them. LogisticRegression answers class 0 for positive scores, and probabilities sigmoid(score), 1-sigmoid(score) in that order. SoftmaxRegression answers class 0 and equal probabilities for every query, whatever was fitted, or throws invalid_argument for a single query row or a single class.", "quantifier": "all programs over any number of objects, all data, draws and queries with the fitted number of columns; exact arithmetic", "why_tests_cant": "Programs are unbounded sequences of operations, and minimality compares with all weight lists.", "anchors": ["src/methods/linear_model/base.hpp: fit, predict, get_coef", "src/methods/linear_model/linear_regression.hpp: fit_data", "src/methods/linear_model/ridge_regression.hpp: fit_data", "src/methods/linear_model/lasso_regression.hpp: fit_data", "src/methods/linear_model/perceptron.hpp: fit_data, predict_label", "src/methods/linear_model/logistic_regression.hpp: predict_label, predict_label_prob", "src/methods/linear_model/softmax_regression.hpp: fit_data, predict_label, predict_label_prob"]}
{"id": "C150", "title": "Gaussian mixture objects after caught exceptions", "statement": "In a program that uses one GaussianMixture object (type full, or tied with one component) and catches exceptions, the calls of fit so far determine every later answer. A call with fewer samples than components changes nothing. A call that throws because no initialisation converged has nevertheless replaced the mixture: weights, means, covariances and predictions are those of its last initialisation, while get_precisions and get_lower_bound still report earlier calls. A successful call installs its best mixture, appends its inverse covariances to those of all earlier successful calls, and sets the bound. If the Cholesky decomposition of the first estimate fails, the object is left with new means, weights and covariances but old Cholesky factors. Reading the bound before a successful fit, or predicting before an accepted one, is undefined; fit never is.", "quantifier": "all sequences of fits and queries, all data and random numbers; exact arithmetic", "why_tests_cant": "Histories are unbounded, and tests rarely go on using an object after an exception.", "anchors": ["src/methods/mixture/gaussian_mixture.hpp: fit_data", "src/methods/mixture/gaussian_mixture.hpp: initialize_parameters", "src/methods/mixture/gaussian_mixture.hpp: m_step", "src/methods/mixture/gaussian_mixture.hpp: predict", "src/methods/mixture/gaussian_mixture.hpp: predict_prob", "src/methods/mixture/gaussian_mixture.hpp: get_precisions", "src/methods/mixture/gaussian_mixture.hpp: get_lower_bound"]}
{"id": "C151", "title": "L-BFGS with the Armijo condition is safe on strictly monotone gradients and fails on linear losses", "statement": "If along every line the slope of the loss strictly increases, as for the mean squared error and the log loss with a positive ridge factor, L-BFGS cannot fail with any condition of the line search, the Armijo condition included: every direction descends, every correction pair has a positive product, and the weights found have a strictly smaller loss than the initial ones or are the initial ones. Hence fit of LogisticRegression with solver \"lbfgs\", a positive ridge factor and an iteration limit succeeds on all data. On every linear loss, however, the Armijo condition accepts the first step and the following direction is a division of zero by zero, unless the tests of the gradient or the loss or an iteration limit of one stop before.", "quantifier": "all losses of the kinds named, all data, initial weights, parameters and numbers of iterations; exact arithmetic", "why_tests_cant": "All losses and runs; needs positive definiteness of an implicit matrix as an invariant, and the failing losses form a whole family.", "anchors": ["src/core/optimizer/lbfgs/lbfgs.hpp: optimize", "src/core/optimizer/lbfgs/search_policies/backtracking.hpp: search", "src/core/optimizer/lbfgs/search_policies/bracketing.hpp: search", "src/methods/linear_model/logistic_regression.hpp: fit_data", "src/core/loss/log_loss.hpp: gradient", "src/core/loss/mean_squared_error.hpp: gradient"]}
{"id": "C152", "title": "Random mini-batches and hold-out sets are fair samples, but the ridge penalty grows with smaller batches", "statement": "If the random numbers behind the shuffles are uniform: the average over a mini-batch of shuffled data (any position, any batch size b) of any number attached to the samples has as its mean the average over all n samples, and as its variance that of sampling without replacement, (variance of the samples) / b * (n - b) / (n - 1). The same holds for the test samples of train_test_split, so the test error of a fixed model is an unbiased estimate of its error on all samples. For the squared error and the log loss the mean of the loss and of the gradient of a batch is not the loss and gradient of all samples but that with the ridge parameter multiplied by n / b, since the penalty is divided by the number of samples in the batch: mini-batch training with parameter lambda follows the objective with parameter lambda * n / b.", "quantifier": "all data sets, per-sample numbers, weights, ridge parameters, batch sizes and positions, split fractions; averages over all n! draws of the shuffle", "why_tests_cant": "A statement about the average over all n! shuffles for every n; tests see a few shuffles and cannot distinguish a bias of the penalty from noise.", "anchors": ["src/core/math/shuffle.hpp: shuffle_data", "src/core/optimizer/sgd/sgd.hpp: optimize", "src/core/data/split.hpp: train_test_split", "src/core/loss/mean_squared_error.hpp: evaluate", "src/core/loss/mean_squared_error.hpp: gradient", "src/core/loss/log_loss.hpp: evaluate", "src/core/loss/log_loss.hpp: gradient"]}
{"id": "C153", "title": "SGD on the softmax loss with one batch descends, at a guaranteed rate, to a small gradient", "statement": "Let SGD optimise SoftmaxLoss with all samples in one batch, class numbers 0..k-1 as labels, any shuffling, and let L be half the sum of squared features divided by the number n of samples, plus lambda/n. With rates in [0, 2/L], the mean negative log likelihood plus lambda/(2n) times the sum of squared weights (the function whose gradient SoftmaxLoss::gradient is, not the one SoftmaxLoss::evaluate reports when lambda > 0) is at the returned weights no larger than at the initial ones. With rates up to 1/L and a start from which no gradient is clipped, it exceeds its value at any other weights by at most the squared distance of these from the start divided by twice the sum of the rates of more than num_iters_no_change epochs. Without penalty and with num_iters_no_change > 0 and positive rates, rate times squared gradient at the returned weights is below 2*tol*n. With any batch size and any rates there is an M such that optimize throws for max_iter <= M and returns one and the same matrix of weights for all larger max_iter.", "quantifier": "All matrices of samples, all numbers of classes, labels, initial weights, penalties >= 0, tolerances, learning rate schedules within the bounds, shufflings, and all competing weights.", "why_tests_cant": "The bounds compare with all other weights, and need the curvature of log-sum-exp for arbitrary scores; a test sees one run and no bound for the unknown minimum.", "anchors": ["src/core/loss/softmax_loss.hpp: evaluate", "src/core/loss/softmax_loss.hpp: gradient", "src/core/optimizer/sgd/sgd.hpp: optimize", "src/core/optimizer/sgd/update_policies/vanilla_update.hpp: update"]}
{"id": "C154", "title": "Gradient clipping bounds how far mini-batch training can carry the weights", "statement": "Whatever the loss function and the data, if SGD returns weights after K epochs then no weight differs from its initial value by more than 1e10 * (number of batches) * (sum of |learning rate| over the K epochs), for the vanilla and momentum update; for the Nesterov update the bound is multiplied by |1 + mu|. SAG obeys the bound multiplied by (number of batches) / (batch size), because its direction is a sum over the batches divided by the batch size. With TruncatedGradient and nonnegative penalties the magnitude of each weight grows by at most the bound of SGD. The same holds entrywise for SGD with SoftmaxLoss and a matrix of weights. The bound is attained.", "quantifier": "All loss functions (arbitrary gradients), all data, update policies, initial weights, learning rate schedules (including negative and growing ones), batch sizes > 0, shufflings.", "why_tests_cant": "The statement is about arbitrary losses and the worst gradient at every step of every run; a test only sees gradients its data produces.", "anchors": ["src/core/optimizer/sgd/sgd.hpp: optimize", "src/core/optimizer/sgd/sag.hpp: optimize", "src/core/optimizer/sgd/tg.hpp: optimize", "src/core/optimizer/base.hpp", "src/core/optimizer/sgd/update_policies/nesterov_momentum_update.hpp: update"]}
{"id": "C155", "title": "An Apriori object remembers databases on which it has thrown, and reports their rules later", "statement": "In every program that uses one Apriori object and catches its exceptions, each call of fit_transform adds the frequent itemsets of its database to the object, whether it completes or throws; rules are drawn from everything added so far and appended when a call completes; get_rules and print_rules show the rules appended so far and nothing ever removes one. For consistently ordered databases the itemsets added are exactly the frequent ones with their supports, even when the call throws. Consequently n completed calls on the same database report every rule n times, and after a caught exception on X a completed call on Y reports the rules of the itemsets frequent in either, with the counts of Y where Y has the itemset and of X elsewhere, so confidences can exceed one. print_rules writes one line per rule, and its text determines antecedents, consequents and the text of the confidences.", "quantifier": "All sequences of fit_transform, get_rules and print_rules with arbitrary databases and caught exceptions, all parameters; all lists of rules for printing.", "why_tests_cant": "A test runs one sequence of calls and rarely continues after an exception; the statement covers every history of calls and every mixture of databases.", "anchors": ["src/methods/rule_model/apriori.hpp: fit_data", "src/methods/rule_model/apriori.hpp: transform_data", "src/methods/rule_model/apriori.hpp: print_rules", "src/methods/rule_model/apriori.hpp: get_rules"]}
{"id": "C156", "title": "Ridge regression is stable: changed targets, samples or regularisation move weights and predictions by bounded amounts", "statement": "Let ridge regression have a regularisation lambda > 0. If the targets change, the predictions on the training data change by at most the Euclidean length of that change (also for linear regression when its weights are determined) and the weights by at most that length divided by 2 sqrt(lambda); the bound is attained. Leaving out a sample moves the weights by at most |sample| * |its residual| / lambda, so a sample that is fitted exactly has no influence, and the error at the sample does not shrink. Replacing a sample moves the weights by at most the sum of |sample| * |error| over both versions divided by lambda. Changing lambda to mu moves them by at most |mu - lambda| / lambda times the length of the weights for mu.", "quantifier": "All data matrices, targets, samples left out or replaced, regularisations lambda > 0 (mu arbitrary where the fit for mu succeeds), with and without intercept; exact arithmetic.", "why_tests_cant": "A bound on the effect of every possible change of every data set cannot be sampled; a test compares finitely many pairs of fits.", "anchors": ["src/methods/linear_model/ridge_regression.hpp: fit", "src/methods/linear_model/linear_regression.hpp: fit", "src/methods/linear_model/base.hpp: predict"]}
{"id": "C157", "title": "Nearest neighbour distances are stable under moved points, added rows and the choice of the metric", "statement": "Under the conditions in which k nearest neighbour queries are exact: if every row of the data moves by at most e and the query point moves by d, the j-th reported distance changes by at most e + d, for every j. Adding rows, anywhere in the data, never increases the j-th reported distance. Every row that the radius query reports for one point is reported for another point whenever the second radius exceeds the first by more than the distance of the points, so no fewer rows are reported. For the same data and query, the j-th distance under the maximum metric is at most the one under the Euclidean metric, and this at most the one under the Manhattan metric, while the last two exceed the first by at most the factors sqrt(m) and m for m features.", "quantifier": "all pairs of data sets in which every leaf holds at least three rows and the first feature is the widest, all leaf sizes, all lawful priority queues, all query points, all k up to the number of rows, all radii; every monotone norm with the triangle inequality (the three of the library are shown to be such); exact arithmetic", "why_tests_cant": "The bounds compare the answers of two different trees for arbitrary perturbations of all rows; a test compares finitely many pairs of trees.", "anchors": ["src/core/tree/kd_tree.hpp: build_tree, query_single_data, query_radius_single_data", "src/methods/neighbors/k_nearest_neighbors.hpp"]}
{"id": "C158", "title": "Tables are loaded from text exactly, and what other text does", "statement": "A file that shows a table of decimal numbers (blanks around and between the numbers, optional signs, leading zeros, points and exponents, with or without a last newline) is loaded with exactly the numbers shown, by all three variants of loadtxt; likewise for integer types as long as the numbers are in range. Carriage returns before newlines change nothing for any text. Of a comma separated line only the first number is read, so such a file gives no features and its first column as labels. A blank line after a line with numbers makes loading into matrices read out of bounds. A number out of range of a signed type drops itself and the rest of its line; a negative number is accepted by unsigned types and wraps around. string_to_integer returns the leading number cut to the range of the type, 0 if no number follows the blanks, and an uninitialised value for a blank string.", "quantifier": "all texts of the described form, all tables, all integer types, all contents already in the containers; decimal values exact (no rounding to double)", "why_tests_cant": "The number of ways to write a table is unbounded (digits, blanks, signs, exponents, line ends); tests load a few files with one layout.", "anchors": ["src/core/data/load.hpp: loadtxt", "src/core/common.hpp: string_to_integer"]}
{"id": "C159", "title": "Random matrices have their range and every such matrix can occur; k-means++ is defined for every seed", "statement": "rand(n, m, low, high) with low < high returns an n by m matrix with low <= entry < high; every such matrix occurs for some numbers of the generator, and an entry is below t with probability (t - low)/(high - low); low = high gives constant matrices and low > high is undefined. randn takes mean and standard deviation: its matrix is the standard one scaled and shifted, and a standard deviation that is not positive is undefined. randint includes both ends: low <= entry <= high, every such matrix can occur, and the values of the range are hit equally often. Hence k-means++ on at least one sample returns k rows of the data for every seed, while on no samples the range of its first index wraps around and a row out of bounds is read.", "quantifier": "all shapes, bounds and sequences of numbers of the generator; all data sets and numbers of clusters; exact arithmetic", "why_tests_cant": "A test sees the matrices of a few seeds; it cannot show that a value never occurs, that every matrix can occur, or the probabilities.", "anchors": ["src/core/math/random.hpp: rand, randn, randint", "src/methods/cluster/kmeans.hpp: kmeans_plusplus"]}
{"id": "C160", "title": "Linear classifiers, k-means and multinomial naive Bayes divide the samples into convex regions, trees into boxes", "statement": "If predict of Perceptron, LogisticRegression, SoftmaxRegression, KMeans or MultinomialNB gives two samples the same label, it gives this label to every sample on the segment between them, ties included; probabilities of logistic regression on the segment stay between those of the ends, and predictions of linear regressions divide in the same ratio as the segment. GaussianNB has convex regions if all classes have the same variances, but in general a class can be chosen on both sides of another one. A decision tree divides the samples among at most 2^(max_depth+1) boxes parallel to the axes: each sample lies in exactly one, and the answer depends on the box only.", "quantifier": "all weights, centroids, counts and variances, all samples and segments; all fitted trees with min_samples_leaf = 0; exact arithmetic", "why_tests_cant": "The statement is about all points between two samples and about all samples in a region, of which there are infinitely many.", "anchors": ["src/methods/linear_model/perceptron.hpp: predict", "src/methods/linear_model/logistic_regression.hpp: predict", "src/methods/linear_model/softmax_regression.hpp: predict", "src/methods/cluster/kmeans.hpp: predict", "src/methods/naive_bayes/multinomial_naive_bayes.hpp: joint_log_likelihood", "src/methods/naive_bayes/gaussian_naive_bayes.hpp: joint_log_likelihood", "src/methods/tree/decision_tree_classifier.hpp: predict_prob", "src/methods/tree/decision_tree_regressor.hpp: predict"]}
{"id": "C161", "title": "What a KMeans object answers in any program of fit and predict calls", "statement": "A KMeans object with k >= 1 clusters and init \"random\" or \"kmeans++\" runs through a sequence of fit and predict calls exactly if every fit has at least one sample (at least k of them for \"random\") and, with assertions compiled in, one column or max_iter = 0, and every predict of at least one sample follows a fit with the same number of columns. Every label is then the first nearest of k centroids that only fit replaces and that are never worse than some k samples of the last training data. In all other cases the behaviour is undefined, and nothing is ever thrown: predict before fit is not detected. Answers after a fit do not depend on earlier calls, nor on num_init. With any other init string fit reads memory that was never written as soon as there is a sample and an iteration; it never falls back to a default and never throws. An object with no clusters labels everything 0, and its fit is undefined with \"kmeans++\".", "quantifier": "all parameters, all sequences of fit and predict calls with all matrices and all random numbers; exact arithmetic", "why_tests_cant": "Sequences of calls and the random numbers are unbounded, and a test cannot show undefined behaviour: a run with a misspelt init may look fine.", "anchors": ["src/methods/cluster/kmeans.hpp: init_centroid", "src/methods/cluster/kmeans.hpp: fit", "src/methods/cluster/kmeans.hpp: predict", "src/methods/cluster/kmeans.hpp: KMeans"]}
{"id": "C162", "title": "Training on every sample several times", "statement": "If every training sample is given r times, in any order, then: a classification tree with gini or entropy and r-fold min_samples_split and min_samples_leaf answers the same probabilities and classes for all training samples, but possibly different ones for new samples; a regression tree with squared_error is undefined for r >= 2 unless its root is a leaf by min_samples_split or min_stdev; linear regression gives the same weights, ridge regression with r-fold lambda too, the lasso with the same lambda, whatever the shuffles are; the losses and gradients of squared error and logarithmic loss are the same with r-fold lambda, hence L-BFGS has the same outcome, and gradient descent with a single batch too with the r-th part of the tolerance; Gaussian naive Bayes learns the same means, variances and priors; multinomial naive Bayes answers the same with r-fold smoothing.", "quantifier": "all r >= 1, all training data and orders of the copies, all parameters, initial weights and shuffles; exact arithmetic", "why_tests_cant": "Relates two runs on data of any size and any multiplicity; rounding hides whether a difference is a bug, and that repeated values become thresholds is seen only with samples placed between the training values.", "anchors": ["src/methods/tree/decision_tree_classifier.hpp: fit", "src/methods/tree/decision_tree_regressor.hpp: fit", "src/methods/linear_model/ridge_regression.hpp: fit", "src/methods/linear_model/linear_regression.hpp: fit", "src/methods/linear_model/lasso_regression.hpp: fit", "src/core/loss/log_loss.hpp: evaluate", "src/core/loss/mean_squared_error.hpp: evaluate", "src/methods/naive_bayes/gaussian_naive_bayes.hpp: fit", "src/methods/naive_bayes/multinomial_naive_bayes.hpp: fit"]}
{"id": "C163", "title": "Appending a feature without new information", "statement": "If a feature is appended that never falls while an existing one rises (a constant, a copy, another unit, a rounded or clipped version), a classification tree with gini or entropy and min_samples_split >= 3 stays the same and answers the same for all samples, whatever they have in the new feature; put in front of the others, such a feature can change answers. A regression tree with squared_error stays the same if the new feature rises strictly with an existing one. With a constant feature appended, k-means++ selects the same samples, k-means gives the same centroids with the constant appended and the same labels, and Gaussian naive Bayes answers the same probabilities and classes, whatever new samples have in that feature. Ridge regression with a feature of zeros appended gives it the weight 0 and predicts the same. Linear regression with a feature appended fails exactly if it failed without it or the new feature is a linear combination of the others and, with intercept, of a constant.", "quantifier": "all training data, parameters, draws and new samples; exact arithmetic, assertions disabled for k-means and naive Bayes", "why_tests_cant": "Relates two runs on data of any size; a tie rule or smoothing rule that lets a useless feature matter shows only on data with exact ties, and failure of linear regression depends on exact linear dependence.", "anchors": ["src/methods/tree/base.hpp: best_split, choose_feature_threshold", "src/methods/tree/decision_tree_classifier.hpp: fit", "src/methods/tree/decision_tree_regressor.hpp: fit", "src/methods/cluster/kmeans.hpp: fit", "src/methods/naive_bayes/gaussian_naive_bayes.hpp: fit", "src/methods/linear_model/ridge_regression.hpp: fit", "src/methods/linear_model/linear_regression.hpp: fit"]}
{"id": "C164", "title": "What naive Bayes objects answer in any program of fit calls and questions", "statement": "In a program that calls fit any number of times on one naive Bayes object and catches all exceptions: the reported classes are the distinct labels of all calls, failed ones included, and the reported priors are their occurrences in all calls divided by the number of labels of the last call. A Gaussian object answers every other question as a new object fitted only with the data of the last call that had as many labels as samples, unless a failed call since then brought a new label, after which predictions are undefined; and a later fit without a label seen before, even in a failed call, is undefined. A multinomial object predicts with the feature sums of its last successful call, the occurrences of labels in all calls as class weights, and the number of features of the last call even if it failed; so objects with the same last fit can predict differently. Predictions before a successful fit are undefined. get_mean and get_var abort with assertions enabled and otherwise give the first feature only.", "quantifier": "all programs (finite sequences of fit calls and questions), data, smoothing parameters, with and without assertions (multinomial: without)", "why_tests_cant": "Concerns programs of any length including failed calls; tests fit once and predict once.", "anchors": ["src/methods/naive_bayes/base.hpp: compute_prior_prob, predict_log_prob, predict_prob, predict, get_prior_prob, get_classes", "src/methods/naive_bayes/gaussian_naive_bayes.hpp: fit, update_mean_variance, joint_log_likelihood, get_mean, get_var", "src/methods/naive_bayes/multinomial_naive_bayes.hpp: fit, compute_feature_prob, joint_log_likelihood", "src/core/common.hpp: hstack"]}
{"id": "C165", "title": "What a PCA object answers in any program of calls", "statement": "In any sequence of calls on one PCA object: the sequence is defined exactly if every fit gets at least as many samples and features as components, transform and get_covariance come after some fit, get_precision after some get_covariance and score after some get_precision. transform, the getters and get_covariance answer as a new object fitted once with the data of the last fit, which are, for at least two samples, orthonormal components with the largest possible variances, these variances and their ratios to the total variance, the square roots of the sums of squares of the transformed training data, and the products of the centred new samples with the components; get_precision answers as a new object fitted with the data that had been fitted last when get_covariance was called last; score as a new object fitted with the data that had been fitted last when get_covariance was last called before the last get_precision, which is the mean normal log density for the mean of the scored samples and the covariance of those data. So fit alone never changes a score or a precision. Before the first fit the getters return empty matrices.", "quantifier": "all programs (finite sequences of calls of public members), numbers of components and features, training and test data, decompositions that fulfil their contracts", "why_tests_cant": "Which of many earlier calls an answer depends on concerns programs of any length; a test sees a few orders of calls.", "anchors": ["src/methods/decomposition/pca.hpp: fit_data, transform_data, compute_data_covariance, compute_precision_matrix, compute_score_samples, score, get_covariance, get_precision", "src/methods/decomposition/base.hpp: fit, transform, get_components, get_explained_var, get_explained_var_ratio, get_singular_values"]}
{"id": "C166", "title": "What decision tree objects answer in any program of calls, also after fit has thrown", "statement": "In any sequence of calls on one decision tree object, where every fit has samples and a label for each: the answers depend on the data of the last call of fit only, even if that call threw and the exception was caught, except that a classifier keeps the labels of all earlier calls. Its probabilities have a column for every label ever given; the columns of the labels of the last call hold what a new object fitted with those data reports, the others 0. predict returns the position of the same label that a new object predicts, but counted among all labels ever given. Whether fit returns or throws does not depend on earlier calls. With an unknown criterion the object remains usable after the exception: a classifier reports the label frequencies of the last data for every sample, a regressor their mean. A question before the first fit dereferences a null pointer.", "quantifier": "all programs (finite sequences of fit, predict_prob and predict), data, labels, criteria given as any impurity function that may throw, parameters", "why_tests_cant": "Programs of any length, with failing calls anywhere between, are infinitely many; a test sees a few orders of calls on a few data sets.", "anchors": ["src/methods/tree/decision_tree_classifier.hpp: fit, predict, predict_prob, build_tree, compute_impurity, compute_node_value", "src/methods/tree/decision_tree_regressor.hpp: fit, predict, build_tree, compute_impurity"]}
{"id": "C167", "title": "Penalised logistic regression is stable and therefore generalises", "statement": "For the log loss with penalty lambda, with labels between 0 and 1: weights reached on two training sets that differ in one sample are at most (length of the two samples + number of samples times the lengths of the remaining gradients) / lambda apart, likewise without that sample; for minimising weights and a changed label the distance is at most the change times the length of the sample / lambda. The minimising weights depend continuously on lambda, get shorter and fit the training data worse as lambda grows, and their length is at most the sum of all sample lengths / lambda. Probabilities reported for two weight vectors differ by at most a quarter of their distance times the length of the sample with the appended one. If n samples are drawn with replacement from a population, then on average over all draws the loss of the minimising weights on the population is at least the loss on the drawn samples and exceeds it by at most 2 R^2 / lambda, R the largest length of a sample; with lambda = 2 R sqrt(n) / B it exceeds the loss of any weights of length up to B by at most 2 R B / sqrt(n).", "quantifier": "all training sets, numbers of samples and features, penalties, weights, populations and numbers of draws", "why_tests_cant": "The bounds hold for every data set and on average over all draws from every population, with constants that a test on a few data sets would not reach.", "anchors": ["src/core/loss/log_loss.hpp: evaluate, gradient", "src/methods/linear_model/logistic_regression.hpp: predict_prob"]}
{"id": "C168", "title": "What a TruncatedSVD object answers in any program of calls", "statement": "In any sequence of calls on one TruncatedSVD object, with exceptions of fit caught: every answer is that of a new object given only the data and random numbers of the last fit that returned, and failed fits change nothing; before such a fit the getters return empty matrices. What a program sees of a fit does not depend on earlier calls. For a known normalizer the sequence is defined exactly if every fit with at least as many samples and features as random vectors (components plus oversamples) has exactly as many features, and every transform comes after such a fit. After such a fit with a normalised power iteration the answers are orthonormal components, the lengths of their images, which are the largest possible, the variances of the transformed data and their ratios to the total variance. Then the whole program sees the same whatever random numbers are drawn, if the requested singular values are positive and occur once; the singular values read are always the same. With an unknown solver name every fit returns, all getters stay empty and transform is never defined.", "quantifier": "all programs (finite sequences of calls of public members), parameters, training and test data, random numbers, decompositions that fulfil their contracts", "why_tests_cant": "Independence of the random numbers and of all but one earlier call concerns every draw and programs of every length; a test sees a few draws and orders of calls.", "anchors": ["src/methods/decomposition/truncated_svd.hpp: fit_data, transform_data", "src/methods/decomposition/base.hpp: fit, transform, get_components, get_explained_var, get_explained_var_ratio, get_singular_values", "src/core/math/linalg.hpp: randomized_svd"]}
{"id": "C169", "title": "Leave-one-out errors of ridge regression estimate its test error without bias, and it generalises", "statement": "For a positive penalty the predictions of ridge regression for its training samples are a symmetric matrix times the targets; the diagonal entries are between 0 and s^2/(s^2 + penalty), s being the length of the sample with its intercept, and sum to at most the number of weights. The error for a sample by the model trained without it is the error of the full model divided by one minus the diagonal entry, so leave-one-out errors need no second fit. Draw n+1 training samples with replacement from any population of samples: the mean square of these divided errors is on average exactly the mean squared error on the whole population after training with n samples. So the training error is on average at most that test error, the test error is at most (1 + R^2/penalty)^2 times the training error if no sample is longer than R, and at most this factor times the population error plus penalty/(n+1) times squared length of any weights.", "quantifier": "all populations, numbers of drawn samples and features, targets, positive penalties, with and without intercept; exact arithmetic", "why_tests_cant": "The averages are over all draws from every population; a test sees a few draws, and cannot tell an unbiased estimate from a slightly biased one.", "anchors": ["src/methods/linear_model/ridge_regression.hpp: fit_data", "src/methods/linear_model/base.hpp: fit, predict, predict_label"]}
{"id": "C170", "title": "The solvers of penalised logistic regression agree", "statement": "For logistic regression with a positive penalty, two weight vectors, whoever found them, are at most (number of samples) * (sum of the lengths of the two gradients there) / penalty apart. Solver sgd or sag with all samples in one batch and a suitable learning rate, if it publishes weights, has stopped in an epoch where (learning rate of that epoch) * (squared gradient) < 2 * tol * samples, and so is near the unique minimising weights. So such a run and a run of L-BFGS with the bracketing search, a Wolfe condition and wide limits, with any initial weights, shuffles and contents of unused memory, find weights no further apart than (samples / penalty) * (sqrt(2 tol samples / rate) + tol' max(1, length of weights)); only if its first gradient already passes the test does L-BFGS publish nothing. The predicted probabilities then differ by at most a quarter of that distance times the length of the sample with a one appended, and the predicted labels are equal wherever one probability is further than that from one half.", "quantifier": "all data, labels between 0 and 1, initial weights, permutations, contents of uninitialised memory, settings within the stated limits, test samples", "why_tests_cant": "A test compares two solvers on a few data sets with a guessed tolerance; the bound holds for every data set and start and says which tolerance is right.", "anchors": ["src/methods/linear_model/logistic_regression.hpp: fit_data, predict_label, predict_label_prob", "src/core/optimizer/sgd/sgd.hpp: optimize", "src/core/optimizer/sgd/sag.hpp: optimize", "src/core/optimizer/lbfgs/lbfgs.hpp: optimize"]}
{"id": "C171", "title": "PCA and TruncatedSVD are stable under changed data", "statement": "Fit PCA to two data sets X and X' with the same number of samples and features. The square roots of the i-th explained variances differ by at most the square root of the total variance of X - X', and the i-th singular values by at most the length of the centred difference. The components of X capture a standard deviation of X' that falls short of that captured by the components of X' by at most twice the root of the total variance of X - X'. Components of the two fits whose variances differ by at least d are nearly orthogonal: the sum of their squared products is at most (sum of squares of the change of the covariance matrix) / d^2. So a component of X whose variance keeps this distance from all but one component of X' has almost the direction of that one. For TruncatedSVD with as many random vectors as features the singular values of two data sets differ by at most the length of their difference, for all random vectors, numbers of iterations and normalizers of both fits.", "quantifier": "all pairs of data sets, all correct singular value decompositions, all numbers of components, all random draws", "why_tests_cant": "Tests fit a few fixed data sets; the bounds hold for every perturbation of every data set and say how far the answers can move.", "anchors": ["src/methods/decomposition/pca.hpp: fit_data", "src/methods/decomposition/truncated_svd.hpp: fit_data", "src/core/math/linalg.hpp: randomized_svd"]}
{"id": "C172", "title": "Mini-batch training of logistic regression is stable and generalises", "statement": "Train logistic regression twice with mini-batch gradient descent on training sets of the same size whose samples have length at most R, with the same settings and shuffles, from possibly different initial weights, the learning rate times (R^2/4 + lambda/batch size) being at most 1. After every epoch the two weight vectors differ by at most the distance of the initial weights, multiplied by (1 - rate * lambda/batch size) for each step, plus (sum of the learning rates / batch size) times the lengths of the samples in which the training sets differ. The learning rates of the solver sgd sum to less than 19 alpha, so for fit this is at most 19 alpha / batch size times these lengths however many epochs are allowed; if the two trainings stop after different numbers of epochs, each further epoch adds at most 2 R times its rate times the number of batches. If the n training samples are drawn with replacement, the mean loss on the population and that on the training samples differ on average over all draws by at most 2 R^2 (sum of the rates) / batch size, also without any penalty.", "quantifier": "all pairs of training sets, all shuffles, batch sizes, penalties, initial weights and numbers of epochs; all populations and sample sizes", "why_tests_cant": "Tests train on a few data sets; the bounds cover every replacement of samples and, for generalisation, an average over all draws of training sets.", "anchors": ["src/methods/linear_model/logistic_regression.hpp: fit_data", "src/core/optimizer/sgd/sgd.hpp: optimize", "src/core/optimizer/sgd/decay_policies/step_decay.hpp: compute", "src/core/loss/log_loss.hpp: gradient"]}
{"id": "C173", "title": "Penalised softmax regression has one resting point, which is stable and is logistic regression for two classes", "statement": "On n samples of k classes, the entries of the returned softmax gradient of a feature sum over the classes to lambda/n times the sum of the weights of that feature. With lambda > 0 there is exactly one matrix of weights at which the returned gradient is zero; there the weights of every feature sum to zero, so the reported loss shows no penalty at all, although the matrix is the unique minimum of the negative log likelihood plus lambda/(2n) times the sum of the squared weights. Anywhere else lambda times the distance from it is at most n times the length of the returned gradient. If samples of the training set are exchanged, lambda times the change of the weights is at most sqrt 2 times the lengths of the exchanged samples, plus n times the gradients that were left. If the n samples are drawn with replacement from samples of length at most R, the mean negative log likelihoods of the population and of the training set differ on average by at most 4 R^2/lambda. With two classes and opposite weights the gradient is that of the logistic loss with lambda/2 at the difference of the weights, and the resting point comes from that of logistic regression.", "quantifier": "all training sets, numbers of features and classes, penalties and weights; all populations and sample sizes", "why_tests_cant": "Existence, uniqueness and stability of a minimum of a transcendental function over all data sets, and averages over all draws, are out of reach of tests.", "anchors": ["src/core/loss/softmax_loss.hpp: gradient", "src/core/loss/softmax_loss.hpp: evaluate", "src/methods/linear_model/softmax_regression.hpp: fit_data", "src/core/loss/log_loss.hpp: gradient"]}
{"id": "C174", "title": "Training softmax regression with two classes is training logistic regression with twice the rate, but the answers are opposite", "statement": "Mini-batch gradient descent on the softmax loss of two classes without penalty, started from any weights, ends like mini-batch gradient descent on the logistic loss with twice the learning rate started from the difference of the two weight columns: with the same exception or assertion, or in the same epoch with the same means of the two columns and the logistic weights as their difference, also when gradients are clipped. With weights v and bias b as difference, softmax regression then predicts class 1 for exactly the samples with x.v > 0 and logistic regression predicts class 0 for exactly the samples with x.v + b > 0, so without bias the two classifiers give opposite answers for every sample.", "quantifier": "all data with labels 0 and 1, initial weights, shuffles, batch sizes, tolerances, learning rates and numbers of epochs; all queries of at least two samples", "why_tests_cant": "Two training runs of unbounded length on all data sets have to agree step by step, including the epoch in which they stop and how they fail.", "anchors": ["src/core/optimizer/sgd/sgd.hpp: optimize", "src/core/loss/softmax_loss.hpp: gradient", "src/core/loss/softmax_loss.hpp: evaluate", "src/core/loss/log_loss.hpp: gradient", "src/methods/linear_model/softmax_regression.hpp: predict", "src/methods/linear_model/logistic_regression.hpp: predict"]}
{"id": "C175", "title": "k-means finds well separated groups", "statement": "If samples of one group are at most delta apart and samples of different groups more than 2 delta apart, and the initial centroids are samples, one of each group, then after one iteration or more, whatever the tolerance, the centroids of KMeans are the means of the groups in the order of the initial centroids, predict gives each sample the number of its group, and so it does for every new point within delta of all samples of one group and more than 2 delta from all others. With init \"random\" this happens if the first k samples in the shuffled order are of k different groups and there are no others. If the data has exactly k different rows, init \"kmeans++\" with k clusters and positive random numbers and any number of iterations ends with these rows as centroids, inertia zero, and equal labels for exactly the equal samples.", "quantifier": "all data sets of any number of samples, features and groups, all delta, initial centroids or random numbers, tolerances and numbers of iterations", "why_tests_cant": "Recovery of the groups is claimed for every separated data set and every admissible initialisation, of which tests try a few.", "anchors": ["src/methods/cluster/kmeans.hpp: fit", "src/methods/cluster/kmeans.hpp: predict", "src/methods/cluster/kmeans.hpp: kmeans_lloyd", "src/methods/cluster/kmeans.hpp: kmeans_plusplus", "src/methods/cluster/kmeans.hpp: init_centroid"]}
{"id": "C176", "title": "k-means finds well separated groups also with rounding errors", "statement": "Let every operation of KMeans round with relative error at most u and sums be computed in any order. If coordinates are at most B in size, epsilon^2 >= d (((1+u)^n - 1) B)^2 for n samples with d features, samples of one group are at most delta and of different groups at least Delta apart, (1+u)^(d+4) (delta+epsilon)^2 < (1-u)^(d+4) (Delta-delta-epsilon)^2, and the initial centroids are samples, one of each group, then after one or more iterations the computed centroids are within epsilon of the exact means of the groups, and predict gives every sample, and every new point that is near one group only, exactly the number of its group. Every computation has a result, and without rounding the iterations are the exact ones.", "quantifier": "all data sets, groups, numbers of iterations, tolerances, rounding functions with relative error u < 1, orders of summation, with or without fused multiply-add", "why_tests_cant": "The order of summation depends on the vector unit and compiler, and the claim is for all data and all roundings.", "anchors": ["src/methods/cluster/kmeans.hpp: kmeans_lloyd", "src/methods/cluster/kmeans.hpp: predict", "src/core/math/ops.hpp: mean"]}
{"id": "C177", "title": "Errors in the gradients do not build up in mini-batch training of penalised logistic regression", "statement": "Compare mini-batch gradient descent on the penalised log loss with the same training in which every step has an error, as if each gradient was wrong by at most rho (rounding, an approximate exponential function), on the same samples of length at most R, with the same shuffles and learning rates eta with eta (R^2/4 + lambda/b) <= 1 for batches of b samples. After any number of epochs the weights differ by at most the initial difference, shrunk by the penalty, plus rho times the number of batches per epoch times the sum of the learning rates. With a penalty lambda > 0 they never differ by more than the larger of the initial difference and rho b / lambda, however many epochs are run.", "quantifier": "all samples with labels in [0,1], initial weights, shuffles, learning rates, batch sizes, penalties, errors of at most rho that may depend on everything the step depends on, and numbers of epochs", "why_tests_cant": "The bound is for runs of any length and every error of the given size; tests see only the errors that occur on one machine.", "anchors": ["src/core/optimizer/sgd/sgd.hpp: optimize", "src/core/loss/log_loss.hpp: gradient", "src/core/optimizer/sgd/update_policies/vanilla_update.hpp: update"]}
{"id": "C178", "title": "Coordinate descent: the answers depend little on the run and do not enlarge changes of the targets", "statement": "Lasso regression without intercept, with step constants not below the mean square of any feature. Two fits on the same data, with any orders of the samples, numbers of iterations and step constants, answer on the training samples with a mean squared difference of at most four times the sum of two terms that decrease as one over the number of iterations, although the weights need not be determined by the data. Fits on the same samples with different targets answer, apart from such terms, with a mean squared difference of at most that of the targets; for every eps > 0 there is a number of iterations from which on the mean squared difference of the answers is at most that of the targets plus eps, for all orders. Logistic regression with penalty l1: lambda/(4 n) times the squared distance of the weights of two trainings on the same n samples, from any initial weights, is at most the sum of two terms that decrease as one over the number of iterations.", "quantifier": "all samples and targets, penalties lambda > 0, step constants, orders of the samples, numbers of iterations and initial weights", "why_tests_cant": "The bounds compare all pairs of runs and targets; tests compare some runs on some data.", "anchors": ["src/methods/linear_model/lasso_regression.hpp: fit_data", "src/methods/linear_model/base.hpp: predict_label", "src/core/optimizer/sgd/scd.hpp: optimize", "src/core/loss/mean_squared_error.hpp: evaluate", "src/core/loss/log_loss.hpp: evaluate", "src/methods/linear_model/logistic_regression.hpp: fit_data"]}
{"id": "C179", "title": "Naive Bayes fits have the largest likelihood", "statement": "First fit of a naive Bayes object. Gaussian without smoothing: if the fitted variances of a class are positive, the fitted means and variances give the samples of the class a larger likelihood under independent normal features than all other means and positive variances. Multinomial with smoothing alpha > 0 (assertions disabled): the feature probabilities that predictions use for a class give a larger product of the likelihood of the samples of the class and the density of having seen every feature alpha times before than all other positive probabilities with sum at most 1. The class probabilities give the labels a larger likelihood than all other positive class probabilities with sum at most 1.", "quantifier": "all data sets with at least two features, classes, smoothing parameters alpha > 0 and all alternative parameters", "why_tests_cant": "Optimality is a statement about all alternative means, variances and probabilities on all data; tests compare with some alternatives.", "anchors": ["src/methods/naive_bayes/gaussian_naive_bayes.hpp: update_mean_variance", "src/methods/naive_bayes/multinomial_naive_bayes.hpp: compute_log_likelihood", "src/methods/naive_bayes/multinomial_naive_bayes.hpp: compute_feature_prob", "src/methods/naive_bayes/base.hpp: compute_prior_prob"]}
{"id": "C180", "title": "How reliable errors on a hold-out set are", "statement": "With uniform random numbers behind the shuffle of train_test_split, b test samples, and M models that do not depend on the split, with errors between 0 and 1 per sample (such as wrong or right): the share of the splits for which the test error of some model differs by t or more from its error on all samples is at most M / (4 b t^2). The share of the splits for which a model of least test error is worse on all samples than another one by more than 2 t is at most M / (4 b t^2). For a mini-batch of b shuffled samples and a number between 0 and 1 attached to the samples, the share of shuffles for which the average over the batch differs by t or more from that over all samples is at most 1 / (4 b t^2).", "quantifier": "all data sets with at least two samples, numbers of models, errors between 0 and 1, train sizes that leave a test sample, and t > 0", "why_tests_cant": "The share is over all n! orders of the samples, of which tests see a few.", "anchors": ["src/core/math/shuffle.hpp: shuffle_data", "src/core/optimizer/sgd/sgd.hpp: optimize", "src/core/data/split.hpp: train_test_split", "src/core/loss/mean_squared_error.hpp: evaluate", "src/core/loss/mean_squared_error.hpp: gradient", "src/core/loss/log_loss.hpp: evaluate", "src/core/loss/log_loss.hpp: gradient"]}
{"id": "C181", "title": "Misleading hold-out sets are exponentially rare", "statement": "With uniform random numbers behind the shuffle of train_test_split, b test samples, and M models that do not depend on the split, with errors between 0 and 1 per sample: the share of the splits for which the test error of some model differs by t or more from its error on all samples is at most 2 M exp(-2 b t^2), and so is the share of the splits for which a model of least test error is worse on all samples than another one by more than 2 t. For a mini-batch of b shuffled samples and a number between 0 and 1 attached to the samples, the share of shuffles for which the average over the batch differs by t or more from that over all samples is at most 2 exp(-2 b t^2).", "quantifier": "all data sets, numbers of models, errors between 0 and 1, train sizes that leave a test sample, and t > 0", "why_tests_cant": "The share is over all n! orders of the samples, and is far too small to be seen by sampling.", "anchors": ["src/core/math/shuffle.hpp: shuffle_data", "src/core/optimizer/sgd/sgd.hpp: optimize", "src/core/data/split.hpp: train_test_split", "src/core/loss/mean_squared_error.hpp: evaluate", "src/core/loss/mean_squared_error.hpp: gradient", "src/core/loss/log_loss.hpp: evaluate", "src/core/loss/log_loss.hpp: gradient"]}
{"id": "C182", "title": "Mini-batch gradients far from the full gradient are exponentially rare", "statement": "With uniform random numbers behind the shuffle, labels between 0 and 1 and features of size at most B, the share of the shuffles for which some entry of the gradient of the log loss of a mini-batch of b samples differs by t or more from that of the gradient of all n samples with the ridge parameter times n / b is at most 2 d exp(-b t^2 / (2 B^2)) for d features. For the squared error at weights whose errors on the samples are at most E the same holds with E B instead of B.", "quantifier": "all data sets, weights, ridge parameters, batch positions and sizes within the data, and t > 0", "why_tests_cant": "The share is over all n! orders of the samples, and is far too small to be seen by sampling.", "anchors": ["src/core/math/shuffle.hpp: shuffle_data", "src/core/optimizer/sgd/sgd.hpp: optimize", "src/core/data/split.hpp: train_test_split", "src/core/loss/mean_squared_error.hpp: evaluate", "src/core/loss/mean_squared_error.hpp: gradient", "src/core/loss/log_loss.hpp: evaluate", "src/core/loss/log_loss.hpp: gradient"]}
{"id": "C183", "title": "Models chosen from finitely many with the training part do as well on the test part for most splits", "statement": "train_test_split with uniform random numbers behind the shuffle of n samples, k of them for training, and a model chosen from M models with the help of the training samples, by whatever rule, with errors between 0 and 1 per sample: the share of the splits for which its training error differs by t or more from its error on all samples is at most 2 M exp(-2 k t^2), and the share for which training and test error differ by t or more is at most 2 M exp(-2 k ((1 - k / n) t)^2). If the rule finds a model of least training error, the share of the splits for which that model is worse on all samples than another one by more than 2 t is at most 2 M exp(-2 k t^2).", "quantifier": "all data sets, finite families of models, rules of choice, errors between 0 and 1, train sizes that leave a training sample (and for the comparison a test sample), and t > 0", "why_tests_cant": "The share is over all n! orders of the samples and the claim over all rules of choice.", "anchors": ["src/core/math/shuffle.hpp: shuffle_data", "src/core/data/split.hpp: train_test_split"]}
{"id": "C184", "title": "k-means with k-means++ finds far groups for nearly all random numbers", "statement": "n samples in k groups: samples of one group are within delta of each other, samples of different groups at least Delta apart, all samples within D of each other, and n (2 D delta + delta^2) < Delta^2. Then k-means with k clusters and k-means++ initialisation, one iteration or more and any stopping test, finds the groups: predict gives two training samples the same label exactly if they are of one group. This fails with probability at most (k - 1) n delta^2 / Delta^2 over the first random number for each further centroid, these being independent and uniform, whatever the first row and the random numbers of the further trials are.", "quantifier": "all data sets and groups of that kind, first rows, random numbers of further trials, iteration limits and stopping tests", "why_tests_cant": "The probability is over continuous random numbers and so small that tests would not see a failure; the claim is for all data sets of that kind.", "anchors": ["src/methods/cluster/kmeans.hpp", "src/core/math/random.hpp", "src/methods/cluster/kmeans.hpp: fit", "src/methods/cluster/kmeans.hpp: predict", "src/methods/cluster/kmeans.hpp: kmeans_lloyd", "src/methods/cluster/kmeans.hpp: kmeans_plusplus", "src/methods/cluster/kmeans.hpp: init_centroid"]}
{"id": "C185", "title": "Splits and mini-batches rarely lose a class", "statement": "train_test_split with uniform random numbers behind the shuffle of n samples, k of them for training: the share of the splits whose training part has no sample of a class that has n_a samples is exactly (n - n_a) (n - n_a - 1) ... (n - n_a - k + 1) over n (n - 1) ... (n - k + 1), which is at most (1 - n_a / n)^k, and the share of the splits whose training part lacks some class of the data is at most the sum of (1 - n_a / n)^k over the classes. The share of the shuffles for which a mini-batch of b samples has no sample of a class is at most (1 - n_a / n)^b.", "quantifier": "all data sets, labels, train sizes with at most n training samples, batch positions and sizes inside the data, and classes", "why_tests_cant": "The share is over all n! orders of the samples, for every data set.", "anchors": ["src/core/math/shuffle.hpp: shuffle_data", "src/core/data/split.hpp: train_test_split"]}
{"id": "C186", "title": "Mini-batch gradients of the softmax loss are unbiased for an enlarged penalty and rarely far from their mean", "statement": "Softmax loss on samples whose labels are class numbers, with uniform random numbers behind the shuffle: at any weights the mean of the gradient of a mini-batch of b samples is the gradient of all n samples with the parameter of the penalty multiplied by n / b. For features of size at most B the share of the shuffles for which some entry of the gradient of the batch differs by t or more from this mean is at most 2 d k exp(-b t^2 / (2 B^2)) for d features and k classes, whatever the weights.", "quantifier": "all data sets with class labels, weights, penalties, batch positions and sizes inside the data, bounds B of the features, and t > 0", "why_tests_cant": "Mean and share are over all n! orders of the samples, for all weights.", "anchors": ["src/core/math/shuffle.hpp: shuffle_data", "src/core/optimizer/sgd/sgd.hpp: optimize", "src/core/loss/softmax_loss.hpp: gradient"]}
{"id": "C187", "title": "How often k-means with random initialisation starts with one sample of each group", "statement": "n samples in k groups, uniform random numbers behind the shuffle of init \"random\": the share of the shuffles for which the k samples taken as centroids are one of each group is exactly k! times the product of the sizes of the groups over n (n - 1) ... (n - k + 1). If samples of one group are at most delta apart and samples of different groups more than 2 delta apart, KMeans with one iteration or more, whatever the tolerance, finds the groups for at least this share of the shuffles: predict gives two training samples the same label exactly if they are of one group. The share depends only on the sizes of the groups, not on how far they are apart.", "quantifier": "all data sets, numbers of groups, sizes of the groups, numbers of iterations and stopping tests", "why_tests_cant": "The share is over all n! orders of the samples, for all data sets.", "anchors": ["src/core/math/random.hpp: permutation", "src/methods/cluster/kmeans.hpp: fit", "src/methods/cluster/kmeans.hpp: predict", "src/methods/cluster/kmeans.hpp: init_centroid"]}
{"id": "C188", "title": "Naive Bayes learns the right classes and nearly the right priors from most splits", "statement": "A new naive Bayes object fitted with the k training samples of train_test_split, uniform random numbers behind the shuffle of n samples: the share of the splits for which some reported prior differs by t or more from the share of its class among all n samples is at most 2 c exp(-2 k t^2) for c classes, and the share of the splits for which the reported classes are not exactly those of all samples, in the same order, is at most the sum of (1 - n_a / n)^k over the classes with n_a samples.", "quantifier": "all data sets, labels, train sizes that leave a training sample, and t > 0", "why_tests_cant": "The share is over all n! orders of the samples, for every data set.", "anchors": ["src/core/math/shuffle.hpp: shuffle_data", "src/core/data/split.hpp: train_test_split", "src/methods/naive_bayes/base.hpp: compute_prior_prob"]}
{"id": "C189", "title": "k-means never moves a centroid from one far group of samples to another", "statement": "Samples of one far group are at most delta apart and samples of different far groups more than 2 delta apart. The initial centroids are samples, at least one of each far group. Then after any number of iterations of KMeans, whatever the tolerance, predict gives every training sample the number of a centroid that started in the far group of the sample. Hence, if one far group consists of more groups than initial centroids were taken from it, predict never finds the groups (the same label for two training samples exactly if they are of one group), however many iterations are made. With init \"random\" this happens for every shuffle that puts samples of every far group among the first k, but fewer of one far group than it has groups.", "quantifier": "all data sets, far groups, groups, initial centroids taken from the samples, numbers of iterations and stopping tests", "why_tests_cant": "It is about every number of iterations and every stopping test; a test can run only finitely many iterations on a few data sets.", "anchors": ["src/methods/cluster/kmeans.hpp: fit", "src/methods/cluster/kmeans.hpp: predict", "src/methods/cluster/kmeans.hpp: init_centroid"]}
