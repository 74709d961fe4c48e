{"id": "C01", "title": "Triangular membership is a degree, peaked at the peak", "statement": "For a FuzzyContinuousSet with points a<=b<=c, membership(x) always lies in [0,1], equals 1 exactly when x=b, is positive exactly when a<x<c or x=b, and is non-decreasing up to b and non-increasing after b. With unsorted points membership fails with AssertionError instead of returning numbers.", "quantifier": "every triple of points, every x", "why_tests_cant": "the domain is a continuum of points and triples, including the degenerate half-triangles and point sets", "anchors": [{"file": "src/teacher/fuzzy/fuzzy_set.py", "symbols": ["FuzzyContinuousSet.membership"]}]}
{"id": "C02", "title": "Generated continuous variables are strong fuzzy partitions", "statement": "For the sets built by get_fuzzy_continuous_sets from any strictly increasing list of at least two peaks, the memberships of any x between the first and the last peak add up to exactly 1, and any x outside gets 0 in every set.", "quantifier": "every strictly increasing list of peaks of any length, every x", "why_tests_cant": "partition-of-unity must hold for every x and any number of sets", "anchors": [{"file": "src/teacher/fuzzy/_base.py", "symbols": ["get_fuzzy_continuous_sets"]}, {"file": "src/teacher/fuzzy/fuzzy_set.py", "symbols": ["FuzzyContinuousSet.membership"]}]}
{"id": "C03", "title": "At most two neighbouring fuzzy sets are active", "statement": "For sets built from strictly increasing peaks, at any x at most two sets have positive membership, and if two have, they are consecutive.", "quantifier": "every list of peaks, every x", "why_tests_cant": "quantifies over all x and all set pairs", "anchors": [{"file": "src/teacher/fuzzy/_base.py", "symbols": ["get_fuzzy_continuous_sets"]}]}
{"id": "C04", "title": "alpha_cut returns exactly the level set", "statement": "For points a<=b<=c and 0<cut<=1, alpha_cut(cut)=(l,r) satisfies: l<=x<=r iff membership(x)>=cut. For cut=0 it is the closed support [a,c]. Cuts are nested (a larger cut gives a sub-interval) and always contain the peak. cut<0 or cut>1 raises ValueError.", "quantifier": "every triple, every cut, every x", "why_tests_cant": "exactness is an equivalence over a continuum", "anchors": [{"file": "src/teacher/fuzzy/fuzzy_set.py", "symbols": ["FuzzyContinuousSet.alpha_cut"]}]}
{"id": "C05", "title": "intersection is the height of the intersection of the two fuzzy sets", "statement": "For two FuzzyContinuousSets with sorted points, intersection returns max over x of min(membership_1(x), membership_2(x)); hence it is in [0,1], symmetric, and 1 exactly when the peaks coincide. Mixing a continuous and a discrete set raises ValueError.", "quantifier": "every pair of fuzzy sets", "why_tests_cant": "a maximum over a continuum, with vertical and parallel sides as corner cases", "anchors": [{"file": "src/teacher/fuzzy/fuzzy_set.py", "symbols": ["FuzzyContinuousSet.intersection", "FuzzyContinuousSet._line_intersect", "FuzzyDiscreteSet.intersection"]}]}
{"id": "C06", "title": "simmilarity behaves as a similarity", "statement": "simmilarity is in [0,1], symmetric, gives 1 for a set against itself, and 0 for sets that lie far apart.", "quantifier": "every pair of sorted triangles", "why_tests_cant": "needs every pair; the failing inputs are the symmetric triangles the tests never try", "anchors": [{"file": "src/teacher/fuzzy/fuzzy_set.py", "symbols": ["FuzzyContinuousSet.simmilarity"]}]}
{"id": "C07", "title": "jaccard_similarity behaves as a similarity", "statement": "jaccard_similarity is in [0,1], symmetric, 0 when the supports do not overlap, and 1 for a set with non-empty support against itself.", "quantifier": "every pair of sorted triangles", "why_tests_cant": "every pair of triangles", "anchors": [{"file": "src/teacher/fuzzy/fuzzy_set.py", "symbols": ["FuzzyContinuousSet.jaccard_similarity"]}]}
{"id": "C08", "title": "merge covers both sets", "statement": "merge(a,b) is a well-formed triangle whose support contains both supports, whose peak lies between the two peaks, and it does not depend on the order of the arguments; merging a set with itself keeps its points.", "quantifier": "every pair of sorted triangles", "why_tests_cant": "every pair of triangles", "anchors": [{"file": "src/teacher/fuzzy/fuzzy_set.py", "symbols": ["FuzzyContinuousSet.merge"]}]}
{"id": "C09", "title": "Discrete variables are crisp partitions", "statement": "For get_fuzzy_discrete_sets over pairwise different values, any cell equal to one of the values has membership 1 in exactly that set and 0 in the others (so the memberships add up to 1); any other cell has 0 everywhere.", "quantifier": "every list of values, every cell", "why_tests_cant": "any number of categories, any cell", "anchors": [{"file": "src/teacher/fuzzy/_base.py", "symbols": ["get_fuzzy_discrete_sets"]}, {"file": "src/teacher/fuzzy/fuzzy_set.py", "symbols": ["FuzzyDiscreteSet.membership"]}]}
{"id": "C10", "title": "get_fuzzy_variables puts every variable at its column", "statement": "If the continuous and discrete names are pairwise different and `order` numbers them 0..n-1 without repetition, the result has at position order[name] the variable with that name, with one fuzzy set per peak/value in the given order (one point set if there is a single peak), and no position is None. A name absent from `order` raises KeyError.", "quantifier": "every dictionary of points, values and order", "why_tests_cant": "all dictionaries and permutations", "anchors": [{"file": "src/teacher/fuzzy/_base.py", "symbols": ["get_fuzzy_variables", "get_fuzzy_continuous_sets", "get_fuzzy_discrete_sets"]}]}
{"id": "C11", "title": "dataset_membership is per-row and per-column", "statement": "dataset_membership(X, vars)[v][s][j] is the membership of cell X[j][column of v] in the set s of v, for uniquely named variables and sets; it depends on no other row or column, so the membership of one instance is the corresponding row of the dataset membership.", "quantifier": "every dataset, every list of variables", "why_tests_cant": "all dataset sizes and contents", "anchors": [{"file": "src/teacher/fuzzy/_base.py", "symbols": ["dataset_membership"]}, {"file": "src/teacher/fuzzy/fuzzy_variable.py", "symbols": ["FuzzyVariable.membership"]}]}
{"id": "C12", "title": "Entropy discretisation terminates and returns sorted data points starting at the minimum", "statement": "get_fuzzy_points('entropy', ...) on a column with at least two different values and at least two rows terminates for every threshold and max_depth, and returns a strictly increasing list of values of the column whose first element is the column minimum.", "quantifier": "every column, class vector, threshold, max_depth and every entropy value", "why_tests_cant": "termination and ordering over unbounded recursion", "anchors": [{"file": "src/teacher/fuzzy/_discretize.py", "symbols": ["_fuzzy_discretization"]}, {"file": "src/teacher/fuzzy/_base.py", "symbols": ["get_fuzzy_points"]}]}
{"id": "C13", "title": "Entropy discretisation covers the whole column", "statement": "The fuzzy points returned by get_fuzzy_points('entropy', ...) span the column, so every training value lies between the first and last point and its memberships add up to 1.", "quantifier": "every column, class vector and threshold", "why_tests_cant": "the violating columns (a maximum that ends up alone in a branch) are rare", "anchors": [{"file": "src/teacher/fuzzy/_discretize.py", "symbols": ["_fuzzy_discretization"]}]}
{"id": "C14", "title": "max_depth bounds the number of fuzzy points", "statement": "With max_depth=d>0 the entropy discretisation returns at most 2^d+1 points.", "quantifier": "every column and d", "why_tests_cant": "unbounded d and columns", "anchors": [{"file": "src/teacher/fuzzy/_discretize.py", "symbols": ["_fuzzy_discretization"]}]}
{"id": "C15", "title": "Fuzzy entropy is bounded", "statement": "The fuzzy entropy of non-negative membership degrees is between 0 and log2 of the number of classes, is 0 exactly when at most one class has positive total membership, and the weighted fuzzy entropy of a strong partition is bounded by the same log2.", "quantifier": "every vector of degrees, every class vector", "why_tests_cant": "a real-analytic inequality over all vectors", "anchors": [{"file": "src/teacher/fuzzy/_discretize.py", "symbols": ["_fuzzy_entropy", "_weighted_fuzzy_entropy"]}]}
{"id": "C16", "title": "equal_width / equal_freq give usable peaks", "statement": "The peaks produced by equal_width and equal_freq are non-decreasing, start at the column minimum, and are pairwise different, so they define a strong partition.", "quantifier": "every column and number of sets (given the documented behaviour of pandas cut/qcut)", "why_tests_cant": "the repeated-quantile fallback only triggers on skewed columns", "anchors": [{"file": "src/teacher/fuzzy/_discretize.py", "symbols": ["_equal_width", "_equal_freq"]}]}
{"id": "C17", "title": "matching is a degree and is 0 for unknown features or sets", "statement": "Rule.matching returns the smallest membership over the antecedent; it lies in [0,1] when the memberships do; it is 0 as soon as some feature or set of the antecedent is missing from the instance; an empty antecedent raises ValueError.", "quantifier": "every rule, every instance membership dictionary", "why_tests_cant": "all dictionaries and antecedents", "anchors": [{"file": "src/teacher/tree/rule.py", "symbols": ["Rule.matching"]}]}
{"id": "C18", "title": "matching is order independent and more conditions never match better", "statement": "Permuting the antecedent does not change matching, and extending a non-empty antecedent with more conditions can only lower it.", "quantifier": "every rule and instance (non-negative memberships)", "why_tests_cant": "all permutations and extensions", "anchors": [{"file": "src/teacher/tree/rule.py", "symbols": ["Rule.matching"]}]}
{"id": "C19", "title": "simplify keeps one, the shortest, condition per feature", "statement": "After Rule(..., simplify=True) every feature occurs exactly once, in order of first occurrence, with the shortest of its value lists (the first of that length); simplifying again changes nothing; and if the lists of each feature get smaller along the antecedent, as in binary trees, the matching with any non-negative instance is unchanged.", "quantifier": "every antecedent", "why_tests_cant": "all antecedents", "anchors": [{"file": "src/teacher/tree/rule.py", "symbols": ["Rule.simplify", "Rule.matching"]}]}
{"id": "C20", "title": "weighted_vote returns a class with the largest total activation", "statement": "For a non-empty list of rules with non-empty antecedents, weighted_vote returns a consequent of some rule whose summed matching*weight is at least that of every other consequent; among ties it is the one that appears first in the list. An empty list raises ValueError.", "quantifier": "every rule list and instance", "why_tests_cant": "all rule bases", "anchors": [{"file": "src/teacher/tree/rule.py", "symbols": ["Rule.weighted_vote"]}]}
{"id": "C21", "title": "weighted_vote does not depend on rule order or weight scale", "statement": "If one class has strictly the largest activation, any permutation of the rules yields the same class; multiplying all the weights by one positive constant never changes the result.", "quantifier": "every permutation, every scale", "why_tests_cant": "all permutations", "anchors": [{"file": "src/teacher/tree/rule.py", "symbols": ["Rule.weighted_vote"]}]}
{"id": "C22", "title": "to_crisp is the alpha-cut of the rule", "statement": "For 0<alpha<=1 and a rule over known variables, the crisp rule has the same features in order, consequent and weight, and an instance satisfies all its crisp conditions iff the fuzzy rule matches the instance with degree at least alpha. Unknown features or sets raise KeyError, alpha outside [0,1] with a continuous condition raises ValueError.", "quantifier": "every rule, variables, alpha, instance", "why_tests_cant": "equivalence over a continuum", "anchors": [{"file": "src/teacher/tree/rule.py", "symbols": ["Rule.to_crisp"]}, {"file": "src/teacher/fuzzy/fuzzy_set.py", "symbols": ["FuzzyContinuousSet.alpha_cut"]}]}
{"id": "C23", "title": "map_rule_variables keeps the shape and picks a best overlapping set", "statement": "map_rule_variables keeps features, order, consequent and weight; each value becomes the name of a set of the destination variable whose intersection (or simmilarity) with the original set is maximal, the first such; different universes of variable names or an unknown map_function raise ValueError.", "quantifier": "every rule and pair of variable lists", "why_tests_cant": "all pairs of universes", "anchors": [{"file": "src/teacher/tree/rule.py", "symbols": ["Rule.map_rule_variables"]}]}
{"id": "C24", "title": "Mapping a rule onto its own variables changes nothing", "statement": "For variables built from strictly increasing peaks or different discrete values with unique names, map_rule_variables(rule, V, V) equals the rule, for both map functions.", "quantifier": "every rule over such variables", "why_tests_cant": "all rules", "anchors": [{"file": "src/teacher/tree/rule.py", "symbols": ["Rule.map_rule_variables"]}, {"file": "src/teacher/fuzzy/fuzzy_set.py", "symbols": ["FuzzyContinuousSet.simmilarity"]}]}
{"id": "C25", "title": "Rule equality is an equivalence compatible with hashing", "statement": "Rule == is reflexive, symmetric and transitive, equal rules have equal hashes, and a rule never equals a non-rule.", "quantifier": "all rules", "why_tests_cant": "all triples of rules", "anchors": [{"file": "src/teacher/tree/rule.py", "symbols": ["Rule.__eq__", "Rule.__hash__"]}]}
{"id": "C26", "title": "FDT batch prediction is row-wise", "statement": "FDT.predict(X) gives row j the class that FDT.predict would give to that row alone, for both voting methods; it returns one class per row.", "quantifier": "every tree, every batch", "why_tests_cant": "all trees and batches", "anchors": [{"file": "src/teacher/tree/fdt_tree.py", "symbols": ["TreeFDT.predict", "TreeFDT._partial_predict"]}, {"file": "src/teacher/tree/_voting.py", "symbols": ["_aggregated_vote", "_maximum_matching"]}]}
{"id": "C27", "title": "FDT predicts a class of maximal vote", "statement": "The predicted class of a row has the largest vote over all classes: under agg_vote the vote of c is the sum over leaves of leaf membership times leaf weight of c, under max_match the maximum; ties go to the class met first in the leaves.", "quantifier": "every tree and row", "why_tests_cant": "all trees and rows", "anchors": [{"file": "src/teacher/tree/fdt_tree.py", "symbols": ["TreeFDT.predict"]}, {"file": "src/teacher/tree/_voting.py", "symbols": ["_aggregated_vote", "_maximum_matching"]}]}
{"id": "C28", "title": "The extracted rules vote like the tree", "statement": "For a fitted tree with at least one split and unique set names, the summed matching*weight of the rules of to_rule_based_system() for class c on an instance equals the agg_vote of the tree for c; so whenever one class is strictly best, Rule.weighted_vote over the rules returns the class predicted by the tree.", "quantifier": "every tree and instance", "why_tests_cant": "equivalence of two algorithms on all trees", "anchors": [{"file": "src/teacher/tree/fdt_tree.py", "symbols": ["TreeFDT.to_rule_based_system", "TreeFDT.predict"]}, {"file": "src/teacher/tree/rule.py", "symbols": ["Rule.weighted_vote"]}]}
{"id": "C29", "title": "verbose only prints", "statement": "to_rule_based_system(verbose=True) returns the same rules as verbose=False for FDT, FBDT and ID3.", "quantifier": "every fitted tree", "why_tests_cant": "tests never pass verbose through the base class", "anchors": [{"file": "src/teacher/tree/base_decision_tree.py", "symbols": ["BaseDecisionTree.to_rule_based_system"]}, {"file": "src/teacher/tree/fdt_tree.py", "symbols": ["TreeFDT.to_rule_based_system"]}]}
{"id": "C30", "title": "FDT leaves hold class distributions", "statement": "After FDT.fit on any non-empty dataset, every leaf maps every class of y to a weight in [0,1] and the weights of a leaf add up to 1 (no division by zero ever happens).", "quantifier": "every dataset with memberships in [0,1], every gain function", "why_tests_cant": "all datasets", "anchors": [{"file": "src/teacher/tree/fdt_tree.py", "symbols": ["FDT._partial_fit", "FDT._get_class_value"]}]}
{"id": "C31", "title": "FDT depth and feature use are bounded", "statement": "After FDT.fit no node is deeper than max_depth nor than the number of features, every feature is used at most once on a path, and a split node has exactly one child per fuzzy set of its feature, in order.", "quantifier": "every dataset, max_depth and gain function", "why_tests_cant": "all datasets and depths", "anchors": [{"file": "src/teacher/tree/fdt_tree.py", "symbols": ["FDT._partial_fit", "FDT._stop_met"]}]}
{"id": "C32", "title": "FDT.fit succeeds", "statement": "FDT.fit terminates without an exception on every non-empty, well-typed dataset whenever fuzzy_threshold>0.", "quantifier": "every dataset and parameters", "why_tests_cant": "all inputs; the failing region is fuzzy_threshold<=0", "anchors": [{"file": "src/teacher/tree/fdt_tree.py", "symbols": ["FDT._partial_fit", "FDT._get_max_f_gain"]}]}
{"id": "C33", "title": "Refitting an FDT forgets the previous data", "statement": "After fit(X1,y1) and then fit(X2,y2), the tree equals the one of a fresh object fitted with (X2,y2).", "quantifier": "every pair (history) of fits", "why_tests_cant": "a property of call histories", "anchors": [{"file": "src/teacher/tree/fdt_tree.py", "symbols": ["FDT.fit", "FDT._partial_fit"]}]}
{"id": "C34", "title": "An instance outside every fuzzy set gets the first class", "statement": "If every membership of an instance used by the tree is 0, a fitted FDT with at least one split predicts the smallest class label of the training set.", "quantifier": "every fitted tree", "why_tests_cant": "all trees", "anchors": [{"file": "src/teacher/tree/fdt_tree.py", "symbols": ["TreeFDT.predict"]}]}
{"id": "C35", "title": "On discrete data the fuzzy tree is an ordinary decision tree", "statement": "If every membership is 0 or 1 and exactly one set of every variable has 1, then exactly one leaf has membership 1, all others have 0, and the prediction is the heaviest class of that leaf reached by following the active set at each node.", "quantifier": "every tree and crisp instance", "why_tests_cant": "all trees", "anchors": [{"file": "src/teacher/tree/fdt_tree.py", "symbols": ["TreeFDT._partial_predict"]}]}
{"id": "C36", "title": "Prediction uses the fuzzy set that was used for training", "statement": "The child of a split node that was trained with the memberships of fuzzy set s is traversed at prediction time with the membership in s.", "quantifier": "every list of fuzzy variables, including repeated set names", "why_tests_cant": "needs repeated labels, which equal_freq produces only on skewed data", "anchors": [{"file": "src/teacher/tree/fdt_tree.py", "symbols": ["FDT._partial_fit", "TreeFDT._partial_predict"]}, {"file": "src/teacher/fuzzy/fuzzy_variable.py", "symbols": ["FuzzyVariable.membership"]}]}
{"id": "C37", "title": "FBDT splits are true bipartitions", "statement": "Every candidate split of a feature in FBDT consists of two non-empty disjoint lists that together contain exactly the sets of the feature still available.", "quantifier": "every feature dictionary", "why_tests_cant": "all sizes", "anchors": [{"file": "src/teacher/tree/fdt_binary_tree.py", "symbols": ["FBDT._get_binary_partitions"]}]}
{"id": "C38", "title": "FBDT leaves hold class distributions and the tree is bounded", "statement": "After FBDT.fit every leaf is a class distribution (weights in [0,1] adding up to 1), no node is deeper than max_depth, every inner node has exactly two children, and the fit terminates, also when a category of a discrete variable has no training example.", "quantifier": "every dataset and gain function", "why_tests_cant": "all datasets", "anchors": [{"file": "src/teacher/tree/fdt_binary_tree.py", "symbols": ["FBDT._partial_fit", "FBDT._get_class_value"]}]}
{"id": "C39", "title": "Simplifying FBDT rules does not change their matching", "statement": "On a fitted FBDT, to_rule_based_system(simplify=True) and (simplify=False) give the same number of rules with the same consequents, weights and matching for every instance that holds non-negative degrees for the sets of the rules.", "quantifier": "every fitted tree and instance", "why_tests_cant": "all trees", "anchors": [{"file": "src/teacher/tree/fdt_binary_tree.py", "symbols": ["TreeFBDT.to_rule_based_system", "FBDT._partial_fit"]}, {"file": "src/teacher/tree/rule.py", "symbols": ["Rule.simplify"]}]}
{"id": "C40", "title": "The extracted FBDT rules vote like the tree", "statement": "For a fitted FBDT with at least one split, the rules summed by class equal the agg_vote of the tree on every instance whose degrees in the sets of each variable add up to at most 1 (as those of get_fuzzy_variables do).", "quantifier": "every tree and instance", "why_tests_cant": "all trees", "anchors": [{"file": "src/teacher/tree/fdt_binary_tree.py", "symbols": ["TreeFBDT.predict", "TreeFBDT.to_rule_based_system"]}, {"file": "src/teacher/tree/rule.py", "symbols": ["Rule.matching"]}]}
{"id": "C41", "title": "FBDT subtrees are trained independently", "statement": "In FBDT.fit the right subtree of a node is a function of the data and of the path to it only; it does not depend on how the left subtree was grown.", "quantifier": "every dataset", "why_tests_cant": "needs aliasing between sibling nodes", "anchors": [{"file": "src/teacher/tree/fdt_binary_tree.py", "symbols": ["FBDT._get_max_f_gain", "TreeFBDT.update_ignored"]}]}
{"id": "C42", "title": "ID3 predicts a training class for every combination of known values", "statement": "After a successful ID3.fit with prunning and a positive threshold th (the defaults), or with max_depth not above the number of features, predict returns a class that occurs in y for every row whose values all occur in the corresponding training column; a row gets None exactly when it arrives at a node testing a feature for which its value is unknown.", "quantifier": "every dataset and row", "why_tests_cant": "all datasets and value combinations", "anchors": [{"file": "src/teacher/tree/id3_tree.py", "symbols": ["TreeID3.predict", "ID3._partial_fit"]}]}
{"id": "C43", "title": "ID3 rules are exclusive, exhaustive and agree with predict", "statement": "For the tree of a fitted ID3, an instance satisfies the antecedent of exactly one rule when predict returns a class, and that rule has the predicted class as consequent.", "quantifier": "every fitted tree and row", "why_tests_cant": "all trees", "anchors": [{"file": "src/teacher/tree/id3_tree.py", "symbols": ["TreeID3.to_rule_based_system", "TreeID3.predict"]}]}
{"id": "C44", "title": "ID3 error is the training error", "statement": "After a successful ID3.fit (with prunning and th > 0, or max_depth not above the number of features) the error recorded at the root equals the fraction of training rows that the tree misclassifies, so 1-error is score(X,y); every leaf predicts a majority class of the rows that reach it (of its parent's rows if none does).", "quantifier": "every dataset, any tie-breaking order", "why_tests_cant": "all datasets", "anchors": [{"file": "src/teacher/tree/id3_tree.py", "symbols": ["ID3._partial_fit"]}, {"file": "src/teacher/tree/base_decision_tree.py", "symbols": ["BaseDecisionTree.score"]}]}
{"id": "C45", "title": "ID3 depth and features are bounded", "statement": "After ID3.fit no node is deeper than max_depth, the level attribute of a node is its distance from the root, and no feature is tested twice on a path.", "quantifier": "every dataset", "why_tests_cant": "all datasets", "anchors": [{"file": "src/teacher/tree/id3_tree.py", "symbols": ["ID3._partial_fit"]}]}
{"id": "C46", "title": "ID3.fit succeeds on every non-empty dataset", "statement": "ID3.fit terminates without an exception on every non-empty dataset.", "quantifier": "every dataset", "why_tests_cant": "the failing datasets have a column with a single value", "anchors": [{"file": "src/teacher/tree/id3_tree.py", "symbols": ["ID3._partial_fit"]}]}
{"id": "C47", "title": "Every decision tree can be turned into rules", "statement": "to_rule_based_system() returns a list of rules for every fitted FDT, FBDT and ID3.", "quantifier": "every fitted tree", "why_tests_cant": "tests of ID3 use the legacy tree", "anchors": [{"file": "src/teacher/tree/base_decision_tree.py", "symbols": ["BaseDecisionTree.to_rule_based_system"]}, {"file": "src/teacher/tree/id3_tree.py", "symbols": ["TreeID3.to_rule_based_system"]}]}
{"id": "C48", "title": "FID3_factual returns the best matching fired rule", "statement": "FID3_factual returns a rule of the list with matching above the threshold and not smaller than that of any other rule, the first such; ValueError if no rule exceeds the threshold.", "quantifier": "every rule list, instance, threshold", "why_tests_cant": "all rule bases", "anchors": [{"file": "src/teacher/explanation/_factual.py", "symbols": ["FID3_factual", "_fired_rules"]}]}
{"id": "C49", "title": "m_factual returns the fired rules of the class at or above the mean", "statement": "If some rule of the class is fired, m_factual returns exactly the fired rules of the class whose activation is at least the mean activation of the fired rules of the class, ordered by decreasing activation, never empty, and beginning with a rule of maximal activation; otherwise ZeroDivisionError.", "quantifier": "every rule list, instance, class", "why_tests_cant": "all rule bases", "anchors": [{"file": "src/teacher/explanation/_factual.py", "symbols": ["m_factual"]}]}
{"id": "C50", "title": "mr_factual is robust and minimum", "statement": "If the fired rules of the class together out-vote every other class, then the rules returned by mr_factual already out-vote every other class (over all the rules), and no smaller set of fired rules of the class does. If they do not, all fired rules of the class are returned. ValueError when no rule has another class.", "quantifier": "every rule list, instance, class", "why_tests_cant": "minimality ranges over all subsets", "anchors": [{"file": "src/teacher/explanation/_factual.py", "symbols": ["mr_factual", "_robust_threshold"]}]}
{"id": "C51", "title": "c_factual stops at the first drop larger than lambda", "statement": "c_factual returns a non-empty prefix of the fired rules of the class by decreasing activation; without beta consecutive activations never drop by a factor above 1+lam and the first excluded rule does; it grows with lam; with beta it is a superset of the result without beta and either is everything or has mass at least beta. IndexError when no rule of the class is fired.", "quantifier": "every rule list, instance, lam, beta (positive weights)", "why_tests_cant": "all rule bases and parameters", "anchors": [{"file": "src/teacher/explanation/_factual.py", "symbols": ["c_factual"]}]}
{"id": "C52", "title": "Factual explanations only use fired rules of the explained class", "statement": "Every rule returned by m_factual, mr_factual and c_factual belongs to the rule list, has the class as consequent, matches the instance above 0.001, and is listed by decreasing activation.", "quantifier": "every rule list, instance, class", "why_tests_cant": "all rule bases", "anchors": [{"file": "src/teacher/explanation/_factual.py", "symbols": ["m_factual", "mr_factual", "c_factual"]}]}
{"id": "C53", "title": "A counterfactual changes the class", "statement": "If i_counterfactual or f_counterfactual returns a set of changes, then the instance with exactly those features moved entirely to the listed sets is classified by weighted_vote in a class different from class_val.", "quantifier": "every rule list, instance, class", "why_tests_cant": "all rule bases", "anchors": [{"file": "src/teacher/explanation/_counterfactual.py", "symbols": ["i_counterfactual", "f_counterfactual", "_search_counterfactual", "_apply_changes"]}]}
{"id": "C54", "title": "A counterfactual comes from a closest valid rule", "statement": "The returned changes come from a rule of another class whose distance is minimal among all candidate rules whose changes flip the class.", "quantifier": "every rule list, instance, class", "why_tests_cant": "minimality over all rules", "anchors": [{"file": "src/teacher/explanation/_counterfactual.py", "symbols": ["_search_counterfactual", "_cf_dist_instance", "_cf_dist_rule"]}]}
{"id": "C55", "title": "None means that no rule flips the class", "statement": "i_counterfactual / f_counterfactual return None only if applying the changes of any rule of another class leaves the class unchanged.", "quantifier": "every rule list, instance, class", "why_tests_cant": "completeness over all rules", "anchors": [{"file": "src/teacher/explanation/_counterfactual.py", "symbols": ["i_counterfactual", "f_counterfactual"]}]}
{"id": "C56", "title": "Counterfactual changes are real and minimal in shape", "statement": "Every returned change names a feature of the instance with a set that is not its currently strongest one; each feature occurs at most once; features that are not listed keep their memberships; if class_val is the class weighted_vote gives to the instance the set of changes is not empty.", "quantifier": "every rule list, instance, class", "why_tests_cant": "all rule bases", "anchors": [{"file": "src/teacher/explanation/_counterfactual.py", "symbols": ["_apply_changes"]}]}
{"id": "C57", "title": "d_counterfactual is sound, closest and complete", "statement": "d_counterfactual returns changes that flip the class, coming from a candidate with minimal distance between the decoded instance and the modified one, and None only if no rule flips the class.", "quantifier": "every rule list, instance, class, distance", "why_tests_cant": "all rule bases", "anchors": [{"file": "src/teacher/explanation/_counterfactual.py", "symbols": ["d_counterfactual"]}]}
{"id": "C58", "title": "FID3_counterfactual returns all the nearest rules", "statement": "FID3_counterfactual returns exactly the rules of counter_rules at minimal distance from the factual, in order, with that distance, where the distance is the number of features on which the two antecedents differ; it is symmetric and 0 exactly for equal antecedents as dictionaries. Without rules it returns an empty list and infinity.", "quantifier": "every factual and rule list", "why_tests_cant": "all rule lists", "anchors": [{"file": "src/teacher/explanation/_counterfactual.py", "symbols": ["FID3_counterfactual", "_compare_rules_FID3"]}]}
{"id": "C59", "title": "Distances between fuzzy sets of a variable are normalised", "statement": "The distance between two sets of a variable with n>=2 sets is |i-j|/(n-1), in [0,1], symmetric, 0 only for the same set and 1 only between the two ends; the distance to an instance is not larger. A variable with a single set raises ZeroDivisionError.", "quantifier": "every variable and pair of sets", "why_tests_cant": "all sizes", "anchors": [{"file": "src/teacher/explanation/_counterfactual.py", "symbols": ["_literal_distance", "_weighted_literal_distance"]}]}
{"id": "C60", "title": "Categorical distance counts the differing values", "statement": "The categorical part of the rule distances is the number of common categorical features on which the values differ.", "quantifier": "every pair of rules", "why_tests_cant": "depends on object identity of strings (`is not`)", "anchors": [{"file": "src/teacher/explanation/_counterfactual.py", "symbols": ["_get_categorical_cf_distance"]}]}
{"id": "C61", "title": "multiclass counterfactuals are sound for every class", "statement": "With multiclass=True i_counterfactual returns a dictionary; every entry (c, changes) has c different from class_val and the instance with those changes is classified as c; the changes come from the closest rule whose application yields c; every class reachable by applying one rule of another class is a key, unless as many classes as there are other consequents have been found.", "quantifier": "every rule list, instance, class", "why_tests_cant": "all rule bases", "anchors": [{"file": "src/teacher/explanation/_counterfactual.py", "symbols": ["i_counterfactual", "_search_counterfactual"]}]}
{"id": "C62", "title": "coverage is the fraction of covered instances", "statement": "coverage is in [0,1] and is the fraction of instances matched above the threshold by the rules; it never grows when the threshold grows; an empty list of rules raises IndexError.", "quantifier": "every rule list, dataset, threshold", "why_tests_cant": "all rule lists; documentation (any rule) and code (every rule) differ for several rules", "anchors": [{"file": "src/teacher/metrics/_rule.py", "symbols": ["coverage", "_get_fuzzy_coverage", "_get_covered_instances"]}]}
{"id": "C63", "title": "precision is the accuracy on the covered instances", "statement": "When something is covered, precision is in [0,1] and equals (covered instances with the consequent class)/(covered instances), so precision*coverage is the fraction of instances that are covered and correct.", "quantifier": "every rule list, dataset, labels", "why_tests_cant": "all inputs", "anchors": [{"file": "src/teacher/metrics/_rule.py", "symbols": ["precision"]}]}
{"id": "C64", "title": "fidelity and rule_fidelity are agreement rates", "statement": "fidelity(y,z) is in [0,1], symmetric, and 1 exactly when the predictions agree everywhere; rule_fidelity is the agreement rate on the covered instances and equals fidelity when everything is covered.", "quantifier": "every pair of prediction vectors", "why_tests_cant": "all inputs", "anchors": [{"file": "src/teacher/metrics/_rule.py", "symbols": ["fidelity", "rule_fidelity"]}]}
{"id": "C65", "title": "The 'moth' distance is a metric", "statement": "With positive MADs the 'moth' distance between instances of the same length is >=0, symmetric, 0 only for equal instances, and satisfies the triangle inequality.", "quantifier": "every triple of instances", "why_tests_cant": "triangle inequality over all triples", "anchors": [{"file": "src/teacher/metrics/_counterfactual.py", "symbols": ["_distance", "proximity_dissimilarity"]}]}
{"id": "C66", "title": "The closest instance is the closest different instance", "statement": "_closest_instance returns the first instance of the dataset at minimal positive distance, and the empty list iff every distance is 0 or the dataset is empty.", "quantifier": "every dataset and instance, any distance function", "why_tests_cant": "all datasets", "anchors": [{"file": "src/teacher/metrics/_counterfactual.py", "symbols": ["_closest_instance"]}]}
{"id": "C67", "title": "implausibility measures the distance to the data", "statement": "implausibility is the distance from the counterfactual to the nearest instance of the dataset: 0 exactly when the counterfactual is in the dataset.", "quantifier": "every dataset and instance", "why_tests_cant": "needs counterfactuals that are members of the dataset", "anchors": [{"file": "src/teacher/metrics/_counterfactual.py", "symbols": ["implausibility", "_closest_instance"]}]}
{"id": "C68", "title": "sparsity_dissimilarity is the fraction of changed features", "statement": "sparsity_dissimilarity is in [0,1], 0 exactly for equal instances, symmetric for instances of the same length, and satisfies the triangle inequality.", "quantifier": "every pair of instances", "why_tests_cant": "all lengths", "anchors": [{"file": "src/teacher/metrics/_counterfactual.py", "symbols": ["sparsity_dissimilarity"]}]}
{"id": "C69", "title": "instability is well defined and monotone", "statement": "instability never divides by zero, is >=0, is 0 when both counterfactuals coincide, and is at most the distance between the counterfactuals.", "quantifier": "every four instances (positive MADs)", "why_tests_cant": "all inputs", "anchors": [{"file": "src/teacher/metrics/_counterfactual.py", "symbols": ["instability"]}]}
{"id": "C70", "title": "The genetic algorithm keeps the population size and never loses the best individual", "statement": "For every sequence of random draws and number of rounds, genetic_algorithm returns a population of the initial size whose best fitness is at least the initial best, and whose k-th best fitness is at least the initial k-th best for every k.", "quantifier": "every random sequence, population, fitness, rounds", "why_tests_cant": "randomised: every schedule of draws", "anchors": [{"file": "src/teacher/neighbors/genetic_algorithm.py", "symbols": ["genetic_algorithm", "replacement"]}]}
{"id": "C71", "title": "The genetic algorithm invents no values", "statement": "For every sequence of random draws, gene i of every individual of the final population is gene i of some initial individual or a value produced by the generator of feature i; individuals keep their length and the input population is not modified.", "quantifier": "every random sequence", "why_tests_cant": "every schedule of draws", "anchors": [{"file": "src/teacher/neighbors/genetic_algorithm.py", "symbols": ["genetic_algorithm", "uniform_crossover", "informed_init", "tournament_selection"]}]}
{"id": "C72", "title": "Uniform crossover only exchanges genes", "statement": "For every draw, at every position the two children hold the genes of the two parents, either kept or swapped; with prob<=0 the children are the parents, with prob>=1 they are swapped.", "quantifier": "every random sequence", "why_tests_cant": "every schedule of draws", "anchors": [{"file": "src/teacher/neighbors/genetic_algorithm.py", "symbols": ["uniform_crossover"]}]}
{"id": "C73", "title": "Tournament and replacement select correctly", "statement": "tournament_selection returns as many individuals as the population, each the best of k>=1 drawn members; replacement returns the n best individuals of old+new in decreasing fitness, where n is the size of the old population.", "quantifier": "every random sequence and population", "why_tests_cant": "every schedule of draws", "anchors": [{"file": "src/teacher/neighbors/genetic_algorithm.py", "symbols": ["tournament_selection", "replacement"]}]}
{"id": "C74", "title": "The fast sampling neighborhood terminates with a balanced sample that contains the instance", "statement": "SamplingNeighborhood with neighbor_generation='fast' terminates for every black box and every random sequence; the sample before the instance is appended has at most ceil(size/n) rows of each of the n classes and at most size+1 rows; the last row is the instance.", "quantifier": "every black box and random sequence", "why_tests_cant": "every schedule of draws, including black boxes that never produce a class", "anchors": [{"file": "src/teacher/neighbors/_sampling_neighborhood.py", "symbols": ["SamplingNeighborhood._generate_neighborhood_fast"]}]}
{"id": "C75", "title": "The default sampling neighborhood works", "statement": "SamplingNeighborhood(...).fit() with the default neighbor_generation succeeds.", "quantifier": "every dataset", "why_tests_cant": "tests only cover the fast method", "anchors": [{"file": "src/teacher/neighbors/_sampling_neighborhood.py", "symbols": ["SamplingNeighborhood._generate_neighborhood", "SamplingNeighborhood._generate_prob_dist"]}]}
{"id": "C76", "title": "Sampling distributions are probability distributions over observed values near the instance", "statement": "For every column the values of the sampling distribution are observed values of the column, strictly within the range of the instance for continuous columns, in increasing order, with positive probabilities adding up to 1 and proportional to their frequencies, whenever some value is in range. A neighbor_range that is not \"std\" nor a float in (0,1) raises ValueError if there is a continuous column.", "quantifier": "every dataset, instance, range", "why_tests_cant": "all datasets", "anchors": [{"file": "src/teacher/neighbors/_sampling_neighborhood.py", "symbols": ["SamplingNeighborhood._generate_prob_dist"]}]}
{"id": "C77", "title": "Neighborhood getters raise until the data exist", "statement": "For every sequence of calls, get_X/get_y raise NotFittedError until a fit succeeded, fuzzify raises NotFittedError before fit, get_X_membership/get_instance_membership/get_fuzzy_variables raise NotFuzzifiedError until a fuzzify succeeded, and a fuzzify with missing arguments raises ValueError and changes nothing.", "quantifier": "every call history", "why_tests_cant": "all histories of calls", "anchors": [{"file": "src/teacher/neighbors/_fuzzy_neighborhood.py", "symbols": ["FuzzyNeighborhood"]}, {"file": "src/teacher/neighbors/_base_neighborhood.py", "symbols": ["BaseNeighborhood"]}]}
{"id": "C78", "title": "Memberships describe the current neighborhood", "statement": "Whenever get_X_membership returns, it is the membership of the X returned by get_X.", "quantifier": "every call history", "why_tests_cant": "refit after fuzzify is a history no test runs", "anchors": [{"file": "src/teacher/neighbors/_fuzzy_neighborhood.py", "symbols": ["FuzzyNeighborhood.fuzzify", "FuzzyNeighborhood.get_X_membership"]}, {"file": "src/teacher/neighbors/_sampling_neighborhood.py", "symbols": ["SamplingNeighborhood.fit"]}]}
{"id": "C79", "title": "Label encoding round-trips", "statement": "label_decode(label_encode(df, columns)) restores df for every dataframe and distinct columns; codes of a column are 0..n-1 for its n sorted distinct values and order preserving; other columns are untouched; encoding with a given encoder fails with ValueError on an unseen label.", "quantifier": "every dataframe", "why_tests_cant": "all dataframes", "anchors": [{"file": "src/teacher/utils/util.py", "symbols": ["label_encode", "label_decode"]}]}
{"id": "C80", "title": "Features are either discrete or continuous", "statement": "set_discrete_continuous puts the class last in discrete and never in continuous, and every other typed feature in exactly one of the two lists.", "quantifier": "every feature list, types and user lists", "why_tests_cant": "all argument combinations", "anchors": [{"file": "src/teacher/utils/util.py", "symbols": ["set_discrete_continuous"]}]}
{"id": "C81", "title": "mixed_distance accounts for both kinds of attributes", "statement": "mixed_distance is the average of the discrete and the continuous distances weighted by the number of attributes of each kind, in particular two records with different continuous attributes can be told apart when there are no discrete ones.", "quantifier": "every pair of records", "why_tests_cant": "needs datasets without discrete attributes", "anchors": [{"file": "src/teacher/utils/distance_functions.py", "symbols": ["mixed_distance"]}]}
{"id": "C82", "title": "Elementary distances are normalised", "statement": "simple_match_distance is in [0,1] and 0 exactly for equal vectors; normalized_euclidean_distance is in [0,1] and symmetric when a variance is positive; mad_distance is >=0 and symmetric.", "quantifier": "every pair of vectors", "why_tests_cant": "all lengths", "anchors": [{"file": "src/teacher/utils/distance_functions.py", "symbols": ["simple_match_distance", "normalized_euclidean_distance", "mad_distance"]}]}
{"id": "C83", "title": "get_closest returns the k nearest records", "statement": "get_closest returns min(k,n) distinct indices by non-decreasing distance such that no other record is strictly closer than a returned one.", "quantifier": "every dataframe, distance, k, any argsort tie-breaking", "why_tests_cant": "all inputs", "anchors": [{"file": "src/teacher/utils/util.py", "symbols": ["get_closest"]}]}
{"id": "C84", "title": "get_closest_diffoutcome returns valid neighbours", "statement": "get_closest_diffoutcome returns at most k valid indices, and at least int(k*ratio) records of the under-represented outcome 0 when these exist and it is under-represented.", "quantifier": "every dataframe, black box, k, ratio", "why_tests_cant": "all inputs", "anchors": [{"file": "src/teacher/utils/util.py", "symbols": ["get_closest_diffoutcome"]}]}
{"id": "C85", "title": "get_diff_outcome returns the other outcome", "statement": "For two different possible outcomes get_diff_outcome returns an outcome different from the given one.", "quantifier": "every pair of outcomes", "why_tests_cant": "all values", "anchors": [{"file": "src/teacher/utils/util.py", "symbols": ["get_diff_outcome"]}]}
{"id": "C86", "title": "Explainers refuse to answer before fit", "statement": "explain and hit raise NotFittedError until the explainer is fitted, whatever the call history, and hit is true exactly when the explained value equals the target.", "quantifier": "every call history", "why_tests_cant": "all histories", "anchors": [{"file": "src/teacher/explanation/_base_explainer.py", "symbols": ["BaseExplainer.explain"]}, {"file": "src/teacher/explanation/_factual_local_explainer.py", "symbols": ["FactualLocalExplainer.hit"]}]}
{"id": "C87", "title": "write_explanation works on every fitted explainer", "statement": "write_explanation returns a text for every fitted explainer.", "quantifier": "every fitted explainer", "why_tests_cant": "needs an instance without counterfactual, or an FBDTExplainer", "anchors": [{"file": "src/teacher/explanation/_factual_local_explainer.py", "symbols": ["FactualLocalExplainer.write_explanation"]}, {"file": "src/teacher/explanation/FBDT_explainer.py", "symbols": ["FBDTExplainer.fit"]}]}
{"id": "C88", "title": "FDTExplainer explains the prediction of its own tree", "statement": "After FDTExplainer.fit succeeds, every factual rule has the class predicted by the local tree for the instance as consequent, and the counterfactual changes, if any, make weighted_vote over the rules of the tree return another class. Invalid method names, c_factual without lam, and d_counterfactual without its indices or MAD raise ValueError.", "quantifier": "every neighborhood, instance, method", "why_tests_cant": "composition over all trees", "anchors": [{"file": "src/teacher/explanation/FDT_explainer.py", "symbols": ["FDTExplainer.fit"]}]}
{"id": "C89", "title": "GP mutation and oversampling stay inside the data", "statement": "mutate changes genes only to values of the feature and keeps the length; get_oversample returns only members of the population or hall of fame with fitness above a threshold that lies strictly below the best fitness when fitnesses differ.", "quantifier": "every random sequence", "why_tests_cant": "every schedule of draws", "anchors": [{"file": "src/teacher/neighbors/gpdatagenerator.py", "symbols": ["mutate", "get_oversample"]}]}
{"id": "C90", "title": "Smoothing a LORE neighborhood clips and terminates", "statement": "_smooth_neighborhood terminates, every kept row has its continuous columns inside the training range, rows are only removed, and the explained instance is the last row.", "quantifier": "every neighborhood", "why_tests_cant": "a while loop whose body would not terminate if entered", "anchors": [{"file": "src/teacher/neighbors/_lore_neighborhood.py", "symbols": ["LoreNeighborhood._smooth_neighborhood"]}]}
{"id": "C91", "title": "FDT splits exactly where no stopping rule applies, on the best unused feature", "statement": "After FDT.fit, a split node has training rows (of positive degree) of at least two classes, at least min_num_examples of them, depth below max_depth, and is split on a feature not used above it whose information gain is positive, at least fuzzy_threshold and not below the gain of any other unused feature; a leaf has no membership left, or rows of a single class, or fewer than min_num_examples rows, or depth max_depth, or no unused feature whose gain reaches the threshold.", "quantifier": "every dataset, impurity function, iteration order of the feature set and setting of the stopping parameters", "why_tests_cant": "ranges over all datasets and over every node of trees of any size", "anchors": [{"file": "src/teacher/tree/fdt_tree.py", "symbols": ["FDT._stop_met", "FDT._get_max_f_gain", "FDT._partial_fit"]}]}
{"id": "C92", "title": "Fast sampling succeeds on every well formed dataset", "statement": "SamplingNeighborhood with the fast method generates a neighborhood for every dataset, instance and neighbor_range \"std\" or in (0,1).", "quantifier": "every dataset, instance, range and random sequence", "why_tests_cant": "the failing datasets have a constant continuous column, or a single predicted class", "anchors": [{"file": "src/teacher/neighbors/_sampling_neighborhood.py", "symbols": ["SamplingNeighborhood._generate_prob_dist", "SamplingNeighborhood._generate_neighborhood_fast"]}]}
{"id": "C93", "title": "A well formed fuzzify succeeds and describes every column", "statement": "After fit, fuzzify succeeds whenever the numeric and categorical columns given are exactly the columns of the data, at least one is numeric, the numeric ones hold numbers and the discretizer answers with a non-empty non-decreasing list; then there is one fuzzy variable per column in the order of the columns, numeric ones with one set per peak (the distinct values when the column is constant), categorical ones with one set per distinct value, and the memberships of the data and of the instance have exactly the columns as keys.", "quantifier": "every fitted neighborhood, every split of its columns, every discretizer", "why_tests_cant": "all tables and column orders", "anchors": [{"file": "src/teacher/neighbors/_fuzzy_neighborhood.py", "symbols": ["FuzzyNeighborhood.fuzzify"]}, {"file": "src/teacher/neighbors/_sampling_neighborhood.py", "symbols": ["SamplingNeighborhood.fuzzify"]}, {"file": "src/teacher/fuzzy/_base.py", "symbols": ["get_fuzzy_points", "get_fuzzy_variables", "dataset_membership"]}]}
{"id": "C94", "title": "generate_dataset prepares X, y and the encoders of the same data", "statement": "For every DataFrame with the class among the columns, generate_dataset succeeds and returns X with one row per row and one column per non-class column of the DataFrame, in order, with the values of the DataFrame or their codes for discrete features, y the codes of the class, possible_outcomes the different class values in order of first appearance, and discrete/continuous/idx_features describing these columns; without normalize the DataFrame keeps its values, with it only continuous columns are scaled. A missing class raises KeyError or ValueError.", "quantifier": "every DataFrame, dtypes, list of discrete features, order of set iteration", "why_tests_cant": "all DataFrames and set orders", "anchors": [{"file": "src/teacher/datasets/_base.py", "symbols": ["generate_dataset"]}]}
{"id": "C95", "title": "build_df2explain shows the records and their predictions", "statement": "build_df2explain returns a DataFrame with the columns of the dataset in which each row has the values of the corresponding row of X, decoded for discrete features, and the class column has the decoded prediction of the black box.", "quantifier": "every dataset, X and black box", "why_tests_cant": "needs datasets whose class is not the first column", "anchors": [{"file": "src/teacher/utils/util.py", "symbols": ["build_df2explain"]}, {"file": "src/teacher/datasets/_base.py", "symbols": ["load_basket"]}]}
{"id": "C96", "title": "GP data generation returns individuals of every kind", "statement": "generate_data returns records for each of the four populations asked for.", "quantifier": "every population, fitness and random sequence", "why_tests_cant": "needs populations of equal fitness", "anchors": [{"file": "src/teacher/neighbors/gpdatagenerator.py", "symbols": ["generate_data", "get_oversample"]}]}
{"id": "C97", "title": "GP fitness rewards the wanted outcome and closeness", "statement": "With the default weights, each fitness is in [0,1]; individuals with the wanted outcome have fitness at least 1/2 and the others less or equal; the record itself is not rewarded for its similarity.", "quantifier": "every record, distance in [0,1] and black box", "why_tests_cant": "all distances and black boxes", "anchors": [{"file": "src/teacher/neighbors/gpdatagenerator.py", "symbols": ["fitness_sso", "fitness_sdo", "fitness_dso", "fitness_ddo"]}]}
{"id": "C98", "title": "genetic_neighborhood works for every black box", "statement": "genetic_neighborhood returns a DataFrame for every record, also when the generated records all have the same class.", "quantifier": "every black box and generated data", "why_tests_cant": "needs generated data with one class", "anchors": [{"file": "src/teacher/neighbors/neighbor_generator.py", "symbols": ["genetic_neighborhood"]}]}
{"id": "C99", "title": "GP feature values contain the observed values", "statement": "calculate_feature_values gives every column a list of candidate values that contains all the observed ones.", "quantifier": "every DataFrame and random sequence", "why_tests_cant": "all DataFrames", "anchors": [{"file": "src/teacher/neighbors/gpdatagenerator.py", "symbols": ["calculate_feature_values"]}]}
{"id": "C100", "title": "Random genes follow the columns of the data", "statement": "get_feature_values gives each column, by position, a generator: a normal distribution with the mean and standard deviation of a numeric column, or a choice among exactly the different values of a categorical one.", "quantifier": "every dataset", "why_tests_cant": "all datasets", "anchors": [{"file": "src/teacher/neighbors/genetic_algorithm.py", "symbols": ["get_feature_values"]}]}
{"id": "C101", "title": "SimpleNeighborhood is size copies of the instance", "statement": "Whatever happened before, after SimpleNeighborhood.fit get_X has exactly size rows, all equal to the instance, and get_y the black-box class of each.", "quantifier": "every instance, size, black box and previous state", "why_tests_cant": "all sizes and states", "anchors": [{"file": "src/teacher/neighbors/_simple_neighborhood.py", "symbols": ["SimpleNeighborhood.fit"]}, {"file": "src/teacher/neighbors/_base_neighborhood.py", "symbols": ["BaseNeighborhood.get_X", "BaseNeighborhood.get_y"]}]}
{"id": "C102", "title": "generate_random_data extends the data with values of each column", "statement": "When every column but the class is discrete or continuous, generate_random_data returns the rows of X unchanged and in order, followed by exactly `size` new rows with one value per column; the values of a discrete column (and of a continuous column without variation) are values observed in that column.", "quantifier": "every array X, every column classification, size and random sequence", "why_tests_cant": "all datasets and random sequences", "anchors": [{"file": "src/teacher/neighbors/neighbor_generator.py", "symbols": ["generate_random_data"]}]}
{"id": "C103", "title": "real_data relabels the records with the black box", "statement": "real_data returns a DataFrame with the same feature columns as the one given, cell by cell, whose class column is, row by row, the decoded prediction of the black box for the encoded record.", "quantifier": "every DataFrame whose values the encoders know, every black box", "why_tests_cant": "all datasets and black boxes", "anchors": [{"file": "src/teacher/neighbors/neighbor_generator.py", "symbols": ["real_data"]}]}
{"id": "C104", "title": "ID3 splits on the feature with the largest gain", "statement": "After ID3.fit every node that tests a feature is above max_depth, has at least min_num_examples training rows, has one branch for each value of the training column, tests a feature that was not tested above it, and the gain of that feature on the rows that reach the node is the largest among the features not tested above.", "quantifier": "every dataset, every iteration order of sets", "why_tests_cant": "all datasets", "anchors": [{"file": "src/teacher/tree/id3_tree.py", "symbols": ["ID3.fit", "ID3._partial_fit"]}]}
{"id": "C105", "title": "the gain of ID3 is the information gain", "statement": "The number ID3 compares is the textbook information gain in bits (entropy of the labels minus the mean entropy of the labels given the value of the feature); it lies between 0 and the entropy of the labels.", "quantifier": "every column, labels and list of values", "why_tests_cant": "all data; needs concavity of entropy", "anchors": [{"file": "src/teacher/tree/id3_tree.py", "symbols": ["ID3.fit", "ID3._partial_fit"]}]}
{"id": "C106", "title": "an ID3 tree is never worse than a constant on the training data", "statement": "After ID3.fit the tree makes on the training rows at most as many mistakes as answering one fixed class for all of them.", "quantifier": "every dataset and class", "why_tests_cant": "all datasets", "anchors": [{"file": "src/teacher/tree/id3_tree.py", "symbols": ["ID3.fit", "ID3._partial_fit"]}]}
{"id": "C107", "title": "splits kept by ID3 pruning pay off", "statement": "When a new ID3 object with prunning and th > 0 is fitted, each remaining split has at least two branches and lowers the training error of its rows by at least th for each branch beyond the first.", "quantifier": "every dataset", "why_tests_cant": "all datasets", "anchors": [{"file": "src/teacher/tree/id3_tree.py", "symbols": ["ID3.fit", "ID3._partial_fit"]}]}
{"id": "C108", "title": "fitting an ID3 object again is like fitting a new one", "statement": "ID3.fit on an object that was fitted before gives the same predictions and rules as on a new object.", "quantifier": "every history of fits and dataset", "why_tests_cant": "all histories; the failing ones need a borderline threshold", "anchors": [{"file": "src/teacher/tree/id3_tree.py", "symbols": ["ID3.fit", "ID3._partial_fit"]}]}
{"id": "C109", "title": "ID3.to_rule_based_system returns the rules of the tree", "statement": "After ID3.fit, to_rule_based_system(verbose, simplify) returns the rules of the fitted tree.", "quantifier": "every fitted ID3", "why_tests_cant": "every call fails, which the test-suite does not notice as it calls the tree", "anchors": [{"file": "src/teacher/tree/base_decision_tree.py", "symbols": ["BaseDecisionTree.to_rule_based_system"]}, {"file": "src/teacher/tree/id3_tree.py", "symbols": ["TreeID3.to_rule_based_system"]}]}
{"id": "C110", "title": "Fitting an FBDT again replaces the tree", "statement": "Calling FBDT.fit a second time on the same object gives the tree that a new object would give on the second dataset.", "quantifier": "every object and dataset", "why_tests_cant": "ranges over all histories of fits; it fails because a refit appends children to the old root", "anchors": [{"file": "src/teacher/tree/fdt_binary_tree.py", "symbols": ["FBDT.fit", "FBDT._partial_fit"]}]}
{"id": "C111", "title": "The memberships a binary tree is trained with are those it predicts with", "statement": "After FBDT.fit the membership of a training row in a node (attribute mu) is the degree that prediction gives to that row in the tests on the way to the node: it is never less, and it is equal when no feature is tested twice on the way.", "quantifier": "every dataset, node and training row", "why_tests_cant": "all trees; the equality fails only in trees that test a feature twice, because arrays are overwritten in place while candidates are compared", "anchors": [{"file": "src/teacher/tree/fdt_binary_tree.py", "symbols": ["FBDT._get_max_f_gain", "TreeFBDT.update_ignored", "TreeFBDT._partial_predict"]}]}
{"id": "C112", "title": "Both tree explainers can be fitted on any number of classes", "statement": "FBDTExplainer.fit, like FDTExplainer.fit, succeeds on neighborhoods with more than two classes.", "quantifier": "every neighborhood, every number of classes", "why_tests_cant": "Tests use binary data sets; that no neighborhood with three classes works is a statement about all of them.", "anchors": [{"file": "src/teacher/explanation/FBDT_explainer.py", "symbols": ["FBDTExplainer.fit"]}, {"file": "src/teacher/explanation/FDT_explainer.py", "symbols": ["FDTExplainer.fit"]}]}
{"id": "C113", "title": "FID3Explainer can be fitted", "statement": "FID3Explainer.fit succeeds on a fuzzified neighborhood and afterwards explain and hit answer.", "quantifier": "every neighborhood, every call history", "why_tests_cant": "A failing example does not show that no input works.", "anchors": [{"file": "src/teacher/explanation/FID3_explainer.py", "symbols": ["FID3Explainer.fit"]}, {"file": "src/teacher/tree/base_decision_tree.py", "symbols": ["BaseDecisionTree.to_rule_based_system"]}]}
{"id": "C114", "title": "The fidelity measures the agreement of the local tree with the black box", "statement": "After fit, fidelity compares the labels of the neighborhood with the predictions of the local tree on its rows; it lies in [0,1] and is 1 exactly when they agree on every row.", "quantifier": "every neighborhood and local tree", "why_tests_cant": "Ranges over all label lists and all predictions.", "anchors": [{"file": "src/teacher/explanation/FDT_explainer.py", "symbols": ["FDTExplainer.fit"]}, {"file": "src/teacher/explanation/FBDT_explainer.py", "symbols": ["FBDTExplainer.fit"]}]}
{"id": "C115", "title": "FBDTExplainer explains the prediction of its own tree", "statement": "After FBDTExplainer.fit succeeds, the explained value is the class its local tree predicts for the instance, and every factual rule is a rule of that tree with this class as consequent that matches the instance.", "quantifier": "every neighborhood, instance and factual method", "why_tests_cant": "Ranges over all neighborhoods and instances.", "anchors": [{"file": "src/teacher/explanation/FBDT_explainer.py", "symbols": ["FBDTExplainer.fit"]}]}
{"id": "C116", "title": "FBDT splits exactly where no stopping rule applies, with the best binary division", "statement": "After FBDT.fit, a split node has training rows (of positive membership) of at least two classes, at least min_num_examples of them, depth below max_depth, and exactly two children whose information gain is positive, at least fuzzy_threshold and not below the gain of any candidate division of the sets of a variable that is not tested above the node (all the cuts of a continuous variable; all the divisions of a discrete variable, each set of which has a training example, that separate its sets by their share of the first class); a leaf has no membership left, or rows of a single class, or fewer than min_num_examples rows, or depth max_depth, or no such candidate reaches the threshold.", "quantifier": "every dataset, impurity function and setting of the stopping parameters", "why_tests_cant": "ranges over all datasets and over every node of trees of any size", "anchors": [{"file": "src/teacher/tree/fdt_binary_tree.py", "symbols": ["FBDT._stop_met", "FBDT._get_max_f_gain", "FBDT._get_binary_partitions", "FBDT._partial_fit"]}]}
{"id": "C117", "title": "Smoothing a LORE neighborhood removes only outliers", "statement": "The smoothing of a LORE neighborhood removes only rows that are three standard deviations or more away from the mean in some continuous column, so it removes at most one ninth of the rows per continuous column and never empties a neighborhood because one of its columns has a single value.", "quantifier": "every generated neighborhood, training data and list of continuous columns", "why_tests_cant": "ranges over all data; needs Chebyshev's inequality on every column", "anchors": [{"file": "src/teacher/neighbors/_lore_neighborhood.py", "symbols": ["LoreNeighborhood._smooth_neighborhood"]}]}
{"id": "C118", "title": "LoreNeighborhood.fit labels the rows it stores", "statement": "LoreNeighborhood.fit succeeds on datasets with categorical features; after it, X is Xy without the class, the last row of X is the explained instance, y holds the answer of the black box for every row of X in order, and get_y_decoded holds the decoded class of every row.", "quantifier": "every dataset, black box, instance and generated table", "why_tests_cant": "ranges over all generated tables; the class is skipped as obsolete in the tests", "anchors": [{"file": "src/teacher/neighbors/_lore_neighborhood.py", "symbols": ["LoreNeighborhood.fit", "LoreNeighborhood._smooth_neighborhood", "LoreNeighborhood.get_y_decoded"]}]}
{"id": "C119", "title": "LORE and sampling neighborhoods fuzzify alike", "statement": "When fuzzify of a LORE neighborhood succeeds, whatever is given as instance_membership, its attributes are exactly those that fuzzify of a sampling neighborhood in the same state sets; in particular get_instance_membership is the membership of the decoded instance.", "quantifier": "every state of the neighborhood, discretizer and arguments", "why_tests_cant": "relational property over all states and arguments", "anchors": [{"file": "src/teacher/neighbors/_lore_neighborhood.py", "symbols": ["LoreNeighborhood.fuzzify"]}, {"file": "src/teacher/neighbors/_sampling_neighborhood.py", "symbols": ["SamplingNeighborhood.fuzzify"]}]}
{"id": "C120", "title": "Trees that compare equal behave alike", "statement": "If two fitted trees of the same kind compare equal with ==, they give the same prediction for every table of rows and the same rules.", "quantifier": "all pairs of trees fitted on any data with any settings, all tables to classify", "why_tests_cant": "relational property over all pairs of trees and all inputs", "anchors": [{"file": "src/teacher/tree/fdt_tree.py", "symbols": ["TreeFDT.__eq__"]}, {"file": "src/teacher/tree/fdt_binary_tree.py", "symbols": ["TreeFBDT.__eq__"]}, {"file": "src/teacher/tree/id3_tree.py", "symbols": ["TreeID3.__eq__"]}]}
{"id": "C121", "title": "The 'mixed' distance is a metric on encoded rows", "statement": "For rows of n>0 numbers, proximity_dissimilarity(..., distance='mixed') is the mean over the columns in which each continuous column counts the Euclidean distance of the continuous columns and each discrete one the jaccard distance of the discrete columns; it is >=0, symmetric, satisfies the triangle inequality, and is 0 exactly for rows that agree in the given columns. A string in one of them raises ValueError, an unknown name of a distance KeyError.", "quantifier": "all pairs and triples of rows, all lists of column indices", "why_tests_cant": "metric axioms over all real vectors", "anchors": [{"file": "src/teacher/metrics/_counterfactual.py", "symbols": ["_mixed_distance", "_continuous_distance", "_categorical_distance", "DISTANCES", "proximity_dissimilarity"]}]}
{"id": "C122", "title": "Jaccard sparsity is a metric between mismatch and 1 and does not depend on the coding", "statement": "sparsity_dissimilarity(..., distance='jaccard') of rows of numbers is in [0,1], symmetric, 0 exactly for equal rows, satisfies the triangle inequality, is at least the mismatch sparsity (equal when no feature is 0 in both rows), and neither sparsity changes when features are recoded injectively.", "quantifier": "all rows, all injective recodings of the columns, all values of the argument distance", "why_tests_cant": "metric axioms and invariance over all vectors and recodings", "anchors": [{"file": "src/teacher/metrics/_counterfactual.py", "symbols": ["sparsity_dissimilarity"]}]}
{"id": "C123", "title": "Closest instance, implausibility and instability with the 'mixed' distance", "statement": "With distance='mixed' on rows of numbers whose columns are all listed: _closest_instance is the first nearest row that differs from the instance; implausibility never fails and is the smallest distance to a row that differs; instability never fails, is the distance of the counterfactuals over one plus the distance of the instances, and is 0 exactly when the counterfactuals coincide.", "quantifier": "all datasets, instances and counterfactuals", "why_tests_cant": "minimality over all datasets; the failing case is a dataset without a different row", "anchors": [{"file": "src/teacher/metrics/_counterfactual.py", "symbols": ["_closest_instance", "implausibility", "instability"]}]}
{"id": "C124", "title": "to_json describes the rule faithfully", "statement": "Rule.to_json(fuzzy_variables) over variables with distinct names succeeds exactly when every condition refers to a set of the variables (KeyError otherwise), keeps consequent and weight, lists the sets of the conditions in order with their points, and its first entry holds exactly the conditions of the rule, so that different rules have different jsons; every rule of a fitted tree has a json over the variables of the tree.", "quantifier": "all rules, all fuzzy variables, all fitted trees", "why_tests_cant": "ranges over all rules and trees; the loss needs a rule that repeats a feature", "anchors": [{"file": "src/teacher/tree/rule.py", "symbols": ["Rule.to_json"]}]}
{"id": "C125", "title": "estimate_nbr_bins returns a positive number of bins", "statement": "estimate_nbr_bins(x) returns a number of bins for every sample: 1 for one value, 2 for two, and otherwise the larger of Sturges' and Freedman-Diaconis' numbers, enough for bins of width 2 IQR / n^(1/3) to cover the sample and never more than one of the two rules asks for.", "quantifier": "all samples", "why_tests_cant": "ranges over all samples; the failure needs a sample in which one value takes more than three quarters", "anchors": [{"file": "src/teacher/neighbors/gpdatagenerator.py", "symbols": ["freedman_diaconis", "struges", "estimate_nbr_bins"]}]}
{"id": "C126", "title": "estimated distributions: the best fit is chosen and its values span its quantiles", "statement": "best_fit_distribution returns the first of the distributions with the smallest error and its parameters; get_distr_values(x, size) returns size equally spaced values from the 1% to the 99% quantile of that distribution, so that calculate_feature_values with continuous_function_estimation succeeds on every table.", "quantifier": "all samples, all results of the fits, all quantile functions, all tables", "why_tests_cant": "ranges over all fits and tables; the failures need a perfect fit or a dominated column", "anchors": [{"file": "src/teacher/neighbors/gpdatagenerator.py", "symbols": ["best_fit_distribution", "get_distr_values", "calculate_feature_values"]}]}
{"id": "C127", "title": "closed_real_data returns real records relabelled by the black box", "statement": "closed_real_data(X, y, x, blackbox, dataset) on a table with a record or more succeeds, selects at most 100 records starting with the 90 nearest to the record to explain, and returns their encoded rows together with a DataFrame holding those records in that order, every feature unchanged and the class replaced by the label the black box gives to the row.", "quantifier": "all tables of a dataset with the class first, all distances, all black boxes, all records to explain", "why_tests_cant": "ranges over all tables, black boxes and distances", "anchors": [{"file": "src/teacher/neighbors/neighbor_generator.py", "symbols": ["closed_real_data", "get_closest_diffoutcome"]}, {"file": "src/teacher/datasets/_base.py", "symbols": ["recognize_features_type"]}, {"file": "src/teacher/utils/util.py", "symbols": ["build_df2explain"]}]}
{"id": "C128", "title": "random_neighborhood contains real records and 1000 random ones with known categories", "statement": "random_neighborhood returns the encoded rows of the selected records (all of them if not stratified) followed by 1000 random rows, and a DataFrame with one record per row: the class is the label of the black box, the first records are those of the table unchanged, and every category of a random record occurs in the same column of the first ones.", "quantifier": "all tables, all black boxes, all random draws, stratified or not", "why_tests_cant": "ranges over all random draws and tables", "anchors": [{"file": "src/teacher/neighbors/neighbor_generator.py", "symbols": ["random_neighborhood", "generate_random_data"]}]}
{"id": "C129", "title": "generate_artificial_features adds the requested number of new features and their data", "statement": "generate_artificial_features adds round(ratio*#discrete) new discrete and the rest of round(ratio*#features) continuous features with fresh names, appended to columns, discrete, continuous and features_type, and returns the artificial data with size rows.", "quantifier": "all datasets, all ratios, all sizes, all draws", "why_tests_cant": "ranges over all ratios, sizes and draws; the returned data is a lazy iterator whose failure shows only when it is read", "anchors": [{"file": "src/teacher/utils/util.py", "symbols": ["generate_artificial_features"]}]}
{"id": "C130", "title": "load_*: the loaded dataset has the class first and the file's cells, and is ready for explanation", "statement": "load_beer/pima/flavia/phishing/iris/wine/german/heloc/breast/basket succeed on every table with their columns; in the dataset the class is first in columns and in the table, the features follow in file order without the deleted ones, every cell is the file's (scaled for continuous features if normalize), and real_data on the dataset's table returns the same records with the class replaced by the black box labels.", "quantifier": "all tables with distinct columns of equal length, all dtypes, all black boxes, normalize or not", "why_tests_cant": "ranges over all tables and black boxes; the shipped files exercise only one table each", "anchors": [{"file": "src/teacher/datasets/_base.py", "symbols": ["load_beer", "load_pima", "load_flavia", "load_phishing", "load_iris", "load_wine", "load_german", "load_heloc", "load_breast", "load_basket", "generate_dataset"]}, {"file": "src/teacher/neighbors/neighbor_generator.py", "symbols": ["real_data"]}]}
{"id": "C131", "title": "load_adult and load_compas clean missing values with the most frequent one and put the class first", "statement": "load_adult drops fnlwgt and education-num, replaces each '?' of a column by one most frequent value of the column (so '?' remains only where it is itself most frequent) and puts the class first; load_compas labels by decile_score < 7, fills missing days and stays with a most frequent value, keeps the other columns and drops the dates and scores.", "quantifier": "all tables with the columns of the file and a row or more, all dtypes", "why_tests_cant": "ranges over all tables and distributions of missing values", "anchors": [{"file": "src/teacher/datasets/_base.py", "symbols": ["load_adult", "load_compas", "generate_dataset"]}]}
{"id": "C132", "title": "score is the share of correct predictions", "statement": "For a fuzzy decision tree (FDT or FBDT), score(X, y) returns exactly the number of rows whose predicted class equals the given class divided by the number of rows, whenever predict succeeds and the lengths agree; different lengths raise ValueError and errors of predict are passed on unchanged.", "quantifier": "every tree, every dataset, every list of classes, every t-norm and voting", "why_tests_cant": "A test fixes one tree and one dataset; the identity must hold for every tree, data set and label list, including the failing ones.", "anchors": [{"file": "src/teacher/tree/base_decision_tree.py", "symbols": ["BaseDecisionTree.score"]}, {"file": "src/teacher/tree/fdt_tree.py", "symbols": ["FDT.predict"]}, {"file": "src/teacher/tree/fdt_binary_tree.py", "symbols": ["FBDT.predict"]}]}
{"id": "C133", "title": "Entropy discretisation cuts exactly at the best admissible point", "statement": "The cut points given by the entropy discretisation are exactly those obtained by: taking the candidate point of maximal fuzzy information gain, keeping it iff the gain reaches the MDL threshold (and the depth bound allows it), and repeating the procedure on the values at or below and above the point; nothing else is added or dropped.", "quantifier": "every column of values, every class list, every entropy function, every depth bound", "why_tests_cant": "The recursion and the argmax range over all data columns of any length; a sample of columns cannot exclude an extra or a missing cut.", "anchors": [{"file": "src/teacher/fuzzy/_discretize.py", "symbols": ["_fuzzy_discretization", "_get_delta_point", "_weighted_fuzzy_entropy", "_fuzzy_triangle"]}]}
{"id": "C134", "title": "ID3 node statistics", "statement": "In the tree fitted by a new ID3 object, num_leaf of a node is the number of leaves below it; error of a leaf is the share of its training rows that do not have its class (0 without rows).", "quantifier": "every table, every gain function, every parameter setting, every node", "why_tests_cant": "The statistics of every node of every tree on every table are concerned; a test inspects one tree.", "anchors": [{"file": "src/teacher/tree/id3_tree.py", "symbols": ["ID3._partial_fit", "TreeID3"]}]}
{"id": "C135", "title": "Invalid arguments raise the right exception", "statement": "Invalid arguments raise exactly the stated exception (the functions characterised completely raise nothing else): label_decode with a number that is no code (ValueError) or without encoder or column (KeyError); generate_dataset(normalize=True) without numeric columns or rows (ValueError); mad_distance with too short vectors (IndexError); get_diff_outcome without another outcome (IndexError); loaders with a missing or repeated column to delete (KeyError); coverage, precision and rule_fidelity of an empty fuzzy dataset or with label lists of another length (IndexError); SamplingNeighborhood.fit with an unknown method (KeyError) or rows of another width (ValueError); fuzzify with get_division arguments of the wrong kind, an unknown column (KeyError), no numeric column, no rows or an unknown division (ValueError), verbose or get_instance_membership passed (TypeError), an instance longer than the table (IndexError); LoreNeighborhood.fit with an instance that is too short (IndexError), has an unknown code or another width (ValueError) or text in a continuous column (TypeError); generate_random_data without feature columns or without the class column (ValueError); random_init with a feature without values (ValueError); informed_init and uniform_crossover on too short individuals (IndexError); ID3.fit on too narrow or no rows (IndexError).", "quantifier": "every argument of these functions and every state of the objects", "why_tests_cant": "Which inputs fail is a statement about all inputs (code out of range, missing component at any index, row of any wrong width).", "anchors": [{"file": "src/teacher/utils/util.py", "symbols": ["label_decode", "get_diff_outcome"]}, {"file": "src/teacher/utils/distance_functions.py", "symbols": ["mad_distance"]}, {"file": "src/teacher/datasets/_base.py", "symbols": ["generate_dataset"]}, {"file": "src/teacher/neighbors/_sampling_neighborhood.py", "symbols": ["SamplingNeighborhood.fit"]}, {"file": "src/teacher/neighbors/_lore_neighborhood.py", "symbols": ["LoreNeighborhood.fit"]}, {"file": "src/teacher/neighbors/gpdatagenerator.py", "symbols": ["random_init"]}, {"file": "src/teacher/neighbors/genetic_algorithm.py", "symbols": ["informed_init", "uniform_crossover"]}, {"file": "src/teacher/tree/id3_tree.py", "symbols": ["ID3.fit"]}]}
{"id": "C136", "title": "Explainer keywords are accepted only by the method that reads them", "statement": "A successful fit of FDTExplainer has no unknown keyword, none of the keywords of d_counterfactual with another counterfactual method, and lam/beta only with c_factual; FBDTExplainer accepts none of the keywords of d_counterfactual at all. An extra keyword raises TypeError after the tree has been trained.", "quantifier": "every combination of keywords, every neighborhood, every instance, every state of the explainer", "why_tests_cant": "All combinations of optional keywords and methods with every training outcome are ranged over.", "anchors": [{"file": "src/teacher/explanation/FDT_explainer.py", "symbols": ["FDTExplainer.fit"]}, {"file": "src/teacher/explanation/FBDT_explainer.py", "symbols": ["FBDTExplainer.fit"]}, {"file": "src/teacher/explanation/_factual.py", "symbols": ["m_factual", "mr_factual", "c_factual"]}]}
{"id": "C137", "title": "dataframe2explain returns the requested record and a decoded table", "statement": "For a matrix of encoded records, `dataframe2explain(X2E, dataset, idx, blackbox)` returns the row number idx of the matrix (counted from the end for a negative idx, IndexError if there is no such row) and a table with one row per record whose class is the label of the black box's answer, whose discrete features are the categories behind the codes and whose continuous features are the values themselves.", "quantifier": "every dataset description, every matrix of encoded records, every index and every black box answering class codes", "why_tests_cant": "the table must be right for every combination of discrete and continuous features, encoders and rows", "anchors": [{"file": "src/teacher/utils/util.py", "symbols": ["dataframe2explain", "build_df2explain"]}]}
{"id": "C138", "title": "The LORE generation step returns decodable records made from observed values", "statement": "For encoded training records and a valid index, the LORE generation step (genetic neighbourhood) returns a table with the instance's generated population in which every discrete value is a category observed in the training data; genetic_neighborhood_old raises KeyError for a dataset without 'feature_values'. If all generated records get the same predicted class the generation step fails.", "quantifier": "every training matrix, index, black box, dataset description, random generator state and run of the evolutionary algorithm", "why_tests_cant": "the population depends on every random draw and on an arbitrary black box", "anchors": [{"file": "src/teacher/neighbors/_lore_neighborhood.py", "symbols": ["LoreNeighborhood"]}, {"file": "src/teacher/neighbors/neighbor_generator.py", "symbols": ["genetic_neighborhood", "genetic_neighborhood_old"]}, {"file": "src/teacher/neighbors/gpdatagenerator.py", "symbols": ["generate_data"]}]}
{"id": "C139", "title": "random_oversampling and random_instance_selection keep to the random neighbourhood", "statement": "With a random oversampler of the interface the code expects, random_oversampling returns the decoded rows of the random neighbourhood followed by copies of some of them, with equally many rows of every class; random_instance_selection returns some of the rows with at least one of each class. (False with current imblearn, where the called method no longer exists: every call fails.)", "quantifier": "every dataset, record, black box, random state, oversampler and selector meeting their contract", "why_tests_cant": "class balance must hold for every random neighbourhood and every black box", "anchors": [{"file": "src/teacher/neighbors/neighbor_generator.py", "symbols": ["random_oversampling", "random_instance_selection"]}]}
{"id": "C140", "title": "LoreNeighborhood.fit end to end", "statement": "When LoreNeighborhood.fit succeeds, the index is valid, the stored feature table has the dataset's features as columns, its last row is the instance, every other row has each continuous value within the range of the same column of the training records, and the stored label of every row is the black box's answer to it. The other rows are exactly the generated records (integer features truncated), clipped to those ranges, without the outliers (three standard deviations from the mean in some feature), in the order of generation. (With categorical features fit fails.)", "quantifier": "every training matrix, index, black box, dataset with continuous features and run of the evolutionary algorithm", "why_tests_cant": "it composes random generation, decoding, encoding and fuzzification for arbitrary data", "anchors": [{"file": "src/teacher/neighbors/_lore_neighborhood.py", "symbols": ["LoreNeighborhood"]}, {"file": "src/teacher/neighbors/neighbor_generator.py", "symbols": ["genetic_neighborhood"]}]}
{"id": "C141", "title": "Fuzzy sets compare, hash and sort consistently", "statement": "Two fuzzy sets are == exactly when they are of the same kind with the same fields; equal sets have equal hashes and every fuzzy set can be hashed; < on continuous sets is a strict order on their points, with which the sets built for increasing peaks are already sorted.", "quantifier": "all pairs and triples of fuzzy sets, all lists of increasing peaks, all hash functions of the components", "why_tests_cant": "laws over all triples of sets and all lists of peaks", "anchors": [{"file": "src/teacher/fuzzy/fuzzy_set.py", "symbols": ["FuzzyContinuousSet.__hash__", "FuzzyContinuousSet.__lt__", "FuzzyDiscreteSet"]}, {"file": "src/teacher/fuzzy/_base.py", "symbols": ["get_fuzzy_continuous_sets"]}]}
{"id": "C142", "title": "Printing trees and rules is faithful", "statement": "str of a fitted FDT, FBDT or ID3 tree lists, parents before children, each node exactly once with its level, the feature and fuzzy set(s) (or value) that lead to it and the class of a leaf, with only white space in between; different rules print differently.", "quantifier": "all training data, all fitted trees, all rules, all ways of printing values, classes and weights", "why_tests_cant": "the printed text must be right for trees of every shape and depth; __str__ is excluded from coverage in the repository", "anchors": [{"file": "src/teacher/tree/fdt_tree.py", "symbols": ["TreeFDT.__str__"]}, {"file": "src/teacher/tree/fdt_binary_tree.py", "symbols": ["TreeFBDT.__str__"]}, {"file": "src/teacher/tree/id3_tree.py", "symbols": ["TreeID3.__str__"]}, {"file": "src/teacher/tree/rule.py", "symbols": ["Rule.__str__"]}]}
{"id": "C143", "title": "The explainer explains a ready neighborhood", "statement": "When the neighborhood is fitted and fuzzified (its variables have distinct names and set names, every row and the decoded instance have degrees, labels and rows agree in number) and the arguments of FDTExplainer.fit are valid, fit of the instance (encoded or decoded) trains a tree whose prediction for the instance is one of the labels and has the largest activation in the tree's rules; it succeeds exactly when the tree has a split and the chosen factual method has an answer, with exp_value equal to that prediction; in the other cases it raises the documented exception of the method and nothing else.", "quantifier": "every neighborhood, entropy, threshold, depth, factual and counterfactual method, black-box labelling and previous explainer state", "why_tests_cant": "needs all tree shapes, all rule sets and all method combinations; a test covers one neighborhood", "anchors": [{"file": "src/teacher/explanation/FDT_explainer.py", "symbols": ["FDTExplainer.fit"]}, {"file": "src/teacher/neighbors/_fuzzy_neighborhood.py", "symbols": ["FuzzyNeighborhood.fuzzify"]}, {"file": "src/teacher/explanation/_factual.py", "symbols": ["m_factual", "mr_factual", "c_factual"]}, {"file": "src/teacher/explanation/_counterfactual.py", "symbols": ["i_counterfactual", "f_counterfactual", "d_counterfactual"]}]}
{"id": "C144", "title": "SamplingNeighborhood.fit decodes the sample and labels it with the black box", "statement": "For a consistent dataset description, fit succeeds exactly when every sampled row has one number per feature, all codes of sample and instance belong to the label encoders and the black box answers known classes; then get_X is the sample row by row with encoded columns as texts and the other columns unchanged, get_y is the black box' class of each row, the decoded labels, decoded instance and decoded target are the corresponding texts, and no other attribute changes.", "quantifier": "every dataset description, sample, instance, black box and previous object state", "why_tests_cant": "the column loop, the row order and the alignment of labels must be right for every sample and encoder dictionary order", "anchors": [{"file": "src/teacher/neighbors/_sampling_neighborhood.py", "symbols": ["SamplingNeighborhood.fit"]}]}
{"id": "C145", "title": "fit, fuzzify, explain compose", "statement": "After any history of calls, fit with a sample covered by the encoders followed by fuzzify with the numeric/categorical split of the features succeeds and leaves a neighborhood that is ready for FDTExplainer: FDTExplainer.fit of the decoded instance then succeeds exactly when the tree has a split and the factual method has an answer, and its exp_value is a class the black box gave to a sampled row.", "quantifier": "every history of fit and fuzzify calls, dataset, sample, black box, discretizer and explainer arguments", "why_tests_cant": "it is about the composition of three stateful objects for all their inputs", "anchors": [{"file": "src/teacher/neighbors/_sampling_neighborhood.py", "symbols": ["SamplingNeighborhood.fit", "SamplingNeighborhood.fuzzify"]}, {"file": "src/teacher/explanation/FDT_explainer.py", "symbols": ["FDTExplainer.fit"]}]}
{"id": "C146", "title": "Binary-tree explainer end to end", "statement": "After a sampling neighborhood is fitted and fuzzified, FBDTExplainer.fit asked about the decoded instance succeeds exactly when the local binary tree has a split and the chosen factual method has an answer; exp_value is then the class the tree predicts for the instance, a class the black box gave to some sampled row, and no class has a larger total activation in the tree's rules evaluated on the instance's memberships. Every exception is the documented one for its cause.", "quantifier": "every dataset description, sample, black box, instance, fuzzify arguments, explainer arguments, gain function and earlier history of calls", "why_tests_cant": "the claim composes sampling, decoding, fuzzification, tree growing, rule extraction and voting for arbitrary data; tests only see a few datasets", "anchors": [{"file": "src/teacher/explanation/FBDT_explainer.py", "symbols": ["FBDTExplainer.fit"]}, {"file": "src/teacher/neighbors/_sampling_neighborhood.py", "symbols": ["SamplingNeighborhood.fit"]}, {"file": "src/teacher/tree/fdt_binary_tree.py", "symbols": ["FBDT.fit", "FBDT.to_rule_based_system"]}]}
{"id": "C147", "title": "A LORE neighborhood of a continuous dataset can be fitted, fuzzified and explained", "statement": "For a dataset whose features are all continuous and any generated table with a number for each feature, LoreNeighborhood.fit succeeds; its data are the generated rows that the smoothing keeps, all inside the range of the training rows, followed by the instance, labelled by the black box, and the decoded instance is the instance. fuzzify with all features numeric, and a discretizer that gives increasing, differently named peaks, then succeeds and leaves one fuzzy variable per feature. FDTExplainer and FBDTExplainer, asked about the instance, then succeed exactly when the tree has a split and the factual method has an answer; exp_value is then the tree's prediction, a class of the neighborhood with the largest activation in the rules.", "quantifier": "all continuous datasets, black boxes, instances, generated tables, discretizers and explainer arguments that meet the stated conditions", "why_tests_cant": "the generated table is random and unbounded; success and the claims must hold for every one", "anchors": [{"file": "src/teacher/neighbors/_lore_neighborhood.py", "symbols": ["LoreNeighborhood.fit", "LoreNeighborhood.fuzzify", "LoreNeighborhood._smooth_neighborhood"]}, {"file": "src/teacher/explanation/FDT_explainer.py", "symbols": ["FDTExplainer.fit"]}, {"file": "src/teacher/explanation/FBDT_explainer.py", "symbols": ["FBDTExplainer.fit"]}]}
{"id": "C148", "title": "Fast sampling neighborhoods can always be fitted on a good training table", "statement": "On a consistent dataset and training table (one valid number per feature, every feature continuous or discrete, a black box with known classes that gives another class than the instance's to some training row, a positive interval with an observed value in every continuous column), SamplingNeighborhood.fit with neighbor_generation='fast' never fails: the neighborhood holds at most size+1 sampled rows followed by the instance, each row made of observed values around the instance or around its nearest training row (in the 'mixed' distance) of another class, at most ceil(size/n_classes) rows per class, labelled by the black box and decoded; and FDTExplainer.fit or FBDTExplainer.fit on it, after fuzzify, asked about a two-class black box, succeeds exactly when the local tree has a split and the factual method has an answer, and then reports the class the tree predicts for the instance, a class the black box gave to a row of the neighborhood.", "quantifier": "every dataset, table, instance, black box, range, size and sequence of random draws", "why_tests_cant": "random draws, black box and table are arbitrary", "anchors": [{"file": "src/teacher/neighbors/_sampling_neighborhood.py", "symbols": ["SamplingNeighborhood.fit", "_generate_neighborhood_fast", "_generate_prob_dist"]}, {"file": "src/teacher/metrics/_counterfactual.py", "symbols": ["_closest_instance", "_mixed_distance"]}]}
{"id": "C149", "title": "normalized_square_euclidean_distance is a unit-free squared distance", "statement": "For ranges different from 0, normalized_square_euclidean_distance(ranges)(x, y) on vectors of the length of ranges is the sum of the squares of the differences over the ranges: never negative, symmetric, 0 exactly for equal vectors, at most the number of positions when no difference exceeds its range, and independent of the units and origins of the positions. It is not a metric (triangle inequality). Other lengths raise ValueError, a range 0 gives nan or inf.", "quantifier": "every vector of ranges and every two vectors", "why_tests_cant": "a statement about all vectors, units and origins", "anchors": [{"file": "src/teacher/utils/distance_functions.py", "symbols": ["normalized_square_euclidean_distance"]}]}
{"id": "C150", "title": "The options of the continuous and mixed distances give pseudometrics", "statement": "_continuous_distance with metric='mad' is the sum of the absolute differences of the continuous columns, each over a positive unit that depends on the column of X only (the median absolute deviation, or 1 exactly when one value fills more than half of the column); it is a pseudometric, 0 exactly for rows that agree in the continuous columns. agg None, 'mean', 'max', 'min' give the same result, any other agg makes _mixed_distance raise TypeError. _mixed_distance with ratio_cont=r in [0,1] is r times the Euclidean plus 1-r times the jaccard distance, a pseudometric (0 exactly on agreement when 0<r<1); without options it is the 'mixed' distance.", "quantifier": "every table X, every two rows of numbers, all option values", "why_tests_cant": "metric axioms over all rows and tables", "anchors": [{"file": "src/teacher/metrics/_counterfactual.py", "symbols": ["mad_cityblock", "_continuous_distance", "_categorical_distance", "_mixed_distance"]}]}
{"id": "C151", "title": "The MAD distance does not depend on the units of the columns", "statement": "Changing unit and origin of every continuous column (x to c*x+d with c different from 0) in the two rows and in the table X leaves _continuous_distance(metric='mad') unchanged. (True when no column of X has a value that fills more than half of it; false otherwise, because a MAD of 0 is replaced by 1.)", "quantifier": "every table, rows, units and origins", "why_tests_cant": "a relation between all pairs of runs", "anchors": [{"file": "src/teacher/metrics/_counterfactual.py", "symbols": ["_continuous_distance", "mad_cityblock"]}]}
{"id": "C152", "title": "The counterfactual of FDTExplainer is a closest one", "statement": "After FDTExplainer.fit succeeds, the counterfactual of explain() comes from a rule of the local tree with another consequent that flips the class, at minimal distance among all such rules: the instance-rule distance for i_counterfactual, the distance to the factual with tau=0.5 among rules at a positive distance for f_counterfactual, the chosen distance (default 'moth', with the given indices and MAD) between decoded instance and moved instance for d_counterfactual. When it is None, no rule (at a positive distance for f_counterfactual) flips the class.", "quantifier": "every neighborhood, instance, method and keyword arguments", "why_tests_cant": "minimality over all rules of all trees", "anchors": [{"file": "src/teacher/explanation/FDT_explainer.py", "symbols": ["FDTExplainer.fit"]}, {"file": "src/teacher/explanation/_counterfactual.py", "symbols": ["i_counterfactual", "f_counterfactual", "d_counterfactual"]}]}
{"id": "C153", "title": "== of trees is an equivalence relation", "statement": "== on TreeFDT, TreeFBDT and TreeID3 objects is reflexive, symmetric and transitive; two TreeID3 objects are == exactly when they agree in every attribute at every node.", "quantifier": "every three trees", "why_tests_cant": "all trees, of any depth", "anchors": [{"file": "src/teacher/tree/fdt_tree.py", "symbols": ["TreeFDT.__eq__"]}, {"file": "src/teacher/tree/fdt_binary_tree.py", "symbols": ["TreeFBDT.__eq__"]}, {"file": "src/teacher/tree/id3_tree.py", "symbols": ["TreeID3.__eq__"]}]}
{"id": "C154", "title": "The factual of FID3, used by hand, is the path of the tree", "statement": "Fit an ID3 tree to rows of labels, take its rules and call FID3_factual with the membership degrees of an instance. If x holds in every feature the label of the instance with a degree above one half while all other labels of that feature are below one half (automatic for partitions unless there is a tie), the tree has at least one split, predicts a class for x, and the threshold is below one half, then the factual is the one rule that x satisfies and its consequent is the class that the tree predicts for x. For a tree without a split the call raises ValueError. When two labels tie the factual may be a rule for another class.", "quantifier": "all ID3 parameters, training rows, set orders, gains, instances, thresholds", "why_tests_cant": "ranges over all fitted trees and all membership dictionaries", "anchors": [{"file": "src/teacher/explanation/_factual.py", "symbols": ["FID3_factual"]}, {"file": "src/teacher/tree/id3_tree.py", "symbols": ["TreeID3.to_rule_based_system", "TreeID3.predict", "ID3.fit"]}, {"file": "src/teacher/tree/rule.py", "symbols": ["Rule.matching"]}]}
{"id": "C155", "title": "Rule.matching with any t-norm", "statement": "Rule.matching(instance, t_norm) is 0 when a feature or value of the antecedent is missing from the instance and otherwise t_norm of the list of degrees in the order of the conditions (sums of the degrees of the values for rules with several values per condition); with min it is the default matching. If t_norm reduces with a t-norm and the memberships are degrees, the result is a degree, at most each degree of a condition and at most the default matching, does not depend on the order of the conditions, does not grow when conditions are added, and grows with the memberships.", "quantifier": "all rules, instances and t-norm functions", "why_tests_cant": "ranges over every function t_norm and every instance", "anchors": [{"file": "src/teacher/tree/rule.py", "symbols": ["Rule.matching"]}]}
{"id": "C156", "title": "The label table of FID3 and the factual of its rows", "statement": "_fuzzify_dataset keeps the rows and columns of the table (adding columns for new variables), puts in every column of a variable the fuzzy set with the largest degree of that row (the first on a tie) and leaves the other columns alone; a variable without sets raises ValueError. If an ID3 tree is fitted to that table, FID3_factual with the degrees of one of the rows returns the rule that the labels of the row satisfy, of the class the tree predicts for it, provided no variable has a tie in that row, the tree has a split and the threshold is below one half.", "quantifier": "all tables, memberships, classes, ID3 parameters, rows", "why_tests_cant": "ranges over all tables and fitted trees", "anchors": [{"file": "src/teacher/explanation/FID3_explainer.py", "symbols": ["FID3Explainer._fuzzify_dataset", "FID3Explainer._get_categorical_fuzzy"]}, {"file": "src/teacher/explanation/_factual.py", "symbols": ["FID3_factual"]}, {"file": "src/teacher/tree/id3_tree.py", "symbols": ["ID3.fit"]}]}
{"id": "C157", "title": "The order of the training rows does not matter for the fuzzy trees", "statement": "Fitting an FDT or an FBDT to the same labelled rows in any other order succeeds as well and gives a tree with the same predictions for every table (for every t-norm and voting method), the same scores, the same rules and the same printed text. (`==` of the two trees may be False, because it compares the degrees of the training rows position by position.)", "quantifier": "every table and classes, every permutation of the rows, every impurity that does not depend on the order of rows (in particular the fuzzy entropy of the library), every fuzzy variable, parameter and earlier tree of the object, every later table", "why_tests_cant": "A test can compare a few shuffles of a few tables; the growth of the tree reads the rows in sums, unique classes and masks at every node, and only an induction over the growth shows that none depends on the order.", "anchors": [{"file": "src/teacher/tree/fdt_tree.py", "symbols": ["FDT.fit", "FDT._partial_fit", "FDT._get_max_f_gain", "TreeFDT.__eq__"]}, {"file": "src/teacher/tree/fdt_binary_tree.py", "symbols": ["FBDT.fit", "FBDT._partial_fit", "FBDT._get_max_f_gain"]}]}
{"id": "C158", "title": "The order of the training rows does not matter for ID3", "statement": "Fitting ID3 to the same labelled rows in any other order gives exactly the same tree.", "quantifier": "every table and classes, every permutation of the rows, every feature list and parameter, every entropy function", "why_tests_cant": "Ties between classes and between gains are resolved by the iteration order of sets; a test cannot try all tables, orders and hash layouts.", "anchors": [{"file": "src/teacher/tree/id3_tree.py", "symbols": ["ID3.fit", "ID3._partial_fit"]}]}
{"id": "C159", "title": "Units of measure do not matter for the fuzzy trees", "statement": "Changing the unit of any columns (x becomes a*x+b with a > 0) together with the points of their fuzzy sets leaves every membership degree unchanged, and an FDT or FBDT fitted in the new units predicts the same classes for every table given in the new units (for every t-norm and voting method), with the same scores and rules.", "quantifier": "every table (numbers and strings), every choice of a positive factor and an offset per column, every fuzzy variable, every impurity and parameter, every later table", "why_tests_cant": "A test can try a few factors on a few tables; equality at every node of every tree for every positive factor and offset needs an induction over the growth of the tree and exact algebra of the triangles.", "anchors": [{"file": "src/teacher/fuzzy/fuzzy_set.py", "symbols": ["FuzzyContinuousSet.membership"]}, {"file": "src/teacher/fuzzy/_base.py", "symbols": ["dataset_membership"]}, {"file": "src/teacher/tree/fdt_tree.py", "symbols": ["FDT.fit", "TreeFDT.predict"]}, {"file": "src/teacher/tree/fdt_binary_tree.py", "symbols": ["FBDT.fit", "TreeFBDT.predict"]}]}
{"id": "C160", "title": "Fuzzy points follow the unit of the column", "statement": "The fuzzy points found in a column written in another unit (a*x+b with a > 0) are the fuzzy points of the column written in that unit, for the points by entropy, equal width and equal frequency.", "quantifier": "every column and classes, every positive factor and offset, every number of sets, threshold, depth and entropy", "why_tests_cant": "The recursion of the entropy method compares gains of all candidate cuts at every level; a test samples columns and factors.", "anchors": [{"file": "src/teacher/fuzzy/_discretize.py", "symbols": ["_fuzzy_discretization", "_equal_width", "_equal_freq"]}, {"file": "src/teacher/fuzzy/_base.py", "symbols": ["get_fuzzy_points"]}]}
{"id": "C161", "title": "Crisp rows reach exactly one leaf of a binary fuzzy tree", "statement": "Take a fitted FBDT whose variables have different names, and different set names within a variable. For a row that has membership 1 in exactly one set of every variable and 0 in the others, exactly one leaf gets degree 1 and every other leaf degree 0; it is the leaf found by taking at each split the child that lists the active set, also when the path splits the same variable several times; and predict returns a heaviest class of that leaf, for both voting methods and every t-norm.", "quantifier": "all training sets, variables, thresholds, depths, impurity functions, crisp rows, t-norms and both voting methods", "why_tests_cant": "The two children of a node list only the sets left by the path above them, so the claim needs an invariant over all paths of all trees that fit can grow.", "anchors": [{"file": "src/teacher/tree/fdt_binary_tree.py", "symbols": ["FBDT.fit", "TreeFBDT._partial_predict", "TreeFBDT.predict"]}, {"file": "src/teacher/tree/_voting.py", "symbols": ["_aggregated_vote", "_maximum_matching"]}]}
{"id": "C162", "title": "Names of the classes do not matter, only their order", "statement": "Renaming the classes of the training set with an order-preserving map (e.g. 0/1 to 'no'/'yes') renames the results of FDT and FBDT and changes nothing else: fit succeeds or fails in the same way, predict returns the new names of the old predictions on every table, for every t-norm and voting method, score on renamed labels is the same, and the rules are the same with the new names, for every threshold. Only the order of the names counts: exchanging two names can change the predicted class of a tie.", "quantifier": "all training sets, order-preserving renamings (also to another type), parameters, impurity functions that do not look at names (in particular the fuzzy entropy), tables, t-norms, voting methods and thresholds", "why_tests_cant": "It compares two runs of fit over all datasets and all renamings; the class order enters through np.unique in several places (leaf weights, positive class of the binary splits, ties).", "anchors": [{"file": "src/teacher/tree/fdt_tree.py", "symbols": ["FDT.fit", "FDT._get_class_value", "FDT._stop_met"]}, {"file": "src/teacher/tree/fdt_binary_tree.py", "symbols": ["FBDT.fit", "FBDT._get_max_f_gain"]}, {"file": "src/teacher/tree/base_decision_tree.py", "symbols": ["BaseDecisionTree.predict", "BaseDecisionTree.score"]}]}
{"id": "C163", "title": "Every instance in the range of the variables is covered by a leaf and a rule", "statement": "If every numeric value of an instance lies between the first and the last peak of its fuzzy variable and every categorical value is one of the values of its variable, then a fitted FDT or FBDT has a leaf to which the instance belongs with degree at least 1/2 (default t-norm), and, unless the tree is a single leaf, the rules returned by to_rule_based_system contain a rule whose matching degree on the instance is at least 1/2. So no in-range instance is left without a fired rule for any threshold below 1/2.", "quantifier": "all trees fitted on any data with variables made by the library, all instances in range", "why_tests_cant": "a test can only try a few instances; the guarantee is about every point of a continuous domain and every tree", "anchors": [{"file": "src/teacher/tree/fdt_tree.py", "symbols": ["FDT.fit", "TreeFDT.predict", "TreeFDT.to_rule_based_system"]}, {"file": "src/teacher/tree/fdt_binary_tree.py", "symbols": ["FBDT.fit", "TreeFBDT.to_rule_based_system"]}, {"file": "src/teacher/fuzzy/_base.py", "symbols": ["get_fuzzy_continuous_sets", "get_fuzzy_discrete_sets"]}, {"file": "src/teacher/tree/rule.py", "symbols": ["Rule.matching"]}]}
{"id": "C164", "title": "The votes of an in-range instance are never vanishing", "statement": "For an instance in the range of the variables: the votes that a fitted FDT gives to the classes with the product as t-norm are a probability distribution (not negative, sum 1); with the default t-norm the votes of FDT and of FBDT are not negative and add up to at least 1, so that the predicted class of n classes has at least the vote 1/n under agg_vote, and at least 1/(2n) under max_match.", "quantifier": "all trees fitted on any data, all instances in range, all numbers of classes", "why_tests_cant": "it quantifies over all fitted trees and a continuum of instances; sums of floats in a test check single points", "anchors": [{"file": "src/teacher/tree/fdt_tree.py", "symbols": ["FDT.fit", "TreeFDT.predict", "TreeFDT._partial_predict"]}, {"file": "src/teacher/tree/fdt_binary_tree.py", "symbols": ["FBDT.fit", "TreeFBDT.predict"]}, {"file": "src/teacher/tree/_voting.py", "symbols": ["_aggregated_vote", "_maximum_matching"]}]}
{"id": "C165", "title": "Predictions are stable under small changes of the numbers of a row", "statement": "For continuous variables whose peaks are at least w apart, changing a number by at most δ inside the range of the peaks changes its membership in every fuzzy set by at most δ/w; rule matchings change by at most the largest change of a degree; the votes of a fitted fuzzy tree change by at most δ/w for max_match and by (number of leaves)·δ/w for agg_vote (for the binary tree times the number of sets of a variable). So a class that leads all other classes by more than twice that bound is still the predicted class. Outside the range of the peaks this does not hold: the degree jumps from 1 to 0 next to the first and last peak.", "quantifier": "all peaks, numbers, rows, training sets, gain functions, thresholds, depths and fitted trees", "why_tests_cant": "a Lipschitz bound is a statement about all pairs of rows; a test compares finitely many pairs", "anchors": [{"file": "src/teacher/fuzzy/fuzzy_set.py", "symbols": ["FuzzyContinuousSet.membership"]}, {"file": "src/teacher/fuzzy/_base.py", "symbols": ["get_fuzzy_continuous_sets"]}, {"file": "src/teacher/tree/fdt_tree.py", "symbols": ["FDT.predict"]}, {"file": "src/teacher/tree/fdt_binary_tree.py", "symbols": ["FBDT.predict"]}, {"file": "src/teacher/tree/_voting.py", "symbols": ["agg_vote", "max_match"]}, {"file": "src/teacher/tree/rule.py", "symbols": ["Rule.matching"]}]}
{"id": "C166", "title": "Values and classes are only names for ID3", "statement": "Rename the values of each feature and the classes of a training table (different names to different names). If Python lists a set of renamed classes in the order in which it lists the set of classes (that order decides ties), then ID3 fitted to the renamed table predicts on every renamed table the renamed classes, has the same score on renamed tables, and has the renamed rules (in some order); in particular no order or arithmetic of the values matters.", "quantifier": "every table, every injective renaming of values (per feature) and classes, every entropy function, all parameters of ID3, every table to predict", "why_tests_cant": "It relates two runs of fit and predict for all tables and all renamings.", "anchors": [{"file": "src/teacher/tree/id3_tree.py", "symbols": ["ID3.fit", "ID3._partial_fit", "TreeID3.predict", "TreeID3.to_rule_based_system"]}]}
{"id": "C167", "title": "The order of the columns does not matter to FDT", "statement": "Let an FDT be fitted to a table whose rows have one value per fuzzy variable (with distinct names), and another FDT to the same table with its columns, and the list of fuzzy variables, written in another order. If the first fit succeeds so does the second, and the two trees predict the same classes (hence have the same scores) on every table given in the respective order, for every t-norm and voting method, and give the same rules. (True when the set of variable names is always iterated in an order that depends only on its elements; otherwise false, because on a tie of the gain the first variable wins; for FBDT, which goes through the columns in order, it is false for the same reason.)", "quantifier": "every list of fuzzy variables with distinct names, table, classes, order of the columns, impurity function, thresholds; every table to predict, t-norm, voting method and rule threshold", "why_tests_cant": "there are n! orders and unboundedly many tables; the property needs an induction over the recursive growth of the tree", "anchors": [{"file": "src/teacher/tree/fdt_tree.py", "symbols": ["FDT.fit", "FDT._get_max_f_gain", "TreeFDT.predict"]}, {"file": "src/teacher/tree/fdt_binary_tree.py", "symbols": ["FBDT.fit"]}]}
{"id": "C168", "title": "Membership degrees survive floating point", "statement": "Computed in floating point (any monotone rounding with relative error u and underflow error eta, e.g. IEEE doubles), FuzzyContinuousSet.membership of a floating point number still returns a number in [0,1], exactly 1 at the peak and exactly 0 outside the triangle, increasing up to the peak and decreasing after it, and differs from the exact degree by at most 2u/(1-u)+u+eta. The sets of get_fuzzy_continuous_sets for increasing points still form a partition up to twice that error: the degrees of a value between the first and the last point sum to 1 up to 2(2u/(1-u)+u+eta), and the degrees of a value outside are all 0.", "quantifier": "every rounding that satisfies the laws, all triangles and points made of floating point numbers, all floating point values", "why_tests_cant": "Tests compare a few degrees with a tolerance on one machine; the bound has to hold for all 2^64 values, all triangles and every rounding mode, including triangles of width one ulp.", "anchors": [{"file": "src/teacher/fuzzy/fuzzy_set.py", "symbols": ["FuzzyContinuousSet.membership"]}, {"file": "src/teacher/fuzzy/_base.py", "symbols": ["get_fuzzy_continuous_sets"]}]}
{"id": "C169", "title": "FDT predictions survive floating point", "statement": "For a table of floating point numbers, a tree whose fuzzy sets are made of floating point numbers and whose leaf weights lie in [0,1] (in particular a tree fitted in floating point), predict computed in floating point returns, for every row on which one class wins the exact vote by more than twice the error bound of the votes (which depends only on u, eta, the voting method and the number of leaves), exactly this class, i.e. the same as exact arithmetic.", "quantifier": "every rounding that satisfies the laws, all trees, both voting methods, all tables of floating point numbers", "why_tests_cant": "Rounding errors accumulate with the depth and the number of leaves; a test on a few trees cannot bound the effect for all trees and all inputs.", "anchors": [{"file": "src/teacher/tree/fdt_tree.py", "symbols": ["FDT.predict", "TreeFDT.predict", "TreeFDT._partial_predict"]}, {"file": "src/teacher/tree/_voting.py", "symbols": ["_aggregated_vote", "_maximum_matching"]}]}
{"id": "C170", "title": "FDT fit keeps its guarantees in floating point", "statement": "In floating point, for every rounding and order of summation and whatever values the (rounded) entropy takes, FDT.fit with a positive fuzzy_threshold succeeds wherever exact arithmetic does; in the fitted tree no path is longer than max_depth or tests a variable twice, every split node has one child per fuzzy set of its variable, the memberships stored in a node are the minima of the computed degrees along its path, and every leaf has exactly the classes of the training data with weights in [0,1], computed from the memberships of the leaf (of its parent if the leaf has none): exactly 0 for a class without positive membership and exactly 1 for a class that has all of them.", "quantifier": "every rounding and summation that satisfies the laws, every entropy, all tables and variables made of floating point numbers, all orders of the features", "why_tests_cant": "Whether a rounded sum of memberships is 0, whether a rounded weight exceeds 1, or whether rounded gains break the recursion depends on the data and on numpy's summation order; no finite set of fits covers it.", "anchors": [{"file": "src/teacher/tree/fdt_tree.py", "symbols": ["FDT.fit", "FDT._partial_fit", "FDT._get_class_value", "FDT._get_max_f_gain"]}, {"file": "src/teacher/fuzzy/_base.py", "symbols": ["dataset_membership"]}]}
{"id": "C171", "title": "Misuse raises the documented kind of exception, and nothing else raises", "statement": "Every exception of the trees, rule metrics, distances and tree explainers is known with its cause. predict of an FDT or FBDT raises ValueError exactly for an empty, columnless or ragged table once fitted, and otherwise only IndexError (a row has fewer cells than there are variables) or TypeError (text in a column of a variable with a triangular set); fit raises ValueError exactly for a bad table or a different number of labels and otherwise only the errors of computing memberships; an unfitted tree raises TypeError on predict and AttributeError on its rules; rule metrics raise IndexError for no rules, KeyError for an unknown condition, ValueError for a wrong number of labels; the default counterfactual distance succeeds exactly when no continuous position holds text, lacks a MAD or has MAD 0 while differing (and a discrete index exists when needed); ID3.predict raises ValueError exactly on bad tables, else only IndexError on short rows; explainers reject invalid arguments with ValueError before changing anything and report unfuzzified, undecoded or unfitted neighborhoods by NotFuzzifiedError, AttributeError, NotFittedError; write_explanation before fit raises TypeError.", "quantifier": "all trees, tables, labels, parameters, entropy functions, t-norms, votings, rule lists, datasets, rows, MAD tables, explainer arguments and states", "why_tests_cant": "a test shows one input raising one exception; that no other exception can occur on any input, and that the cause is always the stated one, ranges over all trees and tables", "anchors": [{"file": "src/teacher/tree/fdt_tree.py", "symbols": ["FDT.fit", "FDT.predict", "FDT._partial_predict", "FDT._get_rules"]}, {"file": "src/teacher/tree/fdt_binary_tree.py", "symbols": ["FBDT.fit", "FBDT.predict", "FBDT._get_rules"]}, {"file": "src/teacher/tree/id3_tree.py", "symbols": ["ID3.predict"]}, {"file": "src/teacher/tree/base_decision_tree.py", "symbols": ["BaseDecisionTree.predict"]}, {"file": "src/teacher/tree/_voting.py", "symbols": ["_aggregated_vote", "_maximum_matching"]}, {"file": "src/teacher/metrics/_rule.py", "symbols": ["coverage", "precision", "rule_fidelity"]}, {"file": "src/teacher/metrics/_counterfactual.py", "symbols": ["_distance", "_closest_instance"]}, {"file": "src/teacher/utils/distance_functions.py", "symbols": ["normalized_euclidean_distance"]}, {"file": "src/teacher/explanation/FDT_explainer.py", "symbols": ["FDTExplainer.fit"]}, {"file": "src/teacher/explanation/FBDT_explainer.py", "symbols": ["FBDTExplainer.fit"]}]}
{"id": "C172", "title": "FBDT prediction in floating point", "statement": "FBDT.predict computed in floating point (every operation rounded, sums taken in any order) returns, for a fitted tree, the class that the exact formula returns whenever the exact vote of that class exceeds the vote of every other class by twice an explicit error bound (machine precision, number of sets per test, number of leaves); it raises nothing there that the exact computation would not.", "quantifier": "every rounding satisfying the IEEE-style laws, every tree (fitted or hand made) with numbers of the arithmetic, both votings, every table of floating point numbers", "why_tests_cant": "The set of floating point inputs, rounding modes and summation orders cannot be enumerated; a test only sees one platform's rounding.", "anchors": [{"file": "src/teacher/tree/fdt_binary_tree.py", "symbols": ["TreeFBDT.predict", "TreeFBDT._partial_predict"]}, {"file": "src/teacher/tree/_voting.py", "symbols": ["agg_vote", "max_match"]}, {"file": "src/teacher/fuzzy/fuzzy_set.py", "symbols": ["FuzzyContinuousSet.membership"]}]}
{"id": "C173", "title": "FBDT training in floating point", "statement": "A tree that FBDT.fit builds in floating point has the same guarantees as one built exactly: depth at most max_depth; every split has two children on one variable whose sets together are the sets still available; every test belongs to its variable; stored memberships are floating point numbers in [0,1], at least the minimum of the computed degrees of the path (equal if no variable is tested twice); every leaf has all the training classes with weights in [0,1], exactly 0 for a class without members and exactly 1 for the only class with members; and fit succeeds whenever the exact one does.", "quantifier": "every rounding satisfying the IEEE-style laws, every summation order, every (rounded) entropy function, every training table and parameters with fuzzy_threshold > 0", "why_tests_cant": "Rounding could push a membership above 1, a weight above 1, a sum to 0 or make a candidate split disappear for some data; only a proof covers all data and roundings.", "anchors": [{"file": "src/teacher/tree/fdt_binary_tree.py", "symbols": ["FBDT.fit", "FBDT._partial_fit", "FBDT._get_max_f_gain", "FBDT._get_binary_partitions"]}, {"file": "src/teacher/fuzzy/_base.py", "symbols": ["dataset_membership"]}]}
{"id": "C174", "title": "Rounding does not change FBDT's training memberships", "statement": "The membership of a training example to a node of a fitted FBDT, computed in floating point, differs from the exact membership only by the accumulated rounding error. (False: the test 0 < membership < 1 that marks an example as already covered flips when a sum of degrees that is exactly 1 is rounded to just below 1; then the second test of the same variable counts the example with almost 1 instead of its degree, and the prediction can change. True if no variable is tested twice on the path; in general the computed membership is never below the exact degree of the path by more than the error.)", "quantifier": "every rounding satisfying the IEEE-style laws, every training table, every node of every fitted tree", "why_tests_cant": "The failing inputs are those where a sum of rounded degrees lands just below 1, a sparse set of floating point values that tests with round numbers avoid.", "anchors": [{"file": "src/teacher/tree/fdt_binary_tree.py", "symbols": ["FBDT._get_max_f_gain", "FBDT._partial_fit"]}, {"file": "src/teacher/fuzzy/fuzzy_set.py", "symbols": ["FuzzyContinuousSet.membership"]}]}
{"id": "C175", "title": "m_factual keeps the rules above the mean also in floating point", "statement": "Computed in floating point, m_factual returns, by decreasing computed activation, fired rules of the class; every fired rule whose activation exceeds the exact mean by more than the rounding error is returned, every one below it by more than the error is not; with a single fired rule it returns that rule. It should also never return an empty explanation when a rule is fired. (The last claim is false in double precision: three fired rules of degree 0.1 and weight 1 have a computed mean of 0.10000000000000002, and the explanation is empty.)", "quantifier": "every rounding satisfying the IEEE-style laws, every list of rules with degrees and weights in [0,1], every class", "why_tests_cant": "The loss of all rules happens only when the computed mean is rounded above equal activations; tests with distinct or dyadic activations never see it, and the guarantee must hold for all activations and roundings.", "anchors": [{"file": "src/teacher/explanation/_factual.py", "symbols": ["m_factual", "_fired_rules", "_get_class_value_rules"]}, {"file": "src/teacher/tree/rule.py", "symbols": ["Rule.matching"]}]}
{"id": "C176", "title": "mr_factual out-votes the other classes up to rounding", "statement": "Computed in floating point, mr_factual returns the first fired rules of the class by decreasing computed activation. If it leaves out a rule, the returned ones out-vote every other class up to twice the rounding error of a sum of activations; without the last returned rule they do not out-vote every other class by more than that error.", "quantifier": "every rounding satisfying the IEEE-style laws, every list of rules with degrees and weights in [0,1] that has a rule of another class, every class", "why_tests_cant": "The stopping position depends on comparisons of accumulated rounded sums; tests cannot cover all sums nor bound their error.", "anchors": [{"file": "src/teacher/explanation/_factual.py", "symbols": ["mr_factual", "_robust_threshold", "_fired_rules"]}, {"file": "src/teacher/tree/rule.py", "symbols": ["Rule.matching"]}]}
{"id": "C177", "title": "c_factual stops at the drop by 1 + lam up to rounding", "statement": "Computed in floating point, when no computed activation underflows to zero, c_factual returns a non-empty prefix of the fired rules of the class by decreasing computed activation. Between two consecutive returned rules the activation drops by a factor at most 1 + lam, up to rounding, or the rules before do not reach beta, up to rounding. When it stops early, the next rule's activation is lower by a factor at least 1 + lam, up to rounding, and the returned rules reach beta, up to rounding. With no fired rule of the class it raises IndexError.", "quantifier": "every rounding satisfying the IEEE-style laws, every list of rules with degrees and weights in [0,1], every class, every lam >= 0, every beta or none", "why_tests_cant": "The stopping position depends on comparing a rounded quotient with a rounded 1 + lam and a rounded running sum with beta, for all activations.", "anchors": [{"file": "src/teacher/explanation/_factual.py", "symbols": ["c_factual", "_fired_rules"]}, {"file": "src/teacher/tree/rule.py", "symbols": ["Rule.matching"]}]}
{"id": "C178", "title": "Matching a rule with several values in floating point", "statement": "Computed in floating point, matching a rule with several values per condition raises ValueError for a rule without conditions, gives 0 when a feature or value is missing from the fuzzified instance, and otherwise gives a non-negative number within the rounding error of a sum of degrees of the exact matching, the least over the conditions of the sum of the degrees of its values.", "quantifier": "every rounding satisfying the IEEE-style laws, every rule, every fuzzified instance with degrees in [0,1]", "why_tests_cant": "The error bound must hold for every number of values and every combination of degrees.", "anchors": [{"file": "src/teacher/tree/rule.py", "symbols": ["Rule.matching"]}]}
{"id": "C179", "title": "The weighted vote in floating point picks a class of (nearly) the largest activation", "statement": "Computed in floating point, Rule.weighted_vote answers a class of the rules whose exact activation is the largest up to twice the rounding error of a sum of activations; if one class leads exactly by more than this, it is the answer, as in exact arithmetic. (Within the error the answer can differ: one rule of activation 1 beats ten of activation 0.1 in double precision although the exact sum of the ten doubles is larger.)", "quantifier": "every rounding satisfying the IEEE-style laws, every non-empty list of rules with degrees and weights in [0,1]", "why_tests_cant": "The answer depends on comparisons between rounded running sums, for every number of rules and every activation; a test fixes a few and cannot bound the error.", "anchors": [{"file": "src/teacher/tree/rule.py", "symbols": ["Rule.weighted_vote", "Rule.matching"]}]}
{"id": "C180", "title": "i_counterfactual in floating point changes the class and is closest up to rounding", "statement": "Computed in floating point, i_counterfactual returns on well formed inputs. Returned changes are those of a rule of another class; after them the computed class is another one, and its exact activation is the largest up to twice the rounding error of a sum of activations; the exact distance of the rule is at most that of any rule of another class whose changes flip the computed class, up to twice the rounding error of a distance. None means that no rule of another class flips the computed class, hence that after the changes of any of them the exact activation of the original class is still the largest up to the error.", "quantifier": "every rounding satisfying the IEEE-style laws, every fuzzified instance with degrees in [0,1], every list of rules with weights in [0,1], every class, every list of numerical columns", "why_tests_cant": "Rounded distances decide the order in which candidates are tried and rounded votes decide which is accepted; both must be controlled for all instances and rule lists.", "anchors": [{"file": "src/teacher/explanation/_counterfactual.py", "symbols": ["i_counterfactual", "_cf_dist_instance", "_weighted_literal_distance", "_literal_distance", "_search_counterfactual", "_apply_changes"]}, {"file": "src/teacher/tree/rule.py", "symbols": ["Rule.weighted_vote"]}]}
{"id": "C181", "title": "f_counterfactual in floating point changes the class and is closest up to rounding", "statement": "Computed in floating point with 0 <= tau <= 1, changes returned by f_counterfactual are those of a rule of another class; after them the computed class is another one, and its exact activation is the largest up to twice the rounding error; the exact distance of the rule to the factual explanation is, up to twice the rounding error of a distance, at most that of every rule of another class whose changes flip the computed class, except rules whose exact distance is itself within the rounding error of zero. None means that no rule of another class whose exact distance exceeds the rounding error flips the computed class.", "quantifier": "every rounding satisfying the IEEE-style laws, every fuzzified instance with degrees in [0,1], every factual explanation, every list of rules with weights in [0,1], every class, every tau in [0,1]", "why_tests_cant": "The distance accumulates roundings over the literals of every rule of the explanation; the bound must hold for every size.", "anchors": [{"file": "src/teacher/explanation/_counterfactual.py", "symbols": ["f_counterfactual", "_cf_dist_rule", "_literal_distance", "_search_counterfactual", "_apply_changes"]}, {"file": "src/teacher/tree/rule.py", "symbols": ["Rule.weighted_vote", "Rule.matching"]}]}
{"id": "C182", "title": "d_counterfactual in floating point changes the class and is closest in the computed distance", "statement": "With votes computed in floating point, changes returned by d_counterfactual are those of a rule of another class; after them the computed class is another one, and its exact activation is the largest up to twice the rounding error; no rule of another class whose changes flip the computed class has a smaller distance as computed. None means that no rule of another class flips the computed class.", "quantifier": "every rounding satisfying the IEEE-style laws, every computed distance function, every fuzzified instance with degrees in [0,1], every list of rules with weights in [0,1], every class", "why_tests_cant": "Soundness depends on every modified instance and every rounded vote.", "anchors": [{"file": "src/teacher/explanation/_counterfactual.py", "symbols": ["d_counterfactual", "_search_counterfactual", "_apply_changes"]}, {"file": "src/teacher/tree/rule.py", "symbols": ["Rule.weighted_vote"]}]}
{"id": "C183", "title": "Order of the rule list in factual explanations", "statement": "Reordering the rule list never changes the activations of the rules m_factual, mr_factual and c_factual return, position by position, nor whether and with which exception they fail; m_factual always returns the same collection of rules; when no two fired rules of the class have the same activation all three return exactly the same list.", "quantifier": "every rule list and permutation of it, instance, class, lam and beta", "why_tests_cant": "ranges over all permutations of all rule lists, including ties", "anchors": [{"file": "src/teacher/explanation/_factual.py", "symbols": ["m_factual", "mr_factual", "c_factual", "_fired_rules", "_robust_threshold"]}]}
{"id": "C184", "title": "Rules that do not speak", "statement": "m_factual and c_factual depend on the rule list only through the fired rules of the explained class: adding, removing or changing rules of other classes or rules that are not fired changes nothing. mr_factual depends in addition only on which other classes occur and on their total activations.", "quantifier": "every pair of rule lists with the same fired rules of the class, instance, class and parameters", "why_tests_cant": "ranges over all ways of extending a rule base", "anchors": [{"file": "src/teacher/explanation/_factual.py", "symbols": ["m_factual", "mr_factual", "c_factual", "_fired_rules", "_get_class_value_rules"]}]}
{"id": "C185", "title": "Scale of the weights in factual explanations", "statement": "Multiplying the weights of all rules by one positive number (and beta by the same number) multiplies the weights of the rules in the explanations by it and changes nothing else, for the three methods, exceptions included.", "quantifier": "every rule list, positive factor, instance, class, lam and beta", "why_tests_cant": "ranges over all factors and rule lists", "anchors": [{"file": "src/teacher/explanation/_factual.py", "symbols": ["m_factual", "mr_factual", "c_factual"]}]}
{"id": "C186", "title": "Factual explanations are nested", "statement": "Of any two explanations of the same instance and class, by any of m_factual, mr_factual and c_factual with any parameters, one is an initial segment of the other.", "quantifier": "every rule list, instance, class and parameters", "why_tests_cant": "relates three functions on all inputs", "anchors": [{"file": "src/teacher/explanation/_factual.py", "symbols": ["m_factual", "mr_factual", "c_factual"]}]}
{"id": "C187", "title": "Scale of the weights in counterfactual explanations", "statement": "Multiplying the weights of all the rules by one positive number (and those of the factual rules by any number) changes neither the counterfactuals nor the exceptions of i_counterfactual (both modes), f_counterfactual and d_counterfactual.", "quantifier": "every rule list, factual, instance, positive factor, class, distance and parameters", "why_tests_cant": "ranges over all factors and rule lists", "anchors": [{"file": "src/teacher/explanation/_counterfactual.py", "symbols": ["i_counterfactual", "f_counterfactual", "d_counterfactual", "_search_counterfactual"]}, {"file": "src/teacher/tree/rule.py", "symbols": ["weighted_vote"]}]}
{"id": "C188", "title": "Order of the rule list in counterfactual explanations", "statement": "Reordering the rule list so that the class of every position stays the same never changes a vote. When the vote on the modified instances does not depend on the order, two orders of the rule list give both None or both the changes of rules of another class at the same distance, for i_counterfactual, f_counterfactual and d_counterfactual.", "quantifier": "every rule list and permutation of it, instance, class, distance and parameters", "why_tests_cant": "ranges over all permutations of all rule lists, including ties between distances", "anchors": [{"file": "src/teacher/explanation/_counterfactual.py", "symbols": ["i_counterfactual", "f_counterfactual", "d_counterfactual", "_search_counterfactual"]}, {"file": "src/teacher/tree/rule.py", "symbols": ["weighted_vote"]}]}
{"id": "C189", "title": "Minimality of the changes", "statement": "No proper part of the changes returned by i_counterfactual flips the class.", "quantifier": "every rule list, instance and class", "why_tests_cant": "ranges over all instances, rule lists and subsets of the changes", "anchors": [{"file": "src/teacher/explanation/_counterfactual.py", "symbols": ["i_counterfactual", "_search_counterfactual", "_apply_changes"]}]}
{"id": "C190", "title": "Ratios in floating point", "statement": "In floating point coverage, precision, fidelity, rule_fidelity and the mismatch sparsity are the rounding of their exact value and raise exactly when they do in exact arithmetic. They are in [0,1], within one rounding of the exact fraction, preserve its order, and for fewer than about 9e15 instances are 0 or 1 only when the exact fraction is.", "quantifier": "every lawful arithmetic (double precision in particular), rules, dataset, labels and threshold", "why_tests_cant": "ranges over all data and all roundings", "anchors": [{"file": "src/teacher/metrics/_rule.py", "symbols": ["coverage", "precision", "fidelity", "rule_fidelity"]}, {"file": "src/teacher/metrics/_counterfactual.py", "symbols": ["sparsity_dissimilarity"]}]}
{"id": "C191", "title": "Moth distance in floating point", "statement": "In floating point the 'moth' distance of two rows of n columns with positive MADs never fails, is non-negative, is within n+4 roundings (plus 2n+3 underflows) of the exact one, is 0 between equal rows and is symmetric for rounding to nearest.", "quantifier": "every lawful arithmetic (double precision in particular), rows, columns and MADs", "why_tests_cant": "the error bound is over all rows and sizes", "anchors": [{"file": "src/teacher/metrics/_counterfactual.py", "symbols": ["_distance", "proximity_dissimilarity"]}]}
{"id": "C192", "title": "Closest instance and implausibility in floating point", "statement": "In floating point _closest_instance returns a row at the smallest positive computed distance, so no other row at a positive computed distance is closer by more than the rounding errors of the two distances; implausibility is that computed distance, and 0 exactly when every row is at computed distance 0.", "quantifier": "every lawful arithmetic, instance, dataset, columns and MADs", "why_tests_cant": "ranges over all datasets and roundings", "anchors": [{"file": "src/teacher/metrics/_counterfactual.py", "symbols": ["_closest_instance", "implausibility"]}]}
{"id": "C193", "title": "Instability in floating point", "statement": "In floating point instability never fails on rows of the dataset, lies between 0 and the computed distance of the two counterfactuals, is 0 if these coincide and is exactly that distance if the two instances coincide.", "quantifier": "every lawful arithmetic, four rows, columns and MADs", "why_tests_cant": "ranges over all rows and roundings", "anchors": [{"file": "src/teacher/metrics/_counterfactual.py", "symbols": ["instability"]}]}
{"id": "C194", "title": "The computed moth distance is a metric", "statement": "In floating point the computed 'moth' distance is a metric: different rows are at a positive distance and the triangle inequality holds.", "quantifier": "every lawful arithmetic, rows, columns and MADs", "why_tests_cant": "ranges over all triples of rows", "anchors": [{"file": "src/teacher/metrics/_counterfactual.py", "symbols": ["_distance", "proximity_dissimilarity"]}]}
{"id": "C195", "title": "Intersection of fuzzy sets in floating point", "statement": "In floating point, FuzzyContinuousSet.intersection returns a number in [0,1], 1 for a set and itself (and for two sets with a common side), the same in both directions, and the height of the intersection of the two triangles up to rounding. Accuracy is false in double precision: [0.8, 1.7, 3.3] and [0.4, 1.7, 3.7] have the same peak and a computed intersection of 0; a very wide set and a disjoint one can have 1. It holds, with an error of at most 5u + eta, when the peaks are further apart than 8u times the sum of the widths.", "quantifier": "all pairs of triangular fuzzy sets of floating point numbers, all lawful arithmetics (in particular IEEE binary64)", "why_tests_cant": "rounding errors depend on every bit of the six points; decimals that fail are rare among those that a test would try", "anchors": [{"file": "src/teacher/fuzzy/fuzzy_set.py", "symbols": ["FuzzyContinuousSet.intersection", "FuzzyContinuousSet._line_intersect"]}]}
{"id": "C196", "title": "alpha_cut and to_crisp in floating point", "statement": "In floating point, alpha_cut raises ValueError exactly for a cut outside [0,1]; otherwise it returns an interval inside the support, the support itself for 0, smaller intervals for larger cuts, equal to the level set up to a rounding error proportional to the size of the points; Rule.to_crisp fails exactly when the exact one does and its intervals are within that error of the exact ones. That a row with degree at least alpha satisfies the crisp rule is false in double precision: alpha_cut(1) of [0, 0.1, 0.4] is (0.1, 0.09999999999999998), which contains no number.", "quantifier": "all triangular sets, variables and rules of floating point numbers, all cuts, all lawful arithmetics", "why_tests_cant": "the error bound must hold for all numbers; tests use points for which the operations are exact", "anchors": [{"file": "src/teacher/fuzzy/fuzzy_set.py", "symbols": ["FuzzyContinuousSet.alpha_cut"]}, {"file": "src/teacher/tree/rule.py", "symbols": ["Rule.to_crisp"]}]}
{"id": "C197", "title": "jaccard_similarity and merge in floating point", "statement": "In floating point, jaccard_similarity is in [0,1], symmetric, 0 for disjoint supports, 1 for a set of positive width and itself, and within 10u + 3eta of the exact value when the peaks are not too close (false without that condition: two sets with the same peak can have 0); merge returns a valid triangle with the smallest support covering both sets and a peak between the two peaks, close to their mean, symmetric, and raises ValueError when a name is not a number.", "quantifier": "all pairs of triangular fuzzy sets of floating point numbers, all lawful arithmetics with exact doubling (in particular IEEE binary64)", "why_tests_cant": "quantifies over all floating point numbers; (x + y) / 2 between x and y is a property of the rounding, not of examples", "anchors": [{"file": "src/teacher/fuzzy/fuzzy_set.py", "symbols": ["FuzzyContinuousSet.jaccard_similarity", "FuzzyContinuousSet.merge"]}]}
{"id": "C198", "title": "map_rule_variables in floating point", "statement": "In floating point, map_rule_variables keeps features, order, consequent and weight and replaces each value by the first destination set with the largest computed map function. The chosen set overlaps as much as any other up to 2(5u + eta), and mapping a rule onto its own variables gives the rule itself, when the peaks can be told apart (distance above 8u times the widths). Both are false in double precision without that condition: a set can be mapped to a hardly overlapping one although another has the same peak, and with points -2^54, 0, 1, 2 the rule 'x is 1' is mapped onto 'x is 0' by its own variables.", "quantifier": "all rules and families of fuzzy variables of floating point numbers, all lawful arithmetics", "why_tests_cant": "depends on rounding errors of the intersection for every pair of sets", "anchors": [{"file": "src/teacher/tree/rule.py", "symbols": ["Rule.map_rule_variables"]}, {"file": "src/teacher/fuzzy/fuzzy_set.py", "symbols": ["FuzzyContinuousSet.intersection"]}]}
{"id": "C199", "title": "Entropy discretisation in floating point terminates with usable points", "statement": "With every rounding of the arithmetic, every order of summation and whatever the computed entropies are, get_fuzzy_points('entropy') ends on every column with two different values; it returns increasing values of the column from the smallest one on, ending at the largest one if that occurs twice, and at most 2^max_depth + 1 of them; it raises only when a computed entropy raises, with the same exception.", "quantifier": "every column, classes, threshold, max_depth, rounding, order of summation and entropy function", "why_tests_cant": "the recursion compares rounded numbers; termination and the shape of the result must not depend on them", "anchors": [{"file": "src/teacher/fuzzy/_discretize.py", "symbols": ["_fuzzy_discretization", "_weighted_fuzzy_entropy", "_get_delta_point"]}, {"file": "src/teacher/fuzzy/_base.py", "symbols": ["get_fuzzy_points"]}]}
{"id": "C200", "title": "The fuzzy entropy in floating point", "statement": "The computed fuzzy entropy exists, is not negative, and is exactly 0 for degrees of one class; hence get_fuzzy_points('entropy') succeeds on every column with two different values.", "quantifier": "every list of degrees and classes, every rounding and order of summation, double precision in particular", "why_tests_cant": "underflow of a share (math.log2(0)) and the order of numpy's pairwise summation only show on special columns", "anchors": [{"file": "src/teacher/fuzzy/_discretize.py", "symbols": ["_fuzzy_entropy", "_fuzzy_discretization"]}]}
{"id": "C201", "title": "Entropy discretisation in floating point cuts at the best computed point", "statement": "When the entropies can be computed, every interval is cut at the first of the column values strictly inside it whose three sets have the least computed weighted entropy, exactly when the computed gain is not below the computed threshold (the given one or the one of the minimum description length) and the depth allows it, and the two parts are treated in the same way.", "quantifier": "every column with two different values, classes, threshold, max_depth, rounding, order of summation and computed entropy", "why_tests_cant": "the choice depends on comparisons of rounded numbers at every level of an unbounded recursion", "anchors": [{"file": "src/teacher/fuzzy/_discretize.py", "symbols": ["_fuzzy_discretization", "_weighted_fuzzy_entropy", "_get_delta_point"]}]}
{"id": "C202", "title": "Rounding does not move clear cuts", "statement": "The fuzzy points computed in floating point are those of the exact computation when on every part of the column the possible cuts differ by more than the rounding errors (or are tied in both computations) and the gain of the best cut differs from the threshold by more than the errors of both.", "quantifier": "every column, classes, threshold, max_depth, rounding, order of summation, computed logarithm and computed entropy", "why_tests_cant": "a statement about all roundings and all levels of the recursion", "anchors": [{"file": "src/teacher/fuzzy/_discretize.py", "symbols": ["_fuzzy_discretization", "_fuzzy_entropy", "_weighted_fuzzy_entropy", "_get_delta_point"]}]}
{"id": "C203", "title": "simmilarity in floating point", "statement": "The computed simmilarity of two fuzzy sets is a number in [0,1], symmetric, and 1 for a set compared with itself.", "quantifier": "every pair of fuzzy sets and every rounding, double precision in particular", "why_tests_cant": "must hold for all triples of numbers and all roundings", "anchors": [{"file": "src/teacher/fuzzy/fuzzy_set.py", "symbols": ["FuzzyContinuousSet", "FuzzyDiscreteSet"]}]}
{"id": "C204", "title": "From a column to degrees in floating point", "statement": "If the largest value of a column of floating point numbers occurs at least twice and get_fuzzy_points(..., 'entropy', ...) returns points for it, then get_fuzzy_variables makes a variable from these points, and for every value of the column the computed membership degrees add up to 1 within twice the error of one degree.", "quantifier": "every lawful rounding and summation order, every entropy and logarithm, every column and labels of any length, every threshold, max_depth and value", "why_tests_cant": "The points depend on the data, the labels and all the roundings; tests see a few columns in one precision.", "anchors": [{"file": "src/teacher/fuzzy/_discretize.py", "symbols": ["_fuzzy_discretization"]}, {"file": "src/teacher/fuzzy/_base.py", "symbols": ["get_fuzzy_points", "get_fuzzy_variables"]}, {"file": "src/teacher/fuzzy/fuzzy_set.py", "symbols": ["FuzzyContinuousSet.membership"]}]}
{"id": "C205", "title": "No row in range is lost by a tree fitted in floating point", "statement": "A row whose cells are in the range of the fuzzy variables reaches some leaf of an FDT fitted in floating point with a computed degree of at least 1/2 minus the error of one membership degree, however deep the tree is.", "quantifier": "every lawful rounding and summation order, every data set, every entropy, every tree fit can return and every row in range", "why_tests_cant": "Degrees are combined along paths of any length and the tree depends on rounded sums; a test covers single trees.", "anchors": [{"file": "src/teacher/tree/fdt_tree.py", "symbols": ["FDT.fit", "FDT._partial_fit", "FDT.predict"]}]}
{"id": "C206", "title": "Entropy discretisation and training in floating point, end to end", "statement": "For a table of doubles with fewer than 2^53 rows in which every column has two values, its largest value twice and distances between values within a factor of 2^1000: the entropy points of all columns can be computed, FDT.fit with the variables made from them succeeds, and every training row reaches some leaf with degree at least 1/2 - 2^-51.", "quantifier": "every such table, all labels, every logarithm, fuzzy threshold > 0, max_depth and min_num_examples", "why_tests_cant": "It composes discretisation, fuzzification and training over all tables and all roundings.", "anchors": [{"file": "src/teacher/fuzzy/_base.py", "symbols": ["get_fuzzy_points", "get_fuzzy_variables"]}, {"file": "src/teacher/fuzzy/_discretize.py", "symbols": ["_fuzzy_discretization"]}, {"file": "src/teacher/tree/fdt_tree.py", "symbols": ["FDT.fit"]}]}
{"id": "C207", "title": "No row in range is lost by a binary tree fitted in floating point", "statement": "A row whose cells are in the range of the fuzzy variables reaches some leaf of an FBDT fitted in floating point with a computed degree of at least 1/2 minus the error of one membership degree, however deep the tree is; in particular FBDT.fit on variables made by entropy discretisation in floating point succeeds and no training row is lost.", "quantifier": "every lawful rounding and summation order, every data set, every entropy, every tree fit can return and every row in range", "why_tests_cant": "Unions of sets are rounded sums along paths of any length and the splits depend on rounded gains; a test covers single trees.", "anchors": [{"file": "src/teacher/tree/fdt_binary_tree.py", "symbols": ["fit", "_partial_fit", "predict"]}, {"file": "src/teacher/fuzzy/_discretize.py", "symbols": ["_fuzzy_discretization"]}]}
{"id": "C208", "title": "predict in floating point always answers, with a class near the best", "statement": "predict of an FDT or FBDT fitted in floating point succeeds on every table that fits the fuzzy variables, ties included; the predicted class is a class of the training data, and no class has a larger exact vote by more than twice the error of the votes (10^-9 for an FDT and 10^-7 for an FBDT of at most 1000 leaves in double precision).", "quantifier": "every lawful rounding and summation order, every training set and entropy, both votings, every table of any size", "why_tests_cant": "The rounded votes depend on all leaves and the order of additions; ties and near ties cannot be enumerated.", "anchors": [{"file": "src/teacher/tree/fdt_tree.py", "symbols": ["TreeFDT.predict", "TreeFDT._partial_predict"]}, {"file": "src/teacher/tree/fdt_binary_tree.py", "symbols": ["predict"]}, {"file": "src/teacher/tree/_voting.py", "symbols": ["_aggregated_vote", "_maximum_matching"]}, {"file": "src/teacher/tree/base_decision_tree.py", "symbols": ["predict"]}]}
{"id": "C209", "title": "From a table of doubles to predictions, in floating point", "statement": "Take a table of doubles in which the largest value of each column occurs at least twice, make the fuzzy points by entropy discretisation, the fuzzy variables from the points, and fit an FDT or an FBDT on the table with them. fit succeeds, and predict of the fitted tree then succeeds on every non-empty table of doubles with the same number of columns, also with values outside the range of the training data; each answer is a class of the training data, and no class has an exact vote larger by more than twice the error bound of the votes.", "quantifier": "every training table, every table to predict, every threshold, depth and voting scheme, every entropy of the tree, every lawful floating-point arithmetic", "why_tests_cant": "it composes four computations with rounding in each, over all tables of doubles, including rows far from the training data where all degrees may be zero", "anchors": [{"file": "src/teacher/fuzzy/_base.py", "symbols": ["get_fuzzy_points", "get_fuzzy_variables"]}, {"file": "src/teacher/tree/fdt_tree.py", "symbols": ["FDT"]}, {"file": "src/teacher/tree/fdt_binary_tree.py", "symbols": ["FBDT"]}]}
{"id": "C210", "title": "Where a fuzzy tree splits in floating point", "statement": "In a tree fitted in floating point, a node is split only if its rows have two classes with positive computed degree, at least min_num_examples of them, the depth is below max_depth, and the feature it is split on has a positive computed gain that reaches fuzzy_threshold and is at least the computed gain of every other feature not yet used on the path. A node is a leaf only if all its computed degrees are zero, or its living rows have one class, or are fewer than min_num_examples, or the depth is max_depth, or no unused feature has a computed gain that reaches the threshold.", "quantifier": "every training table of floats, every tree parameter, every impurity, every iteration order of the features, every lawful floating-point arithmetic, every node of the fitted tree", "why_tests_cant": "it is about every node of every tree, with the gains as rounded by the arithmetic", "anchors": [{"file": "src/teacher/tree/fdt_tree.py", "symbols": ["FDT", "_get_max_f_gain", "_partial_fit", "_stop_met"]}]}
{"id": "C211", "title": "Where a binary fuzzy tree splits in floating point", "statement": "In an FBDT fitted in floating point, a node is split only if its rows have two classes with positive membership, at least min_num_examples of them, the depth is below max_depth, and the computed gain of the split is positive, reaches fuzzy_threshold and is at least the computed gain of every cut (first k sets against the others) of every numerical variable not tested above the node. A node is a leaf only if all its memberships are zero, or its living rows have one class, or are fewer than min_num_examples, or the depth is max_depth, or no such cut has a computed gain that reaches the threshold.", "quantifier": "every training table of floats, every tree parameter, every impurity, every lawful floating-point arithmetic, every node of the fitted tree", "why_tests_cant": "it is about every node of every tree and every candidate cut, with the gains as rounded by the arithmetic", "anchors": [{"file": "src/teacher/tree/fdt_binary_tree.py", "symbols": ["FBDT", "_get_max_f_gain", "_get_binary_partitions", "_partial_fit"]}]}
