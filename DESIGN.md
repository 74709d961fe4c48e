# Formal model of Kaysera/teacher in Lean 4

## 1. Approach

* Shallow embedding: every Python function is a small total Lean function with the same branches.
  Exceptions are values: `Py α := Except PyErr α`. Python dicts are insertion-ordered association
  lists (`Dict`), numpy vectors are lists, random draws / set-iteration orders / third-party
  results are explicit parameters over which the theorems quantify.
* Numbers: every definition is generic in an ordered field `K`
  (`[Field K] [LinearOrder K] [IsStrictOrderedRing K]`), so theorems hold at ℚ (used by the executable
  examples) and at ℝ (used when logarithms are needed). IEEE rounding is
  modelled for the fuzzy sets, FDT, FBDT, the factual and counterfactual explanations (`Model/Rounded`, `Model/RoundedB`, `Model/RoundedRules`, `Model/RoundedCf`, C168-C170, C172-C182) and nowhere else; NaN and overflow are *not* modelled (see trusted base); numpy's "division by zero gives nan" is modelled as the error value
  `PyErr.nan`, so that "no nan" is a theorem and not an assumption. One nan does not reach a result: the share 0/0 of a
  category without training examples is a key of `list.sort` in `FBDT`. There the model takes an arbitrary permutation (class `NanSort`, a
  parameter of every FBDT theorem) as what `sort` leaves, since comparisons with nan are all false and the result depends on the algorithm.
* Layout (`/verif/lean/Verif`):
  * `Model/*.lean`: the model, each definition cites file:lines of /repo;
  * `Spec/*.lean`: small specifications, written without reference to the model's helpers;
  * `Lemmas/*.lean`: helper lemmas;
  * `Props/*.lean`: the property theorems `Cnn_…`, with non-vacuity `example`s next to them.
* A property that is false of the code is handled by (a) a theorem `Cnn_…_false`
  giving a concrete counterexample run of the model, (b) a theorem `Cnn_…_partial` for the largest
  region where it holds; both are listed in MANIFEST.json with status `partial`.

## 2. Trusted base

* Lean 4.33 kernel; axioms `propext`, `Classical.choice`, `Quot.sound` only (checked by `vcheck`). No axiom is added, no compiled
  evaluation is trusted: the examples use `decide +kernel`, which is reduction in the kernel.
* The reading of /repo (nothing is executed). Citations in the comments are the tie to the code.

### 2.1 What is modelled

| Module of the model | Code |
|---|---|
| `Model/Basic` | Python vocabulary: exceptions, dicts, `max`/`min`/`sorted`, `np.unique`, tables |
| `Model/FuzzySet` | `fuzzy/fuzzy_set.py`, `fuzzy/fuzzy_variable.py`, `fuzzy/_base.py` |
| `Model/Discretize` | `fuzzy/_discretize.py`, `get_fuzzy_points` |
| `Model/Rule` | `tree/rule.py` |
| `Model/FDT` | `tree/_voting.py`, `tree/fdt_tree.py`, `tree/base_decision_tree.py` |
| `Model/FBDT` | `tree/fdt_binary_tree.py` (with a heap for the shared arrays `ignored`) |
| `Model/ID3` | `tree/id3_tree.py` |
| `Model/Factual`, `Model/Counterfactual` | `explanation/_factual.py`, `explanation/_counterfactual.py` |
| `Model/Explainer` | `explanation/_base_explainer.py`, `_factual_local_explainer.py`, `FDT_explainer.py`, `FBDT_explainer.py`, `FID3_explainer.py` |
| `Model/Metrics` | `metrics/_rule.py`, `metrics/_counterfactual.py` |
| `Model/Genetic` | `neighbors/genetic_algorithm.py` (heap of mutable individuals) |
| `Model/Sampling`, `Model/Neighborhood` | `neighbors/_base_neighborhood.py`, `_simple_neighborhood.py`, `_fuzzy_neighborhood.py`, `_sampling_neighborhood.py` |
| `Model/Lore` | `neighbors/_lore_neighborhood.py` |
| `Model/RuleJson` | `Rule.to_json` (tree/rule.py:94-131) |
| `Model/Distr` | `get_distr_values`, `freedman_diaconis`, `struges`, `estimate_nbr_bins`, the choice of `best_fit_distribution` (neighbors/gpdatagenerator.py:274-372); the fits, quantile functions and cube root are parameters |
| `Model/RandomNb` | `random_neighborhood`, `closed_real_data` composition (neighbors/neighbor_generator.py) |
| `Model/LoreGen` | `dataframe2explain` (utils/util.py), the generation step of `LoreNeighborhood.fit`, `genetic_neighborhood_old`, `random_oversampling`, `random_instance_selection`; deap's run and the imblearn samplers are parameters with contracts |
| `Model/Show` | `==`, `hash` and `<` of fuzzy sets (fuzzy/fuzzy_set.py), `__str__` of rules and of the three trees; `str` of numbers, classes and dicts are parameters |
| `Model/FastFit` | the object `SamplingNeighborhood` (neighbors/_sampling_neighborhood.py:28-66, 96-109, 151-182): indices of the continuous and discrete features, columns of `X2E`, choice of the generation method, `'mixed'` distance to the instance |
| `Model/MadDistance` | `normalized_square_euclidean_distance` (utils/distance_functions.py:17-20), `mad_cityblock`, `_continuous_distance(metric='mad')`, `agg`, `ratio_cont` (metrics/_counterfactual.py:20-78); `np.median` as the mean of the two middle elements |
| `Model/RuleTNorm` | `tree/rule.py:65-92`: `matching` with the optional argument `t_norm` |
| `Model/Rounded` | the same functions as `Model/FuzzySet` (membership), `tree/_voting.py` and `Model/FDT` (fit, predict) with a rounding `fl` after every arithmetic operation and an arbitrary `np.sum`; what is assumed of them is `Spec.Lawful` (monotone, relative error `u`, underflow `η`, sums monotone and at least each summand), which is proved for IEEE 754 rounding to nearest even without overflow, any precision, any fixed summation order (`ieee_lawful`), and for double precision with numpy's pairwise summation (`binary64_lawful`, Props/IEEE, definitions in Spec/IEEE; that the hardware and numpy do this rounding and order is trusted); `C168_binary64`, `C169_binary64`, `C172_binary64` are the theorems with explicit constants; `fdtFitF_exact` and `fdtPredictF_exact` show that without roundings this is `Model/FDT` |
| `Model/RoundedB` | `TreeFBDT.predict`, `FBDT.fit` and helpers (tree/fdt_binary_tree.py:84-113, 178-250, 271-328) in floating point: every `+ - * /` followed by `fl`, `ndarray.sum` arbitrary, Python's `sum` left to right. Equal to `Model/FBDT` for the exact arithmetic (`fbdtFitF_exact`, `fbdtPredictF_exact`) |
| `Model/RoundedRules` | `Rule.matching` with several values (tree/rule.py:77-87), `m_factual`, `mr_factual`, `c_factual` and helpers (explanation/_factual.py:45-57, 85-188) in floating point. Equal to `Model/Factual` for the exact arithmetic (`factualF_exact`) |
| `Model/RoundedCf` | `Rule.weighted_vote` (tree/rule.py:166-188), `i_counterfactual`, `f_counterfactual`, `d_counterfactual` and helpers (explanation/_counterfactual.py:39-93, 114-135, 171-285, `multiclass=False`) in floating point. Equal to `Model/Counterfactual` for the exact arithmetic (`weightedVoteWithF_exact`, `counterfactualF_exact`) |
| `Model/RoundedMetrics` | metrics/_rule.py:32-132 and metrics/_counterfactual.py:81-257 (`'moth'`, `'mismatch'`) in floating point: every operation followed by a rounding, quotients of integers rounded once. Equal to `Model/Metrics` for the exact arithmetic (`metricsF_exact`) |
| `Model/RoundedSets` | fuzzy/fuzzy_set.py:95-190 (`intersection`, `simmilarity`, `alpha_cut`, `merge`, `jaccard_similarity`) and tree/rule.py:133-163, 190-240 (`to_crisp`, `map_rule_variables`) in floating point. Equal to the exact models for the exact arithmetic (`setsF_exact`) |
| `Model/RoundedDisc` | `fuzzy/_discretize.py` 70-282 and `fuzzy/_base.py` 83-89 in floating point; `math.log2` is any function on the positive numbers and fails at 0; no overflow |
| `Model/Artificial` | `generate_artificial_features` (utils/util.py:122-181); draws and rounding are parameters |
| `Model/Loaders` | `load_beer`, `load_pima`, `load_flavia`, `load_phishing`, `load_iris`, `load_wine`, `load_german`, `load_heloc`, `load_breast`, `load_basket`, `load_adult`, `load_compas` (datasets/_base.py:110-427), from the table that was read; dtypes, scaler and most frequent value are parameters |
| `Model/TreeEq` | `__eq__` of `TreeFDT`, `TreeFBDT`, `TreeID3` |
| `Model/Mixed` | `'mixed'` distance, `'jaccard'` sparsity and the choice by name in `metrics/_counterfactual.py` (cdist from its documentation) |
| `Model/GP` | `neighbors/gpdatagenerator.py`, `neighbors/neighbor_generator.py` |
| `Model/Utils` | `utils/util.py`, `utils/distance_functions.py`, `generate_dataset` of `datasets/_base.py` |

### 2.2 Parameters (arbitrary unless a theorem states a hypothesis)

* the black box (any function of a row), random draws (any generator with state), the iteration order of Python sets (`ord`, `ordC`, `ordF`);
* the fuzzy entropy used by FDT/FBDT/discretisation and the gain used by ID3 (any function; the code's own entropy is the subject of C15 over
  ℝ with `Real.logb 2`, the code's own gain that of C105);
* `argsort` of numpy (any sorting permutation, `Spec.IsArgsort`), standard deviations and fitted distributions (`std`, `distr`, `scale`), the
  rounding of labels by pandas (`fmt`, hypothesis `GoodRounding` where needed), the object identity of equal strings (`a is not b`);
* `deap.algorithms.eaSimple` in the GP generator: any run satisfying `Spec.DeapRun`.

### 2.3 Third-party behaviour taken as given

`skfuzzy.trimf` (GitHub version: asserts a<=b<=c, strict inequalities on the sides, 1 at the peak), `numpy.unique` (sorted, no repetition),
`np.argmax` (first maximum), stable `sorted`/`list.sort` (also with `reverse=True`), `max(key=)` (first maximum), insertion-ordered dicts,
`sklearn.LabelEncoder` (sorted classes, ValueError for an unknown value), `pandas.cut/qcut` (edges; only the post-processing is modelled),
`sklearn.check_array/check_X_y` (identity on valid input, ValueError otherwise), `sklearn.f1_score` as documented (binary average: positive
label 1, ValueError with more than two classes), `scipy.stats.zscore` in exact arithmetic (nan for a constant column), pandas without
copy-on-write for the chained assignment in the smoothing of LORE.

### 2.4 Not modelled

Floating point rounding outside fuzzy sets, FDT, FBDT, factual and counterfactual explanations (`Model/Rounded`, `Model/RoundedB`, `Model/RoundedRules`, `Model/RoundedCf` have it for these), NaN/inf/overflow (exact ordered-field arithmetic; numpy's 0/0 is
the error value `PyErr.nan`), printing and plotting
(`plot_fuzzy_variable`), dtype conversions of numpy arrays, csv reading and date parsing (the `load_*` functions are modelled from the table read), deap's internals, partial assignment of attributes inside a
tree when `fit` raises half-way (explainers and neighborhoods do model it), `X`/`y` of different length in ID3.

## 3. Plan per property

| Id | Modelled | How proved |
|----|----------|-----------|
| C01 | `trimf`, `FuzzyContinuousSet.membership` | case analysis, ordered-field arithmetic |
| C02,C03 | `get_fuzzy_continuous_sets` | induction over the list of peaks (sum over consecutive triples) |
| C04 | `alpha_cut` | arithmetic; equivalence with membership |
| C05 | `_line_intersect`, `intersection` | upper bound + attained: maximum over x of min |
| C06 | `simmilarity` | range+symmetry proved; self-similarity and separation disproved (it compares half-widths and never positions; a symmetric triangle is 0-similar to itself) |
| C07,C08 | `jaccard_similarity`, `merge` | arithmetic |
| C09 | `FuzzyDiscreteSet`, `get_fuzzy_discrete_sets` | induction over values |
| C10,C11 | `get_fuzzy_variables`, `dataset_membership` | list-update lemmas |
| C12-C14 | `_fuzzy_discretization` with an arbitrary cost oracle | well-founded recursion on the column length; induction; C13 is false (a maximum alone in its branch is dropped), partial: maximum occurs twice |
| C15 | `_fuzzy_entropy`, `_weighted_fuzzy_entropy` over ℝ | concavity of `-x log x` (Mathlib) |
| C16 | post-processing of `_equal_width/_equal_freq` | monotonicity; distinctness false in the fallback branch |
| C17-C25 | class `Rule` | lists, dict lemmas; C24 false for `simmilarity` |
| C26-C28,C34-C36 | `TreeFDT.predict`, `_voting`, `to_rule_based_system` | structural induction on trees; C36 false with repeated set names |
| C29,C47 | argument passing of `BaseDecisionTree.to_rule_based_system` | C29 false for `verbose=True` (the flag becomes the weight threshold), C47 false for ID3 (TypeError) |
| C30-C33 | `FDT.fit/_partial_fit` with arbitrary entropy oracle and feature order | induction on remaining features; C33 false (children are appended to the old ones) |
| C37-C41 | `FBDT`, explicit heap for the aliased `ignored` arrays in C41 | induction on fuel = max_depth − depth; C41 expected false |
| C42-C46 | `ID3` | induction; C46 false (ZeroDivisionError for one-valued columns) |
| C48-C52 | `_factual.py` | sorted prefixes; exchange argument for minimum cardinality |
| C53-C61 | `_counterfactual.py` | stable sort + first hit; C55 false for f_counterfactual (zero-distance candidates dropped), C60 depends on object identity |
| C62-C64 | `metrics/_rule.py` | counting lemmas; several rules: *every* rule must match |
| C65-C69 | `metrics/_counterfactual.py` ('moth') | sums of absolute values; C67 false (distance-0 neighbours are skipped) |
| C70-C73 | `genetic_algorithm.py` with an explicit stream of draws | invariants over rounds |
| C74-C76 | `_sampling_neighborhood.py` | loop invariant; C75 false (missing arguments: TypeError) |
| C77,C78 | state machine of `FuzzyNeighborhood` | induction over call histories; C78 false after refit |
| C79-C85 | `utils` | round trip, permutations; C80 false when only `continuous` is given; C81 false without discrete attributes |
| C86-C88 | explainers | state machine; composition of C27/C52/C53; C87 false |
| C89 | `mutate`, `get_oversample` | induction over draws |
| C90 | `_smooth_neighborhood` (Model/Lore) | exact result of clip + z-score filter, range, loop never entered |
| C91 | nodes of a fitted FDT | trace of `_partial_fit` (Lemmas/FDTTrace): every node with its training memberships |
| C92 | fast sampling | success conditions; false for constant columns and one class |
| C93 | `fuzzify` | composition of C10, C11, C16 |
| C94, C95 | `generate_dataset`, `build_df2explain` | table lemmas; C95 false with the class last |
| C96-C98 | GP generator, `genetic_neighborhood` | deap run as hypothesis; C96, C98 false in corner cases |
| C99-C103 | `calculate_feature_values`, random genes, `SimpleNeighborhood`, `generate_random_data`, `real_data` | list induction; C99 false for unlisted columns |
| C104-C109 | ID3: split choice, gain over ℝ, training accuracy, pruning, refit, rules | induction over the tree; C108, C109 false |
| C110, C111, C116 | FBDT: refit, training vs prediction degrees, splits | trace `BTrace`; C110, C111 false |
| C112-C115 | explainers over all histories, fidelity (`f1_score`) | state machine; C112, C113, C114 false in part |
| C117-C119 | LORE neighborhood | Chebyshev's inequality + union bound; invariant "last row is numeric"; relational refinement; C117, C118 false in part |
| C120 | `__eq__` (Model/TreeEq) | equal trees over the same variables have equal tests and leaf distributions, so equal predictions and rules (induction on trees); counterexamples for different variables |
| C121 | `_mixed_distance`, `DISTANCES` (Model/Mixed) | closed form; Minkowski by induction on the columns, triangle inequality of the jaccard distance by counting |
| C122 | `sparsity_dissimilarity` with jaccard | metric, comparison with mismatch, dependence on the coding of 0 |
| C123 | `_closest_instance`, `implausibility`, `instability` with `'mixed'` | from C121 and C66; AttributeError when nothing is found |
| C124 | `Rule.to_json` (Model/RuleJson) | look-up lemmas of C22, C47 for the rules of fitted trees; counterexample for repeated features |
| C125 | `estimate_nbr_bins` (Model/Distr) over exact arithmetic | percentiles as interpolation of the sorted sample, monotone; the block of a dominating value in the sorted sample gives IQR 0 (false part) |
| C126 | `best_fit_distribution`, `get_distr_values` (Model/Distr), `calculate_feature_values` (Model/GP) | fold invariant for the choice; arithmetic of linspace; induction over the columns for the failure |
| C127 | `closed_real_data` (Model/GP) | encoding of each record and selection composed with C95's row-by-row lemma for `build_df2explain` |
| C128 | `random_neighborhood` (Model/RandomNb) | as C127, with the categories of the random rows from C102 |
| C129 | `generate_artificial_features` (Model/Artificial) | loop invariants for the lists and names; the lazy `map(None, …)` gives the false part |
| C130 | loaders (Model/Loaders) on top of `generate_dataset` | lemmas for column selection and deletion, C94, then C103 for the end-to-end statement; counterexamples for basket and normalize |
| C131 | `load_adult`, `load_compas` (Model/Loaders) | as C130, with the replacement of missing values column by column |
| C132 | `score` of FDT and FBDT (Model/FDT, Model/FBDT) | `Spec.accuracy` counts the agreeing positions; error cases by case analysis on predict and lengths |
| C133 | `_fuzzy_discretization` and the best-point search (Model/Discretize) | specification `Spec.Discretized` (inductive, over sets of candidate points and gains), refinement by induction on the recursion, uniqueness of the specified result |
| C134 | `ID3._partial_fit` (Model/ID3) | from the shape `IFitted` of a fitted tree; false for `num_leaf` above the last split (`_false`), proved for leaves, for the number of branches and for nodes with only leaves below |
| C135 | error branches of the listed functions | case analysis; the exception is characterised by a condition on the arguments only |
| C136 | keyword checks of the explainers (Model/Explainer) | inversion of a successful `fit`; direct computation of the failing one |
| C137 | `dataframe2explain` (Model/LoreGen) | C95 for the table; inversion of Python indexing |
| C138 | LORE generation step (Model/LoreGen) | C84/C103 for the generated records, then C137; fails when one class is predicted |
| C139 | oversampling and instance selection (Model/LoreGen) | C128 plus the contract of the sampler; counting; every call fails with today's imblearn |
| C140 | `LoreNeighborhood.fit` (Model/LoreGen, Model/Lore) | composition of C138, C90 and C118 |
| C141 | `==`, `hash`, `<` of fuzzy sets (Model/Show) | case analysis; induction over the peaks for sortedness; discrete sets have no hash |
| C142 | `__str__` of trees and rules (Model/Show) | structural induction: the text is a listing of node descriptions; unique reading of a rule's text; counterexamples for binary trees |
| C143 | `FDTExplainer.fit` on a ready neighborhood (Model/Explainer, Props/Pipeline) | totality of each stage (tree fit, fidelity, prediction, rules, factual, counterfactual) from C27, C28, C32, C55, C57; readiness after `fuzzify` from C93; counterexample for an encoded instance |
| C144 | `SamplingNeighborhood.fit` (Model/Neighborhood, Props/SampFit) | induction over the encoder dictionary: the column loop changes each row cell by cell; iff for the whole call |
| C145 | fit, fuzzify and explain composed (Props/EndToEnd) | C144, C143_ready and C143 chained over an arbitrary history |
| C146 | `FBDTExplainer.fit` on the result of C145 (Model/Explainer, Props/FBDTPipeline) | composition of C38, C27, C26, C47, C40, the factual theorems and C145; partition of the fuzzified columns (C93_partition) discharges the hypothesis of C40 |
| C147 | LORE neighborhood of a continuous dataset from `fit` through `fuzzify` to both explainers (Model/Lore, Model/Explainer, Props/LorePipeline) | `fit` is total on tables of numbers (clipping, z-filter, drop, prediction each total); `fuzzify` reduces to that of a sampling neighborhood (C143_ready); then C143/C146 with the instance as its own decoding |
| C148 | `SamplingNeighborhood.fit` with its real generation method and distance (Model/FastFit over Model/Sampling, Neighborhood, Mixed) | the 'mixed' distance of two different rows of numbers is positive, hence a nearest row of another class exists (C66); every distribution is non-empty (C76, C92); C74 for the sample; observed codes are valid, hence C144 and C145 |
| C149 | `normalized_square_euclidean_distance` (Model/MadDistance) | closed form by induction; sums of squares |
| C150 | `_continuous_distance`, `_categorical_distance`, `_mixed_distance` with their options (Model/MadDistance) | the model's median is the textbook one; a median absolute deviation is 0 iff one value fills more than half (counting in the sorted list); metric axioms columnwise, C121 lemmas for ratio_cont |
| C151 | two runs of `_continuous_distance(metric='mad')` in different units | medians are equivariant (reversal for negative factors); counterexample with a majority value |
| C152 | `FDTExplainer.fit` (Model/Explainer) | trace of a successful fit as in C88; closest-first search lemma for the three distances |
| C153 | `__eq__` of the three trees (Model/TreeEq) | dict equality is agreement on every key; mutual induction on trees |
| C154 | `INode.toRules`, `Rule.matching`, `fid3Factual` (existing models) put together by hand, since `FID3Explainer.fit` never succeeds (C113) | exactly one rule of the tree is satisfied by the row of labels (C43); its degree is above 1/2 and every other rule has a condition below 1/2 or unknown, so it is the first maximum (C48); counterexample at a tie |
| C155 | `Model/RuleTNorm`: `Rule.matching(instance, t_norm)` for an arbitrary function `t_norm` | case split on known conditions; folds of a t-norm: range, permutation, monotonicity by induction on the list of degrees |
| C156 | `fuzzifyDataset`, `categoricalFuzzy`, `replaceColumn` (Model/Explainer) with `id3FitWith` and `fid3Factual` | induction on the variables with the table generalised; the labels of a row are its strongest sets, then C154 |
| C157 | `FDT.fit`, `FBDT.fit` (Model/FDT, Model/FBDT) on two permutations of the labelled rows | simulation: every vector of the fit is the image of one function of the row in both orders (`RowRel`); induction on the recursion, with the heap of the `ignored` arrays for FBDT |
| C158 | `ID3.fit` (Model/ID3) on two permutations | induction on the recursion; class counts, gains and sub-tables are permutation invariant; counterexample for insertion dependent set order |
| C159 | `dataset_membership`, `FDT.fit`/`predict`, `FBDT.fit`/`predict` in two systems of units (Spec.Unit) | algebra of `trimf`; the two fits are related by a map on trees that only changes the points; induction on the recursion |
| C160 | `_fuzzy_discretization`, `_equal_width`, `_equal_freq` (Model/Discretize) on a column and on its image | equivariance of every step, induction on the fuel; counterexample for rounded labels |
| C161 | prediction of a fitted FBDT (`Model/FBDT`) on rows with one active set per variable | invariant along the active path: the active set is among those still available, and the two children split these (`C38_two_children`); the other leaves have a factor 0 (`Props/FBDTCrisp`) |
| C162 | fit, predict, score and rules of FDT and FBDT under a strictly monotone renaming of the classes | the renaming of a tree commutes with every step of fit and predict, by induction on the recursion; `C162_entropy` for the entropy of the library; `C162_order_matters` shows that monotone is needed (`Props/ClassNames`) |
| C163 | in-range rows as `Spec.RowInRange` (variables made by the model of the library's constructors) against fitted FDT/FBDT trees and their rules | C02/C03/C09 give a set of degree ≥ 1/2 for each variable; induction over the tree follows the child of that set (FBDT: the side that lists it) |
| C164 | votes of the leaves (`Spec.vote`) of in-range rows | products along the paths sum to 1 by induction over the tree; `min ≥` product; for FBDT the leaves are boxes of sets whose masses add up (`boxMass`) |
| C165 | memberships of triangles, rule matching, fitted FDT/FBDT and their votes on two rows whose cells are close (`Spec.CloseRows`) | each side of a triangle is `max 0` of a line with slope at most 1/w, mixed sides go through the peak; min and max are nonexpansive, sums add; a margin of twice the bound keeps the winner; `C165_outside_false` shows the range hypothesis is needed |
| C166 | `Model/ID3` (fit, predict, score, rules) with values and classes of two types | induction over the recursion of `_partial_fit` with a relation between the two trees (`Props/RenameID3`): equal gains (sums over permuted splits), equal choices, branches permuted; predictions by distinct branch values, rules up to a permutation |
| C167 | `fdtFit`, `fdtPredict`, `fdtScore`, `toRules` on a table and variables reordered by a permutation (`Spec.reorder`) | the membership tables agree as dicts (`datasetMembership_reorder`), so by induction on the fuel the new tree is the old one with the column numbers translated; false in general (`C167_false`, `C167_fbdt_false`: ties), hence `C167_fdt_columns_partial` with the iteration order of the set a function of its elements |
| C168 | `trimfAtF`, `CSet.membershipF` (Model/Rounded) in an arbitrary arithmetic satisfying `Spec.Lawful` | relative errors of the two differences (no underflow), of the quotient, and monotonicity of the rounding; at most two sets of a partition are active |
| C169 | `fdtPredictF` (Model/Rounded), for a given tree and for a tree fitted by `fdtFitF` | degrees of a leaf by induction on the tree (minimum is 1-Lipschitz), votes by induction on the contributions with the growing error of a rounded sum, then the margin |
| C170 | `fdtFitF` (Model/Rounded), any entropy, any `np.sum` satisfying `Spec.Lawful` | induction on the fuel (trace of the steps to each node, reused from C31), masked sums by monotonicity; success by induction on the fuel |
| C171 | the error branches of `fdtFit`, `fdtPredict`, `fbdtFit`, `fbdtPredict`, `id3Predict`, rules, metrics, `mothDistance`, `normEuclid`, explainers (existing models) | for any error result, trace it back through the monadic code (`py_bind_eq_error`, `mapM_error_mem`, induction on the tree) to a stated cause; conversely the causes decided by the first checks give exactly that error |
| C172 | `Model/RoundedB`: `TreeFBDT.predict` with a rounding after every operation | near degrees and near sums through the recursion over the tree, then the margin argument of C169 |
| C173 | `Model/RoundedB`: `FBDT.fit` with a rounding after every operation, including the heap of shared `ignored` arrays | trace/growth predicates as for C38 with rounded sums (`Lemmas/RoundedB`); laws `sum_ge`, `sum_zero`, monotonicity |
| C174 | as C173, compared with the exact degrees of the path | near lemmas on the path for paths without a repeated variable; counterexample on a grid of 10⁻¹⁰ evaluated by the kernel |
| C175 | `Model/RoundedRules`: `m_factual` with a rounding after every operation; for every `Lawful` rounding | error of the left-to-right sum (`fold_near_agg`), of the quotient and of one activation; empty explanation in double precision evaluated by the kernel |
| C176 | `mr_factual` and `_robust_threshold` with a rounding after every operation | loop invariant on the rounded prefix sums, error of a sum of activations on both sides |
| C177 | `c_factual` with a rounding after every operation | loop invariant as C51; bounds `ratioUp`, `ratioDown` for the quotient of two computed activations; instance `C177_binary64` |
| C178 | `Rule.matching` with `multiple_antecedents=True`, each addition rounded | error of a left-to-right sum of degrees, least element of two near lists |
| C179 | `Model/RoundedCf`: `Rule.weighted_vote` with a rounding after every operation | the dictionary of votes holds the left-to-right rounded sum of each class; error of a sum of activations on both sides; a case where the exact winner loses evaluated by the kernel |
| C180 | `i_counterfactual` (`multiclass=False`) and its distances with a rounding after every operation; integer counts exact | computed distance near the exact one (`fold_near_gen`, `sumLoopF_near`); stable sort and first accepted candidate as C54; exact activations behind the computed vote by C179 |
| C181 | `f_counterfactual` likewise, `0 ≤ tau ≤ 1` | error of the distance between rules and of the weighted sum over the explanation; then as C180 |
| C182 | `d_counterfactual`, the distance function given as computed | as C180 without distance errors |
| C183 | Model/Factual | every explanation is a prefix of the sorted fired rules whose length is a function of their activations; sorted activations are invariant under permutation |
| C184 | Model/Factual | same closed forms; the robust threshold is characterised by the activations of the other classes |
| C185 | Model/Factual | the length functions are homogeneous; the stable sort commutes with an order-preserving map |
| C186 | Model/Factual | prefixes of one list |
| C187 | Model/Counterfactual, Model/Rule | the candidates are mapped rule by rule, the stable sort and the search loops commute with the map, votes by C21 |
| C188 | Model/Counterfactual, Model/Rule | the search returns a minimum over the same collection of (rule, distance) pairs (common lemma of C53-C57) |
| C189 | Model/Counterfactual | counterexample evaluated by the kernel; the true part from C54 |
| C190 | Model/RoundedMetrics | one rounded quotient of integers on top of the exact model; monotone rounding |
| C191 | Model/RoundedMetrics | closed form of the loop, relative error bounds for sums of non-negative terms by induction |
| C192 | Model/RoundedMetrics | C66 for the computed distance and the bounds of C191 |
| C193 | Model/RoundedMetrics | monotone rounding |
| C194 | Model/RoundedMetrics | counterexamples in binary64 evaluated by the kernel; the rest from C65 and C191 |
| C195 | Model/RoundedSets: `intersection` with a rounding after each operation | a computed crossing is an exact crossing at perturbed heights (backward error), level sets of triangles; counterexamples in binary64 evaluated by the kernel |
| C196 | Model/RoundedSets: `alpha_cut`, `to_crisp` | monotone rounding, error of a difference, product and sum; comparison of the two loops by induction |
| C197 | Model/RoundedSets: `jaccard_similarity`, `merge` | error of a quotient; doubling is exact in IEEE arithmetic (`C197_ieee_double`) |
| C198 | Model/RoundedSets: `map_rule_variables` | as C23 and C24 with the computed key; C195 |
| C199 | `entropyPointsF`: `_fuzzy_discretization` with a rounding after each operation, entropies in `Py` | the recursion ends with points satisfying a closed predicate or with an error of an entropy (`Outcome`), instantiated three times |
| C200 | `fuzzyEntropyF`: filtered sums, rounded shares, `math.log2` failing at 0 | induction over the classes; lower bound of positive degrees from the differences of the column; numpy's sum of n degrees is at most n; two counterexamples evaluated by the kernel |
| C201 | specification `DiscretizedF` of the computed cuts | invariant of the loop over the candidates, induction over the recursion, uniqueness of the specification |
| C202 | parts of the exact recursion, margins `ClearPart` | induction over the exact derivation: the best exact cut is the best computed cut |
| C203 | Model/RoundedSets: `simmilarity` | monotone rounding and exactness of the sign of differences |
| C204 | entropyPointsF, getFuzzyContinuousSets, membershipF composed | the points are good (C199); C168 for the sets made from them |
| C205 | fdtFitF and the computed leaf degrees | induction over the tree: each split has a child of exact degree 1/2; nearness of computed degrees |
| C206 | discretisation, variables and fdtFitF composed on a table of numbers | C200 for the points, C204 for the ranges, C170 for success, C205 for the leaves |
| C207 | fbdtFitF and the computed leaf degrees, composed with the discretisation | choosing the best set of each variable, induction down the tree; a rounded sum of degrees is at least each of them |
| C208 | fdtPredictF and fbdtPredictF after fitting in floating point, without a margin | the rounded winner is a maximum of the rounded votes, each of which is near the exact vote (voteF_near) |
| C209 | the composition of entropyPointsF, generateSets, fdtFitF/fbdtFitF and fdtPredictF/fbdtPredictF | from C206/C207 (fit succeeds) and C208 (predict succeeds); every number has a degree in an ordered triangle |
| C210 | fdtFitF with the computed gains (splitGainF: a rounding after each operation) | the decision of partialFitF at each node is traced to the node; the loop over the features keeps the largest computed gain |
| C211 | fbdtFitF with the computed gains of the two parts (gainOfPartsF, unionF) | the decision of bPartialFitF at each node is traced to the node; the fold over the candidates keeps the largest computed gain; a variable not tested above the node has all its cuts among the candidates, with the memberships as summed in floating point |
## 4. Testing the theorems

`seeded/LOG.jsonl` lists the wrong programs tried (one edit of the model each) with the theorems that stopped proving and the theorems that
were tightened because they did not.
