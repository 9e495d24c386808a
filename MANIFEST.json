{
 "claims": [
  {
   "property": "C01",
   "status": "proved",
   "theorems": [
    "Sppl.C01_and_exact",
    "Sppl.C01_and_exact_inf",
    "Sppl.C01_and_order_irrelevant",
    "Sppl.C01_make_intersection",
    "Sppl.C01_and_loses_infinity"
   ],
   "note": "Exact on strings and finite numbers for every pair of constructible sets; exact on all values unless both operands are Unions (counterexample C01_and_loses_infinity)."
  },
  {
   "property": "C02",
   "status": "proved",
   "theorems": [
    "Sppl.C02_or_exact",
    "Sppl.C02_or_order_irrelevant",
    "Sppl.C02_make_union",
    "Sppl.C02_or_loses_infinity"
   ],
   "note": "Exact on strings and finite numbers; infinite atoms can be lost (counterexample C02_or_loses_infinity)."
  },
  {
   "property": "C03",
   "status": "partial",
   "theorems": [
    "Sppl.C03_invert_real",
    "Sppl.C03_invert_nominal",
    "Sppl.C03_invert_mixed_wrong"
   ],
   "note": "Proved for real sets and for nominal sets; false for mixed unions (C03_invert_mixed_wrong)."
  },
  {
   "property": "C04",
   "status": "partial",
   "theorems": [
    "Sppl.C04_built_disjoint",
    "Sppl.C04_eq_sound",
    "Sppl.C04_eq_complete_partial",
    "Sppl.C04_eq_incomplete"
   ],
   "note": "Disjointness invariant proved for all constructible sets; equality is sound; complete only for non-Union sets (C04_eq_incomplete is a counterexample)."
  },
  {
   "property": "C05",
   "status": "partial",
   "theorems": [
    "Sppl.C05_total_cuts",
    "Sppl.C05_expr_total",
    "Sppl.C05_or_total_real",
    "Sppl.C05_or_total_basic",
    "Sppl.C05_or_total_union",
    "Sppl.C05_or_union_fin_iff",
    "Sppl.C05_and_total_basic",
    "Sppl.C05_and_total_point",
    "Sppl.C05_invert_total_partial",
    "Sppl.C05_and_union_raises",
    "Sppl.C05_and_union_interval_raises",
    "Sppl.C05_or_raises",
    "Sppl.C05_invert_infinity_raises",
    "Sppl.C05_invert_union_raises"
   ],
   "note": "Proved for the listed classes of operands, among them expressions of any size over strings and intervals whose common end points are cut the same way (C05_expr_total); the code raises on others (C05_*_raises)."
  },
  {
   "property": "C06",
   "status": "partial",
   "theorems": [
    "Sppl.C06_contains_num",
    "Sppl.C06_contains_str",
    "Sppl.C06_num_in_nominal",
    "Sppl.C06_str_order_dependent"
   ],
   "note": "Proved for numbers when no complemented nominal piece is present and for strings whenever the test returns; counterexamples for the rest."
  },
  {
   "property": "C07",
   "status": "proved",
   "theorems": [
    "Sppl.C07_total",
    "Sppl.C07_not_total",
    "Sppl.C07_not_not_raises",
    "Sppl.C07_and",
    "Sppl.C07_or",
    "Sppl.C07_not",
    "Sppl.C07_xor",
    "Sppl.C07_not_undefined",
    "Sppl.C07_curve_and"
   ],
   "note": "Exact for every pair of events; ~ and ^ at assignments where the compared expressions are defined and of the right kind (C07_not_undefined shows this is needed). For Boolean combinations of X in S about plain variables with finite numbers &, | and ~ return (C07_total, C07_not_total); ~ raises on X in {} over strings, which ~ itself can produce (C07_not_not_raises). C07_curve_and: & returns on comparisons of expressions and stays in that class."
  },
  {
   "property": "C08",
   "status": "partial",
   "theorems": [
    "Sppl.C08_invert_both",
    "Sppl.C08_invert_both_strings_wrong",
    "Sppl.C08_invert_zero_and_wrong",
    "Sppl.C08_solve_exact",
    "Sppl.C08_solve_exact_real",
    "Sppl.C08_solve_disjoint",
    "Sppl.C08_solve_multivariate",
    "Sppl.C08_nominal_piecewise_wrong",
    "Sppl.C08_complement_wrong",
    "Sppl.C08_invert_zero",
    "Sppl.C08_invert_zero_strings",
    "Sppl.C08_invert_zero_or_wrong"
   ],
   "note": "C08_solve_exact_real: proved for all events when the variable is numeric. C08_solve_exact: proved for every event tree over nested transforms, at points that are not log-singular. False, with witnesses, for string events on piecewise expressions and complemented nominal sets on transformed variables, so those are excluded by Ev.Made. C08_invert_zero, C08_invert_zero_strings: where a comparison is false; C08_invert_zero_or_wrong: the negation for disjunctions. C08_invert_both: a comparison inverted at {0,1} gives where the expression is defined; C08_invert_zero_and_wrong, C08_invert_both_strings_wrong: negations."
  },
  {
   "property": "C09",
   "status": "proved",
   "theorems": [
    "Sppl.C09_invert_exact",
    "Sppl.C09_invert_wf",
    "Sppl.C09_exp_small_base_wrong"
   ],
   "note": "All transform classes, all compositions, all sets; exponential bases above 1 (C09_exp_small_base_wrong shows the code is wrong below 1); points where a log is evaluated at 0 are excluded. sympy polynomial solving is an oracle with correctness hypothesis Ctx.Correct."
  },
  {
   "property": "C10",
   "status": "partial",
   "theorems": [
    "Sppl.C10_sub",
    "Sppl.C10_add_num",
    "Sppl.C10_sub_num",
    "Sppl.C10_mul_num",
    "Sppl.C10_div_num",
    "Sppl.C10_rdiv_num",
    "Sppl.C10_neg",
    "Sppl.C10_abs",
    "Sppl.C10_add_poly",
    "Sppl.C10_mul_poly",
    "Sppl.C10_mul_event",
    "Sppl.C10_add_piecewise",
    "Sppl.C10_pow",
    "Sppl.C10_rpow",
    "Sppl.C10_rsub_wrong",
    "Sppl.C10_rsub_partial",
    "Sppl.C10_pow_tuple",
    "Sppl.C10_pow_tuple_unit_partial",
    "Sppl.C10_pow_tuple_one_wrong"
   ],
   "note": "All operators proved except x - t, for which the code returns t - x (C10_rsub_wrong, C10_rsub_partial), and X**(1,1) (C10_pow_tuple_one_wrong). C10_sub: differences of expressions."
  },
  {
   "property": "C11",
   "status": "proved",
   "theorems": [
    "Sppl.C11_chain_lower",
    "Sppl.C11_chain_upper",
    "Sppl.C11_compare",
    "Sppl.C11_chain",
    "Sppl.C11_chain_right",
    "Sppl.C11_in_list",
    "Sppl.C11_in_set"
   ],
   "note": "All four comparisons, both chained forms with all strictness combinations, and << for collections and sets. C11_chain_lower, C11_chain_upper: a further bound on an interval event means the conjunction whenever it is accepted."
  },
  {
   "property": "C12",
   "status": "proved",
   "theorems": [
    "Sppl.C12_substitute",
    "Sppl.C12_extend"
   ],
   "note": "Termination bound, free variables and meaning for every environment built by successive transform calls."
  },
  {
   "property": "C13",
   "status": "proved",
   "theorems": [
    "Sppl.C13_again",
    "Sppl.C13_count",
    "Sppl.C13_to_dnf"
   ],
   "note": "Total and exact for every event tree. C13_again: to_dnf fixes its results; C13_count: how many clauses the result has."
  },
  {
   "property": "C14",
   "status": "proved",
   "theorems": [
    "Sppl.C14_normalize",
    "Sppl.C14_total",
    "Sppl.C14_curve_total",
    "Sppl.C14_solved_total"
   ],
   "note": "Every event tree over any number of variables, whenever dnf_normalize returns; points where a log is evaluated at 0 excluded; events excluded by Ev.Made as in C08. On Boolean combinations of X in S about plain variables with finite numbers it never raises (C14_total). It also never raises when some variables occur only in comparisons of compositions of roots, exponentials, logarithms and degree-one polynomials with a number or an interval (C14_curve_total, assumption Ctx.Linear on solveset). It also never raises on disjunctions of conjunctions of comparisons about different variables that solve solves to sets described by finite numbers, unions included (C14_solved_total)."
  },
  {
   "property": "C15",
   "status": "proved",
   "theorems": [
    "Sppl.C15_clausewise",
    "Sppl.C15_factor",
    "Sppl.C15_factor_lit"
   ],
   "note": "Every DNF event and every lookup table. C15_clausewise: every returned dictionary means its clause, with exactly the keys of its variables."
  },
  {
   "property": "C16",
   "status": "partial",
   "theorems": [
    "Sppl.C16_disjoint_union_partial",
    "Sppl.C16_disjoint_union_any",
    "Sppl.C16_mixed_kinds_wrong",
    "Sppl.C16_terminates",
    "Sppl.C16_terminates_normalized",
    "Sppl.C16_total"
   ],
   "note": "Disjointness, implication and equivalence at well-kinded assignments for every normalized event and every number of overlapping clauses. The recursion terminates for every event in DNF (C16_terminates). Missing: equivalence at other assignments, which fails: C16_mixed_kinds_wrong: equivalence is false when a variable compared with strings is a number. On what dnf_normalize returns for Boolean combinations of X in S about plain variables it never raises (C16_total)."
  },
  {
   "property": "C17",
   "status": "partial",
   "theorems": [
    "Sppl.C17_leaf_prob_partial",
    "Sppl.C17_real_leaf_prob_partial",
    "Sppl.C17_negative_discrete_wrong"
   ],
   "note": "All leaf classes, all cdfs, all truncated supports, all event trees with derived variables. Excluded because the code is wrong: discrete leaves with negative values (C17_negative_discrete_wrong), string comparisons on atomic leaves (C18_atomic_string_wrong), events excluded in C08."
  },
  {
   "property": "C18",
   "status": "partial",
   "theorems": [
    "Sppl.C18_curve_total",
    "Sppl.C18_conj_total",
    "Sppl.C18_leaf_conj_total",
    "Sppl.C18_known_total",
    "Sppl.C18_mixture_total",
    "Sppl.C18_mixture_solved",
    "Sppl.C18_open_total",
    "Sppl.C18_half_open_total",
    "Sppl.C18_abs_total",
    "Sppl.C18_abs_raises",
    "Sppl.C18_prob_partial",
    "Sppl.C18_den_prob",
    "Sppl.C18_atomic_string_wrong",
    "Sppl.C18_solved_total",
    "Sppl.C18_total",
    "Sppl.C18_total_basic",
    "Sppl.C18_raises"
   ],
   "note": "Every well-formed SPE of any depth and every event over its variables, whenever prob returns; exclusions as in C17. prob returns for every product and every mixture of products, for Boolean combinations of X in S about base variables (C18_total), and for every SPE and one basic event (C18_total_basic); on a leaf or a mixture of leaves it can raise on unions (C18_raises). The same with comparisons of such expressions, like exp(2*X) < 4 (C18_curve_total). Conjunctions of comparisons return on every SPE, also about derived variables that are compositions of roots, exponentials, logarithms and degree-one polynomials of other variables (C18_conj_total, C18_leaf_conj_total). A leaf with an open support returns on every solvable event about its symbol, in particular on comparisons of absolute values and reciprocals (C18_open_total, C18_half_open_total, C18_abs_total); with a closed support abs(X) >= 1 raises (C18_abs_raises). The same for disjunctions of conjunctions of solvable comparisons about different variables, like (abs(X) >= 1) & (Y == \"b\") (C18_solved_total). C18_known_total: prob returns for disjunctions of conjunctions of comparisons about different variables, where expressions may contain abs and are compared with finite sets. C18_mixture_total, C18_mixture_solved: prob returns on mixtures of any depth of atoms and leaves of one variable with open supports, for boolean combinations of comparisons of increasing and decreasing expressions and for disjunctions of solved comparisons."
  },
  {
   "property": "C19",
   "status": "partial",
   "theorems": [
    "Sppl.C19_bounds_partial",
    "Sppl.C19_union_partial",
    "Sppl.C19_not_partial",
    "Sppl.C19_mono_partial",
    "Sppl.C19_ext_partial",
    "Sppl.C19_additive_partial",
    "Sppl.C19_total_partial"
   ],
   "note": "Bounds, inclusion-exclusion for two events, complement, monotonicity, extensionality, additivity, total probability; exclusions as in C17; complement and total probability need almost surely well-kinded events."
  },
  {
   "property": "C20",
   "status": "proved",
   "theorems": [
    "Sppl.C20_inclusion_exclusion",
    "Sppl.C20_inclusion_exclusion_total"
   ],
   "note": "Any number of clauses, any measure; also total."
  },
  {
   "property": "C21",
   "status": "partial",
   "theorems": [
    "Sppl.C21_condition_partial",
    "Sppl.C21_condition_measure_partial",
    "Sppl.C21_curve_total",
    "Sppl.C21_conj_total",
    "Sppl.C21_leaf_conj_total",
    "Sppl.C21_known_total",
    "Sppl.C21_open_total",
    "Sppl.C21_solved_total",
    "Sppl.C21_total",
    "Sppl.C21_mixed_kinds_wrong"
   ],
   "note": "Every well-formed SPE of any depth, every event and any number of overlapping clauses, whenever condition returns. Excluded because the code is wrong: zero weights (C22_zero_weight_wrong), atomic leaves with different derived variables (C25_environment_wrong), variables that mix numbers and strings (C21_mixed_kinds_wrong) or are undefined with positive probability; and the exclusions of C18. condition returns for every product and every mixture of products and such events of positive probability, where discrete variables are compared with integers (C21_total). The same with comparisons of expressions (C21_curve_total). The same for conjunctions about such derived variables, on every SPE (C21_conj_total, C21_leaf_conj_total). The same for conjunctions of solvable comparisons about different variables (C21_solved_total). C21_known_total: condition returns on the same events. C21_open_total: condition of a continuous leaf with an open support returns on every solved event of positive probability without isolated numbers in the support."
  },
  {
   "property": "C22",
   "status": "partial",
   "theorems": [
    "Sppl.C22_positive_partial",
    "Sppl.C22_prob_positive_partial",
    "Sppl.C22_curve_iff",
    "Sppl.C22_conj_iff",
    "Sppl.C22_open_iff",
    "Sppl.C22_isolated_raises",
    "Sppl.C22_solved_iff",
    "Sppl.C22_iff",
    "Sppl.C22_total_basic",
    "Sppl.C22_zero_weight_wrong"
   ],
   "note": "condition never returns for an event of probability zero, under the hypotheses of C21 (weights zero are excluded: C22_zero_weight_wrong). condition returns exactly when the probability is positive, for products and mixtures of products and Boolean combinations of X in S about base variables with integers for discrete ones (C22_iff), and for every SPE and one basic event (C22_total_basic). Missing: events about derived variables, unions at leaves (it may raise: C18_raises, C43_fraction_raises). The same with comparisons of expressions (C22_curve_iff). The same for conjunctions about such derived variables (C22_conj_iff). The same for conjunctions of solvable comparisons about different variables (C22_solved_iff). C22_isolated_raises: on a continuous leaf, condition raises AssertionError on events on which prob answers with a positive number and that hold at an isolated number of the support, so positive probability does not suffice for condition to return. C22_open_iff: a continuous leaf with an open support, on solved events without isolated numbers in the support."
  },
  {
   "property": "C23",
   "status": "partial",
   "theorems": [
    "Sppl.C23_session_partial",
    "Sppl.C23_order_partial",
    "Sppl.C23_chain_partial",
    "Sppl.C23_condition_twice_partial"
   ],
   "note": "Chain rule and conditioning twice, under the hypotheses of C21. C23_session_partial: after a program of C52, conditioning on any number of events in turn returns when they have positive probability together, denotes the distribution given all of them, and prob then answers with the conditional probability; C23_order_partial: in any order."
  },
  {
   "property": "C24",
   "status": "partial",
   "theorems": [
    "Sppl.C24_condition_partial",
    "Sppl.C24_constrain",
    "Sppl.C24_transform_partial",
    "Sppl.C24_condition_nodes_partial",
    "Sppl.C24_and"
   ],
   "note": "condition, SumSPE, ProductSPE keep the invariants; under the hypotheses of C21 for condition. C24_constrain, C24_transform_partial, C24_condition_nodes_partial, C24_and: every node of the results meets the demands of the constructors."
  },
  {
   "property": "C25",
   "status": "partial",
   "theorems": [
    "Sppl.C25_piecewise_raises",
    "Sppl.C25_table_wrong",
    "Sppl.C25_simplify_partial",
    "Sppl.C25_environment_wrong",
    "Sppl.C25_hash_collision_wrong"
   ],
   "note": "Leaves and products, any number of children. Excluded because the code is wrong: hash collisions (C25_hash_collision_wrong) and atomic leaves with different derived variables (C25_environment_wrong); distributions given by a table, as made by discrete, uniformd and rv_discrete (C25_table_wrong). A mixture of leaves with a Piecewise derived variable makes simplification raise TypeError (C25_piecewise_raises)."
  },
  {
   "property": "C26",
   "status": "partial",
   "theorems": [
    "Sppl.C26_transform_partial",
    "Sppl.C26_others_partial",
    "Sppl.C26_value_partial",
    "Sppl.C26_prob_partial",
    "Sppl.C26_leaf_raises",
    "Sppl.C26_nominal_raises"
   ],
   "note": "Every well-formed SPE of any depth and every expression, whenever transform returns. Excluded: atomic leaves that get expressions that compare with strings, and expressions that hit a singularity of a logarithm with positive probability (code and model differ on the value there)."
  },
  {
   "property": "C27",
   "status": "partial",
   "theorems": [
    "Sppl.C27_piecewise_raises",
    "Sppl.C27_logprob_partial",
    "Sppl.C27_condition_partial",
    "Sppl.C27_results",
    "Sppl.C27_tables",
    "Sppl.C27_no_memo",
    "Sppl.C27_logpdf",
    "Sppl.C27_constrain",
    "Sppl.C27_density_tables",
    "Sppl.C27_chain",
    "Sppl.C27_identity_reuse_wrong",
    "Sppl.C27_memo_false_raises",
    "Sppl.C27_memo_false_density_raises"
   ],
   "note": "Excluded because the code is wrong: leaves with a Piecewise in the event or in a derived variable, where a memo raises TypeError (C27_piecewise_raises); for them C27_results still says that a result with a memo is the result without. For logprob, condition, logpdf and constrain (the last two without any exclusion: C27_logpdf, C27_constrain), for every state that arises from any sequence of queries (that succeed or fail) on live nodes. Nodes of the results are new objects or shared ones; identities of live nodes are not reused (Alloc.OK, shown satisfiable). C27_identity_reuse_wrong shows what happens otherwise; C27_memo_false_raises that memo=False raises on every branch node, C27_memo_false_density_raises that logpdf with memo=False raises on every node."
  },
  {
   "property": "C28",
   "status": "proved",
   "theorems": [
    "Sppl.C28_sum",
    "Sppl.C28_prod",
    "Sppl.C28_flat"
   ],
   "note": "Both constructors, all arguments."
  },
  {
   "property": "C29",
   "status": "partial",
   "theorems": [
    "Sppl.C29_ifelse_partial",
    "Sppl.C29_if_then_else_partial",
    "Sppl.C29_table_wrong"
   ],
   "note": "Any conditions, any number of branches, nested programs. Missing: events on variables that mix numbers and strings, conditions that are undefined with positive probability, Constrain before the end of a program (C58 has it at the end); spe_simplify_sum only when no mixture has two leaves of equal hash that differ (C30_simplified_partial) and no distribution is given by a table (discrete, uniformd, rv_discrete), for which it is wrong (C29_table_wrong)."
  },
  {
   "property": "C30",
   "status": "partial",
   "theorems": [
    "Sppl.C30_switch_mixed_wrong",
    "Sppl.C30_program_partial",
    "Sppl.C30_run_partial",
    "Sppl.C30_prob_partial",
    "Sppl.C30_switch_partial",
    "Sppl.C30_skip",
    "Sppl.C30_sequence",
    "Sppl.C30_sequence_one",
    "Sppl.C30_for",
    "Sppl.C30_simplified_partial"
   ],
   "note": "All programs built from Skip, Sample, Transform, Condition, IfElse, For, Switch, Sequence, of any depth, against an independent denotational semantics (Cmd.sem). Same missing cases as C29; C30_switch_mixed_wrong shows that a Switch over numbers and strings loses cases."
  },
  {
   "property": "C31",
   "status": "proved",
   "theorems": [
    "Sppl.C31_sample",
    "Sppl.C31_sample_first",
    "Sppl.C31_in_scope"
   ],
   "note": "Any source (nominal, real, mixture); independence for all measurable sets that do and do not depend on the new variable; C31_in_scope shows that a variable cannot be sampled twice."
  },
  {
   "property": "C32",
   "status": "partial",
   "theorems": [
    "Sppl.C32_exact",
    "Sppl.C32_null",
    "Sppl.C32_density_partial",
    "Sppl.C32_zero_partial",
    "Sppl.C32_dimension_partial",
    "Sppl.C32_logpdf",
    "Sppl.C32_continuous",
    "Sppl.C32_zero_weight_wrong",
    "Sppl.C32_nominal_zero_raises"
   ],
   "note": "Every well-formed SPE of any depth, full and partial assignments. Dimension 0: exact without further assumptions (C32_exact). Positive dimension: the limit is proved for all SPEs with positive mixture weights where the densities of the leaves are regular (Spe.Smooth; continuous densities are, C32_continuous); end points of the support of a conditioned leaf are excluded. C32_zero_weight_wrong: with a weight zero the answer may be wrong; C32_nominal_zero_raises."
  },
  {
   "property": "C33",
   "status": "partial",
   "theorems": [
    "Sppl.C33_fixed",
    "Sppl.C33_conditional",
    "Sppl.C33_limit_partial",
    "Sppl.C33_total_partial",
    "Sppl.C33_derived_dropped_wrong",
    "Sppl.C33_mixture_raises",
    "Sppl.C33_unknown_ignored_wrong",
    "Sppl.C33_atomic_raises"
   ],
   "note": "Every well-formed SPE of any depth. C33_fixed and C33_conditional hold without further assumptions whenever constrain returns (on the variables of the result); C33_limit_partial extends to positive dimension. constrain drops derived variables (C33_derived_dropped_wrong), may raise for mixtures (C33_mixture_raises), ignores unknown variables (C33_unknown_ignored_wrong) and raises on atomic leaves (C33_atomic_raises); C33_total_partial shows that it returns otherwise."
  },
  {
   "property": "C34",
   "status": "partial",
   "theorems": [
    "Sppl.C34_subset_partial",
    "Sppl.C34_sample",
    "Sppl.C34_subset_total",
    "Sppl.C34_sample_total",
    "Sppl.C34_unknown",
    "Sppl.C34_func",
    "Sppl.C34_empty_wrong",
    "Sppl.C34_constant_wrong"
   ],
   "note": "Every well-formed SPE of any depth, all N and every behaviour of the generators (for totality: choice draws indexes of the array). sample, sample_subset and sample_func; unknown variables raise (C34_unknown). The full statement fails for an empty request (or a function of no arguments) on a product, which returns no samples (C34_empty_wrong, C34_constant_wrong)."
  },
  {
   "property": "C35",
   "status": "partial",
   "theorems": [
    "Sppl.C35_iid_partial",
    "Sppl.C35_one",
    "Sppl.C35_prob_partial",
    "Sppl.C35_mixture_wrong"
   ],
   "note": "N <= 2, or SPEs without mixtures and any N, any depth: joint law of the samples (C35_iid_partial); one sample satisfies an event with the probability that prob computes (C35_prob_partial). False for mixtures with N >= 3, for every generator (C35_mixture_wrong). numpy and scipy are assumed to give independent draws from the laws they document (Rand.Fair; shown satisfiable by tapeRand_fair). Derived variables must have values almost surely and contain no logarithm or piecewise function."
  },
  {
   "property": "C36",
   "status": "proved",
   "theorems": [
    "Sppl.C36_table_wrong",
    "Sppl.C36_expression",
    "Sppl.C36_event",
    "Sppl.C36_roundtrip",
    "Sppl.C36_distribution",
    "Sppl.C36_constructors_flat",
    "Sppl.C36_all_strings_raises"
   ],
   "note": "Every well-formed SPE of any depth, every expression and event, under the hypothesis of the quantifier that the numbers of the leaves survive repr/eval and float (Spe.Printable). The hypothesis excludes the set of all strings, whose text is not an expression (C36_all_strings_raises), and distributions given by a table, which are not written (C36_table_wrong). Texts are modelled as syntax trees (no parser); events as values of derived variables are not modelled."
  },
  {
   "property": "C37",
   "status": "partial",
   "theorems": [
    "Sppl.C37_piecewise_raises",
    "Sppl.C37_table_wrong",
    "Sppl.C37_size",
    "Sppl.C37_equal",
    "Sppl.C37_distribution_partial",
    "Sppl.C37_shared",
    "Sppl.C37_environment_wrong"
   ],
   "note": "Every well-formed SPE of any depth and every cache that arises from earlier calls: total, equal, same hash, equal nodes become the same node; same distribution unless two atomic leaves of the same variable and value have different derived variables, for which it is false (C37_environment_wrong), and no leaf has a distribution given by a table (discrete, uniformd, rv_discrete), for which it is false too (C37_table_wrong). The hash is a parameter with the congruence laws of the code (HashOK); leaves may collide. Leaves with a Piecewise derived variable have no hash, so caching raises TypeError (C37_piecewise_raises); C37_equal has the hypothesis that hashes exist. C37_size: caching does not change size()."
  },
  {
   "property": "C38",
   "status": "proved",
   "theorems": [
    "Sppl.C38_log1mexp",
    "Sppl.C38_logdiffexp",
    "Sppl.C38_logdiffexp_exp",
    "Sppl.C38_logdiffexp_negative",
    "Sppl.C38_logdiffexp_tolerance_wrong",
    "Sppl.C38_logsumexp",
    "Sppl.C38_lognorm",
    "Sppl.C38_lognorm_zero",
    "Sppl.C38_isinf_neg",
    "Sppl.C38_flip",
    "Sppl.C38_pdiff"
   ],
   "note": "Over the extended reals (floating-point rounding is not modelled). C38_logdiffexp_tolerance_wrong: the np.isclose test makes logdiffexp return -inf for unequal arguments that are close."
  },
  {
   "property": "C39",
   "status": "partial",
   "theorems": [
    "Sppl.C39_piecewise_raises",
    "Sppl.C39_curve_total",
    "Sppl.C39_mutual_information_partial",
    "Sppl.C39_nonneg_partial",
    "Sppl.C39_zero_iff_partial",
    "Sppl.C39_symm_partial",
    "Sppl.C39_total"
   ],
   "note": "Every well-formed SPE of any depth and every pair of events, whenever mutual_information returns, under the hypotheses of C19. On a leaf with a Piecewise derived variable it raises TypeError although prob answers, since it uses a memo (C39_piecewise_raises). mutual_information returns for products and mixtures of products and Boolean combinations of X in S about base variables (C39_total). The same for comparisons of increasing and decreasing expressions, if the negations of the events are of that class too (C39_curve_total)."
  },
  {
   "property": "C40",
   "status": "partial",
   "theorems": [
    "Sppl.C40_and_wrong",
    "Sppl.C40_or_wrong",
    "Sppl.C40_not_wrong",
    "Sppl.C40_chain_wrong",
    "Sppl.C40_unroll_if",
    "Sppl.C40_unroll_ifexp",
    "Sppl.C40_test_partial",
    "Sppl.C40_eq",
    "Sppl.C40_in"
   ],
   "note": "unroll_if and unroll_ifexp: any nesting, any meaning of tests and statements (C40_unroll_if, C40_unroll_ifexp). Rewriting of comparisons: ==, !=, in, not in, orderings on either side, combined with &, |, ~ to any depth (C40_test_partial, C40_eq, C40_in), with negated events typed at the assignment as in C07. False for and, or, not and chained comparisons, with witnesses (C40_and_wrong, C40_or_wrong, C40_not_wrong, C40_chain_wrong)."
  },
  {
   "property": "C41",
   "status": "proved",
   "theorems": [
    "Sppl.C41_exact",
    "Sppl.C41_repeated_root_raises",
    "Sppl.C41_no_root",
    "Sppl.C41_constant_raises",
    "Sppl.C41_no_root_wrong",
    "Sppl.C41_equality",
    "Sppl.C41_equality_inf",
    "Sppl.C41_inequality_inf",
    "Sppl.C41_extended_drops_infinity",
    "Sppl.C41_context_correct"
   ],
   "note": "Polynomials of every degree, both strict and not strict, in exact arithmetic with exact roots (NumSvc.Exact, satisfied by exactSvc). Repeated roots raise (C41_repeated_root_raises), no root gives sympy.EmptySet (C41_no_root, wrong by C41_no_root_wrong), constants raise. C41_context_correct: the assumption Ctx.Correct of the event layer holds when the numerical solver answers. The default extended=True drops infinite points (C41_extended_drops_infinity). Rounding of nroots is not modelled."
  },
  {
   "property": "C42",
   "status": "proved",
   "theorems": [
    "Sppl.C42_mixture",
    "Sppl.C42_mixture_total",
    "Sppl.C42_rejects",
    "Sppl.C42_unfinished",
    "Sppl.C42_distributions",
    "Sppl.C42_distributions_rejects",
    "Sppl.C42_distributions_total",
    "Sppl.C42_exposed"
   ],
   "note": "All lists of weights and SPEs; the same for mixtures of distributions and for ExposedSumSPE. Weights are reals and allclose is equality."
  },
  {
   "property": "C43",
   "status": "proved",
   "theorems": [
    "Sppl.C43_partition",
    "Sppl.C43_ranges",
    "Sppl.C43_fraction_raises"
   ],
   "note": "Total and exact for every finite set; C43_fraction_raises shows what happens for numbers that are not integers."
  },
  {
   "property": "C44",
   "status": "partial",
   "theorems": [
    "Sppl.C44_log_values",
    "Sppl.C44_evaluate",
    "Sppl.C44_evaluate_total",
    "Sppl.C44_log_wrong",
    "Sppl.C44_number_in_nominal"
   ],
   "note": "Sound and total for events without logarithms directly compared or piecewise parts; counterexamples for logs and for numbers against complemented nominal sets. C44_log_values: what evaluate does with every comparison of a logarithm."
  },
  {
   "property": "C45",
   "status": "proved",
   "theorems": [
    "Sppl.C45_product",
    "Sppl.C45_total",
    "Sppl.C45_rejects"
   ],
   "note": "Any number of operands, well-formed SPEs of any depth. Independence is that of the product measure, glued along the variables of each operand."
  },
  {
   "property": "C46",
   "status": "partial",
   "theorems": [
    "Sppl.C46_calls_ignored",
    "Sppl.C46_calls_wrong",
    "Sppl.C46_constants_wrong",
    "Sppl.C46_source_partial",
    "Sppl.C46_other_ignored",
    "Sppl.C46_while_once",
    "Sppl.C46_other_wrong",
    "Sppl.C46_names",
    "Sppl.C46_command_partial",
    "Sppl.C46_program_partial",
    "Sppl.C46_hidden_wrong",
    "Sppl.C46_runs",
    "Sppl.C46_total",
    "Sppl.C46_pass_wrong"
   ],
   "note": "Any nesting of statements, any starting distribution (C46_command_partial), to the SPE together with C30 (C46_program_partial). Covered: programs whose tests are those of C40_test_partial, almost surely typed, whose if without else covers all cases almost surely, whose constants are not distributions or variables. Programs of an explicit class (Good) compile and run (C46_runs, C46_total). Repeated constant assignments are wrong (C46_constants_wrong) and a branch that is only pass raises (C46_pass_wrong); a variable named like the distribution it is drawn from compiles and raises TypeError when run (C46_hidden_wrong). Texts are modelled as syntax trees; Python expressions other than tests are an arbitrary host function. Calls of functions other than condition and constrain are dropped without an error (C46_calls_ignored, C46_calls_wrong: a misspelt condition), so that nothing is claimed of programs with such calls. enumerate in switch and constrain are covered (source2). Statements without a visitor method are not refused: assert, += and annotated assignments are dropped (C46_other_ignored) and while is its body once (C46_while_once, C46_other_wrong), so that nothing is claimed of programs with them. In C46_source_partial all hypotheses are on the statements of the source (Stmt.SafeL, Stmt.FitL); nothing is assumed of the compiled command."
  },
  {
   "property": "C47",
   "status": "partial",
   "theorems": [
    "Sppl.C47_unordered_partial",
    "Sppl.C47_count_partial",
    "Sppl.C47_never_all",
    "Sppl.C47_product_wrong"
   ],
   "note": "Every N and every SPE, of any depth, in which no product has two factors with mixtures; every measurable statistic of the multiset of samples (C47_unordered_partial), and the binomial law of counts (C47_count_partial). Generators as in C35. False for products of mixtures, for every generator: one call of sample(N) never shows all four values of two independent bits, whatever N is (C47_never_all, C47_product_wrong)."
  },
  {
   "property": "C48",
   "status": "partial",
   "theorems": [
    "Sppl.C48_fwidth_near",
    "Sppl.C48_fwidth_zero",
    "Sppl.C48_fwidth_partial",
    "Sppl.C48_fwidth_wrong",
    "Sppl.C48_fwidth_raises",
    "Sppl.C48_render_partial",
    "Sppl.C48_again_partial",
    "Sppl.C48_atomic_wrong",
    "Sppl.C48_coefficient_wrong",
    "Sppl.C48_syntax_wrong",
    "Sppl.C48_names_wrong",
    "Sppl.C48_reciprocal_wrong",
    "Sppl.C48_arguments_wrong",
    "Sppl.C48_twice_wrong"
   ],
   "note": "SPEs of any depth whose distributions Python knows by name and keywords, whose derived variables are written as expressions that are read back with the same values (ReadsAs), whose symbols are names hiding neither distributions nor branch variables, whose weights are rational, without atomic leaves. The source is a syntax tree; line breaks are left out. With fwidth for numbers with that many decimals only (C48_fwidth_partial; other numbers are rounded, C48_fwidth_wrong, C48_fwidth_raises). False for: atomic leaves (C48_atomic_wrong), 2*X (C48_coefficient_wrong), abs and general logarithms (C48_syntax_wrong), exp, ln and log2, names the generated module does not have (C48_names_wrong), 1/(1+X), which is silently read as 1+X (C48_reciprocal_wrong), positional arguments (C48_arguments_wrong), an SPE that was already written and compiled once (C48_twice_wrong)."
  },
  {
   "property": "C49",
   "status": "partial",
   "theorems": [
    "Sppl.C49_domain_partial",
    "Sppl.C49_total",
    "Sppl.C49_leaf_partial",
    "Sppl.C49_prob_partial",
    "Sppl.C49_clipped",
    "Sppl.C49_table_domain",
    "Sppl.C49_table_leaf_partial",
    "Sppl.C49_atomic_partial",
    "Sppl.C49_table_total",
    "Sppl.C49_uniformd_partial",
    "Sppl.C49_wrong_domain",
    "Sppl.C49_cosine_wrong",
    "Sppl.C49_hypergeom_wrong",
    "Sppl.C49_gumbel_l_wrong",
    "Sppl.C49_loc_ignored",
    "Sppl.C49_moved_wrong"
   ],
   "note": "All 112 classes with a scipy distribution, by cases, for all keyword arguments: the interval contains the documented support for the parameters in Fits (C49_domain_partial), the leaf is well formed and has the law of scipy (C49_leaf_partial, C49_prob_partial), and calls with proper parameters return (C49_total); tables (C49_table_domain, C49_table_leaf_partial) and atomic (C49_atomic_partial). For classes with a density the probability returned for an interval is that of its part in the domain, whatever the domain (C49_clipped). False for genlogistic, gumbel_l, powernorm, tukeylambda, loggamma for all parameters (C49_wrong_domain; gumbel_l with numbers in C49_gumbel_l_wrong), cosine (C49_cosine_wrong), hypergeom (C49_hypergeom_wrong), and for 27 classes that ignore loc (C49_loc_ignored, C49_moved_wrong). Trusted: the table of supports in DistSpec.lean, written from the documentation of scipy 1.4.1. Tables of integers make a leaf (C49_table_total), and uniformd gives each value the same probability (C49_uniformd_partial, under TableOK: what scipy does with a table). geom is covered although its domain is all integers, since its values are positive (geom_pos)."
  },
  {
   "property": "C50",
   "status": "proved",
   "theorems": [
    "Sppl.C50_bins",
    "Sppl.C50_cases",
    "Sppl.C50_one_case",
    "Sppl.C50_errors",
    "Sppl.C50_switch",
    "Sppl.C50_switch_total"
   ],
   "note": "binspace with exact numbers: the bins and what they cover (C50_bins), the errors (C50_errors), the cases a Switch makes of them (C50_cases: no error for any subject), exactly one case per value (C50_one_case). C50_switch: whenever the Switch returns, the mixture over the bins, and then the subject is almost surely in [a, b]. C50_switch_total: it does return for a base variable that is not discrete, a new variable sampled in every bin, with or without simplification. Floating point is not modelled."
  },
  {
   "property": "C51",
   "status": "proved",
   "theorems": [
    "Sppl.C51_prob",
    "Sppl.C51_condition",
    "Sppl.C51_program"
   ],
   "note": "C51_prob, C51_condition, C51_program for every SPE, event and program, without hypotheses. The bound of the model counts the nesting of invert and solve, of substitute and of dnf_to_disjoint_union, the calls whose depth is not bounded by the size of the input; it does not count every Python frame."
  },
  {
   "property": "C52",
   "status": "partial",
   "theorems": [
    "Sppl.C52_piecewise_raises",
    "Sppl.C52_returns_partial",
    "Sppl.C52_answers_partial",
    "Sppl.C52_derived_partial"
   ],
   "note": "C52_returns_partial: the rules (Runs in Interp/TotalSpec) cover all commands; C52_answers_partial: the queries afterwards. The recursion limit that suffices depends on the program; the result does not depend on it. Conditions, if/else tests and queries (C52_derived_partial) may also be about variables derived by increasing and decreasing expressions of continuous ones (Scope.curv, Scope.Bent, Ev.Cut), if polynomials of degree one are solved (Ctx.Linear). Missing: conditions about other derived variables, combinations of derived variables that are not conjunctions, elif chains and Switch about derived variables; while only one variable was sampled, combined conditions and elif chains (the code can raise there, C18_raises); programs that leave a single leaf after a branch; a Switch on a variable that may be a number or a string. Branching on a Piecewise derived variable of a single leaf raises TypeError (C52_piecewise_raises). C23_session_partial: any number of conditionings in turn after the program."
  },
  {
   "property": "C53",
   "status": "partial",
   "theorems": [
    "Sppl.C53_logprob_answers",
    "Sppl.C53_condition_answers",
    "Sppl.C53_solved_total",
    "Sppl.C53_logprob_total",
    "Sppl.C53_prob_total",
    "Sppl.C53_logprob_partial",
    "Sppl.C53_condition_total",
    "Sppl.C53_condition_partial",
    "Sppl.C53_logpdf",
    "Sppl.C53_constrain",
    "Sppl.C53_tolerance",
    "Sppl.C53_unnormalised_wrong"
   ],
   "note": "C53_logprob_total, C53_prob_total, C53_condition_total: with numpy tolerances, for mixtures of products (as C18_total, C21_total). For any SPE: what logprob, condition, logpdf, constrain return with exact comparisons (C53_logprob_partial, C53_condition_partial, C53_logpdf, C53_constrain), and numpy tolerances do not change it (C53_tolerance). Missing: the restrictions of C18 and C21; floating point rounding; whether the tolerance turns an exception into a result. A SumSPE built by a user may be unnormalised within the tolerance (C53_unnormalised_wrong). Whenever prob or condition answers, the version in log space with numpy tolerances answers too, for every SPE and event of C18 and C21 (C53_logprob_answers, C53_condition_answers), so it does for all classes of C18 and C21, e.g. C53_solved_total."
  },
  {
   "property": "C54",
   "status": "partial",
   "theorems": [
    "Sppl.C54_nested_partial",
    "Sppl.C54_table_wrong",
    "Sppl.C54_concise",
    "Sppl.C54_concise_wrong"
   ],
   "note": "SPEs of any size. C54_nested_partial: without tables, if the name of a distribution decides whether it is continuous or discrete. False for tables (C54_table_wrong). The concise form shows the variables (C54_concise) but neither weights nor distributions (C54_concise_wrong)."
  },
  {
   "property": "C55",
   "status": "partial",
   "theorems": [
    "Sppl.C55_graph_partial",
    "Sppl.C55_same_time_wrong",
    "Sppl.C55_same_time_raises",
    "Sppl.C55_size"
   ],
   "note": "SPEs of any size, any function that finds the first node of a topological order, if the clock advances between calls (C55_graph_partial). False otherwise: nodes are merged (C55_same_time_wrong) and topological_sort raises (C55_same_time_raises). The texts of labels are not modelled. C55_size: size() counts the nodes of the drawing that show SPEs."
  },
  {
   "property": "C56",
   "status": "partial",
   "theorems": [
    "Sppl.C56_limit_partial",
    "Sppl.C56_fallback",
    "Sppl.C56_nested_wrong"
   ],
   "note": "Computations without limits inside (C56_limit_partial), and the use in poly.py (C56_fallback). False for nested limits: the code forgets the limit or alarm of its caller (C56_nested_wrong)."
  },
  {
   "property": "C57",
   "status": "proved",
   "theorems": [
    "Sppl.C57_get_spe",
    "Sppl.C57_graph"
   ],
   "note": "All sequences of cells; what the compiler does with a cell is an arbitrary function (C46 is about it)."
  },
  {
   "property": "C58",
   "status": "partial",
   "theorems": [
    "Sppl.C58_constrain_partial",
    "Sppl.C58_total_partial"
   ],
   "note": "All programs covered by C30, and all assignments to their variables. Missing: variables derived from those of the assignment are dropped (C33_derived_dropped_wrong), so the distribution is that of the remaining variables; the limit is shown where the densities are regular (Spe.Smooth); that it returns is shown without derived variables and zero weights, since mixtures may raise (C33_mixture_raises); commands after Constrain."
  },
  {
   "property": "C59",
   "status": "partial",
   "theorems": [
    "Sppl.C59_preprocess_partial",
    "Sppl.C59_string_wrong",
    "Sppl.C59_in_wrong"
   ],
   "note": "Texts of any number of lines, of blank lines, switch headers, sampling statements and others, where the marks occur only as operators (SrcLine.OK). Excluded because the code is wrong: `~=` or `in ` inside strings (C59_string_wrong, C59_in_wrong). After a switch header a comment or a statement may follow on the line, without a closing parenthesis and without `in ` (RestOK). Also excluded: headers that span lines. Only ASCII spaces."
  },
  {
   "property": "C60",
   "status": "partial",
   "theorems": [
    "Sppl.C60_total_partial",
    "Sppl.C60_derived_partial",
    "Sppl.C60_query_partial",
    "Sppl.C60_posterior_partial",
    "Sppl.C60_same_meaning_partial",
    "Sppl.C60_condition_last_partial",
    "Sppl.C60_order_partial",
    "Sppl.C60_observe_early_partial",
    "Sppl.C60_session_partial"
   ],
   "note": "Holds for the programs of C46 and the events that fit their distribution (Ev.Fits, as in C30); for those all parts are proved. The claim fails outside because C40 and C46 do. Reordering is proved for neighbouring statements at the top of a program; that both programs give a model is a hypothesis there. C60_total_partial has no such hypothesis: a source that is Good, Safe, Fit and Goes (judgements on its statements) is compiled, run and interpreted without an exception, and prob and condition of the model answer with the meaning of the source; C60_derived_partial does the same for queries about derived variables. The hypotheses are on the source (Stmt.SafeL, Stmt.FitL), not on the compiled command. C60_session_partial: any number of conditionings in turn, then prob and mutual_information, of the model of such a source."
  },
  {
   "property": "C61",
   "status": "partial",
   "theorems": [
    "Sppl.C61_invert_returns",
    "Sppl.C61_solve_partial",
    "Sppl.C61_conjunction_flat",
    "Sppl.C61_exp_set_raises",
    "Sppl.C61_recip_set_raises",
    "Sppl.C61_abs_partial",
    "Sppl.C61_abs_equation_raises",
    "Sppl.C61_nested_raises",
    "Sppl.C61_values_partial",
    "Sppl.C61_known_solved"
   ],
   "note": "Returns, with the exact set, for disjunctions of conjunctions of comparisons of compositions of roots, exponentials and logarithms (base above 1) and degree-one polynomials, of any depth, with intervals or single numbers. False in general: exp(X) << {0, 1} and 1/X << {-1, 1} raise (witness theorems), and so do the equation abs(exp(X) - 1) == 1 and the conjunction ((X <= -1) | (X >= 1)) & (-1 <= X <= 1). Also proved for inequalities on abs of such an expression, under logarithms and degree-one polynomials, for comparisons with a number of expressions made of 1/t by roots, exponentials, logarithms and degree-one polynomials, and for disjunctions with them (C61_abs_partial). Missing: the conjunctions that contain abs or 1/t and do not raise, other polynomials, piecewise expressions, and those finite sets that contain a value whose inversion needs an exponential to be zero, or an expression with 1/t, where the code happens not to raise. That sympy answers for degree one is a hypothesis (Ctx.Linear, shown satisfiable). Comparisons with a finite set of numbers, of expressions that may contain abs at any depth, return as well, provided no number of the set requires an exponential to be zero (C61_values_partial). C61_known_solved combines the classes."
  },
  {
   "property": "C62",
   "status": "partial",
   "theorems": [
    "Sppl.C62_compiled_partial",
    "Sppl.C62_compiled_enumerate_raises",
    "Sppl.C62_compiled_wrong",
    "Sppl.C62_first",
    "Sppl.C62_unchanged",
    "Sppl.C62_again_partial",
    "Sppl.C62_enumerate_raises",
    "Sppl.C62_iterator_raises",
    "Sppl.C62_enumerate_wrong"
   ],
   "note": "Fails for Switch over enumerate (C62_enumerate_raises, C62_enumerate_wrong: the second interpretation raises) and for other iterators (C62_iterator_raises: the first one raises). C62_again_partial: for all other commands. C62_compiled_partial: from the source, for programs without a switch over enumerate outside loop bodies; C62_compiled_enumerate_raises: any compiled program with one at its top raises the second time. Objects are trees: the same object used in two places is not modelled. The functions of For and Switch are taken to make new objects, as the lambdas of compiled modules do."
  }
 ]
}