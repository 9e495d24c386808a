{"id": "C01", "title": "Set intersection is exact", "statement": "Whenever `A & B` returns a set, a string or finite number belongs to it exactly when it belongs to both A and B, and no other value is invented; infinities are exact too unless both operands are Unions. (Union & Union can lose infinite atoms; see the recorded counterexample.)", "quantifier": "all sets buildable from EmptySet, FiniteNominal, FiniteReal, Interval and Union; all values; every frozenset iteration order", "why_tests_cant": "Intervals have infinitely many endpoint/openness configurations and unions any number of pieces; tests list a few literals.", "anchors": ["src/sets.py:EmptySetC.__and__", "src/sets.py:FiniteNominal.__and__", "src/sets.py:FiniteReal.__and__", "src/sets.py:Interval.__and__", "src/sets.py:Union.__and__"]}
{"id": "C02", "title": "Set union is exact", "statement": "Whenever `A | B` returns a set, a string or finite number belongs to it exactly when it belongs to A or to B, and no infinity is invented. (Infinite atoms may be lost; see the recorded counterexample.)", "quantifier": "all sets, all values, every iteration order of the frozensets holding intervals", "why_tests_cant": "Merging depends on how arbitrarily many intervals and atoms touch, overlap or are ordered.", "anchors": ["src/sets.py:FiniteNominal.__or__", "src/sets.py:FiniteReal.__or__", "src/sets.py:Interval.__or__", "src/sets.py:Union.__or__", "src/sets.py:union_intervals", "src/sets.py:union_intervals_finite", "src/sets.py:make_union"]}
{"id": "C03", "title": "Set complement is exact within its kind", "statement": "Whenever `~A` returns a set for a purely real A, a finite real belongs to it exactly when it does not belong to A; for a purely nominal A the same holds for strings. ~EmptySet is the real line.", "quantifier": "all purely-real and all purely-nominal sets, all values, every iteration order", "why_tests_cant": "Complement of a union folds intersections over arbitrarily many pieces in hash order.", "anchors": ["src/sets.py:EmptySetC.__invert__", "src/sets.py:FiniteNominal.__invert__", "src/sets.py:FiniteReal.__invert__", "src/sets.py:Interval.__invert__", "src/sets.py:Union.__invert__"]}
{"id": "C04", "title": "Pieces of a set never overlap, and equality of sets is equality of members", "statement": "Every set returned by `|`, `&`, `~` has pairwise disjoint pieces, so adding up the pieces counts nothing twice; sets that are `==` have the same members; and sets with the same members are `==`. (The last part is false for unions: ((0,1)|(1,2))|[1,3] is not == (0,3]; proved for the other sets.)", "quantifier": "all sets built through the operators from the basic constructors; every iteration order", "why_tests_cant": "An invariant over all operation sequences; tests check isolated results.", "anchors": ["src/sets.py:Union", "src/sets.py:union_intervals", "src/sets.py:union_intervals_finite", "src/sets.py:Interval.__eq__", "src/sets.py:Union.__eq__"]}
{"id": "C05", "title": "Set algebra does not crash on well-formed operands", "statement": "`A | B`, `A & B` and `~A` return a set (no exception) for well-formed operands. (False for some unions: recorded counterexamples; proved for the operand classes where it holds.)", "quantifier": "all pairs of well-formed sets", "why_tests_cant": "The failing operand shapes need three or more pieces touching at endpoints or an empty interval list, which example tests miss.", "anchors": ["src/sets.py:Union.__and__", "src/sets.py:Union.__or__", "src/sets.py:Union.__init__", "src/sets.py:union_intervals"]}
{"id": "C06", "title": "Membership test agrees with the set's meaning", "statement": "`x in S` returns without exception and gives the mathematical answer whenever x is of the kind the set holds.", "quantifier": "all sets and all kind-matching values", "why_tests_cant": "Quantifies over all values including infinities and both openness flags.", "anchors": ["src/sets.py:FiniteNominal.__contains__", "src/sets.py:FiniteReal.__contains__", "src/sets.py:Interval.__contains__", "src/sets.py:Union.__contains__"]}
{"id": "C07", "title": "Event operators obey Boolean semantics pointwise", "statement": "For all events e, f and assignments on which their expressions are defined: (e & f) holds iff both hold, (e | f) iff one holds, (~e) iff e does not hold, (e ^ f) iff exactly one holds, whatever simplification the operator performs.", "quantifier": "all finite event trees, all assignments of finite reals/strings of matching kind", "why_tests_cant": "The operators rewrite (merge, flatten, De Morgan) arbitrarily nested trees.", "anchors": ["src/transforms.py:EventBasic.__and__", "src/transforms.py:EventBasic.__or__", "src/transforms.py:EventInterval.__invert__", "src/transforms.py:EventFiniteReal.__invert__", "src/transforms.py:EventFiniteNominal.__invert__", "src/transforms.py:EventOr", "src/transforms.py:EventAnd", "src/transforms.py:Event.__xor__"]}
{"id": "C08", "title": "Solving a single-variable event gives exactly its solution set", "statement": "For an event over one variable, whenever `solve()` returns S, a value x is in S exactly when the event holds at x.", "quantifier": "all single-variable events over arbitrarily nested transforms, all x", "why_tests_cant": "Infinitely many transform compositions and inputs.", "anchors": ["src/transforms.py:Event.solve", "src/transforms.py:EventBasic.solve", "src/transforms.py:EventOr.invert_finite", "src/transforms.py:EventAnd.invert_finite"]}
{"id": "C09", "title": "Transform inversion computes exact preimages", "statement": "For every transform expression f and set V, whenever `f.invert(V)` returns S, a finite real x is in S exactly when f is defined at x and f(x) is in V.", "quantifier": "all nested compositions of Identity, Radical, Exponential(base>1), Logarithm, Abs, Reciprocal, Poly, Piecewise; all V; all x", "why_tests_cant": "Endpoint flags must be tracked through unbounded compositions of monotone and non-monotone maps.", "anchors": ["src/transforms.py:Transform.invert", "src/transforms.py:Injective.invert_interval", "src/transforms.py:Radical", "src/transforms.py:Exponential", "src/transforms.py:Logarithm", "src/transforms.py:Abs.invert_interval", "src/transforms.py:Reciprocal.invert_interval", "src/transforms.py:Poly.invert_interval", "src/transforms.py:get_piecewise_inverse"]}
{"id": "C10", "title": "Arithmetic operators on expressions denote arithmetic on values", "statement": "Evaluating the expression built by +, -, *, /, unary -, abs, ** on a transform equals applying the operation to the evaluated operand(s). (False for `c - X`: recorded counterexample.)", "quantifier": "all expressions, constants and inputs", "why_tests_cant": "Universal algebraic identity over all expressions.", "anchors": ["src/transforms.py:Transform.__add__", "src/transforms.py:Transform.__mul__", "src/transforms.py:Transform.__sub__", "src/transforms.py:Transform.__rsub__", "src/transforms.py:Transform.__neg__", "src/transforms.py:Transform.__pow__", "src/transforms.py:polyify", "src/transforms.py:Pow"]}
{"id": "C11", "title": "Comparison and membership syntax mean what they say", "statement": "`e < c`, `e <= c`, `e > c`, `e >= c`, the chained `(a < e) < b` forms and `e << values` hold at an assignment exactly when the stated (in)equality or membership holds of the value of e.", "quantifier": "all expressions, all finite constants, all assignments", "why_tests_cant": "All boundary values and degenerate (empty, singleton) chained intervals.", "anchors": ["src/transforms.py:Transform.__le__", "src/transforms.py:Transform.__lt__", "src/transforms.py:Transform.__ge__", "src/transforms.py:Transform.__gt__", "src/transforms.py:EventInterval.__compute_gte__", "src/transforms.py:EventInterval.__compute_lte__", "src/transforms.py:Transform.__lshift__"]}
{"id": "C12", "title": "Substituting a leaf's derived variables terminates and preserves meaning", "statement": "For the environment of any leaf built by successive `transform` calls, `event.substitute(env)` terminates, mentions only the base variable, and holds at x exactly when the original event holds at the full assignment computed from x.", "quantifier": "all environments of any length, all events over them, all x", "why_tests_cant": "Termination of a while loop over unbounded environments cannot be tested.", "anchors": ["src/transforms.py:Transform.substitute", "src/transforms.py:Transform.subs", "src/transforms.py:expr_in_env", "src/spe.py:LeafSPE.logprob", "src/spe.py:LeafSPE.sample_subset"]}
{"id": "C13", "title": "to_dnf preserves meaning and yields DNF", "statement": "`e.to_dnf()` is a disjunction of conjunctions of basic events that holds at exactly the assignments where e holds.", "quantifier": "all event trees, all assignments", "why_tests_cant": "Unbounded nesting.", "anchors": ["src/transforms.py:Event.to_dnf", "src/transforms.py:EventOr.to_dnf_list", "src/transforms.py:EventAnd.to_dnf_list"]}
{"id": "C14", "title": "dnf_normalize preserves meaning", "statement": "Whenever `dnf_normalize(e)` returns an event, it is in DNF, mentions only bare variables, and holds at exactly the assignments where e holds; if it returns None, e holds nowhere.", "quantifier": "all events over any number of variables and transforms, all assignments", "why_tests_cant": "Combines solving, factoring and DNF over unbounded trees.", "anchors": ["src/dnf.py:dnf_normalize", "src/dnf.py:dnf_factor"]}
{"id": "C15", "title": "dnf_factor splits each clause exactly", "statement": "For an event in DNF and any lookup, an assignment satisfies the event iff in some returned clause it satisfies every factor, and the factor under key k only mentions symbols mapped to k.", "quantifier": "all DNF events, all lookups", "why_tests_cant": "Unbounded clauses and symbols.", "anchors": ["src/dnf.py:dnf_factor"]}
{"id": "C16", "title": "dnf_to_disjoint_union yields an equivalent disjoint union", "statement": "Whenever `dnf_to_disjoint_union(e)` returns e', e' holds exactly where e holds and no assignment satisfies two of its clauses. The recursion terminates.", "quantifier": "all normalized DNF events with any number of overlapping clauses and variables", "why_tests_cant": "Recursive rewriting whose termination and disjointness depend on all clause overlaps.", "anchors": ["src/dnf.py:dnf_to_disjoint_union", "src/dnf.py:dnf_non_disjoint_clauses"]}
{"id": "C17", "title": "Leaf probability is exact", "statement": "For a continuous, discrete, atomic or nominal leaf, prob(event) is the probability that a draw from the (possibly truncated) distribution, extended with the derived variables, satisfies the event.", "quantifier": "all distributions given by their cdf/pmf, all supports, all events in the leaf's variables", "why_tests_cant": "All real distributions and all interval/atom configurations.", "anchors": ["src/spe.py:RealLeaf.logprob__", "src/spe.py:RealLeaf.logprob_values__", "src/spe.py:ContinuousLeaf.logprob_interval__", "src/spe.py:DiscreteLeaf.logprob_interval__", "src/spe.py:RealLeaf.logcdf", "src/spe.py:AtomicLeaf.logprob__", "src/spe.py:NominalLeaf.logprob__"]}
{"id": "C18", "title": "prob is the measure of the event", "statement": "For every sum-product expression and event, whenever `prob(event)` returns a number it equals the probability of the event under the distribution the expression denotes (mixture of children for sums, independent product for products, pushforward for leaves).", "quantifier": "all well-formed SPEs of any depth and all events over their variables", "why_tests_cant": "Exact inference for every model and query.", "anchors": ["src/spe.py:BranchSPE.logprob", "src/spe.py:SumSPE.logprob_mem", "src/spe.py:ProductSPE.logprob_mem", "src/spe.py:ProductSPE.logprob_conjunction", "src/spe.py:LeafSPE.logprob_mem"]}
{"id": "C19", "title": "prob obeys the laws of probability", "statement": "prob is in [0,1], monotone under implication, additive on incompatible events, prob(~e) = 1 - prob(e) when e's expressions are everywhere defined, and logically equivalent events get equal prob.", "quantifier": "all SPEs, all events for which prob returns", "why_tests_cant": "Universal laws.", "anchors": ["src/spe.py:SPE.prob", "src/spe.py:BranchSPE.logprob"]}
{"id": "C20", "title": "Pruned inclusion-exclusion equals the probability of the disjunction", "statement": "The product node's queue-based inclusion-exclusion over clauses, which skips supersets of zero-probability subsets, terminates and returns the probability of the disjunction of the clauses.", "quantifier": "any number of clauses with any pattern of zero-probability intersections", "why_tests_cant": "Exponentially many subsets and pruning patterns.", "anchors": ["src/spe.py:ProductSPE.logprob_mem", "src/spe.py:ProductSPE.logprob_conjunction", "src/spe.py:ProductSPE.logprob_conjunction_key"]}
{"id": "C21", "title": "condition returns the conditional distribution", "statement": "Whenever `condition(e)` returns an SPE it denotes exactly the original distribution conditioned on e.", "quantifier": "all SPEs, all events of positive probability", "why_tests_cant": "Structure rewriting (splitting leaves, mixing products, simplification) for every model and event.", "anchors": ["src/spe.py:BranchSPE.condition", "src/spe.py:SumSPE.condition_mem", "src/spe.py:ProductSPE.condition_mem", "src/spe.py:ProductSPE.condition_clause", "src/spe.py:RealLeaf.condition__", "src/spe.py:NominalLeaf.condition__", "src/spe.py:AtomicLeaf.condition__"]}
{"id": "C22", "title": "condition rejects exactly probability-zero events", "statement": "If prob(e) = 0 then `condition(e)` raises; if it returns, prob(e) > 0.", "quantifier": "all SPEs and events", "why_tests_cant": "All models/events.", "anchors": ["src/spe.py:BranchSPE.condition", "src/spe.py:RealLeaf.condition__", "src/spe.py:NominalLeaf.condition__"]}
{"id": "C23", "title": "Chain rule between condition and prob", "statement": "prob(a & b) = prob(a) * condition(a).prob(b), and conditioning twice equals conditioning on the conjunction.", "quantifier": "all SPEs and events for which the calls return", "why_tests_cant": "Relates two different code paths for every input.", "anchors": ["src/spe.py:SPE.prob", "src/spe.py:BranchSPE.condition", "src/spe.py:BranchSPE.logprob"]}
{"id": "C24", "title": "SPE well-formedness is preserved by every operation", "statement": "condition, constrain, transform and the combinators return SPEs whose mixtures have normalized positive weights and identical scopes, whose products have disjoint scopes, and condition keeps the set of variables.", "quantifier": "all SPEs and all sequences of operations", "why_tests_cant": "Invariant over operation histories.", "anchors": ["src/spe.py:SumSPE.__init__", "src/spe.py:ProductSPE.__init__", "src/spe.py:RealLeaf.condition__", "src/spe.py:RealLeaf.transform"]}
{"id": "C25", "title": "Sum simplification preserves the distribution", "statement": "`spe_simplify_sum` returns an SPE denoting the same distribution. (False when two different leaves share a hash, and when AtomicLeaf equality ignores derived variables: recorded counterexamples. False also for leaves made by discrete/uniformd/rv_discrete, whose tables are not compared.)", "quantifier": "all mixtures of leaves or of products; all hash functions injective on the leaves involved", "why_tests_cant": "Hash collisions and factoring patterns over unbounded mixtures.", "anchors": ["src/spe.py:spe_simplify_sum", "src/spe.py:spe_simplify_sum_leaf", "src/spe.py:spe_simplify_sum_product", "src/spe.py:spe_simplify_sum_product_helper", "src/sym_util.py:partition_list_blocks", "src/spe.py:AtomicLeaf.__eq__"]}
{"id": "C26", "title": "transform adds a deterministic derived variable", "statement": "`spe.transform(Z, f)` leaves the distribution of the existing variables unchanged and makes Z equal to f of them with probability one.", "quantifier": "all SPEs, all expressions over one child's variables", "why_tests_cant": "All models.", "anchors": ["src/spe.py:RealLeaf.transform", "src/spe.py:AtomicLeaf.transform", "src/spe.py:SumSPE.transform", "src/spe.py:ProductSPE.transform"]}
{"id": "C27", "title": "Memoization is transparent", "statement": "With any memo table filled by earlier queries on live SPE nodes, logprob, condition, logpdf and constrain return the same answer as without memo, and the tables stay correct. (False when a node identity is reused after collection; memo=False crashes on branch nodes, and on all nodes for logpdf; a memo makes leaves raise on Piecewise: recorded.)", "quantifier": "all query histories sharing one memo", "why_tests_cant": "Depends on arbitrary histories.", "anchors": ["src/spe.py:memoize", "src/spe.py:Memo", "src/spe.py:SPE.get_memo_key", "src/spe.py:LeafSPE.logprob_mem"]}
{"id": "C28", "title": "Combinator flattening preserves the distribution", "statement": "Building SumSPE from SumSPE children (weights multiplied) or ProductSPE from ProductSPE children (children spliced) denotes the same nested mixture/product.", "quantifier": "all nestings", "why_tests_cant": "All shapes.", "anchors": ["src/spe.py:SumSPE.__init__", "src/spe.py:ProductSPE.__init__"]}
{"id": "C29", "title": "if/elif/else interpretation is branch-conditional mixture", "statement": "Interpreting IfElse gives the mixture, over branches i in order, of running branch i on the prior conditioned on (condition i and none earlier), weighted by that event's prior probability.", "quantifier": "all branch lists, priors and sub-commands", "why_tests_cant": "All programs.", "anchors": ["src/compilers/ast_to_spe.py:IfElse.interpret", "src/compilers/ast_to_spe.py:interpret_if_block"]}
{"id": "C30", "title": "Sequence, For, Skip and Switch interpretation", "statement": "Sequence is left-to-right composition, For(n0,n1,f) runs f(n0)..f(n1-1) in order, Switch behaves like the corresponding IfElse on first matching value.", "quantifier": "all command lists, bounds and case lists", "why_tests_cant": "All programs and loop bounds.", "anchors": ["src/compilers/ast_to_spe.py:Sequence.interpret", "src/compilers/ast_to_spe.py:For.interpret", "src/compilers/ast_to_spe.py:Switch.interpret", "src/compilers/ast_to_spe.py:Skip.interpret"]}
{"id": "C31", "title": "Sample adds an independent variable", "statement": "Interpreting Sample(X, d) on a prior yields the product distribution of the prior and d, and fails if X is already in scope.", "quantifier": "all priors and distributions", "why_tests_cant": "All programs.", "anchors": ["src/compilers/ast_to_spe.py:Sample.interpret", "src/spe.py:ProductSPE.__init__", "src/distributions.py:RealDistribution.__call__"]}
{"id": "C32", "title": "logpdf is the lexicographic density", "statement": "logpdf of a full assignment is a sum over mixture components of least continuous dimension; when that dimension is 0 its exponential is exactly the probability of the assignment; otherwise it is the limit of box probability divided by box volume.", "quantifier": "all SPEs and assignments", "why_tests_cant": "Limits and all mixtures.", "anchors": ["src/spe.py:SumSPE.logpdf_mem", "src/spe.py:ProductSPE.logpdf_mem", "src/spe.py:LeafSPE.logpdf_mem", "src/spe.py:ContinuousLeaf.logpdf__", "src/spe.py:DiscreteLeaf.logpdf__", "src/spe.py:NominalLeaf.logpdf__"]}
{"id": "C33", "title": "constrain fixes variables and agrees with condition on atoms", "statement": "constrain(assignment) returns a distribution under which each assigned variable equals its value; when the assignment has continuous dimension 0 it is the conditional distribution given the assignment.", "quantifier": "all SPEs and assignments", "why_tests_cant": "All models.", "anchors": ["src/spe.py:SumSPE.constrain_mem", "src/spe.py:ProductSPE.constrain_mem", "src/spe.py:RealLeaf.constrain__", "src/spe.py:NominalLeaf.constrain__"]}
{"id": "C34", "title": "Samples have the right shape", "statement": "sample(N) returns exactly N dictionaries, each with exactly the SPE's variables; sample_subset returns exactly the requested ones.", "quantifier": "all SPEs, N, requested subsets and random outcomes", "why_tests_cant": "All random outcomes.", "anchors": ["src/spe.py:SumSPE.sample_many", "src/spe.py:ProductSPE.sample", "src/spe.py:ProductSPE.sample_subset", "src/spe.py:LeafSPE.sample_subset", "src/spe.py:merge_samples"]}
{"id": "C35", "title": "Samples are independent draws from the distribution", "statement": "When numpy's and scipy's generators give independent draws from the laws they document, sample(N) gives N independent draws from the distribution that logprob computes. (False for mixtures with N >= 3, where the draws of each component are kept together: recorded counterexample.)", "quantifier": "all SPEs and N", "why_tests_cant": "A statement about the joint law of all executions of the sampler; statistical tests only see single positions approximately.", "anchors": ["src/spe.py:SumSPE.sample_many", "src/spe.py:ProductSPE.sample", "src/spe.py:RealLeaf.sample__", "src/spe.py:NominalLeaf.sample__", "src/spe.py:LeafSPE.sample_subset", "src/spe.py:merge_samples"]}
{"id": "C36", "title": "Serialization round-trips", "statement": "spe_from_dict(spe_to_dict(s)) denotes the same distribution as, and is structurally equal to, s.", "quantifier": "all SPEs whose leaf parameters survive repr/eval (this excludes leaves made by discrete/uniformd/rv_discrete, whose tables are not written: recorded counterexample)", "why_tests_cant": "All trees.", "anchors": ["src/compilers/spe_to_dict.py:spe_to_dict", "src/compilers/spe_to_dict.py:spe_from_dict"]}
{"id": "C37", "title": "Caching duplicate subtrees preserves the model", "statement": "spe_cache_duplicate_subtrees returns an SPE equal to its input and denoting the same distribution.", "quantifier": "all SPEs", "why_tests_cant": "All trees and sharing patterns.", "anchors": ["src/spe.py:spe_cache_duplicate_subtrees"]}
{"id": "C38", "title": "Log-space helpers compute the intended probabilities", "statement": "exp(logsumexp xs) = sum of exps, exp(logdiffexp(a,b)) = exp a - exp b for b <= a and ValueError otherwise, lognorm normalizes to total one, so log-domain code equals linear-domain code.", "quantifier": "all real (and -inf) inputs", "why_tests_cant": "All inputs, in exact arithmetic.", "anchors": ["src/math_util.py:logdiffexp", "src/math_util.py:log1mexp", "src/math_util.py:lognorm"]}
{"id": "C39", "title": "Mutual information is correct, non-negative and symmetric", "statement": "mutual_information(A,B) equals the mutual information of the two indicator variables; it is >= 0, symmetric, and 0 exactly when A and B are independent.", "quantifier": "all SPEs and total events A, B", "why_tests_cant": "Inequality over all distributions.", "anchors": ["src/spe.py:SPE.mutual_information"]}
{"id": "C40", "title": "Compiler lowers if/elif/else, conditional expressions and comparisons faithfully", "statement": "unroll_if/unroll_ifexp produce a branch list whose first-match semantics equals the nested conditional, and the comparison rewriting maps ==, !=, in, not in to the event with the same meaning.", "quantifier": "all nested conditionals and comparisons", "why_tests_cant": "Unbounded nesting.", "anchors": ["src/compilers/sppl_to_python.py:unroll_if", "src/compilers/sppl_to_python.py:unroll_ifexp", "src/compilers/sppl_to_python.py:SPPL_Transformer_Compare"]}
{"id": "C41", "title": "Numerical polynomial inequality solver is exact given exact roots", "statement": "Given the exact real roots of p - b with their multiplicities (as sympy.nroots lists them), solve_poly_inequality_numerically returns exactly {x : p(x) < b} (strict) or {x : p(x) <= b} (not strict) when there is at least one real root and all are simple; it raises AssertionError when a real root is repeated; with no real root it returns sympy.EmptySet even when p < b everywhere. solve_poly_equality_numerically returns exactly the roots; for infinite b the equality solver returns exactly the ends where p tends to b, and the inequality solver with extended=False is exact on the reals.", "quantifier": "all real polynomials and thresholds", "why_tests_cant": "All polynomials.", "anchors": ["src/poly.py:solve_poly_inequality_numerically", "src/poly.py:solve_poly_inequality_inf", "src/poly.py:solve_poly_equality_inf"]}
{"id": "C42", "title": "Weighted mixtures build the stated mixture", "statement": "w1*s1 | w2*s2 | ... yields the mixture with exactly those weights once they sum to one, rejects totals above one, weights outside (0,1) and mismatched scopes.", "quantifier": "all weights and SPEs", "why_tests_cant": "All weight lists.", "anchors": ["src/spe.py:SPE.__rmul__", "src/spe.py:PartialSumSPE.__or__", "src/distributions.py:DistributionMix", "src/spe.py:ExposedSumSPE"]}
{"id": "C43", "title": "Contiguous block partition is exact", "statement": "partition_finite_real_contiguous splits a finite set of integers into consecutive runs whose union is the set, and Range turns each run into an interval holding exactly those integers.", "quantifier": "all finite non-empty sets", "why_tests_cant": "All sets.", "anchors": ["src/sym_util.py:partition_finite_real_contiguous", "src/sets.py:Range", "src/spe.py:RealLeaf.flatten_values_contiguous"]}
{"id": "C44", "title": "Evaluating an event on a sample agrees with its meaning", "statement": "When e.evaluate(sample) returns a Boolean, it is the truth of e at the sample. (Logarithm.ffwd returns a Python set, so log-transformed events cannot be evaluated: recorded.)", "quantifier": "all events and samples", "why_tests_cant": "All events.", "anchors": ["src/transforms.py:EventBasic.evaluate", "src/transforms.py:EventOr.evaluate", "src/transforms.py:EventAnd.evaluate", "src/transforms.py:Logarithm.ffwd", "src/transforms.py:Piecewise.evaluate"]}
{"id": "C45", "title": "Conjunction of SPEs is their independent product", "statement": "s1 & s2 & ... is accepted exactly when no two operands have a common variable, and is then an SPE over all the variables in whose distribution the operands are independent, each with its own distribution.", "quantifier": "all SPEs, any number of operands", "why_tests_cant": "All SPEs; independence is a statement about all events.", "anchors": ["src/spe.py:SPE.__and__", "src/spe.py:SPE.__and__spe", "src/spe.py:ProductSPE.__init__"]}
{"id": "C46", "title": "A compiled program means what its source says", "statement": "If SPPL_Compiler compiles a source program and the module it writes runs, the resulting command transforms a distribution over assignments exactly as the statements of the source do one after the other: random assignments add independent variables, other assignments derived variables, if/elif/else and conditional expressions condition on their tests, for loops and switch run their bodies with the loop variable (and with enumerate its number) bound to each value, condition conditions, constrain conditions on the values of its dictionary; and interpreting the command gives an SPE of that distribution. Programs that introduce variables before using them, whose constants precede their distributions, without branches that are only `pass`, and whose expressions have values of the right kinds, do compile and run.", "quantifier": "all programs (any nesting of blocks, loops and branches) and all starting distributions", "why_tests_cant": "Programs nest without bound, and the meaning of a program is a measure.", "anchors": ["src/compilers/sppl_to_python.py:SPPL_Visitor", "src/compilers/sppl_to_python.py:maybe_sequence_block", "src/compilers/sppl_to_python.py:SPPL_Compiler.compile", "src/compilers/ast_to_spe.py:Command"]}
{"id": "C47", "title": "Statistics of samples that ignore their order", "statement": "Any statistic of sample(N) that does not depend on the order of the samples (how many satisfy an event, an average, which values occur) has the law that it has for N independent draws from the distribution of the SPE; in particular the number of samples in a measurable set is binomial with the probability of the set.", "quantifier": "all SPEs, all N, all measurable statistics", "why_tests_cant": "A law of random samples, for every number of samples; the failure is an absence (one call never shows all combinations of values), which no single run reveals.", "anchors": ["src/spe.py:SumSPE.sample", "src/spe.py:SumSPE.sample_many", "src/spe.py:ProductSPE.sample", "src/spe.py:merge_samples"]}
{"id": "C48", "title": "The source written by render_sppl denotes the SPE it was written for", "statement": "For every SPE, render_sppl writes an SPPL program; SPPL_Compiler compiles it, the module it writes runs, and interpreting the resulting command gives an SPE under which every event over the variables of the original SPE has the same probability as under the original SPE (the additional branch variables are ignored).", "quantifier": "all SPEs (any nesting of sums and products, all leaves with derived variables)", "why_tests_cant": "SPEs nest without bound, and equality of the two distributions ranges over all events; tests compare a few rendered programs on a few events.", "anchors": ["src/compilers/spe_to_sppl.py:render_sppl", "src/compilers/spe_to_sppl.py:render_sppl_helper", "src/compilers/spe_to_sppl.py:render_sppl_choice", "src/transforms.py:Poly.__str__", "src/compilers/sppl_to_python.py:SPPL_Compiler.compile"]}
{"id": "C49", "title": "A distribution has the support that its class says", "statement": "For every class of distributions.py that wraps a scipy distribution and all keyword arguments, the interval returned by get_domain contains the support that scipy documents for the distribution with these arguments; so X >> d(**kw) is a leaf under which every event has the probability that scipy's distribution gives it (no mass is cut off), and calling the class with the parameters of a distribution does return a leaf.", "quantifier": "all 112 named distributions, rv_discrete/discrete/uniformd with any table, atomic; all keyword arguments; all events", "why_tests_cant": "Parameters range over the reals and events over all sets; mass that is silently cut off shows up only in events that touch the missing part, and the tests sample a few distributions with default parameters.", "anchors": ["src/distributions.py:RealDistribution.__call__", "src/distributions.py:RealsPosLoc", "src/distributions.py:UnitIntervalLocScale", "src/distributions.py:hypergeom.get_domain", "src/distributions.py:gumbel_l.get_domain", "src/distributions.py:rv_discrete.get_domain", "src/distributions.py:atomic.__init__"]}
{"id": "C50", "title": "binspace divides an interval, and a Switch on its bins has one case per value", "statement": "binspace(a, b, n) with a < b and n >= 2 returns n-1 closed intervals of equal length that together cover exactly [a, b]; Switch(X, binspace(a, b, n), f) has exactly one case for every value of X in [a, b] and none for values outside, so it denotes the mixture, over the bins, of f applied to the distribution conditioned on X being in the bin; it returns when X is a continuous base variable that is almost surely in [a, b] and f samples a new variable. binspace raises for a >= b and for negative n.", "quantifier": "all real a, b, all numbers of bins, all subjects, all bodies, all SPEs", "why_tests_cant": "Consecutive bins share end points; that no value is counted twice or lost must hold for every number of bins and every distribution, also one with point masses at end points; tests use a few bins.", "anchors": ["src/sym_util.py:binspace", "src/compilers/ast_to_spe.py:Switch"]}
{"id": "C51", "title": "The recursion limit decides whether an answer is given, not which", "statement": "spe.prob(event), spe.condition(event) and interpreting a program give the same value, or raise the same exception, under any two limits on the depth of nested calls (sys.setrecursionlimit), unless the call raises RecursionError under one of them; a call that does not hit a limit behaves the same under every larger limit.", "quantifier": "all SPEs, events, programs (finite and unbounded depth alike) and all pairs of limits", "why_tests_cant": "invert, substitute and dnf_to_disjoint_union recur on events they build themselves, so there is no bound on the depth known beforehand; a test runs under one limit, and cannot show that no code path catches the failure and answers something else.", "anchors": ["src/transforms.py:Transform.invert", "src/transforms.py:Event.solve", "src/transforms.py:Transform.substitute", "src/dnf.py:dnf_to_disjoint_union", "src/spe.py:SPE.prob", "src/spe.py:SPE.condition", "src/compilers/ast_to_spe.py:Command.interpret"]}
{"id": "C52", "title": "Well-scoped programs run", "statement": "A program (Sample, Transform, Condition, IfElse, For, Switch, Sequence, Skip) that samples new variables from normalised distributions, derives new variables from numeric ones, conditions on combinations of comparisons of sampled variables, or on conjunctions of comparisons of variables derived by increasing and decreasing expressions, that have positive probability, and branches so that every case is covered and all branches leave the same variables, is interpreted without any exception if the recursion limit is large enough; the result has exactly the variables in scope and denotes the distribution the program describes; queries prob and condition (of positive probability) about such variables then return, with the probabilities of that distribution. With SPPL_NO_SIMPLIFY or without.", "quantifier": "all programs by these rules, of any length and nesting, including loops with any number of iterations; all distributions; all queries", "why_tests_cant": "Whether an exception can occur depends on the shape of the intermediate SPEs (simplified, with zero-probability branches removed) and on the sets that conditioning makes, for unboundedly many programs.", "anchors": ["src/compilers/ast_to_spe.py:IfElse", "src/compilers/ast_to_spe.py:Switch", "src/compilers/ast_to_spe.py:For", "src/compilers/ast_to_spe.py:Condition", "src/compilers/ast_to_spe.py:Transform", "src/compilers/ast_to_spe.py:Sample", "src/spe.py:SPE.prob", "src/spe.py:SPE.condition"]}
{"id": "C53", "title": "Computing with logarithms gives the probabilities", "statement": "spe.logprob(event) returns the logarithm of the probability of the event under the distribution the SPE denotes: -inf exactly if the probability is zero, never nan and never +inf; spe.prob(event) returns the probability; spe.condition(event) returns the conditional distribution although the weights are normalised in log space with -inf components; spe.logpdf and spe.constrain likewise. The tolerances of allclose inside the code change no result.", "quantifier": "all SPEs of any size, with any weights including zero, all events; all assignments", "why_tests_cant": "The special cases of log arithmetic (-inf - -inf, logsumexp of components that are all -inf, logdiffexp of equal numbers) arise from combinations of zero weights, empty intersections and inclusion-exclusion terms at unbounded depth.", "anchors": ["src/math_util.py:logdiffexp", "src/math_util.py:lognorm", "src/spe.py:SPE.prob", "src/spe.py:SumSPE.logprob_mem", "src/spe.py:ProductSPE.logprob_mem", "src/spe.py:SumSPE.condition_mem", "src/spe.py:ProductSPE.condition_mem", "src/spe.py:SumSPE.logpdf_mem", "src/spe.py:RealLeaf.logprob__"]}
{"id": "C54", "title": "A rendering as nested lists shows the SPE", "statement": "If render_nested_lists returns equal lists for two SPEs, the SPEs are the same (hence all queries agree); render_nested_lists_concise determines the variables.", "quantifier": "all pairs of SPEs of any size, all iteration orders of sets of symbols", "why_tests_cant": "It is a statement about all pairs of SPEs; a test renders a few SPEs and compares with expected lists.", "anchors": ["src/render.py:render_nested_lists", "src/render.py:render_nested_lists_concise"]}
{"id": "C55", "title": "The graph drawn of an SPE is its tree", "statement": "render_networkx_graph(spe) returns, without raising, a graph that unfolds from its root to the tree of the SPE (labels of nodes, weights and derived variables on the edges) and has exactly one node per SPE inside and per derived variable.", "quantifier": "all SPEs of any size; all readings of the clock", "why_tests_cant": "The names of nodes are readings of a clock; whether two calls read the same time depends on the machine and cannot be provoked by a test.", "anchors": ["magics/render.py:render_networkx_graph", "magics/render.py:gensym"]}
{"id": "C56", "title": "Time limits", "statement": "with timeout(n): body is not disturbed if body takes less than n seconds, and raises TimeoutError after n seconds otherwise, whatever body does; the solver for polynomials never lets a TimeoutError escape.", "quantifier": "all computations (any nesting of limits, any durations), all limits, all states of the alarm before", "why_tests_cant": "A test measures a few durations; nested limits and the alarm of the caller are state of the process that tests do not set up.", "anchors": ["src/timeout.py:timeout", "src/poly.py:solve_poly_inequality", "src/poly.py:solve_poly_equality"]}
{"id": "C57", "title": "A notebook never answers from an outdated model", "statement": "After any sequence of %%sppl cells, %sppl_get_spe name returns the SPE of the last cell with that name if that cell compiled, and raises if that cell raised or there was none; it never returns the SPE of an earlier cell. %sppl_to_graph name draws the same SPE, or else the local variable of that name.", "quantifier": "all sequences of cells, all names and sources, whichever of them compile", "why_tests_cant": "It is about all histories of a stateful object, including failing cells between successful ones.", "anchors": ["magics/magics.py:SPPL_Magics.sppl", "magics/magics.py:SPPL_Magics.sppl_get_spe", "magics/magics.py:SPPL_Magics.sppl_to_graph"]}
{"id": "C58", "title": "A program that ends in Constrain is the program given the assignment", "statement": "If a program followed by Constrain(a) is interpreted without an exception, every variable of a has its value in the SPE returned, and the SPE has the conditional distribution of the program given a: the usual one when a has positive probability, and otherwise the limit of the distributions given smaller and smaller boxes around a. It is interpreted without an exception whenever the program is, and a has positive density.", "quantifier": "all programs and all assignments", "why_tests_cant": "All programs; conditioning on an event of probability zero is a limit that no test can take.", "anchors": ["src/compilers/ast_to_spe.py:Constrain.interpret", "src/spe.py:SPE.constrain", "src/compilers/ast_to_spe.py:Sequence.interpret"]}
{"id": "C59", "title": "~= and switch ... cases become the Python statements that they stand for", "statement": "The source text given to SPPL_Compiler is rewritten line by line: `a ~= b` becomes `a = b`, `switch (s) cases (x in v):` becomes `for x in switch(s, v):` with the same indentation, blank lines are dropped, and every other line is unchanged. (False when `~=` or `in ` also occur inside strings of such lines: recorded.)", "quantifier": "all source texts, of any number of lines", "why_tests_cant": "The rewriting is by a backtracking regular expression over the whole text, whose match depends on everything that follows.", "anchors": ["src/compilers/sppl_to_python.py:SPPL_Compiler.preprocess"]}
{"id": "C60", "title": "What is asked of a compiled program is answered by the meaning of its source", "statement": "If SPPL_Compiler gives a model for a source, model.prob(e) is the probability of e in the distribution that the statements of the source describe, and model.condition(e).prob(f) the conditional probability. So programs with the same meaning answer alike: a condition at the end of a program is the same as the method condition of the model, neighbouring samplings of different variables can be written in either order, and an observation can be made before or after the sampling of a variable that it does not mention.", "quantifier": "all sources of any length and depth, all events", "why_tests_cant": "All programs and events; equality of distributions cannot be observed by finitely many queries.", "anchors": ["src/compilers/sppl_to_python.py:SPPL_Compiler", "src/compilers/ast_to_spe.py:Sequence.interpret", "src/spe.py:SPE.prob", "src/spe.py:SPE.condition"]}
{"id": "C61", "title": "Solving an event about one variable does not raise", "statement": "For every event about one variable that the operators of transforms build, `event.solve()` returns a set instead of raising, and the set contains exactly the values where the event holds.", "quantifier": "all single-variable events, all nesting depths of transforms, all iteration orders of frozensets", "why_tests_cant": "Whether an inversion raises depends on which intermediate sets arise for unboundedly nested transforms, and on iteration orders.", "anchors": ["src/transforms.py:Event.solve", "src/transforms.py:Transform.invert", "src/transforms.py:Injective.invert_finite", "src/transforms.py:Injective.invert_interval", "src/transforms.py:Poly.invert_interval", "src/transforms.py:Reciprocal.range", "src/sets.py:Union.__and__"]}
{"id": "C62", "title": "A command can be interpreted again", "statement": "Interpreting a command object (Sequence, IfElse, For, Switch, Sample, ...) does not change it: interpreting the same object any number of times, with any states (also after an exception), gives each time what a newly made command gives. This fails for a Switch whose values are an enumerate object, as in every compiled `switch ... enumerate` statement: the first interpretation reads the iterator to its end, and the next one raises AssertionError. Any other iterator raises the first time.", "quantifier": "all command trees of any depth and length, all sequences of states, all numbers of interpretations", "why_tests_cant": "Which objects are read depends on the branches of positive probability in earlier interpretations; tests interpret each command once.", "anchors": ["src/compilers/ast_to_spe.py:Switch", "src/compilers/ast_to_spe.py:For", "src/compilers/ast_to_spe.py:IfElse", "src/compilers/ast_to_spe.py:Sequence", "src/compilers/ast_to_spe.py:interpret_if_block", "src/compilers/sppl_to_python.py:SPPL_Visitor.visit_For"]}
