# Design

Formal model of probcomp/sppl (`/repo/src`) in Lean 4.33.0 + Mathlib, in `/verif/lean/Verif`.

## Trusted base

* Lean's kernel, and at most the three standard axioms `propext`, `Classical.choice`, `Quot.sound`
  (checked with `#print axioms`; no other axiom, no `sorry`, no `native_decide`/`bv_decide`).
* The hand translation of the Python text into Lean definitions. Every definition cites the file and
  lines it models and says where it simplifies.
* The table of supports of scipy's distributions in `Spe/DistSpec.lean` (from the documentation of scipy 1.4.1), used by C49 only.
* The small specifications (`Spec` files): membership in a set, truth of an event at an assignment,
  the measure an SPE denotes, the semantics of programs.

## Modelling conventions

* **Numbers.** Python/sympy numbers are exact elements of a linear order (`Rat` for executable
  witnesses, `Real` for the semantics). Floating point rounding is *not* modelled: every statement is
  about exact arithmetic. Infinities are explicit (`Ext`).
* **Exceptions are values.** A Python function that can raise returns `Except Err _`; `assert False`,
  `assert c`, `IndexError`, `NotImplementedError`, `ValueError` are distinct values.
* **Hash order.** Iterating a `frozenset`/`set`/`dict` is modelled by an arbitrary order (oracle or
  quantified list order), so theorems hold for every iteration order.
* **Log space.** Most of the SPE model works with probabilities where the code works with their logarithms. The same
  methods with logarithms, as written (`logsumexp`, `logdiffexp`, `lognorm`, `isinf_neg`, `allclose`, `nan`), are in
  `Spe/LogModel.lean`; C53 proves that they return the logarithms of the same probabilities and the same SPEs. A SPE of that
  model holds the exponentials of the weights (`wexp`), since no method compares them otherwise.
* **External libraries.** `scipy` distributions are a probability measure on the reals together with
  its cdf (Mathlib `cdf`), pdf/pmf and ppf facts stated as hypotheses of the leaf structure; `sympy`'s polynomial
  solver is an oracle with a correctness hypothesis (an exact oracle is shown to exist). `random`/`numpy` draws are oracles.

## Layers

1. `Verif/Sets/*` – `sets.py`.  Pieces, constructors, `&`, `|`, `~`, membership.
2. `Verif/Events/*` – `transforms.py`. Transform and event trees, evaluation, inversion, operators, DNF.
3. `Verif/Dnf/*` – `dnf.py`.
4. `Verif/Spe/*` – `spe.py`. Leaves, sums, products; prob, condition, logpdf, constrain, transform, sampling,
   simplification, caching; sampling is in `Verif/Sample/*`. `distributions.py` is `Spe/Mix.lean` (mixtures) and
   `Spe/Distributions.lean` (the table of classes; scipy's checks of the keyword arguments are left out).
   `Verif/Render/*` – `render.py`, `magics/render.py`, `magics/magics.py`; `Misc/Timeout.lean` – `timeout.py`.
5. `Verif/Memo/*` – the same methods of `spe.py` with object identities and memo tables (`memoize`, `Memo`); a
   refinement of layer 4. A state holds the heap (which identity denotes which SPE) and the four tables. Keys are compared
   as values, hash collisions of keys do not matter since Python compares them too.
6. `Verif/Interp/*` – `compilers/ast_to_spe.py`; `Verif/Serial/*` – `compilers/spe_to_dict.py`; `Verif/Comp/*` –
   `compilers/sppl_to_python.py` (syntax trees in place of text, and not imports; the preprocessing of `~=` and `switch` is on text, in `Comp/Preprocess.lean`; Python's parser, between the two, is not modelled) and `compilers/spe_to_sppl.py` (`Comp/Render*.lean`; with `fwidth`, `Comp/Fwidth*.lean`).
7. `Verif/Misc/*` – `math_util.py`, `sym_util.py`, `poly.py`.

Property theorems live in files named `Props*.lean`, apart from helper lemmas.

## Not modelled

Floating-point error; sympy simplification; scipy internals; the texts of labels and the calls of graphviz (`render_graphviz`);
`sym_util.sympy_solver` (used by tests only); Python parsing itself.

## Per-property plan

* **C01 Set intersection is exact** - Model every branch of `__and__` over a generic linear order; induction over the pieces of unions; theorem `x ∈ ⟦A & B⟧ ↔ x ∈ ⟦A⟧ ∧ x ∈ ⟦B⟧` whenever the model returns `ok`.
* **C02 Set union is exact** - Model every branch of `__or__`, `union_intervals`, `union_intervals_finite`; sweep invariants for the merging loops. Witness for the lost infinite atoms.
* **C03 Set complement is exact within its kind** - From C01/C02 and the basic complements; witness for mixed unions.
* **C04 Set results are canonical: pieces never overlap and equal sets compare equal** - Canonical-form predicate (separated pieces, no atom touching an interval); preservation for each operator; uniqueness of canonical forms by extensionality over a dense order.
* **C05 Set algebra does not crash on well-formed operands** - Negation with concrete witnesses; totality theorems for the operand classes that are safe, among them the sets built from strings and intervals whose ends are all cut the same way (`C05_total_cuts`, `C05_expr_total`: set expressions of any size over them never raise).
* **C06 Membership test agrees with the set's meaning** - Direct, from the model of `__contains__` returning `Except`.
* **C07 Event operators obey Boolean semantics pointwise** - Model event operators branch by branch; structural induction against `holds`.
* **C08 Solving a single-variable event gives exactly its solution set** - From C09 by induction on the event.
* **C09 Transform inversion computes exact preimages** - Structural induction on the transform; one lemma per transform class using real analysis (monotonicity of exp/log/roots); polynomial oracle hypothesis.
* **C10 Arithmetic operators on expressions denote arithmetic on values** - Model each operator; semantic equation by cases; counterexample for `__rsub__`.
* **C11 Comparison and membership syntax mean what they say** - Direct on top of the set layer; chained forms by cases.
* **C12 Substituting a leaf's derived variables terminates and preserves meaning** - Environment = list built by `transform`; measure for termination; semantic induction.
* **C13 to_dnf preserves meaning and yields DNF** - Structural induction.
* **C14 dnf_normalize preserves meaning** - C08 + C13 + C15.
* **C15 dnf_factor splits each clause exactly** - Induction on clauses.
* **C16 dnf_to_disjoint_union yields an equivalent disjoint union** - Fuel-free model by well-founded recursion or a relational big-step semantics; semantic equality and disjointness by induction; termination argument.
* **C17 Leaf probability is exact** - Leaves as measures; piecewise sum over disjoint pieces (C04).
* **C18 prob is the measure of the event** - Structural induction on SPE against the measure denotation.
* **C19 prob obeys the laws of probability** - Corollaries of C18.
* **C20 Pruned inclusion-exclusion equals the probability of the disjunction** - Invariant over the queue: partial alternating sums; abstract lemma for finite measures.
* **C21 condition returns the conditional distribution** - Structural induction; mixture/product conditioning lemmas for `ProbabilityTheory.cond`.
* **C22 condition rejects exactly probability-zero events** - By the same induction.
* **C23 Chain rule between condition and prob** - Corollary of C18 and C21.
* **C24 SPE well-formedness is preserved by every operation** - Invariant preservation.
* **C25 Sum simplification preserves the distribution** - Model partition by hash with injectivity hypothesis; negation witnesses.
* **C26 transform adds a deterministic derived variable** - Pushforward lemma by induction on the SPE.
* **C27 Memoization is transparent** - Refinement: memoised evaluator = plain evaluator whenever the memo is consistent; preservation by induction.
* **C28 Combinator flattening preserves the distribution** - Algebra of measures.
* **C29 if/elif/else interpretation is branch-conditional mixture** - Model interpreter; theorem against an independent denotational semantics.
* **C30 Sequence, For, Skip and Switch interpretation** - Same.
* **C31 Sample adds an independent variable** - Same.
* **C32 logpdf is the lexicographic density** - Case d=0 exact; continuous case as density on the leaf and products.
* **C33 constrain fixes variables and agrees with condition on atoms** - Induction with C32.
* **C34 Samples have the right shape** - Sampler with an arbitrary random tape.
* **C35 Samples are independent draws from the distribution** - The law of the sampler as a push-forward of the generator's law; negation for mixtures, N = 3.
* **C36 Serialization round-trips** - Structural induction, parameters via a repr/eval section.
* **C37 Caching duplicate subtrees preserves the model** - Structural induction, dictionary invariant.
* **C38 Log-space helpers compute the intended probabilities** - `EReal`/`Real.exp,log` algebra.
* **C39 Mutual information is correct, non-negative and symmetric** - Finite KL divergence via Jensen/`log x ≤ x-1`.
* **C40 Compiler lowers if/elif/else, conditional expressions and comparisons faithfully** - Structural induction on a small AST.
* **C41 Numerical polynomial inequality solver is exact given exact roots** - Intermediate value theorem between consecutive roots.
* **C42 Weighted mixtures build the stated mixture** - Model of PartialSumSPE.
* **C43 Contiguous block partition is exact** - List induction.
* **C44 Evaluating an event on a sample agrees with its meaning** - Structural induction; witness for log.
* **C45 Conjunction of SPEs is their independent product** - Algebra of product measures.
* **C46 A compiled program means what its source says** - Denotational semantics of the source; induction on the visitor; Python's evaluation of the emitted expressions is modelled. The judgement `Good` (`Comp/TotalSpec.lean`) describes programs that compile and run.
* **C47 Statistics of samples that ignore their order** - Expected products of the samples by induction on the SPE; polarisation turns them into the law up to the order; negation for two independent bits.
* **C48 The source written by render_sppl denotes the SPE it was written for** - The writer as a function to the source trees of C46; the shape of what the compiler does with it by induction on the SPE; its meaning: each node, started where the branch variables above it are fixed, adds independent variables with its own law; averaging over the branch variables gives the mixture.
* **C49 A distribution has the support that its class says** - `get_domain` of every class as a function of the keyword arguments; the documented supports as a separate table; cases over the classes. Negations for the classes whose interval is wrong.
* **C50 `binspace` divides an interval, and a `Switch` on its bins has one case per value** - `Interp/Bins.lean` (with exact numbers instead of floats); the cases `S_i & ~S_0 & ... & ~S_{i-1}` computed in closed form by induction, then C31; that the `Switch` returns from `C18_total_basic`, `C22_total_basic`.
* **C51 The recursion limit decides whether an answer is given, not which** - `Spe/DepthLemmas.lean`: every function that takes the bound either raises `recursion` or returns what it returns with a larger one (`Upto`), by composition through the model; `Interp/DepthProps.lean`. The bound counts the nesting of `invert`/`solve`, `substitute` and `dnf_to_disjoint_union` only.
* **C52 Well-scoped programs run** - `Interp/TotalSpec.lean`: rules for programs in the style of a type system (`Runs`); `Spe/ShapeLemmas.lean`: conditioning and simplification keep the shape of SPEs; `Interp/TotLemmas.lean`: induction on the derivation. A program in which only one variable was sampled may fail, because unions at leaves can (`C18_raises`), so there only single comparisons, and `if`/`else` with one half-line or string test, are admitted. The scope also records the variables that are derived from continuous ones by increasing and decreasing expressions (`Scope.curv`); conditions and queries may be conjunctions of comparisons of those (`Scope.Bent`), and an `if`/`else` may test one of them against a number (`Ev.Cut`), provided that sympy solves polynomials of degree one (`Ctx.Linear`).
* **C53 Computing with logarithms gives the probabilities** - `Spe/LogModel.lean`; a refinement (`Ref` in `Spe/LogLemmas.lean`) of the model with probabilities, method by method (`LogProb`, `LogCond`, `LogDens`); then C18, C21, C32, C33. `allclose` is a parameter: exact, or numpy's.
* **C54 A rendering as nested lists shows the SPE** - `Render/Model.lean` (the lists as a tree); injectivity by induction on both SPEs.
* **C55 The graph drawn of an SPE is its tree** - `Render/Graph.lean`: `networkx` graphs as lists of nodes and edges, names from a clock; the invariant `PartOK` (consecutive names, every node but the root has an edge into it, edges go to later names) makes the root the only possible first node of a topological order.
* **C56 Time limits** - `Misc/Timeout.lean`: one alarm per process, as state.
* **C57 A notebook never answers from an outdated model** - `Render/Magics.lean`: induction on the cells.
* **C58 A program that ends in Constrain is the program given the assignment** - C30 for the program, C32 and C33 (exact where the assignment has positive probability, a limit over boxes otherwise) for the last command.
* **C59 `~=` and `switch ... cases` become the Python statements that they stand for** - The regular expression by a backtracking matcher for greedy repetitions; that the first match is the intended one, by showing that all longer repetitions fail.
* **C60 What is asked of a compiled program is answered by the meaning of its source** - C46, C30 and the theorems on prob and condition put together; two programs are compared by the measures that their sources denote, so the reorderings are facts about product measures. What is assumed of a program is said of its statements (`Stmt.SafeL` in Comp/Spec.lean, `Stmt.FitL` in Comp/FitSpec.lean); `compile_safe` shows that the command of the compiled module is then one that C30 covers. `Stmt.GoesL` (Comp/GoesSpec.lean) is the judgement `Runs` of C52 said of the source; with it `C60_total_partial` goes from the source to the answers of the model without assuming that any step succeeds, and `C60_derived_partial` likewise for queries about derived variables (`Comp/GoesDerived.lean` has a source with such a condition).
* **C61 Solving an event about one variable does not raise** - Negation with witnesses. Totality for compositions of roots, exponentials, logarithms and polynomials of degree one, by induction on the composition: the sets passed down stay empty, one number or one interval (`SSet.Flat`), and the ranges are one interval and infinities, so no `&` on the way builds a `Union`. For `abs` of such an expression the interval and its mirror image go down: they are merged into one interval, or are apart, and then the next range keeps both or drops the mirror image (`Pair`, `Fits`). A reciprocal is inverted on the negative and the positive half of the interval, which leaves one or two open intervals for the expression below (`recipInterval_total`). That sympy answers for degree one is the hypothesis `Ctx.Linear`.
* **C62 A command can be interpreted again** - `Interp/AgainModel.lean`: interpretation that returns the object as it is afterwards (the only state is an iterator given to `Switch`); `run_first` shows that the first interpretation is `Cmd.interp`; commands without iterators are shown to be unchanged, by induction on the tree. `Comp/AgainModel.lean`: the objects that compiled modules make; `Prog.runO_plain` shows that they are the commands of `Comp/Model.lean`, and the conditions are said of the source (`Stmt.Again`).

## Disagreements between the code and the expected properties

Each item has a Lean theorem that exhibits it on the model of the code.

Sets (`Verif/Sets/Props.lean`)

* `&` and `|` can lose the atoms `oo`/`-oo` (`C01_and_loses_infinity`, `C02_or_loses_infinity`).
* `~` of a union of strings and numbers is empty (`C03_invert_mixed_wrong`).
* Equal sets may be represented by different unions, which compare unequal (`C04_eq_incomplete`).
* Some well-formed operands make the operators raise (`C05_*_raises`).
* A number is reported to be in a complemented nominal set; a string tested against a real piece raises
  `TypeError`, so the answer depends on the order of the pieces (`C06_*`).

Events (`Verif/Events/Props.lean`)

* `(1/2)**X >= 2` is inverted to `X >= -1`: bases below one flip no end points (`C09_exp_small_base_wrong`).
* `c - X` is `X - c` (`C10_rsub_wrong`).
* `X**(1,1)` is a radical of degree one, undefined for negative `X` (`C10_pow_tuple_one_wrong`).
* A string event on a piecewise expression solves to the empty set (`C08_nominal_piecewise_wrong`).
* A disjunction inverted at zero is where some part is false, not where all are: `EventOr.invert_finite` takes the union whatever the
  value (transforms.py 1105-1107; `C08_invert_zero_or_wrong`), and a conjunction the intersection (`C08_invert_zero_and_wrong`). `solve` inverts at one only.
* A comparison with strings inverted at `FiniteReal(0, 1)` gives no set: the code tests for `FiniteReal(1, 2)` and falls through to
  `None` (`C08_invert_both_strings_wrong`).
* A complemented nominal event on a transformed variable solves to all strings (`C08_complement_wrong`).
* `exp(X) << {0, 1}` raises `AssertionError`: the preimage is `{-oo, 0}`, whose intersection with `ExtReals` is a `Union` of two
  `FiniteReal`s (`C61_exp_set_raises`). So does `1/X << {-1, 1}`, since `Reciprocal.range()` has two intervals
  (`C61_recip_set_raises`).  Even an equation raises: `abs(exp(X) - 1) == 1` (`C61_abs_equation_raises`).
  So does a conjunction of comparisons of `X` itself, `((X <= -1) | (X >= 1)) & (-1 <= X <= 1)`, whose answer {-1, 1}
  is computed as a `Union` of two `FiniteReal`s (`C61_nested_raises`).
* `Logarithm.ffwd` returns a Python set, so `(log(X) << {0}).evaluate({X: 1})` is `False` (`C44_log_wrong`).
* A number evaluates to `True` in a complemented nominal event (`C44_number_in_nominal`).
* At points where an expression is undefined, neither an event nor its negation holds
  (`C07_not_undefined`); this is intended, but it means `~` is a complement only where things are defined.

Normal forms (`Verif/Dnf/Props.lean`)

* `dnf_to_disjoint_union` is only equivalent to its input at assignments that give each variable a value of
  the kind it is compared with: for a variable that can be a number, `X == 'a' | Y == 'b'` loses the points
  where `X` is a number and `Y == 'b'` (`C16_mixed_kinds_wrong`).  The recursion itself ends for every event
  in DNF: each call is on an event whose solved cells are strictly fewer (`C16_terminates`).
* Operators on events can raise.  `~` of an event `X in {}` over strings raises an AssertionError, and `~` of the
  event `X in {all strings}` produces such an event (`C07_not_not_raises`).  For Boolean combinations of `X in S`
  about plain variables with finite numbers (`Ev.Simple`) `&`, `|`, `dnf_normalize` and `dnf_to_disjoint_union` return
  (`C07_total`, `C14_total`, `C16_total`), and `~` does without that event (`C07_not_total`).
* `dnf.py` 112 compares a dictionary with `EmptySet` and is always false (no effect on the results, since the
  other test covers it).

Sum-product expressions (`Verif/Spe/Props.lean`)

* `DiscreteLeaf.logprob_interval__` rounds end points with `int`, which truncates toward zero: for a discrete
  leaf with negative values, `-3/2 < X <= 2` misses the value `-1` (`C17_negative_discrete_wrong`).
* An `AtomicLeaf` gives probability one to `X != 'a'` and a `ContinuousLeaf` gives it probability zero
  (`C18_atomic_string_wrong`).

* Queries can raise on leaves and on mixtures of leaves, where sets are computed with the operators of `sets.py`: `(X <= 0) | (X >= 1)`
  raises an AssertionError for a uniform variable on `[0, 1]` (`C18_raises`).  Products and mixtures of products are immune
  for Boolean combinations of `X in S` about base variables (`C18_total`, `C21_total`, `C22_iff` in `Verif/Spe/TotalProps.lean`),
  and of comparisons of increasing and decreasing expressions such as `exp(2*X) < 4` (`C18_curve_total`, `C21_curve_total`,
  `C22_curve_iff` in `Verif/Spe/CurveProps.lean`, events `Ev.Curved`; `solveset` is assumed right on lines, `Ctx.Linear`).
  A single comparison suffices: for a uniform variable on `[-1, 1]`, `prob(abs(X) >= 1)` raises (`C18_abs_raises`).  A leaf
  whose support is open returns on every event about its symbol that `solve` solves, and one whose support is open at one
  end on those whose solutions have no isolated numbers (`C18_open_total`, `C18_half_open_total`, `C18_abs_total` in
  `Verif/Spe/OpenProps.lean`).  Products and mixtures of products also return on disjunctions of conjunctions of comparisons
  about different variables, where each comparison is solved to a set (perhaps a union) described by finite numbers
  (`C18_solved_total`, `C21_solved_total`, `C22_solved_iff` in `Verif/Spe/SolvedProps.lean`): `dnf_normalize` makes one clause
  of every part of the union, so leaves only see single parts.
  Comparisons of expressions with `abs` with finite sets are of this kind (`C61_known_solved`, `C18_known_total`,
  `C21_known_total` in `Verif/Spe/KnownProps.lean`).
  Every SPE, mixtures of leaves included, is immune for conjunctions of such comparisons, also when the variables are derived
  from the symbols of their leaves by such expressions (`C18_conj_total`, `C21_conj_total`, `C22_conj_iff` in
  `Verif/Spe/DerivProps.lean`).
  Mixtures of atoms and leaves of one variable with open supports are immune for every such event of the variable
  (`C18_mixture_total`, `C18_mixture_solved` in `Verif/Spe/MixOpenProps.lean`).
* A continuous leaf refuses sets with isolated numbers: if `prob` answers with a positive number and the event holds at a
  number of the support but not nearby in the support, `condition` raises an `AssertionError`, e.g. on
  `(X == 0) | (X >= 1)` (`C22_isolated_raises`).  If the support is open and the solution has no isolated numbers in it,
  `condition` returns exactly if the probability is positive (`C21_open_total`, `C22_open_iff`, all in
  `Verif/Spe/OpenCondProps.lean`).

Conditioning and simplification (`Verif/Spe/Wrong.lean`, `Verif/Spe/ContigProps.lean`)

* `SumSPE.condition_mem` selects the children by their own probability and ignores weights zero, so it can
  condition on an event of probability zero (`C22_zero_weight_wrong`).
* `condition` uses `dnf_to_disjoint_union`, so it is wrong for variables that mix numbers and strings
  (`C21_mixed_kinds_wrong`), and likewise where derived variables are undefined.
* `AtomicLeaf.__eq__` and `__hash__` ignore derived variables, so `spe_simplify_sum` merges different leaves
  (`C25_environment_wrong`).
* `partition_list_blocks` compares hashes only, and `hash(-1) == hash(-2)` in CPython, so the atoms `-1` and `-2`
  are merged (`C25_hash_collision_wrong`).
* `RealLeaf.__eq__` and `__hash__` compare the name and the arguments of the scipy distribution. Every distribution made by
  `discrete`, `uniformd` and `rv_discrete` has the name `Distribution` and no arguments, so two leaves with different tables
  are equal. `spe_simplify_sum` merges them (`C25_table_wrong`), so a program that draws a variable from one table or another,
  depending on a condition, is given the wrong distribution (`C29_table_wrong`); `spe_cache_duplicate_subtrees` replaces one
  by the other (`C37_table_wrong`); `spe_to_dict` drops the table and `spe_from_dict` then raises (`C36_table_wrong`). See
  `Verif/Interp/TableProps.lean`. The theorems about `condition`, simplification, programs, caching and serialization exclude
  tables (`Dist.values = []`); queries on SPEs with tables are covered.
* Conditioning a discrete leaf on a finite set that holds a fraction raises `AssertionError`
  (`C43_fraction_raises`).

Log-space helpers and information (`Verif/Misc/LogProps.lean`, `Verif/Spe/InfoProps.lean`)

* `logdiffexp` tests its arguments with `np.isclose`, so the difference of two close but unequal probabilities is
  zero (`C38_logdiffexp_tolerance_wrong`).
* `SumSPE` accepts weights whose sum is within numpy's tolerance of one and does not normalise them, so probabilities can exceed
  one (`C53_unnormalised_wrong`, `Verif/Spe/LogSpeProps.lean`).

Programs (`Verif/Interp/Example.lean`)

* In a `Switch` the case of a string that comes after a case of numbers is lost, because `~` of a set of numbers has no
  strings; the interpretation then fails since the probabilities do not add up to one (`C30_switch_mixed_wrong`).

Rendering and time limits (`Verif/Render/*`, `Verif/Misc/Timeout.lean`)

* `render_nested_lists` does not show the tables of `discrete`, `uniformd`, `rv_discrete` (`C54_table_wrong`). Its branch for
  `DiscreteLeaf` is dead code: discrete leaves are shown as `RealLeaf`.
* The nodes of `render_networkx_graph` are named by the time: two calls of `gensym` at the same reading of the clock merge two nodes
  (`C55_same_time_wrong`), and drawing an SPE around it raises `NetworkXUnfeasible` (`C55_same_time_raises`).
* `timeout` switches off the alarm of its caller: a query that solves a polynomial makes an enclosing time limit void
  (`C56_nested_wrong`).

Hashes of `Piecewise` (`Verif/Interp/PiecewiseProps.lean`)

* `Piecewise.__hash__` hashes a tuple of lists, so it raises `TypeError`. Plain queries do not compute hashes, but a leaf asked
  with a memo does (`C27_piecewise_raises`), and so do `mutual_information` (`C39_piecewise_raises`), `spe_cache_duplicate_subtrees` (`C37_piecewise_raises`), the
  simplification of a mixture of leaves (`C25_piecewise_raises`) and `IfElse` and `Switch` while only one variable was sampled
  (`C52_piecewise_raises`). `Tr.hashable`, `Ev.hashable`, `Spe.hashable` in the model say which objects have a hash.

Memo tables (`Verif/Memo/Props.lean`)

* Tables are indexed by `id(self)` and keep no reference to the node, so a memo that outlives a node answers for it when
  its identity is given to another one (`C27_identity_reuse_wrong`). Allocation is modelled as any function that does
  not give identities of live nodes away (`Alloc.OK`).
* `memo=False` passes the function `event_factor_to_event` in place of the event, and every sum and product raises
  `TypeError` (`C27_memo_false_raises`); `logpdf(a, memo=False)` raises on every node (`C27_memo_false_density_raises`).

Densities (`Verif/Spe/DensityProps.lean`)

* A component of a mixture with weight zero takes part in the choice of the least dimension, so it can hide the other
  components: the density is then zero (`C32_zero_weight_wrong`).
* `NominalLeaf.logpdf__` raises `ValueError` for an outcome of probability zero, which `condition` can produce
  (`C32_nominal_zero_raises`).
* `constrain` drops the derived variables of a leaf (`C33_derived_dropped_wrong`), and then fails for mixtures in which a
  variable is derived in one component only (`C33_mixture_raises`).
* `ProductSPE.constrain` ignores variables that it does not have, for which `logpdf` raises `KeyError`
  (`C33_unknown_ignored_wrong`).
* Atomic leaves have no `logpdf` and no `constrain`, so what `constrain` returns cannot be constrained again at the same
  variables (`C33_atomic_raises`).
* At an end point of the support of a conditioned leaf the density is not the limit for boxes around the point (half of
  the box has no mass); `PdfAt.inner` excludes these points.

Preprocessing (`Verif/Comp/PreProps.lean`)

* `~=` is replaced everywhere, in strings too: the outcome `'a~=b'` becomes `'a=b'` (`C59_string_wrong`).
* The variable of a `switch` reaches to the last `in` before a space of the line, so a value such as `'born in France'`
  breaks the program (`C59_in_wrong`).

Caching (`Verif/Spe/CacheProps.lean`)

* `AtomicLeaf.__eq__` ignores the environment, so `spe_cache_duplicate_subtrees` replaces an atomic leaf by another with
  different derived variables (`C37_environment_wrong`).
* `NominalLeaf.__hash__` depends on the order of the dictionary while `==` does not; equal leaves may hash differently.
  The model leaves hashes of leaves free; the theorems hold for all of them.

Serialization (`Verif/Serial/*`, model of `compilers/spe_to_dict.py` and of the `__repr__` methods; texts are syntax trees)

* The text of the set of all strings is `FiniteNominal(, b=True)`, a `SyntaxError` when it is read back
  (`C36_all_strings_raises`).
* Numbers are read back as `eval(repr(x))`, so a sympy `Rational` comes back as a float; `Host.Keeps` is the hypothesis
  that a number survives.

Sampling (`Verif/Sample/*`; the generator's state is passed explicitly, numpy and scipy are the parameter `Rand`)

* `ProductSPE.sample_subset([], N)`, and `sample_func` with a function of no arguments, return no samples in place of `N`
  (`C34_empty_wrong`, `C34_constant_wrong`).
* The value of a variable derived with a logarithm is a Python set in samples (see `C44_log_wrong`), and piecewise derived
  variables make sampling raise `NotImplementedError`; `C34_*_total` excludes them by `Spe.Everywhere`.
* `SumSPE.sample_many` draws which component each of the `N` samples comes from, but then keeps the samples of each component
  together and only shuffles these blocks. For `N >= 3` the samples of a mixture are not independent: with components that
  are constantly 0 and 1, the sequence 0, 1, 0 never comes (`C35_mixture_wrong`). For `N <= 2`, and for SPEs without mixtures
  and any `N`, they are (`C35_iid_partial`). The assumptions on numpy and scipy are the fields of `Rand.Fair`; they can be
  met for any distributions (`tapeRand_fair`). `Spe.Sampled` asks that derived variables have values almost surely and
  contain no logarithm or piecewise function.
* Up to their order the samples of a mixture are independent draws (`C47_unordered_partial`). But `ProductSPE.sample` puts the
  lists of its factors side by side, so the blocks of two mixtures are matched with each other: the samples of two independent
  variables are dependent. However many samples of two independent bits are drawn in one call, the four values never all occur
  (`C47_never_all`, `C47_product_wrong`).

Compiler (`Verif/Comp/Example.lean`)

* `and`, `or` and `not` of tests are Python's own, and events are true in Python: `a and b` is `b`, `a or b` is `a`, `not a` is
  `False` (`C40_and_wrong`, `C40_or_wrong`, `C40_not_wrong`). The compiler accepts them without an error.
* A chain `0 < X < 1` is `X < 1` (`C40_chain_wrong`).
* The constants of a program are the keys of an `OrderedDict`: an assignment that was made before is not made again, so after
  `a = 1`, `a = 2`, `a = 1` the constant is 2 (`C46_constants_wrong`).
* `==`, `in` and their negations inside the operands of a comparison are not rewritten (`SPPL_Transformer_Compare` does not
  visit the parts of a comparison); `PE.rewrite` models this.
* A branch that writes nothing (`pass` only) shifts the arguments of `IfElse`, which then raises (`C46_pass_wrong`).
* A call of any other function than `condition` and `constrain` is dropped without an error, so that a misspelt
  `conditon(X < 1)` gives the program without the condition (`C46_calls_ignored`, `C46_calls_wrong`).
* The `enumerate` object of a `Switch` can be read once, so a second `command.interpret()` of a module with `switch ... enumerate`
  raises `AssertionError` (`C62_enumerate_raises`, `C62_enumerate_wrong`). Another iterator as the values of a `Switch` raises the first
  time (`C62_iterator_raises`).
* Statements without a visitor method are not rejected: `assert`, `X += 1` and `X: float = norm()` are dropped, and `while T: s` is
  compiled as `s`, once, whatever `T` is (`C46_other_ignored`, `C46_while_once`, `C46_other_wrong`).

* A variable named like the distribution it is drawn from (`uniform ~= uniform()`) is accepted by the compiler, and the module
  raises `TypeError`: the names of variables are bound first (`C46_hidden_wrong`).

`render_sppl` (`Verif/Comp/RenderProps.lean`)

* Atomic leaves raise `AssertionError` (`C48_atomic_wrong`).
* Derived variables are written with `str` of the transform, which is not SPPL: `2*X` is `2(X)`, a call of a number
  (`C48_coefficient_wrong`); `|X|` and `log(X; b)` do not parse (`C48_syntax_wrong`); `1/(1 + X)` is written `1/1 + X` inside
  parentheses and **read as `1 + X` without an error** (`C48_reciprocal_wrong`). `exp(X)`, `ln(X)`, `log2(X)` (`C48_names_wrong`) and indicators use names the
  generated module does not import; a constant polynomial is written as a number, which the compiler asserts against.
* Only keyword arguments of a distribution are written (`C48_arguments_wrong`).
* The branch variables are always `branch_var_0`, ...: an SPE that came from such a program cannot be written and compiled
  again (`C48_twice_wrong`).
* Symbols of arrays (`A[0]`) are not names; the model returns an error there. With `fwidth` probabilities,
  weights and parameters are rounded: 1/3 and 2/3 become 0.3 and 0.7 without a warning (`C48_fwidth_wrong`), and three thirds give
  a source that raises `AssertionError` (`C48_fwidth_raises`).

Distributions (`Verif/Spe/DistWrong.lean`)

* `genlogistic`, `gumbel_l`, `powernorm`, `tukeylambda` get the domain `[loc, oo)` and `loggamma` the domain `(-oo, 0]`, although negative
  (positive) values are possible: events there get probability 0 (`C49_wrong_domain`), e.g. `X < 0` for `gumbel_l()`, which has
  probability `1 - 1/e` (`C49_gumbel_l_wrong`).
* `cosine` gets half of its interval (`C49_cosine_wrong`).
* `hypergeom` only keeps the value `N`, or raises (`C49_hypergeom_wrong`).
* Many classes ignore `loc` (and `scale`) (`C49_loc_ignored`, `C49_moved_wrong`).
* Not proved, but read: `kstwobign` needs a keyword `n`, which scipy's distribution does not accept, so it can never be used; `vonmises` is
  a distribution on the circle in scipy, whose cdf exceeds 1.

Polynomial solver (`Verif/Misc/PolyProps.lean`)

* `solve_poly_inequality_numerically` returns `sympy.EmptySet` (not a set of sppl) when there is no real root, also when the
  inequality holds everywhere: `-1 - X**2 < 0` (`C41_no_root_wrong`).
* A repeated real root makes it raise `AssertionError`, e.g. `X**2 <= 0` (`C41_repeated_root_raises`): `nroots` lists a root as
  often as its multiplicity and `Interval(z, z)` is not allowed.
* With the default `extended=True`, `solve_poly_inequality(-X, oo, True)` lacks the point `oo`, because `Reals | FiniteReal(oo)`
  drops it (`C41_extended_drops_infinity`). `Poly.invert_interval` always passes `extended=False`.
