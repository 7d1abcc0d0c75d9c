{"id": "C01", "title": "Formula evaluation is pointwise correct", "statement": "evaluate(domain, formula, values) on a table returns, in row i, the mathematical truth value / number of the formula at row i; evaluating that row alone (1-d values) and evaluate_assignment on the corresponding mapping return the same value.", "quantifier": "every well-typed formula over the domain, every table of values (any number of rows), every row index", "why_tests_cant": "formulas nest to any depth and tables have any height; tests only try a few formulas and rows", "anchors": ["pywmi/smt_check.py: SmtBatchChecker, SmtSingleChecker, SmtChecker, evaluate, evaluate_single_node, evaluate_assignment", "pywmi/smt_walk.py: SmtWalker.walk_smt"]}
{"id": "C02", "title": "Walker memo tables are invisible", "statement": "A cached walker returns for every formula what the uncached walker would return, whatever formulas were walked before on the same walker object.", "quantifier": "every walker, every finite history of earlier walks, every formula", "why_tests_cant": "the cache content depends on the whole history of calls", "anchors": ["pywmi/smt_walk.py: CachedSmtWalker.walk_smt", "pywmi/smt_check.py: SmtBatchChecker", "pywmi/engines/pyxadd/engine.py: ToXaddWalker.cache_key"]}
{"id": "C03", "title": "Identity walk preserves meaning", "statement": "Rebuilding a formula with the identity walker succeeds on every formula of the supported language and gives a formula with the same value under every assignment.", "quantifier": "every formula, every assignment", "why_tests_cant": "unbounded formula depth and infinitely many assignments", "anchors": ["pywmi/smt_walk.py: SmtIdentityWalker", "pywmi/smt_walk.py: SmtWalker.walk_smt"]}
{"id": "C04", "title": "normalize_formula preserves the described region", "statement": "normalize_formula(f) has the same truth value as f at every assignment at which no (in)equality atom of f holds with equality of its two sides; so the two formulas describe the same region up to boundaries.", "quantifier": "every formula with linear atoms, every assignment off the atom boundaries", "why_tests_cant": "infinitely many assignments and formula shapes; sampling almost never hits degenerate atoms such as x < x", "anchors": ["pywmi/transform/smt_normalize.py: normalize_formula, NormalizationWalker", "pywmi/smt_math.py: LinearInequality"]}
{"id": "C05", "title": "make_coefficients_positive yields non-negative constants", "statement": "The result of make_coefficients_positive contains no negative real constant, leaves a formula without negative constants unchanged in value, and applying it twice equals applying it once.", "quantifier": "every formula in the supported language", "why_tests_cant": "unbounded formula shapes", "anchors": ["pywmi/transform/positive_coefficients.py: make_coefficients_positive, MakeCoefficientsPositive"]}
{"id": "C06", "title": "Polynomial.from_smt is value preserving", "statement": "Polynomial.from_smt(term) succeeds on every polynomial term and the resulting polynomial takes, at every point, the value of the term.", "quantifier": "every term built from constants, symbols, sums, differences, products and natural powers; every point", "why_tests_cant": "term depth, degree and points are unbounded; exponent 0 is a corner case", "anchors": ["pywmi/smt_math.py: Polynomial.from_smt, MathDictConverter"]}
{"id": "C07", "title": "Polynomial arithmetic is pointwise", "statement": "p + q and p * q (q a polynomial or a number) evaluate at every point to the sum and product of the values; addition and multiplication are commutative and associative up to equal dictionaries of non-zero coefficients.", "quantifier": "every pair of polynomials (any number of terms, any degree), every point", "why_tests_cant": "unbounded number of terms and degrees", "anchors": ["pywmi/smt_math.py: Polynomial.__add__, __mul__, dict_plus, dict_times"]}
{"id": "C08", "title": "Polynomial export is value preserving", "statement": "to_smt, to_expression over any sound algebra, and the sum of get_terms all evaluate to the polynomial's value at every point; from_smt(to_smt(p)) has the non-zero coefficients of p.", "quantifier": "every polynomial, every point, every algebra interpreting +,*,constants and symbols soundly", "why_tests_cant": "unbounded polynomials; export and import have to agree on all of them", "anchors": ["pywmi/smt_math.py: Polynomial.to_smt, to_expression, get_terms, from_smt"]}
{"id": "C09", "title": "LinearInequality.from_smt captures the inequality", "statement": "For an inequality l <= r, l < r or its negation with linear sides, LinearInequality.from_smt succeeds and the sign of its linear form at any point is the sign of l - r (reversed for negations); if one side multiplies two non-constant terms that do not cancel, it raises ValueError instead of returning a wrong form.", "quantifier": "every comparison with linear sides, every point; every product of non-constant terms", "why_tests_cant": "infinitely many linear expressions and points", "anchors": ["pywmi/smt_math.py: LinearInequality.from_smt, MathDictConverter.walk_lte, walk_times, walk_not"]}
{"id": "C10", "title": "Rescaling and inverting a LinearInequality keep its half-space", "statement": "normalize() and scale_to_integer() describe the same half-space as the original, inverted() describes the complementary one up to the boundary, scale_to_integer() has integer coefficients with greatest common divisor 1, normalize() has largest absolute coefficient 1.", "quantifier": "every linear inequality with at least one non-zero coefficient, every point", "why_tests_cant": "coefficients and number of variables are unbounded", "anchors": ["pywmi/smt_math.py: LinearInequality.normalize, inverted, scale_to_integer, to_smt"]}
{"id": "C11", "title": "The LattE polytope is the requested region", "statement": "The H-representation rows that the LattE backend writes describe exactly the closure of the conjunction of the given inequalities over the given variables, and the monomial exponents written describe exactly the given polynomial.", "quantifier": "every list of linear inequalities and polynomial over any list of variables, every point", "why_tests_cant": "a sign or column error shows only for some variable orders and coefficients", "anchors": ["pywmi/engines/latte_backend.py: LatteIntegrator.integrate, key_to_exponents"]}
{"id": "C12", "title": "Canonical decisions keep the split", "statement": "Canonicalising a decision-diagram test (possibly swapping its branches) selects, at every point where the two sides of the test differ, the same branch as the original test; canonicalisation is idempotent, and tests that are positive or negative multiples of one another with the same variable order get the same canonical test.", "quantifier": "every linear test, every point off its boundary, every pair of proportional tests", "why_tests_cant": "infinitely many coefficients and points", "anchors": ["pywmi/engines/pyxadd/decision.py: Decision.to_canonical, get_valid_branches, is_canonical"]}
{"id": "C13", "title": "Pool ids are stable, unique and acyclic", "statement": "After any sequence of pool operations: an id returned earlier still denotes the same node, two different ids never denote structurally equal nodes, every child id is smaller than its parent id, and no node has two equal children.", "quantifier": "every finite history of terminal/internal/bool_test/apply/invert/reduce/integrate calls on one Pool", "why_tests_cant": "invariant over all histories", "anchors": ["pywmi/engines/pyxadd/core.py: Pool._register, terminal, internal, bool_test"]}
{"id": "C14", "title": "apply computes the operation pointwise", "statement": "Pool.apply(op, a, b) terminates and returns a diagram whose value at every assignment is the sum / product / conjunction / disjunction of the values of a and b (conjunction and disjunction on 0/1 diagrams).", "quantifier": "every pool reachable by any history, every pair of its nodes, every assignment", "why_tests_cant": "diagrams of unbounded size sharing nodes and caches", "anchors": ["pywmi/engines/pyxadd/core.py: Pool.apply", "pywmi/engines/pyxadd/operation.py: Multiplication, Summation, LogicalAnd, LogicalOr"]}
{"id": "C15", "title": "invert computes 1 - f on 0/1 diagrams", "statement": "Pool.invert(n) returns a 0/1 diagram whose value at every assignment is 1 minus the value of n, for every algebra backend offered by pywmi.", "quantifier": "every reachable pool, every 0/1 diagram in it, every assignment, every backend", "why_tests_cant": "diagrams of unbounded depth; shallow ones take special-case branches", "anchors": ["pywmi/engines/pyxadd/core.py: Pool.invert, _transform_invert", "pywmi/engines/pyxadd/leaf_transform.py", "pywmi/engines/algebraic_backend.py: SympyAlgebra.is_one"]}
{"id": "C16", "title": "Ordered diagrams stay ordered", "statement": "If the tests on every root-to-leaf path of the operands occur in strictly increasing registration order (no repeats), the same holds for the result of apply and invert.", "quantifier": "every reachable pool and ordered operands", "why_tests_cant": "paths grow without bound", "anchors": ["pywmi/engines/pyxadd/core.py: Pool.apply, test_smaller_eq, _add_test"]}
{"id": "C17", "title": "Pool caches never change meanings", "statement": "The meaning of the result of apply, reduce and integrate is the same whether the pool is fresh or was used for any other computations before (engines copied from one another share one pool).", "quantifier": "every finite history of operations on the shared pool before the call", "why_tests_cant": "cache contents depend on the entire history", "anchors": ["pywmi/engines/pyxadd/core.py: DefaultCache, Pool.apply", "pywmi/engines/pyxadd/reduce.py: SmtReduce.reduce", "pywmi/engines/pyxadd/resolve.py: ResolveIntegrator", "pywmi/engines/pyxadd/engine.py: PyXaddEngine.copy"]}
{"id": "C18", "title": "SmtReduce preserves meaning", "statement": "Reducing a diagram gives a diagram with the same value at every assignment, for both the fast and the complete mode, as long as the SMT solver never reports a satisfiable path as unsatisfiable.", "quantifier": "every reachable pool, every node, every assignment, every sound solver", "why_tests_cant": "pruning decisions depend on unboundedly long paths", "anchors": ["pywmi/engines/pyxadd/reduce.py: SmtReduce.reduce, recurse, is_inconsistent"]}
{"id": "C19", "title": "Formula to XADD conversion is exact", "statement": "Converting a support formula or weight function to a diagram gives a diagram whose value is 1/0 for true/false formulas, respectively the weight's value, at every assignment where no atom's sides are equal.", "quantifier": "every supported formula (and/or/not/implies/iff/ite/comparisons/polynomials), every assignment off the boundaries", "why_tests_cant": "unbounded nesting; mode switching between boolean and arithmetic walking", "anchors": ["pywmi/engines/pyxadd/engine.py: ToXaddWalker", "pywmi/smt_walk.py: SmtWalker"]}
{"id": "C20", "title": "Symbolic integration over a real variable is exact", "statement": "integrate(diagram, x) returns a diagram free of x whose value at every assignment of the other variables is the integral over x of the diagram's value, whenever the diagram vanishes outside a bounded range of x.", "quantifier": "every reachable pool, every diagram with polynomial leaves and linear tests, every real variable, every assignment", "why_tests_cant": "the number of interacting bounds on x is unbounded and each pair creates case splits", "anchors": ["pywmi/engines/pyxadd/resolve.py: ResolveIntegrator.integrate, resolve_lb_ub, operator_to_bound"]}
{"id": "C21", "title": "Elimination of a Boolean variable sums both cases", "statement": "integrate(diagram, b) for a Boolean b returns a diagram whose value is the sum of the diagram's values with b true and b false.", "quantifier": "every reachable pool, every diagram, every Boolean variable, every assignment", "why_tests_cant": "holds only if b is tested at most once per path, which depends on how the diagram was built", "anchors": ["pywmi/engines/pyxadd/resolve.py: ResolveIntegrator.resolve_lb_ub"]}
{"id": "C22", "title": "PyXaddEngine computes the weighted model integral", "statement": "PyXaddEngine.compute_volume() returns the sum over all Boolean assignments of the integral over the domain box of weight restricted to support.", "quantifier": "every domain with bounded real variables, every support and polynomial-piecewise weight, every shared pool history", "why_tests_cant": "infinitely many problems; tests compare a handful against sampling with tolerance", "anchors": ["pywmi/engines/pyxadd/engine.py: PyXaddEngine.compute_volume", "pywmi/engines/pyxadd/resolve.py", "pywmi/domain.py: Domain.get_bounds"]}
{"id": "C23", "title": "Query probabilities obey the probability laws", "statement": "For an engine with exact volumes and non-negative weight with positive total: compute_probability(TRUE) = 1, P(q) is in [0,1], P(q) + P(not q) = 1, P(q or r) + P(q and r) = P(q) + P(r); when the total is not positive the answer is None for every query.", "quantifier": "every domain, support, weight, and all queries", "why_tests_cant": "laws relate infinitely many queries", "anchors": ["pywmi/engine.py: Engine.compute_probabilities, compute_probability"]}
{"id": "C24", "title": "Evidence on Booleans conditions the volume", "statement": "with_evidence({b: v}) returns an engine over the remaining variables whose volume equals the volume of the original problem with the constraint b = v added; the order in which evidence is given does not matter; asking for evidence on a real variable is rejected.", "quantifier": "every problem, every set of Boolean evidence", "why_tests_cant": "ranges over all problems and evidence sets", "anchors": ["pywmi/engine.py: Engine.with_evidence"]}
{"id": "C25", "title": "Constraints conjoin and copies do not interfere", "statement": "with_constraint(c) describes the problem whose support is the conjunction; applying two constraints in either order, or one twice, describes the same region; add_bounds adds exactly the box constraint; the original engine is unchanged.", "quantifier": "every engine, every sequence of with_constraint / copy_with calls", "why_tests_cant": "any history of derived engines", "anchors": ["pywmi/engine.py: Engine.with_constraint, copy_with, compute_probabilities"]}
{"id": "C26", "title": "Domain bounds describe the box", "statement": "get_bounds() is true exactly for the assignments with every bounded real variable inside its closed interval; get_bounding_box_volume is the product of the interval lengths, infinite if some bound is missing, and get_volume multiplies it by two per Boolean variable.", "quantifier": "every domain, every assignment", "why_tests_cant": "unbounded number of variables and missing-bound combinations; purely Boolean domains are a corner case", "anchors": ["pywmi/domain.py: Domain.get_bounds, get_bounding_box_volume, get_volume"]}
{"id": "C27", "title": "Domain state round trip", "statement": "Domain.from_state(domain.get_state()) equals the domain: same variable order, types and bounds; make/build keep declaration order with Booleans first; project keeps exactly the requested variables.", "quantifier": "every well-formed domain", "why_tests_cant": "unbounded number of variables and name collisions", "anchors": ["pywmi/domain.py: Domain.get_state, from_state, make, build, project, change_bounds"]}
{"id": "C28", "title": "Nested string round trip", "statement": "nested_to_smt(smt_to_nested(f)) is a formula with the same value as f under every assignment.", "quantifier": "every formula in the exportable language with token-safe names", "why_tests_cant": "unbounded nesting depth and constant values", "anchors": ["pywmi/parse.py: smt_to_nested, nested_to_smt, SmtParser, string_to_ast"]}
{"id": "C29", "title": "Malformed nested strings are rejected", "statement": "nested_to_smt raises an error on every token sequence that is not a complete, balanced expression, rather than returning some formula.", "quantifier": "every token sequence", "why_tests_cant": "infinitely many malformed inputs", "anchors": ["pywmi/parse.py: string_to_ast, tokenized_string_to_ast, ast_to_smt"]}
{"id": "C30", "title": "FileDensity directory round trip", "statement": "Writing a density to a directory and reading it back returns the same domain, support, weight and list of queries in order, whatever was stored in that directory before.", "quantifier": "every density with any number of queries, every earlier content of the directory", "why_tests_cant": "depends on the history of the directory", "anchors": ["pywmi/domain.py: FileDensity.to_file, from_file"]}
{"id": "C31", "title": "Uniform samples lie in the domain", "statement": "sample.uniform returns the requested number of rows; every Boolean column holds 0 or 1, every real entry is inside its interval, and in every one-hot group exactly one column is 1.", "quantifier": "every domain, every sample count, every outcome of the random generator", "why_tests_cant": "must hold for every random outcome", "anchors": ["pywmi/sample.py: uniform"]}
{"id": "C32", "title": "weighted_sample never leaves the list", "statement": "weighted_sample yields exactly n values, all taken from the given list at non-decreasing positions, never from a zero-weight position, and never indexes past the end, for every outcome of the random generator.", "quantifier": "every list of non-negative weights with positive sum, every n, every random outcome", "why_tests_cant": "must hold for every random outcome and list length", "anchors": ["pywmi/sample.py: weighted_sample"]}
{"id": "C33", "title": "positive returns only feasible samples", "statement": "sample.positive either returns the requested number of samples, all satisfying the support, or raises SamplingError after drawing at most max_samples samples; it always terminates, and its outcome is determined by the random generator passed to it.", "quantifier": "every support, every sample count configuration, every random outcome", "why_tests_cant": "loop with data-dependent iteration count", "anchors": ["pywmi/sample.py: positive"]}
{"id": "C34", "title": "Rejection volume is the exact estimator", "statement": "RejectionEngine.compute_volume returns bounding volume / n times the sum of the weights of the samples inside the support (0 if none is inside), so it is non-negative for non-negative weights and additive over disjoint supports on the same samples.", "quantifier": "every domain, support, weight, and every sample table", "why_tests_cant": "must hold for every sample outcome", "anchors": ["pywmi/engines/rejection.py: RejectionEngine.compute_volume, RejectionIntegrator"]}
{"id": "C35", "title": "Rejection probabilities are consistent", "statement": "For fixed samples compute_probabilities returns None for all queries when the accepted weight is zero, otherwise values in [0,1] with P(q) + P(not q) = 1 and P(TRUE) = 1, and P(q) <= P(r) when q implies r.", "quantifier": "every support, non-negative weight, list of queries, every sample table", "why_tests_cant": "must hold for every sample outcome", "anchors": ["pywmi/engines/rejection.py: RejectionEngine.compute_probabilities"]}
{"id": "C36", "title": "Adaptive rejection tree partitions the box", "statement": "Whatever splits are chosen, the leaf boxes of the adaptive tree cover the domain box and overlap only on boundaries, leaf volumes add up to the box volume, and the reported volume lies between 0 and the volume of the domain.", "quantifier": "every sequence of samples and split choices, every domain", "why_tests_cant": "tree shape is data dependent and unbounded", "anchors": ["pywmi/engines/adaptive_rejection.py: TreeBuilder.build_tree, Node.get_volume"]}
{"id": "C37", "title": "Adaptive rejection asks its oracle about the right region", "statement": "Each time the SMT oracle is asked for a point of a tree cell, the constraints on its stack are the support and exactly the splits on the path from the root to that cell.", "quantifier": "every tree shape and every cell", "why_tests_cant": "stack contents depend on the whole recursion history", "anchors": ["pywmi/engines/adaptive_rejection.py: TreeBuilder.build_tree, Oracle.add_split, remove_last_split"]}
{"id": "C38", "title": "Adaptive rejection probability depends on the query", "statement": "AdaptiveRejection.compute_probability(q) is the estimated volume of support-and-q divided by the estimated volume of the support.", "quantifier": "every tree, every query", "why_tests_cant": "all queries and trees", "anchors": ["pywmi/engines/adaptive_rejection.py: AdaptiveRejection.compute_probability, Node.get_volume"]}
{"id": "C39", "title": "SDD traversal computes the weighted model count", "statement": "amc over an SDD with the WMC semiring returns the sum over all assignments satisfying the SDD of the product of literal weights, for weights with w(not x) = 1 - w(x), whether or not the SDD is smooth.", "quantifier": "every well-formed SDD over any vtree, every weight function", "why_tests_cant": "unbounded SDD size and sharing", "anchors": ["pywmi/engines/xsdd/semiring.py: amc, WMCSemiring, walk"]}
{"id": "C40", "title": "SDD compilation and recovery preserve the formula", "statement": "compile_to_sdd gives an SDD with the models of the abstracted formula, and recover_formula of that SDD is equivalent to the original formula at every assignment off the atom boundaries.", "quantifier": "every formula, every vtree, every assignment", "why_tests_cant": "unbounded formulas and assignments", "anchors": ["pywmi/engines/xsdd/smt_to_sdd.py: SddConversionWalker, compile_to_sdd, recover_formula, PySmtConversion"]}
{"id": "C41", "title": "Convex regions split the support without overlap", "statement": "The list of (region, booleans) pairs computed by the convex XSDD engine covers every satisfying assignment exactly once: at every real point the number of satisfying Boolean assignments is the sum of 2^(unmentioned Booleans) over the listed regions containing the point.", "quantifier": "every SDD of a support, every real point", "why_tests_cant": "unbounded SDDs and infinitely many points", "anchors": ["pywmi/engines/xsdd/engine.py: ConvexWMISemiring, XsddEngine.compute_volume_for_piece"]}
{"id": "C42", "title": "The non-convex XSDD count weighs Booleans correctly", "statement": "The (expression, booleans) pair computed by the non-convex XSDD semiring satisfies: expression times 2^(unmentioned Booleans) is the number of satisfying Boolean assignments at every real point.", "quantifier": "every SDD of a support, every real point", "why_tests_cant": "depends on which Booleans the branches of unboundedly many decision nodes mention", "anchors": ["pywmi/engines/xsdd/engine.py: NonConvexWMISemiring.plus, times"]}
{"id": "C43", "title": "Literal extraction is a faithful abstraction", "statement": "extract_and_replace_literals replaces every atom by a Boolean such that re-inserting the recorded atoms gives a formula with the truth value of the original off the boundaries; equal atoms share one Boolean and every Boolean variable and atom of the formula is recorded.", "quantifier": "every formula, every assignment", "why_tests_cant": "unbounded formula shapes and repeated atoms", "anchors": ["pywmi/engines/xsdd/literals.py: extract_and_replace_literals, LiteralInfo"]}
{"id": "C44", "title": "Literal numbering is a bijection at all times", "statement": "After any sequence of additions, updates and removals the numbering of literals and its inverse are inverse maps; numbering a LiteralInfo numbers its literals 1..n without gaps.", "quantifier": "every sequence of dictionary updates, every LiteralInfo", "why_tests_cant": "invariant over all histories", "anchors": ["pywmi/engines/xsdd/literals.py: InverseDictDelegate, LiteralInfo"]}
{"id": "C45", "title": "Piecewise function arithmetic is pointwise", "statement": "The value of f + g, f * g, -f, f.condition(c) and ite(c, f, g) at every assignment is the sum, product, negation, restriction and case distinction of the values of f and g.", "quantifier": "every pair of piecewise functions produced by any sequence of these operations, every assignment", "why_tests_cant": "number of pieces grows without bound and merging depends on equal expressions", "anchors": ["pywmi/engines/xsdd/piecewise.py: PiecewiseFunction.__add__, __mul__, __neg__, condition, ite, _addpiece2pieces"]}
{"id": "C46", "title": "Splitting a weight into pieces preserves it", "statement": "Converting a weight function to a piecewise polynomial and adding up, at an assignment, the polynomials of the pieces whose support holds gives the weight's value.", "quantifier": "every weight function, every assignment", "why_tests_cant": "unbounded nesting of ite, products and sums", "anchors": ["pywmi/engines/xsdd/piecewise.py: PiecewiseFunctionConverter, split_up_function"]}
{"id": "C47", "title": "Boolean label extraction preserves the weight", "statement": "extract_labels_and_weight splits a weight into Boolean label factors and a rest whose product is the original weight at every assignment.", "quantifier": "every product weight, every assignment", "why_tests_cant": "unbounded products and repeated labels", "anchors": ["pywmi/engines/xsdd/smt_to_sdd.py: extract_labels_and_weight"]}
{"id": "C48", "title": "Variable groups factorise the weight", "statement": "get_variable_groups_poly splits a monomial weight into factors over pairwise disjoint groups that together contain every real variable and whose product is the weight.", "quantifier": "every monomial/polynomial term, every list of variables, every point", "why_tests_cant": "unbounded number of variables", "anchors": ["pywmi/engines/xsdd/engine.py: get_variable_groups_poly", "pywmi/engines/xsdd/engine_factorized.py"]}
{"id": "C49", "title": "Factorised integration agrees with plain integration", "statement": "Integrating group by group along the SDD gives the same volume as integrating all variables at the root.", "quantifier": "every SDD, every variable tagging, every factorised weight", "why_tests_cant": "order of elimination depends on unbounded SDD structure", "anchors": ["pywmi/engines/xsdd/engine_factorized.py: FactorizedIntegrator, VariableTagAnalysis"]}
{"id": "C50", "title": "Vtree builders use every literal exactly once", "statement": "The balanced, right-linear and left-linear vtrees over a list of literals have exactly these literals as leaves, each once and (for balanced) in order.", "quantifier": "every non-empty list of literals", "why_tests_cant": "unbounded list length", "anchors": ["pywmi/engines/xsdd/vtrees/vtree.py: Vtree.create_balanced, rightlinear, leftlinear, all_leaves, count"]}
{"id": "C51", "title": "The bami vtree is total and complete", "statement": "The bami heuristic never fails an internal assertion and returns a vtree whose leaves are exactly the literals of the problem, each once, for every set of literals and their variables.", "quantifier": "every literal table, every elimination order", "why_tests_cant": "assertions depend on graph structure of arbitrary size", "anchors": ["pywmi/engines/xsdd/vtrees/int_tree.py: IntTree.create_vtree, IntTreeFactory", "pywmi/engines/xsdd/vtrees/vtree.py: bami"]}
{"id": "C52", "title": "Primal graph elimination keeps a simple graph", "statement": "Along any elimination sequence the primal graph stays symmetric and loop free, eliminating a vertex connects exactly its neighbours pairwise, and looking ahead for the lowest future fill leaves the graph unchanged.", "quantifier": "every graph, every elimination sequence", "why_tests_cant": "invariant over all sequences", "anchors": ["pywmi/engines/xsdd/vtrees/primal.py: PrimalGraph"]}
{"id": "C53", "title": "Diagram walks visit children first and exactly once", "statement": "The bottom-up walk over a diagram visits every reachable node exactly once, after its children, and the message of the root is returned.", "quantifier": "every diagram", "why_tests_cant": "unbounded sharing patterns", "anchors": ["pywmi/engines/pyxadd/walk.py: WalkingProfile, BottomUpWalker, ParentsWalker"]}
{"id": "C54", "title": "Command-line engine options are decoded as documented", "statement": "Each documented option of an engine description string sets exactly the corresponding engine setting, independently of the other options and their order; volume computation falls back to the first engine that gives an answer.", "quantifier": "every list of option strings, every list of engines", "why_tests_cant": "prefix matching makes options capture one another for some combinations only", "anchors": ["pywmi/__main__.py: parse_options, get_volume"]}
{"id": "C55", "title": "Temporary files are removed on every path", "statement": "A temporary file opened with the pywmi helper no longer exists after the with-block, whether the block or the preparation of the file finished normally or raised.", "quantifier": "every crash point in the callback and the block", "why_tests_cant": "quantifies over every crash point", "anchors": ["pywmi/temp.py: TemporaryFile"]}
{"id": "C56", "title": "Multimap views agree", "statement": "A multimap's flattened items, values and length agree with the pairs added to it, and flattening fails exactly when some key has not exactly one value.", "quantifier": "every sequence of additions", "why_tests_cant": "invariant over all histories", "anchors": ["pywmi/multimap.py"]}
{"id": "C57", "title": "XSDD convex engine computes the weighted model integral", "statement": "With an exact convex integrator, the convex XSDD engine returns the weighted model integral of support and weight.", "quantifier": "every problem with linear atoms and piecewise polynomial weight", "why_tests_cant": "infinitely many problems", "anchors": ["pywmi/engines/xsdd/engine.py: XsddEngine.compute_volume"]}
{"id": "C58", "title": "Algebra shortcuts are sound", "statement": "times, plus, power, negate and the comparison builders of the algebra backends take at every point the value of the mathematical operation, including the shortcuts for 0 and 1.", "quantifier": "every pair of expressions, every exponent, every point", "why_tests_cant": "all expressions and exponents", "anchors": ["pywmi/engines/algebraic_backend.py: AlgebraBackend.times, plus, power, negate, greater_than, less_than_equal"]}
{"id": "C59", "title": "Density state round trip", "statement": "Density.from_state(d.get_state()) has the same domain (variables, types, bounds) as d, and its support, weight and queries have the same value as those of d under every assignment.", "quantifier": "every density over every domain, every support, weight and query formula, every assignment", "why_tests_cant": "formulas nest to any depth and every printed operator must be read back", "anchors": ["pywmi/domain.py:Density.get_state", "pywmi/domain.py:Density.from_state", "pywmi/parse.py:smt_to_nested", "pywmi/parse.py:nested_to_smt"]}
{"id": "C60", "title": "Literal tables and their inverse stay linked", "statement": "After any additions, updates, deletions and clears through a LiteralInfo's dictionaries, the literal table is exactly the inverse of the Boolean and abstraction dictionaries: every literal stands for one key and every key has one literal.", "quantifier": "every LiteralInfo, every sequence of updates", "why_tests_cant": "invariant over all histories, including failing updates", "anchors": ["pywmi/engines/xsdd/literals.py: InverseDictDelegate.__setitem__, __delitem__, clear, LiteralInfo"]}
{"id": "C61", "title": "Pruning keeps the support", "statement": "An engine created with find_conflicts conjoins to the support only formulas that hold everywhere, so the volume is the same as without pruning whenever no exception is raised.", "quantifier": "every support and weight, every order in which inequalities are listed, every sound solver", "why_tests_cant": "the set of inequalities and the answers of the solver range over infinitely many problems", "anchors": ["pywmi/engines/xsdd/engine.py: BaseXsddEngine.collect_conflicts, compute_volume", "pywmi/smt_math.py: BoundsWalker, implies"]}
{"id": "C62", "title": "The default score of a split measures that split", "statement": "When adaptive rejection scores a candidate split of a variable at a value with its default information gain, the score depends on how many positive and negative samples fall on each side of that split of that variable.", "quantifier": "every domain (any order of Boolean and real variables), every sample, every split", "why_tests_cant": "the column used depends on the order of the variables; a test domain with the reals first does not show the difference", "anchors": ["pywmi/engines/adaptive_rejection.py: information_gain, find_best_split"]}
{"id": "C63", "title": "Adaptive rejection's volume counts Boolean assignments", "statement": "For a support that holds everywhere and no weight, the volume adaptive rejection reports is the volume of the domain (the box times two to the number of Boolean variables), whatever tree was built.", "quantifier": "every domain, every random choice, every stopping criterion", "why_tests_cant": "the tree and the samples are random and domains mix any number of Booleans and reals", "anchors": ["pywmi/engines/adaptive_rejection.py: AdaptiveRejection.compute_volume, Tree, Bounds.volume"]}
{"id": "C64", "title": "XSDD engine without a convex back-end computes the weighted model integral", "statement": "Without a convex back-end, compute_volume of the XSDD engine returns the weighted model integral of support and weight: the expression integrated over all real variables, times two for each Boolean variable the diagram does not mention.", "quantifier": "all domains with a real variable, supports and weights over linear comparisons, all vtrees, set orders and exact symbolic integrators, with and without the domain bounds", "why_tests_cant": "the diagram, its smoothing and the split of the weight depend on the whole formula and on library orders; a finite set of problems does not cover the shapes where smoothing matters", "anchors": ["pywmi/engines/xsdd/engine.py: XsddEngine.compute_volume_from_pieces, NonConvexWMISemiring", "pywmi/engines/algebraic_backend.py: IntegratorAndAlgebra.integrate"]}
{"id": "C65", "title": "The algebra of diagrams computes pointwise", "statement": "Every value of PyXaddAlgebra stands for a function of the assignment, and its operations compute on these functions: times, plus, negate and power (natural exponents) at every assignment, symbols, numbers and polynomials exactly, parse_condition and inequalities as indicators wherever the two sides differ, integrate as the integral over real variables of functions that vanish outside a box and as the sum over Boolean variables, to_float as the number. Comparisons raise NotImplementedError, other exponents ValueError. Values made before keep their functions.", "quantifier": "every pool that any history of calls can produce, all operands, both settings of the reduction, every sound simplifier and solver", "why_tests_cant": "results are ids in a shared pool that grows with every call and is rewritten by reduction and caches; tests see a few pools", "anchors": ["pywmi/engines/pyxadd/algebra.py: PyXaddAlgebra", "pywmi/engines/algebraic_backend.py: AlgebraBackend", "pywmi/smt_math.py: Polynomial.to_expression, LinearInequality.to_expression"]}
{"id": "C66", "title": "XSDD engine over a pool of diagrams computes the weighted model integral", "statement": "XsddEngine with PyXaddAlgebra and no convex back-end, the default without PSI, returns the weighted model integral of its support and weight; asking several questions on one engine or on engines that share the algebra gives each time the answer of a fresh engine.", "quantifier": "every pool that any history can produce, every list of queries, all domains, supports and weights over linear comparisons, with and without the domain bounds, both settings of the reduction", "why_tests_cant": "the order of the tests in the pool and its caches depend on everything asked before", "anchors": ["pywmi/engines/xsdd/engine.py: XsddEngine.compute_volume, compute_volume_from_pieces, NonConvexWMISemiring", "pywmi/engines/pyxadd/algebra.py: PyXaddAlgebra"]}
{"id": "C67", "title": "The sampling tree stops where it was told to", "statement": "build_tree with a depth limit or a positive volume limit ends; no branch is deeper than the depth limit, no cell at or below the volume limit or above the ratio limit is split, every cell above all limits that is not empty is split, so a leaf that still holds volume meets a limit; the tree has at most 2^max_depth leaves.", "quantifier": "all domains, supports, limits and answers of the oracles", "why_tests_cant": "the shape of the tree depends on every split decision; an off-by-one in a limit shows only on particular supports", "anchors": ["pywmi/engines/adaptive_rejection.py: make_stop_criterion, build_tree"]}
{"id": "C68", "title": "Nested text is read as it says", "statement": "A text in the nested prefix notation, in any layout of white space, is read as the formula with the mathematical meaning of its operators (ite, ~, &, |, *, +, -, ^ with natural exponents, <=, >=, <, >, =, constants and typed variables); in the combined format the first part is the support and the product of the others the weight.", "quantifier": "all texts of the language, all assignments", "why_tests_cant": "texts nest to any depth; the printer never writes some operators, so round trips do not exercise them", "anchors": ["pywmi/parse.py: SmtParser.ast_to_smt, nested_to_smt, combined_nested_to_wmi"]}
{"id": "C69", "title": "An SMT-LIB file that is read means what it says", "statement": "If the SMT-LIB reader returns, and the operators + * and or have at least two arguments as the standard demands, then the support is true exactly where all asserted terms are true, the weight is the value of the only weight command (one if there is none), the queries have the values of their terms in order, the variables are the given ones followed by the declared ones, each once and with its sort, and every command of the file was a declaration, an assertion, the weight or a query: nothing is skipped.", "quantifier": "all scripts, all given variables, all assignments", "why_tests_cant": "terms nest to any depth and the reader rewrites the dictionaries of variables in place, so the reading of a term depends on all terms before it", "anchors": ["pywmi/parser/smtlib/visitor.py: Visitor", "pywmi/parser/smtlib/smtlibParser.py: SmtlibParser.parse"]}
{"id": "C70", "title": "Well-formed SMT-LIB files over Booleans and reals are read", "statement": "Every script that declares each name once and before its use with sort Bool or Real, asserts and queries Boolean terms, has at most one weight, a number, mixes integer literals and reals only where a real is among the first two arguments, and does not divide by the literal zero, is read without an error, and the result has the meaning of C69.", "quantifier": "all such scripts", "why_tests_cant": "acceptance must hold for every nesting of the operators and every order of commands", "anchors": ["pywmi/parser/smtlib/visitor.py: visitTerm, visitCommand, _cast", "pywmi/parser/smtlib/smtlibParser.py: SmtlibParser.parse"]}
{"id": "C71", "title": "A MiniZinc file that is read means what it says", "statement": "If the MiniZinc reader returns, with included files read as if their text stood in the file, then every constraint has a truth value, the support is true exactly where all constraints and all equations of declared variables with a value hold, the weight is the product of the weight given by the caller and the weights of the file, the queries have the values of their expressions in order, and the domain is made of the given variables followed by the declared ones, with the stated types, and with the values of the endpoints of a range as bounds.", "quantifier": "all files with any nesting of expressions and included files, all given variables and weights, all assignments", "why_tests_cant": "expressions and included files nest to any depth, and each included file is read by a fresh visitor that shares some of its state with the outer one", "anchors": ["pywmi/parser/minizinc/visitor.py: Visitor", "pywmi/parser/minizinc/minizincParser.py: MinizincParser.parse"]}
{"id": "C72", "title": "Well-formed MiniZinc files without includes are read, and only well-typed expressions are", "statement": "Every file without includes that declares each name once, uses no name without a value, has types that fit (with = and == between Booleans and != between numbers only), parameters that depend on no decision variable, ranges between literals, at most one weight and no divisor that may be the constant zero is read without an error, and as what it means (C71); a constraint, query or weight without a type is an error.", "quantifier": "all such files, all given real and Boolean variables", "why_tests_cant": "acceptance must hold for every nesting of the operators and every order of items", "anchors": ["pywmi/parser/minizinc/visitor.py: visitExpr, visitVar_decl_item, visitAssign_item, _cast", "pywmi/parser/minizinc/minizincParser.py: MinizincParser.parse"]}
{"id": "C73", "title": "MiniZinc expressions without brackets are grouped by a fixed precedence, arithmetic as usual", "statement": "The grammar rule for expressions turns every sequence of operands and operators into exactly one tree with the same text, in which every operator has on its left only operators that bind at least as tightly and on its right only tighter ones; sums, differences, products and quotients have the value of the usual convention, and the term that is read has it.", "quantifier": "all sequences of operands and operators, all assignments", "why_tests_cant": "sequences have any length and any mixture of seventeen operators, each with a level of its own", "anchors": ["pywmi/parser/minizinc/minizinc.g4: expr", "pywmi/parser/minizinc/visitor.py: visitExpr"]}
{"id": "C74", "title": "Printed formulas say what the formula says", "statement": "pretty_print succeeds on every formula with linear comparisons, and a reader who applies the usual precedences reads the printed text as a formula with the same truth value, or a weight with the same value, at every assignment.", "quantifier": "all formulas and weights whose comparisons are linear, all assignments", "why_tests_cant": "formulas nest to any depth; the printed text leaves out brackets, drops zeros and ones, moves signs and reorders factors, so agreement depends on every combination of parent and child", "anchors": ["pywmi/smt_print.py: PrintWalker, pretty_print"]}
{"id": "C75", "title": "Engines with an external solver ask about the right region and report its answer", "statement": "compute_volume of the engines that call an external solver hands it the support restricted to the box of the domain (when bounds are added) and returns the number the solver reports: for the XADD engine the second number of the first result line, whatever else is printed around it, as the exact number written; None only when the solver failed, took too long or printed no result. Probabilities are the ratios of such volumes.", "quantifier": "all domains, supports, weights, queries, time limits, modes, and all outputs of the solver", "why_tests_cant": "the output is arbitrary text around the results, and the solver may print any number of lines, fail or time out at any call", "anchors": ["pywmi/engines/xadd.py: XaddEngine.call_wmi, compute_volume, normalize", "pywmi/engines/praise.py: PraiseEngine", "pywmi/engines/mpwmi.py: MPWMIEngine", "pywmi/engines/pa.py: PredicateAbstractionEngine", "pywmi/engine.py: Engine.compute_probabilities"]}
{"id": "C76", "title": "Imported problems are the problems the files describe", "statement": "Import.import_density turns a file of each supported dialect into the problem it describes: the domain has exactly the variables that the file (or its name) declares, with the stated bounds, support, weight and queries have the meaning of the file, and depend only on variables of the domain. Unknown dialects and names without numbers are refused.", "quantifier": "all files of every dialect, all orders in which Python goes through a set, all assignments", "why_tests_cant": "files declare any number of variables in any order and nest terms to any depth; the order of sets changes from run to run", "anchors": ["pywmi/convert.py: Import.import_density, import_smt, import_mzn, import_wmi_generate_tree, import_wmi_generate_100, import_xadd_mspn, import_wmi_mspn, import_smt_synthetic", "pywmi/domain.py: Domain.make"]}
{"id": "C77", "title": "The comparison of engines reports what the engines answered", "statement": "The task `compare` prints one row per engine, in the order asked for, with the engine's own answer and time; it warns exactly when two exact engines gave different answers (relative difference above 0.00001), and, when the exact engines agree on an answer other than 0, the error of a row is its distance to that answer relative to it and the relative time of a row is its time divided by that of the fastest exact engine. It raises only what an engine raised.", "quantifier": "all lists of engines, all answers (including none and exceptions), all times, all query indices", "why_tests_cant": "the report depends on every combination of exact and sampling engines, missing answers and their order; a handful of runs does not show that warnings are complete or that they name the engines that differ", "anchors": ["pywmi/__main__.py: compare, main (tasks prob, normalize, compare)", "pywmi/engine.py: Engine.normalize"]}
{"id": "C78", "title": "Convex integration back-ends return the integral of the polynomial over the region", "statement": "LatteIntegrator.integrate writes files that describe exactly the region and the polynomial it was asked for, and returns the fraction that LattE prints; with a LattE that is right on the files it accepts, a returned number is the integral. EngineConvexIntegrationBackend (an engine used as convex back-end) asks the engine for a problem with exactly that integral. XSDD with either back-end returns nothing but the weighted model integral, and with a right engine it returns it for every weight that is not zero everywhere.", "quantifier": "all domains with finite boxes, all linear regions, all polynomials, all texts printed by LattE, all supports and weights accepted by XSDD", "why_tests_cant": "rows, monomials and printed digits are of any number and size, the region may be empty or unbounded, and the answer is found by a regular expression in arbitrary output; tests run a few polytopes only", "anchors": ["pywmi/engines/latte_backend.py: LatteIntegrator", "pywmi/engines/convex_integrator.py: EngineConvexIntegrationBackend", "pywmi/engines/xsdd/engine.py: integrate_convex, compute_volume_from_pieces"]}
{"id": "C79", "title": "The rejection engine estimates the weighted model integral", "statement": "With a generator of independent uniform numbers, RejectionEngine.compute_volume with any positive number of samples never fails and its expected value is the weighted model integral of the problem over the box of its domain. Its mean square error is (size of the box times the integral of the squared weight, minus the square of the integral) divided by the number of samples. With probability one, compute_volume converges to that integral as the number of samples grows, and every answer of compute_probabilities is eventually a number and converges to the ratio of the two integrals, if the integral of the support is positive.", "quantifier": "all domains with finite boxes, all well-typed supports, weights and queries over the domain, all numbers of samples, all generators whose numbers are independent and uniform", "why_tests_cant": "expectation and almost sure convergence are statements about all random streams and unboundedly many samples; a test sees one seed and must accept a tolerance", "anchors": ["pywmi/engines/rejection.py: RejectionEngine.compute_volume, compute_probabilities", "pywmi/sample.py: uniform"]}
{"id": "C80", "title": "The sampling back-end integrates polynomials over convex regions", "statement": "RejectionIntegrator.integrate without bounding box never fails on a non-zero polynomial and linear inequalities, and its expected value is the integral of the polynomial over the part of the region in the box of the domain; with probability one it converges to it as the number of samples grows. With bounding_box=1 its expected value and limit are the integral over the part of the region without negative coordinates, so they are the integral over the region if that has none. With bounding_box=2 and two or more accepted samples, the sampled box is the range of these samples enlarged by the deviation on both sides and the expected value is the integral over the part of the region in it. Any larger bounding_box is a ValueError.", "quantifier": "all domains of real variables, all lists of linear inequalities, all polynomials, all numbers of samples, all generators whose numbers are independent and uniform, all linear-program solvers that find a minimum where there is one", "why_tests_cant": "expectation and almost sure convergence range over all random streams; a test has one seed and a tolerance, and the regions on which the box is wrong are found only by looking at all of them", "anchors": ["pywmi/engines/rejection.py: RejectionIntegrator.integrate", "pywmi/engines/convex_integrator.py: ConvexIntegrationBackend"]}
{"id": "C81", "title": "Numbers survive the PSI back-end", "statement": "The text given to PSI for a constant denotes that constant. PsiPolynomialAlgebra.to_float returns PSI's own number if there is one; else, for a fraction between 10^-230 and 10^230 in absolute value, it returns a number with relative error at most 10^-17, and exactly the fraction if its numerator and denominator have at most 250 characters; in general the relative error is at most 10^(g-248) where g is the difference of the two lengths, if that is at most 248.", "quantifier": "all rational constants and all rational values that are not whole numbers", "why_tests_cant": "the cut depends on the lengths of numerator and denominator, which are unbounded; tests only meet values PSI converts itself", "anchors": ["pywmi/engines/algebraic_backend.py: PsiPolynomialAlgebra.to_float, PsiPolynomialAlgebra.real, PsiPiecewisePolynomialAlgebra.real"]}
{"id": "C82", "title": "Walks over decision diagrams reach every node in the right way", "statement": "TopDownWalker visits every node of a diagram once, after all its parents, and hands it exactly the messages its parents sent to it, whatever order python's set.pop uses; the messages are the same up to their order. DownUpWalker returns the value defined by its methods along the diagram, the message cache does not change it, and with the cache each pair of node and message is visited once. walk_leaves and map_leaves call the function once for every leaf.", "quantifier": "all histories of the pool, all diagrams in it, all visitors without side effects on the pool, all orders in which sets are popped", "why_tests_cant": "the order in which a set is popped is not specified, and diagrams have unboundedly many shapes of sharing", "anchors": ["pywmi/engines/pyxadd/walk.py: TopDownWalker, DownUpWalker, walk_leaves, map_leaves"]}
{"id": "C83", "title": "Operators on diagrams compute pointwise", "statement": "An expression built from diagrams of one pool with +, *, |, & and ~ returns a diagram of this pool whose value at every assignment is the sum, product, maximum, minimum or complement of the values of its operands; the operands and other pools do not change. Operands that are no diagrams give a TypeError, diagrams of different pools a RuntimeError.", "quantifier": "all histories of all pools, all diagrams, all expressions of any depth (|, & and ~ on 0/1 diagrams)", "why_tests_cant": "expressions nest without bound and share cached results of earlier operations", "anchors": ["pywmi/engines/pyxadd/core.py: Diagram.__add__, Diagram.__sub__, Diagram.__mul__, Diagram.__or__, Diagram.__and__, Diagram.__invert__, Diagram.evaluate"]}
{"id": "C84", "title": "Plots show the formula and the data", "statement": "A plot of a formula and data has exactly one panel per assignment of the Boolean variables, in the cell numbered by the assignment. With two real variables the region of a panel is, up to area 0, the set of points of the box that satisfy the formula under the assignment. Every row of the data with Boolean values 0 or 1 for which the condition holds is drawn exactly once in the whole figure, in the panel of its Boolean values, at the values of the chosen features, in the style of its label and status; the axes have the bounds of the features.", "quantifier": "all domains, formulas of linear comparisons, data as arrays or dictionaries, features, conditions, active sets and numbers of Boolean variables", "why_tests_cant": "pictures are not compared by tests; the number of panels grows exponentially with the Boolean variables, formulas nest without bound", "anchors": ["pywmi/plot.py: RegionBuilder, plot_formula, plot_combined"]}
{"id": "C85", "title": "Integration back-ends compute iterated integrals", "statement": "Integrating a polynomial over a list of variables with polynomial bounds returns an expression whose value at every point is the iterated integral, first variable innermost, signed if bounds are in the wrong order; a variable without bounds is a KeyError. The back-end that multiplies with indicators of the bounds and integrates over the whole line returns the same, if the variables are distinct and the bounds nested and in order. With numbers as bounds the order of the variables does not matter.", "quantifier": "all polynomials, lists of variables of every length, bounds that are polynomials in any variables, points and libraries that meet their laws", "why_tests_cant": "degree, number of variables and bounds are unbounded; tests compare floats at few points", "anchors": ["pywmi/engines/algebraic_backend.py: IntegrationBackend.integrate_poly, SympyAlgebra.integrate_poly, SympyAlgebra.integrate_single, PsiPiecewisePolynomialAlgebra.integrate, PsiPolynomialAlgebra.integrate_poly"]}
{"id": "C86", "title": "Smoothing counts every variable of the vtree", "statement": "With smoothing the iterator expects at every vtree node exactly the variables below it, and tells the function for every element which of them prime and sub cover, so that a weighted model counter written against the documented interface returns, for arbitrary weights of literals, the sum over all assignments of the variables of the vtree that satisfy the diagram. amc returns the same value with and without smoothing.", "quantifier": "all vtrees, diagrams over them, weights in every commutative ring and depths, with shared nodes visited once", "why_tests_cant": "the number of assignments is exponential, vtrees and diagrams nest without bound and missing variables appear at any depth", "anchors": ["pywmi/engines/xsdd/sdd_iterator.py: SddIterator", "pywmi/engines/xsdd/semiring.py: amc, walk, walk_callback"]}
{"id": "C87", "title": "Drawings of XSDD diagrams say what the diagrams say", "statement": "sdd_to_dot declares every vertex number once and draws edges only between declared vertices, without cycles. A non-empty drawing has one top vertex, and reading the drawing from the labels upwards, at any values of the variables, gives the top the truth value of the diagram, for every combination of draw_false and draw_single_or; an empty drawing occurs only without draw_false for a diagram that is false everywhere. With draw_false every node of the diagram is drawn exactly once, with one edge per element, and every element has edges to its prime and its sub. Without draw_false no false node is drawn, and without draw_single_or in addition every drawn decision node has at least two edges. Annotations appear at the vertices and edges they were given for.", "quantifier": "all diagrams with shared nodes, tables of literals, annotations, options and assignments", "why_tests_cant": "diagrams nest and share nodes without bound, and a left-out or merged vertex changes the meaning only at some assignments", "anchors": ["pywmi/engines/xsdd/draw.py: SddToDot, sdd_to_dot", "pywmi/engines/xsdd/semiring.py: walk, walk_callback"]}
{"id": "C88", "title": "Texts of the string back-ends mean what was called", "statement": "An expression built with the methods of StringAlgebra is a text that a reader with the usual precedences (unary minus before products before sums, read from the left) understands as an expression with the mathematical value of the calls, at every point; an expression built with XaddAlgebra is an s-expression with that value. Comparisons are 0/1 indicators, integrate without variables stands for all real variables of the domain, and the short cuts for the texts of 0 and 1 do not change values. Polynomials and linear inequalities exported into the two back-ends are read as the polynomial and as the indicator of the half-space.", "quantifier": "all expressions of any depth, polynomials, inequalities, points and interpretations of the integral", "why_tests_cant": "texts nest without bound, and a missing pair of parentheses changes the meaning only for some combinations of operators", "anchors": ["pywmi/engines/algebraic_backend.py: StringAlgebra, XaddAlgebra", "pywmi/smt_math.py: Polynomial.to_expression, LinearInequality.to_expression"]}
{"id": "C89", "title": "Drawings of pyxadd diagrams are the diagrams", "statement": "The dot text of a diagram, also after any history of calls on its pool, declares every node reachable from the root exactly once and no other, with its decision or, in a box, its expression; it has exactly one solid edge to the true child and one dashed edge to the false child of every decision and no other edge; nodes are grouped by the length of their longest path from the root. Reading it from the only node without incoming edges gives the value of the diagram at every assignment, so diagrams with equal drawings have equal values. A drawing fails exactly when a leaf is printed as a number beyond the floats.", "quantifier": "all histories of pools, roots, assignments, options and expression back-ends with the laws", "why_tests_cant": "diagrams have any number of shared nodes, and a missed or doubled edge shows up only for some sharing patterns", "anchors": ["pywmi/engines/pyxadd/view.py: to_dot", "pywmi/engines/pyxadd/walk.py: ParentsWalker, WalkingProfile.extract_layers"]}
{"id": "C90", "title": "Density plots show the density", "statement": "For a domain of two bounded real variables and any well-typed support and weight over them, the density plot draws exactly the points of the equidistant grid over the bounds of the two chosen features (100 or 1000 per axis), each with the weight where the support holds and 0 elsewhere, evaluated where the feature on each axis has the coordinate of the point. Domains with Boolean variables are refused.", "quantifier": "all domains of two bounded reals, supports, weights, choices of features and both kinds of plots", "why_tests_cant": "a plot has 10 000 points for each of infinitely many supports and weights, and tests do not look at pictures", "anchors": ["pywmi/plot.py: plot_density", "pywmi/smt_check.py: evaluate"]}
{"id": "C91", "title": "Engines made from engines keep class, settings and exactness", "statement": "Whatever is made from an engine by adding constraints, fixing evidence or copying with other domains, supports and weights, in any order and with samples drawn in between, is an engine of the same class with the same settings (timeouts, sample counts, seeds, criteria, algebras, back-ends, strategies) and the same exactness, and every step works if the first constructor worked and the evidence is accepted. A seeded engine made so draws what a new engine with the seed draws. The probabilities of an engine are those of engines with its settings.", "quantifier": "all engine classes, constructor arguments and histories of calls", "why_tests_cant": "histories are unbounded, and classes and settings have infinitely many combinations", "anchors": ["pywmi/engine.py: Engine.with_constraint, with_evidence, copy_with, compute_probabilities", "pywmi/engines/*.py: __init__, copy"]}
{"id": "C92", "title": "Names of engines describe them", "statement": "The text an engine prints as its name can be given to the command line as the description of an engine, and gives an engine of the same class with the same settings, apart from temporary directory and seed, which names leave out.", "quantifier": "all engine classes, settings and texts of modes, back-ends and strategies", "why_tests_cant": "names contain arbitrary integers and texts", "anchors": ["pywmi/engines/*.py: __str__", "pywmi/__main__.py: get_engine, parse_options"]}
{"id": "C93", "title": "Tests with the same boundary are one decision", "statement": "Two linear comparisons whose sides are equal at the same points (so that they describe the same two half-spaces, whatever their scaling, direction and strictness) have the same canonical decision, so that diagrams never test one boundary twice.", "quantifier": "all pairs of linear comparisons with the same boundary, over any variables", "why_tests_cant": "infinitely many comparisons share a boundary, and whether two of them do is a statement about all points", "anchors": ["pywmi/engines/pyxadd/decision.py: Decision.to_canonical, __eq__, __hash__", "pywmi/smt_math.py: LinearInequality.to_smt"]}
{"id": "C94", "title": "Reduction removes what no point reaches", "statement": "Reducing a diagram (Diagram.reduce, methods smt and fast_smt) leaves no leaf that the diagram did not take at some assignment; so the result for a 0/1 diagram is the node of 0 (of 1) exactly if the diagram is 0 (is 1) at every assignment. Method smt moreover leaves no path from the root that no assignment follows. Reducing its result again returns the same node.", "quantifier": "all pools that calls of the library can produce (with any earlier reductions, integrations and conversions), all ordered diagrams in them, both methods, any algebra and any solver that answers correctly", "why_tests_cant": "the diagrams, the histories of the shared caches and the assignments that must not exist cannot be enumerated", "anchors": ["pywmi/engines/pyxadd/reduce.py: SmtReduce.reduce, SmtReduce._reduce", "pywmi/engines/pyxadd/core.py: Diagram.reduce"]}
{"id": "C95", "title": "The installation utility leaves a usable file or none", "statement": "After `pywmi-install xadd` the JAR is the complete file of the server; a call without options never changes a file that is there; after `--force` the file is the new one; after `--remove` it is gone; whatever moment a call is interrupted at, a file that the library takes for installed is complete. `--list` ticks a solver exactly if it can be used.", "quantifier": "all sequences of calls with all options, all servers (unreachable, breaking off anywhere), all moments of interruption, all combinations of installed components", "why_tests_cant": "moments of interruption, contents and histories of calls cannot be enumerated", "anchors": ["pywmi/install.py: main, install_xadd, check_installation_xadd_jar, check_installation_pyxadd, check_installation_pa, check_installation_xadd"]}
{"id": "C96", "title": "Transforming leaves changes nothing else", "statement": "transform_leaves(f, diagram) with a function on expressions returns a diagram of the same pool whose value at every assignment is that of f of the leaf the given diagram reaches; tests come in registration order in the result even if they do not in the given diagram, and all diagrams of the pool keep their values. to_binary returns a 0/1 diagram that is 0 exactly where the given diagram is 0.", "quantifier": "all histories of a pool, all diagrams in it, all functions on expressions, all assignments", "why_tests_cant": "diagrams and histories are unbounded, and results of earlier walks and operations are cached in the pool", "anchors": ["pywmi/engines/pyxadd/leaf_transform.py: LeafWalker, transform_leaves, to_binary", "pywmi/smt_math.py: Polynomial.__eq__"]}
{"id": "C97", "title": "Orderings of tests in pools", "statement": "A pool created with an ordering, or given one with change_order, combines diagrams into diagrams with the same values as a pool without one, whose tests follow the ordering; change_order keeps every diagram made before.", "quantifier": "for all pools that histories of operations can produce, all orderings, operations, diagrams and assignments", "why_tests_cant": "the ordering is consulted only for two diagrams that both test something and only when the result is not remembered, so single calls succeed or fail depending on the history", "anchors": ["pywmi/engines/pyxadd/core.py: Ordering, Pool.change_order, Pool.test_smaller_eq, Pool.apply"]}
{"id": "C98", "title": "The exact engines agree", "statement": "On a problem that several exact engines accept, all of them return the same volume and the same answers to the same queries, whichever options, algebra, back-end, vtree, reduction and shared pool they use and whatever was asked before; rejection sampling converges to that volume.", "quantifier": "for all problems in scope, all options of the engines, all sound external parts, all orders of sets and ties, all states of shared pools that histories can produce, all lists of queries", "why_tests_cant": "a test compares engines on a few problems and with one order of sets, one state of the pool and one set of options", "anchors": ["pywmi/engine.py: Engine.compute_probabilities", "pywmi/engines/pyxadd/engine.py: PyXaddEngine.compute_volume, PyXaddEngine.copy", "pywmi/engines/xsdd/engine.py: XsddEngine.compute_volume_from_pieces, BaseXsddEngine.compute_volume", "pywmi/engines/xsdd/engine_factorized.py: FactorizedXsddEngine", "pywmi/engines/convex_integrator.py: EngineConvexIntegrationBackend.integrate", "pywmi/engines/rejection.py: RejectionEngine.compute_volume"]}
{"id": "C99", "title": "Polynomials as keys", "statement": "Polynomials can be compared and used as keys: == is an equivalence relation, equal polynomials are the same function, two terms are read as equal polynomials exactly if they have the same value everywhere, the operators respect ==, expressions that the laws of arithmetic make equal give equal polynomials, equal polynomials have equal hashes at all times, and a dictionary finds what was stored under an equal key.", "quantifier": "for all polynomials that the operators and from_smt can build, all pairs of polynomial terms, all pairs of expressions in + and *, all histories of hash calls, all dictionaries", "why_tests_cant": "a test compares a few polynomials; equality must agree with equality of functions for all of them, and hashes with equality in every state of the stored hash", "anchors": ["pywmi/smt_math.py: Polynomial.__eq__", "pywmi/smt_math.py: Polynomial.__hash__", "pywmi/smt_math.py: Polynomial.__add__", "pywmi/smt_math.py: Polynomial.__radd__", "pywmi/smt_math.py: Polynomial.__mul__", "pywmi/smt_math.py: Polynomial.from_smt"]}
{"id": "C100", "title": "Saving and loading as text", "statement": "dumps writes a text from which loads returns the value that was saved: every dictionary, every domain, and every density up to the meaning of its formulas; different domains have different texts; only printable ASCII is written; every text is either read or refused with ValueError; a text that was cut off anywhere is refused, so that a save which dies at any point never makes from_file return a different density.", "quantifier": "for all values of json with distinct keys, all strings of Unicode characters, all well-formed domains, all densities, all texts, all points at which a save is interrupted", "why_tests_cant": "a test saves a few objects and never dies in between; the round trip must hold for every name, bound and formula, and the refusal for every cut of every text", "anchors": ["pywmi/export.py: Exportable.dumps", "pywmi/export.py: Exportable.loads", "pywmi/export.py: Exportable.to_file", "pywmi/export.py: Exportable.from_file", "pywmi/domain.py: Domain.get_state", "pywmi/domain.py: Density.get_state", "pywmi/engines/pyxadd/decision.py: Decision.from_state"]}
{"id": "C101", "title": "A problem that is saved and loaded has the same answers", "statement": "A density saved as text and loaded again is accepted by the exact engines whenever the original was, and get_volume and the probabilities of its queries come out as on the original, with any of them on either side. A density whose formulas have no implication and no equivalence and are written as pysmt writes them is loaded unchanged.", "quantifier": "for all well-formed densities without the constant False within the scope of C98, all queries, all exact engines on either side, all histories of the pool", "why_tests_cant": "a test saves a few problems and runs one engine; the formulas change their shape on the way, and the engines behave differently on formulas of different shape", "anchors": ["pywmi/export.py: Exportable.dumps", "pywmi/export.py: Exportable.loads", "pywmi/domain.py: Density.from_state", "pywmi/parse.py: nested_to_smt", "pywmi/parse.py: smt_to_nested", "pywmi/engine.py: Engine.compute_volume", "pywmi/engine.py: Engine.compute_probabilities"]}
{"id": "C102", "title": "Depth-first walkers", "statement": "A DepthFirstWalker returns and calls its visiting methods once for every path of the diagram, with the message sent along that path, parents before children and true children first. A DepthFirstUniqueWalker returns, expands every internal node once, at its first call, and calls the visiting methods for each node only once.", "quantifier": "for all diagrams of all pools, all visiting methods and messages", "why_tests_cant": "the number of paths grows exponentially and sharing of nodes depends on the history of the pool; a test looks at a few small diagrams", "anchors": ["pywmi/engines/pyxadd/walk.py: DepthFirstWalker.walk", "pywmi/engines/pyxadd/walk.py: DepthFirstUniqueWalker.walk", "pywmi/engines/pyxadd/walk.py: ParentsWalker.walk"]}
{"id": "C103", "title": "Diagrams of a pool", "statement": "Asking a pool for the diagram of a node returns a diagram of that node as it is now, and raises exactly if there is no such node. As long as the order of the pool is not changed the same object is returned; diagrams of different nodes, and diagrams made before and after a change of the order, are different objects. is_cached says whether such a request succeeded since then, and the counters of the cache add up to the number of requests.", "quantifier": "for all pools and all histories of calls and requests, also those that raise", "why_tests_cant": "a stale or shared entry needs a particular interleaving of calls, requests that raise, and changes of the order; tests try a few", "anchors": ["pywmi/engines/pyxadd/core.py: DefaultCache.get", "pywmi/engines/pyxadd/core.py: DefaultCache.clear", "pywmi/engines/pyxadd/core.py: Pool.diagram", "pywmi/engines/pyxadd/core.py: Pool.change_order"]}
{"id": "C104", "title": "Text of the adaptive rejection tree", "statement": "Every tree that adaptive rejection builds can be printed, and the text tells everything: two trees with the same text have the same shape, the same variables and values of splits, the same empty cells, and the same shares of accepted samples and of the volume. The products in the text add up to the volume the tree reports, as a share of the box.", "quantifier": "for all domains, oracles, random generators, stopping and scoring functions", "why_tests_cant": "trees depend on the random samples and grow without bound; a pair of trees with the same text is not found by trying", "anchors": ["pywmi/engines/adaptive_rejection.py: Node.pretty_print", "pywmi/engines/adaptive_rejection.py: Node.__str__"]}
{"id": "C105", "title": "Texts of polynomials, inequalities and domains", "statement": "str of a polynomial, of a linear inequality and of a domain tells the object apart from all others: two objects have the same text exactly if they are equal, a domain being its variables in order with types and bounds. Printing a domain raises exactly if a variable has no type or a real variable no bounds.", "quantifier": "for all polynomials, linear inequalities and domains, all names and all coefficients", "why_tests_cant": "two objects with the same text are found only by luck; the claim is about all pairs", "anchors": ["pywmi/smt_math.py: Polynomial.__str__", "pywmi/smt_math.py: LinearInequality.__str__", "pywmi/domain.py: Domain.__str__"]}
{"id": "C106", "title": "Samples of a box", "statement": "rejection.sample(k, bounds, n) returns n rows; each begins with k entries 0 or 1, followed by one number inside each interval, the upper end excluded unless the interval is a point. On a domain that lists its Boolean variables first these are the samples sample.uniform draws from the same generator, and the generator is left in the same state. The flags of the bounds do not matter.", "quantifier": "for all numbers of Booleans, bounds, sample counts, generators and states", "why_tests_cant": "outputs are random and unbounded in number", "anchors": ["pywmi/engines/rejection.py: sample", "pywmi/sample.py: uniform"]}
{"id": "C107", "title": "Scaling an inequality to integers on a machine", "statement": "LinearInequality.scale_to_integer, computed with Python's floats and fractions, returns integer coefficients of the same half-space for every inequality with a coefficient.", "quantifier": "for all linear inequalities", "why_tests_cant": "the common multiple of the denominators is a float, so the result depends on the size of products of denominators; tests use small ones", "anchors": ["pywmi/smt_math.py: LinearInequality.scale_to_integer", "pywmi/smt_math.py: LinearInequality.lcm"]}
{"id": "C108", "title": "The LattE back-end on a machine", "statement": "The integral that the LattE back-end returns is the integral of the polynomial over the region, with the coefficients of the inequalities and of the polynomial written as Python's floats and fractions are.", "quantifier": "for all domains, lists of linear inequalities and polynomials, all correct LattE programs and solvers", "why_tests_cant": "coefficients with large denominators or small values are rounded when the files for LattE are written; tests use coefficients for which nothing is rounded", "anchors": ["pywmi/engines/latte_backend.py: LatteIntegrator.integrate", "pywmi/smt_math.py: LinearInequality.scale_to_integer"]}
{"id": "C109", "title": "Saved problems have float constants", "statement": "A formula or density that is saved and loaded again has the same constants, so the same meaning under every assignment; if a constant is not a float, the loaded one has the meaning of the formula with its constants rounded to floats, and nothing else changes.", "quantifier": "for all well-typed formulas and densities with constants in the range of floats, all assignments", "why_tests_cant": "formulas nest to any depth; a constant that is no float is rounded silently, which shows only at special points", "anchors": ["pywmi/parse.py: smt_to_nested", "pywmi/parse.py: SmtParser.ast_to_smt", "pywmi/domain.py: Density.get_state", "pywmi/domain.py: Density.from_state"]}
{"id": "C110", "title": "Weighted samples on a machine", "statement": "weighted_sample, computed with floats, yields exactly n values of the list at non-decreasing positions, never one of weight 0 and never indexing past the end, for every outcome of the random generator.", "quantifier": "for all lists of non-negative weights with positive sum, all n, all random outcomes, all roundings", "why_tests_cant": "rounding errors depend on the weights and on the numbers drawn; the failing ones are rare", "anchors": ["pywmi/sample.py: weighted_sample", "pywmi/sample.py: positive"]}
{"id": "C111", "title": "Polynomials with float coefficients", "statement": "Polynomial.from_smt and LinearInequality.from_smt keep the value of the term, although constants are converted to floats and coefficients are added, multiplied and divided as floats.", "quantifier": "for all polynomial terms and all roundings to floats", "why_tests_cant": "tests use a few small constants; rounding only shows for coefficients of very different size", "anchors": ["pywmi/smt_math.py: Polynomial.from_smt", "pywmi/smt_math.py: Polynomial.dict_plus", "pywmi/smt_math.py: Polynomial.dict_times", "pywmi/smt_math.py: MathDictConverter"]}
{"id": "C112", "title": "Evaluation of formulas with floats", "statement": "evaluate_assignment and evaluate on a row or a table, computed with floats, give the truth value or number of the formula at the point, and agree with each other.", "quantifier": "for all well-typed formulas, all points and all roundings to floats", "why_tests_cant": "tests use a few small numbers; rounding depends on the size of the numbers met inside the formula", "anchors": ["pywmi/smt_check.py: evaluate_assignment", "pywmi/smt_check.py: evaluate", "pywmi/smt_check.py: SmtChecker", "pywmi/smt_check.py: SmtSingleChecker", "pywmi/smt_check.py: SmtBatchChecker"]}
{"id": "C113", "title": "Floats are only wrong near a boundary", "statement": "evaluate_assignment and evaluate on a table, computed with floats, give the right truth value at every point at which the two sides of each comparison differ by more than the rounding error of the sides, and give every number with a relative error of at most (1+u)^k - 1, where k counts the roundings.", "quantifier": "for all well-typed formulas and weights, all points clear of the boundaries, all tables of such points and all roundings with relative error at most u (no underflow or overflow)", "why_tests_cant": "the error depends on the formula and the point; tests compare a few values with a tolerance", "anchors": ["pywmi/smt_check.py: evaluate_assignment", "pywmi/smt_check.py: evaluate", "pywmi/smt_check.py: SmtChecker", "pywmi/smt_check.py: SmtBatchChecker"]}
