# Formal model of pywmi in Lean 4: design

This file says what is modelled, how each property of `properties.jsonl` is stated and
proved, where the code disagrees with the property, and what has to be trusted.

## 1. Approach

* **Model**: plain, total Lean functions that follow the Python code function by
  function.  Each definition cites file and lines of `/repo`.  Exceptions are values
  (`Except PyErr`), mutable objects (pool, caches, solver stacks, file systems, random
  generators) are explicit state that is threaded through.
* **Specification**: small, separate definitions (`Verif/Spec/*`, or a `Spec` section at
  the top of a property file): mathematical truth/value of a formula at an assignment,
  half-spaces, integrals of Mathlib, model counts as finite sums, permutations of lists.
* **Property theorems** live in `Verif/Props/*`, helper lemmas beside the model.
  Every property theorem is followed by an `example` on concrete data that satisfies the
  hypotheses.
* Where the code **violates** a property, the negation is proved on a concrete
  witness (`..._fails`), and a theorem with suffix `_partial` is proved under the
  hypothesis that excludes the failing inputs.

## 2. Common modelling decisions (simplifications)

1. Python floats / `Fraction`s / numpy numbers are exact numbers (`ℚ` in syntax, any
   linearly ordered field, in particular `ℝ`, in semantics).  Rounding is not modelled.
2. pysmt `FNode`s are the inductive type `Formula`.  The shortcuts `And`, `Or`, `Plus`,
   `Times`, `Not`, `Pow` are modelled with the constructor-time simplifications pysmt
   performs (single argument returned as is, double negation, constant powers).
3. `pysmt.simplify`, SMT solvers, PySDD managers, sympy/PSI polynomials, LattE, random
   generators are *parameters* with the assumptions listed in the trusted base.  Each set of
   assumptions is shown satisfiable by an instance.
4. Python recursion depth, memory limits and timing are not modelled.  Recursions over
   pools take a fuel argument that the model computes itself; theorems show that
   it never runs out.
5. Python dictionaries are association lists in insertion order.

## 3. Properties: what is modelled and how it is proved

| Id | Model | Proof |
|---|---|---|
| C01 | three checkers of smt_check as recursive functions into `Except`, tables as lists of rows | structural induction on formulas, each checker against `truth`/`value` |
| C02 | cached walk as state-passing function with association-list memo | invariant "every entry equals the uncached result", induction over formulas and histories |
| C03 | identity walker with pysmt shortcuts | structural induction |
| C04 | NormalizationWalker + LinearInequality | structural induction off boundaries; witness `x < x` for the negation |
| C05 | MakeCoefficientsPositive | structural induction |
| C06 | MathDictConverter on arithmetic terms | structural induction; witness `x^0` |
| C07 | dict_plus/dict_times | induction over association lists |
| C08 | to_smt, to_expression, get_terms | induction over association lists |
| C09 | walk_lte/walk_lt/walk_not, from_smt | from C06 in linear mode |
| C10 | normalize, inverted, scale_to_integer | algebra over ordered fields, gcd/lcm of lists |
| C11 | row construction of LatteIntegrator | induction over variable list |
| C12 | Decision.to_canonical, get_valid_branches | algebra; uniqueness of sign-normalised multiples |
| C13 | Pool state machine | invariant by induction over all histories of operations |
| C14 | Pool.apply with cache | total correctness by induction on node ids; cache invariant |
| C15 | Pool.invert, LeafWalker | as C14; sympy backend instance refutes it for that backend |
| C16 | same | extra invariant "ordered" |
| C17 | same | follows from total-correctness theorems that hold for every reachable pool |
| C18 | SmtReduce.recurse with solver stack | induction on node ids, path condition invariant |
| C19 | ToXaddWalker | structural induction on formulas on top of C14, C15 |
| C20 | resolve_lb_ub | induction on node ids, Mathlib Bochner integrals, polynomials vanishing on unbounded sets |
| C21 | resolve_lb_ub, Boolean branch | induction, needs "b at most once on each path" |
| C22 | PyXaddEngine.compute_volume | C19 + C20 + C21, iterated integrals, boundaries are null sets |
| C23 | compute_probabilities over an abstract measure | ordered-field algebra from additivity |
| C24 | with_evidence with substitution | induction on formulas; sums over Booleans |
| C25 | with_constraint/copy_with | semantics of conjunction |
| C26 | get_bounds, volumes | induction over variable lists; witness for Boolean-only domains |
| C27 | get_state/from_state/make/project | list and dictionary lemmas |
| C28 | printer, tokenizer, stack parser, ast_to_smt | induction over formulas with stack invariant; witness FALSE |
| C29 | tokenizer/stack parser | case analysis of stack runs; witnesses for accepted malformed input |
| C30 | FileDensity over a map-based file system | lemmas for fresh directories; witness with stale query file |
| C31 | uniform as a function of the random stream | induction over columns |
| C32 | weighted_sample as a function of the random stream | loop invariant on remaining weight |
| C33 | positive as a state machine over two generators | loop measure, invariants; witness for the unseeded generator |
| C34, C35 | RejectionEngine as a function of the sample table | list sums |
| C36 | build_tree as a function of an arbitrary split oracle | induction over trees |
| C37 | solver stack during build_tree | witness for the missing pop |
| C38 | Node.get_volume, compute_probability | theorem that the answer is constant in the query |
| C39 | amc over inductive SDDs | induction, decomposability and determinism |
| C40 | SDD conversion/recovery with lawful manager | structural induction |
| C41 | ConvexWMISemiring | induction over SDDs |
| C42 | NonConvexWMISemiring | witness (A∧B)∨(¬A∧C); partial theorem |
| C43 | extract_and_replace_literals | structural induction, table invariant |
| C44 | InverseDictDelegate, LiteralInfo | invariant over histories; witness for deletion |
| C45 | PiecewiseFunction operations | induction over pieces; witness for lost piece |
| C46 | PiecewiseFunctionConverter | structural induction under the C45 side condition; the side condition follows from a condition on the weight alone: the terms after multiplying out are different functions |
| C47 | extract_labels_and_weight | induction over factors; witness for repeated label |
| C48 | get_variable_groups_poly | list lemmas |
| C49 | FactorizedIntegrator, FactorizedXsddEngine | induction over SDDs with a margin-integral invariant, Fubini for disjoint groups; witnesses for labels and unsmooth diagrams |
| C50 | vtree builders | induction on lists |
| C51 | IntTree, IntTreeFactory, bami | tree invariants |
| C52 | PrimalGraph | graph invariants |
| C53 | WalkingProfile | topological-order invariants |
| C54 | parse_options | case analysis; witness `min` |
| C55 | TemporaryFile over a map-based file system | case analysis; witness for failing callback |
| C56 | multimap | list lemmas |
| C57 | XsddEngine with convex integrator | C41 + C45 + C46 |
| C58 | AlgebraBackend default methods | algebra |
| C59 | Density.get_state/from_state, to_file | composition of C27 and C28 |
| C60 | InverseDictDelegate histories | invariant over histories; witnesses for update, deletion, clear |
| C61 | find_conflicts, BoundsWalker, conflict clauses | semantics of implied clauses |
| C62 | InformationGain of adaptive rejection, empty part of a tree | list sums; witness for a Boolean first column; concavity of the binary entropy |
| C63 | AdaptiveRejection.get_volume | finite sums; witness 55 instead of 220 |
| C64 | XsddEngine without convex back-end | C46 + semiring over expressions evaluated at every point + margin integrals |
| C65 | PyXaddAlgebra on a pool | each method is a computation on the pool; C14, C18, C20, C21 give its function; the new pool is again reachable, so that calls chain |
| C66 | XsddEngine over PyXaddAlgebra | the run on the pool simulates the run over functions (C64) node by node; the invariant of the pool carries over to the next query |
| C67 | ABuilder.buildTree, stopCriterion | induction over the tree: every inner cell failed the criterion, every leaf met it or was empty; the volume halves at each split, so a positive volume limit bounds the depth |
| C68 | tokenizer, AST builder, ast_to_smt, combined format | induction over an inductive definition of the meaning of a text; partial: texts with the constant `False` (finding, C28) or with exponents that are not natural numbers have no meaning in the specification |
| C69 | the visitor of SMT-LIB parse trees, function by function, with the table of variables it rewrites in place; pysmt constructors with types (Parse/Pysmt.lean) | mutual induction over terms with the invariant that every table entry stands for its variable; induction over the commands; specification: a direct evaluator of parse trees. `simplify` is a parameter that keeps type and value (instance: identity) |
| C70 | the same | a sort checker as specification; mutual induction: terms of a sort are read and leave the table as it is; with C69 total correctness |
| C71 | the visitor of MiniZinc parse trees, function by function: expressions, declarations, parameters, assignments, weights, queries and included files with their fresh visitors (Parse/Minizinc.lean) | mutual induction over expressions and over nested lists of items with an invariant that relates the visitor to a denotational meaning of the text; the specification reads an include as pasted text |
| C72 | the same | a type checker as specification; mutual inductions in both directions: typed expressions are read with their type, and only they are; with C71 total correctness |
| C73 | the loop that ANTLR generates for the left-recursive rule `expr`, over any sequence of operands (Parse/MznGrammar.lean) | induction over the calls of the loop; uniqueness by cutting at the last of the weakest operators; arithmetic by induction over grouped trees |
| C74 | `PrintWalker` over lexemes (Smt/Print.lean); numbers exact, spaces left out | the walk induction with a relation that says as what the text of a node can be read (atom, product, sum); specification: a recursive-descent reader with the usual precedences |
| C75 | the pattern as the backtracking matcher of `re`, `findall`, `float` on the matched texts, and the calls of the four engines (Engine/Wrappers.lean); solvers are parameters | matches as a language, result lines by recursion over the lines; the box by C25; specification: lines, numbers by `Nat.ofDigits`, integrals |
| C76 | the seven importers and the dispatch over the readers of C69-C72 and `Domain.make` (Cli/Convert.lean); files are what their readers return, orders of sets are parameters | C69, C71 and C27, plus: the meaning of a file depends only on declared names, and MiniZinc files declare no name twice (invariant over items); specification: `DomainIs`, `OnlyOn`, `BoundIs`, `MspnPath`. Partial: integers become reals (`import_int_real`), `wmi_generate_100` always raises (`import_100_fails`) |
| C77 | the loop of `compare` with the exact answers, pairs, warnings and relative columns, and the tasks `prob` and `normalize` (Cli/Main.lean); engines are given by exactness, time and answer | list induction, positions of the exact answers; specification: `ExactAnswer`, `Agree`. Partial: the names in the warnings and the error column need the hypotheses shown necessary by `compare_warning_names_wrong` and `compare_zero_reference` |
| C78 | `LatteIntegrator.integrate` with the texts of its two files, the emptiness check and the search for the answer, and the back-end made from an engine (Engine/Convex.lean); LattE and the engine are functions given from outside | the files read back to the region (Props/LatteText.lean), Lebesgue measure of the region with and without the box, null boundaries; XSDD through C57. Partial: the hypotheses of C57 |
| C79 | `RejectionEngine` with the generator of Sample/Sample.lean, whose stream of numbers is a random variable; without one-hot groups | each row is a block of the stream: law and independence of blocks, induction over the variables with Fubini and affine substitution (Sample/Mean.lean, Sample/Stream.lean), strong law of large numbers and variance of independent sums from Mathlib |
| C80 | `RejectionIntegrator.integrate` with its three ways to choose a box (Engine/RejectionInt.lean); `linprog` and the deviation are functions given from outside | the feasible points of the linear programs are the region cut with x >= 0 (`lpFeasible_region`), so the box is exactly the range of that part; then C79 on the new domain. Partial: parts of the region with negative coordinates are lost, the box of samples may miss parts |
| C81 | `to_float` and `real` of the PSI back-ends on texts (Algebra/PsiFloat.lean); floats are exact numbers | cutting digits is division by a power of ten, so both texts are divided by the same power; lengths against powers of ten |
| C82 | the loop of `TopDownWalker.walk` with an arbitrary schedule of pops, `DownUpWalker._visit` with its cache, `map_leaves` on the shared profile (Xadd/TopDown.lean) | invariant of the loop: counts are numbers of visited parents, the cache holds what the visited nodes sent, a node is enabled or visited when all parents are; induction on ids for termination. Partial: `map_leaves` only if no walk of the root raised before |
| C83 | a heap of pools, the operators with their checks, and python's evaluation of expressions (Xadd/Diagram.lean) | induction on the expression with C14, C15 and C16; results of earlier operands are kept because pools only grow. Partial: without subtraction, which never returns |
| C84 | RegionBuilder as a walker over an abstract polytope library, the loop over assignments, the selection of points and the calls of scatter (Util/Plot.lean); no figures or files | induction on the formula for the region, with the boundary of a comparison being a null set; binary numbers for the cells; a partition argument for the marks. Partial: without equations, conditional formulas and nonlinear comparisons, and the region fits the axes only if the features are in the order of the domain |
| C85 | the loops over the variables, the product with the bounds and the substitution of the bounds in the antiderivative (Algebra/Integrate.lean); sympy and PSI are parameters | induction on the variables with the fundamental theorem of calculus; for indicators the remaining bounds are factored out of each integral; Fubini on rectangles for the order. Instances on dictionaries and functions meet the laws |
| C86 | the loop with the stack that collects expected variables, the traversal with its cache, both options and the callback of walk (Xsdd/Smooth.lean); pysdd's vtree nodes as trees with positions | induction on the vtree for the stack, on the diagram for the traversal; sums over assignments factor over disjoint variables. Partial: decision nodes below the root are counted over the variables of their own vtree node only, smooth_to_root is wrong |
| C87 | the walker with its counter, options and annotations over the traversal with its cache (Xsdd/Draw.lean); a line of the output is a record, the order of the lines is open | an invariant that gives every number the node or element it depicts and the edges that leave it, kept by every method; uniqueness of readings by induction on vertex numbers |
| C88 | the methods on lists of tokens (Algebra/Text.lean) | readers with fuel as specification; the texts form a grammar of products of factors, closed under the methods, which the readers accept; export by the free back-end that records calls |
| C89 | the lines of the drawing from the layers of the walking profile (Xadd/View.lean); float() of a leaf's text is a parameter with four outcomes | the dictionary of layers is a partition of the reachable nodes by depth; lines of one node by cases; reading by induction over readings and over the diagram |
| C90 | the points with their values as drawn by scatter or the surface (Util/Density.lean); pysmt's simplify is a parameter that keeps meanings; figures are left out | the table evaluation theorem of C02 per column, membership in linspace as an equation over the field |
| C91 | constructor arguments, stored settings, exact, copy of all nine classes, the generator as a state that seeds determine (Engine/Copies.lean); installation checks are a parameter that depends on the class | the settings are a fixed point of constructor after copy arguments, an invariant of all histories; refinement to the objects of C23 to C25 |
| C92 | names of all classes with the texts of back-ends and strategies as parameters, the constructor arguments that descriptions give (Engine/Names.lean), descriptions as in C54 | C54 applied to the parts of names; integers are read back as in C78 |
| C93 | as C12 | affine functions with the same zeros are proportional (moving one coordinate), coefficients are determined by values (C07), sorted keys depend on the set of keys only |
| C94 | as C18; the solver is a parameter that is now also assumed to be right when it reports a conjunction satisfiable | induction over the recursion: every assignment that meets the solver's assertions can be changed in its Boolean variables such that the whole diagram arrives where the part arrives; nodes marked consistent have only leaves that the whole diagram takes; the claim is part of the invariant of the cache of reductions, kept by all calls |
| C95 | the states of the JAR file in order of time, for each call; the server (reachable, blocks, breaking off) and the components that are found are parameters; argparse and the layout of the table are not modelled | case analysis over options and states, induction over the blocks of the download and over histories of interrupted calls |
| C96 | transform_leaves as a bottom-up walk with the visitors of LeafWalker, to_binary with python's comparison to 0 as a parameter (Xadd/LeafTransform.lean) | the invariant of walks (C53) with one relation between a node and its transformation for inversion and all leaf functions: the result of an inner node is a sum of two products with indicators of its test, so its value is that of the branch and its order follows from C16. Partial: no earlier walk of the diagram raised, and to_binary is 0 where the leaf compares equal to 0 |
| C97 | an ordering as the method of the class and the attribute that the pool asks for; apply with an ordering; change_order as an operation of pool histories | induction over apply: with an ordering that implements the class it returns what the pool without an ordering returns, or raises; with an object that offers the method asked for, values are right whatever it answers, and results follow the order it decides by; change_order is added to the histories for which all properties of pools are proved |
| C98 | engines with a state that copies share; compute_probabilities with the state handed from query to query | one class of problems is shown to be in the scope of the theorems on the six kinds of exact engines (C22, C49, C57, C64, C66, C78), and to be closed under queries; PyXADD is shown to be an exact convex back-end |
| C99 | polynomials as dictionaries (C06, C07), operands of any type, the stored hash as a state, lookups that compare hashes before == | == is the same coefficients and the same keys; identities by mapping the free commutative semiring to functions and to sets of monomials; equality of functions gives equality of coefficients (C07); invariant of the stored hash |
| C100 | the reader and writer of json on characters with escapes and surrogate pairs, numerals, the states of domains and densities, files with a crash after any number of characters | reading inverts writing by induction over the value; no strict prefix of the text of a dictionary, list or string can be read; the fuel of the reader always suffices |
| C101 | the composition of saving (C100), loading and the exact engines (C98) | a relation between a formula and what is read back, by induction over the printer; it keeps symbols, the terms of weights (so the condition of C46 survives), linearity, the sides of comparisons, conditions of weights and stated bounds |
| C102 | DepthFirstWalker and DepthFirstUniqueWalker with any visiting method, as lists of calls | induction over the nodes, which are larger than their children; for the second walker with the set of nodes seen, up to permutation |
| C103 | DefaultCache with its counters, the cache of diagrams of a pool, and histories of calls and requests; Diagram objects with an identity | invariant over histories: every entry is the node of the pool now, made before; nodes of a pool never change (C13) |
| C104 | Node.pretty_print as a function on the trees of C37; str of numbers is a parameter | a separate view of the tree with the names of real variables; induction over trees for printing, injectivity of the text by induction on the view, a computed counterexample for the names |
| C105 | the three __str__ methods as functions to lists of characters; str of numbers is a parameter with a law | words that end at the first mark are the same; induction over terms and variables |
| C106 | rejection.sample on rows, generator as a parameter | the loop over the columns is a zip with the intervals; refinement to uniform |
| C107 | scale_to_integer with the float division of lcm (53 binary digits, ties to even, overflow) and limit_denominator as a parameter with its documented law | divisibility: every intermediate multiple divides the last; computed witness in the kernel; distance of fractions from 0 |
| C108 | LatteIntegrator.integrate with the scaling of C107 and limit_denominator for the coefficients of the polynomial, as a parameter with its documented law | refinement: the files are those of the exact back-end for the rounded polynomial, so C78 applies; computed witnesses |
| C109 | as C28 and C59, with the printer and reader of constants constrained only by the laws of floats | simulation: the printer runs the same on the formula with rounded constants, so C28 and C59 apply to that one; 3 divides no power of two |
| C110 | weighted_sample with every sum, difference and product rounded by a parameter (Sample/WeightedFloat.lean) | induction over the loops with the position in the list; computed witnesses |
| C111 | MathDictConverter, dict_plus, dict_times and from_smt with every constant, sum, product and quotient rounded by a parameter (Math/PolyFloat.lean) | induction over the term: coefficients are whole and their absolute values add up to at most the size of the term; computed witnesses |
| C112 | SmtChecker, SmtSingleChecker and SmtBatchChecker with constants, assigned values, sums, differences and products rounded by a parameter, ** a parameter (Smt/CheckFloat.lean, Smt/BatchFloat.lean) | Walker.sound against a separate semantics in float arithmetic; induction over the formula with a bound on the numbers met; computed witnesses |
| C113 | The evaluators of C112 (Smt/CheckFloat.lean, Smt/BatchFloat.lean) | Forward error analysis by induction over the formula: an invariant with the number of roundings as exponent is kept by rounding, sums, differences, products and powers |

## 4. Findings: where the code does not do what a user relies on

Each item is a theorem about the model: the theorem named here, or one of those listed for the property in `MANIFEST.json`.

Formulas and polynomials
* `Polynomial.from_smt` turns `x^0` into `x` (C06).
* The empty polynomial makes `to_smt` raise (C08, `polyToSmt_empty`).
* `normalize_formula` maps `x < x` to TRUE; only the boundary is affected (C04).
* LattE rows: a bound without variables raises TypeError (C11); the back-end ignores the box of the domain (C78, `latte_ignores_box`).
* An integer that LattE prints without a denominator is read as the answer 0 (C78, `Latte.integer_answer_lost`).
* An engine as convex back-end raises TypeError on the zero polynomial; XSDD with it raises on the weight 0 (C78,
  `xsdd_engine_zero_weight`).
* Canonical decisions of identical sides raise IndexError (C12).
* `pretty_print` leaves out brackets outside of comparisons: `(x + 1)*y` is printed `x + 1*y`, `x - (y + z)` is printed `x - y + z`,
  `(-3)^2` is printed `-3^2` (C74).

Diagrams (pyxadd)
* `invert` raises with the Sympy algebra because `is_one` raises AttributeError (C15).
* Conversion of exponent 0 inside comparisons uses a node id as a number; negative exponents are wrong; non-linear comparisons
  and equations raise (C19).
* Elimination of a Boolean variable double counts on diagrams that test it twice (C21).
* Domains with a real variable before a Boolean one raise AssertionError; a strict comparison of equal sides is wrong (C22).
* A walk that raises leaves its cached profile dirty; every later walk of that root raises (C53).

Diagrams (xsdd)
* The XSDD engine over PyXaddAlgebra counts Boolean variables twice in domains without real variables: 2 instead of 1 for one Boolean
  variable and the support `A` (C66, `poolEngine_noReals_wrong`).
* The non-convex semiring smooths only when the sets differ in size: 2 instead of 4 on `(A and B) or (not A and C)` (C42, C49, C64).
* Merging pieces drops a piece or asserts when the doubled expression exists already; a merged constant 1 gets the integer key 2
  (C45, C46).
* Labels: a second label of a variable replaces the first, a product of labels only raises TypeError (C47).  The factorised engine
  multiplies by 2 where it should add the two labels of a missing variable: 5 instead of 11 (C49); a labelled variable that the
  support does not mention raises (`label_missing_raises`; a KeyError in the concrete case).
* `find_conflicts` raises ValueError on weights with case distinctions; the bounds of a negated conjunction are wrong
  (`inequalities_of_negated_conjunction`), `<=` is read as `<` (`inequalities_of_closed`); inequalities of the weight never
  contribute (`walk_weight`) (C61).
* bami raises AttributeError when inequalities exist but none mentions a variable (C51).
* The primal graph creates self loops when fills were not computed; looking ahead does not restore degrees
  (`PrimalGraph.lookAhead_degrees`) (C52).
* `InverseDictDelegate`: update of an existing key leaves a stale inverse entry, `del` always raises KeyError, `clear` always raises
  RuntimeError on a non-empty table; `is_number_boolean` is always True (C44, C60).
* Equality atoms raise in literal extraction (C43).  An empty vtree child raises AttributeError in the export (C50).

Sampling
* `positive` returns pool-size rows without weight, uses the default generator for later batches, and divides by zero when nothing
  is required (C33).
* Adaptive rejection: the second child's assertion is never removed, so later cells are declared empty (C37); without weight the
  query is ignored (C38); Boolean assignments are not counted (C63); the score uses the wrong column when Booleans come first (C62);
  a purely Boolean domain raises TypeError; build count 0 divides by zero.

Files, parsing, command line
* `get_volume` of a purely Boolean domain is 0 (C26).
* The nested format reads FALSE back as TRUE (C28), accepts missing brackets and several expressions (C29).
* MiniZinc reader (C71, C72): equations between numbers, with `=` or `==`, are never read, because both become `Iff`
  (`mzn_no_equations`); Booleans cannot be compared with `!=`, which becomes `NotEquals` (`mzn_no_inequality`); a decision variable cannot
  get its value after its declaration, and the line for that case is unreachable and names an undefined variable (`mzn_no_late_value`).
  An `include` makes the reader forget all parameters declared before it (`mzn_include_forgets`, `mzn_include_breaks`), makes integer
  variables count as real ones, so that adding a real to one is a type error (`mzn_include_integers`), and an included `weight: 1` does not
  count as a weight (`mzn_include_weight`).  `+true` is read (`mzn_plus_bool`).  A declaration with a named type ends with a TypeError.
* MiniZinc grammar (C73): `\/` and `xor`, which bind equally in MiniZinc, do not here: `true \/ false xor true` is read as true, by the
  handbook it is false (`logic_grouping`); where the two tables order the operators of a text alike, the grouping is the standard one
  (`group_standard`).
* SMT-LIB reader (C69, C70): `(and x)` and `(or x)` with one real argument are accepted as formulas (`smtlib_and_one`); an undeclared
  name that is asserted gives a KeyError (`smtlib_undeclared`); quoted names always give a TypeError (`smtlib_quoted`); a Boolean
  weight or real query gives an AttributeError (`smtlib_wrong_type`), an integer query is accepted (`smtlib_int_query`); a term with
  an integer variable is accepted or not depending on earlier, unrelated terms (`smtlib_history`), and `(weight i)` makes later
  comparisons of `i` with integers fail (`smtlib_weight_int`).
* FileDensity leaves stale files that leak into the next reading (C30).
* `TemporaryFile` leaks the file when the callback raises and never closes the descriptor (C55); `multimap.flatten` is destructive
  (C56).
* External solvers (C75): of result lines that follow one another only every second is read (`xadd_adjacent_lost`); a number such as
  `2.0-5` raises ValueError (`xadd_bad_number`); after a time-out a probability query raises TypeError (`probabilities_none`), and message
  passing raises ZeroDivisionError where the other engines answer None (`mpwmi_correct`); PRAiSE returns 1 as the volume of every problem
  and ignores the box (`praise_volume_wrong`, `praise_bounds_ignored`); the time limit of predicate abstraction has no effect (`pa_correct`).
* Importers (C76): integer variables of SMT-LIB and MiniZinc files become real variables (`import_int_real`: a file without solutions
  becomes a problem with a non-empty region); the dialect `wmi_generate_100` raises a TypeError for every file (`import_100_fails`).
* Command line (C77): the warning of `compare` counts exact answers but names engines by position among all engines, so a sampling
  engine before the exact ones is blamed (`compare_warning_names_wrong`); with the exact value 0 every answer has error 0
  (`compare_zero_reference`); `compare -q i` with `i` beyond the queries silently compares volumes (`compare_query`); `prob` never
  tries its second engine (`prob_first`); `normalize --total` is passed on as `conjoin_old_support`, so it drops the old support and
  never asks the solver for the total model (`normalize_total`).
* Options `min` (xsdd) and `r...` (pyxadd) are ignored; `v...` and `factorized` make the constructor raise (C54).
* Sampling back-end (C80): with `bounding_box=1` the linear programs are run with scipy's default bounds `x >= 0`, so for
  `-1 <= x <= 1` the expected value is 1, not 2 (`integrator_lp_negative`), and for `-2 <= x <= -1` there is a TypeError because
  `linprog` finds no point (`integrator_lp_empty`).  With `bounding_box=2` the estimate is biased: the box only covers the samples
  seen (`integrator_drawn_biased`), and without accepted sample an IndexError escapes, since only ValueErrors are caught
  (`integrator_drawn_missed`).
* PSI numbers (C81): when PSI cannot convert a number, whole numbers raise a ValueError (`psi_float_whole`); for values beyond
  10^250 the slice of the denominator is empty (`psi_float_fails`) or counts from its end, and the number returned is wrong by
  many orders of magnitude (`psi_float_wrong`).
* Walks (C82): the order of the messages a node gets in a `TopDownWalker` depends on the unspecified order of
  `set.pop` (`top_down_order`). A `DownUpWalker` with message cache raises a TypeError for messages that are not
  hashable (`down_up_unhashable`). If the function given to `walk_leaves` raises, the shared profile is not reset:
  every later bottom-up walk of the same root raises (`map_leaves_raise`), and after any walk that raised the next
  `map_leaves` silently misses leaves (`map_leaves_missed`).
* Operators (C83): `a - b` never returns: it makes a terminal node of a pysmt constant, whose constructor asserts that
  it is none; an id is used up (`diagram_sub_fails`, `diagram_sub_never`). `Diagram.evaluate` never returns either,
  since decisions and terminal nodes do not implement it (`diagram_evaluate_never`).
* Plots (C84): a nonlinear comparison makes the panel blank, since the ValueError is swallowed
  (`plot_nonlinear_blank`, `plot_blank_counterexample`); equations and conditional formulas raise RuntimeError
  (`plot_equation_fails`); features given as column numbers, which the signature allows, always end in a KeyError
  (`plot_index_fails`); the region is drawn over the first two real variables whatever the features are, so with
  exchanged features the data are mirrored and the region is not (`plot_swapped_counterexample`); with any number of
  real variables other than two no region is drawn (`PanelShows.noPlane`); a single feature is used for both axes
  (`plot_one_feature`).
* Integration back-ends (C85): they differ for a lower bound above the upper bound: sympy's and PSI's polynomial
  back-end return the signed integral, the piecewise back-end returns 0 (`backends_order_counterexample`). Not shown
  by the model: `PySmtAlgebra.less_than` and `less_than_equal` hand the method `self.one` itself to `Ite`
  (algebraic_backend.py:136, 139); `sympy.S(name)` reads names such as `E`, `I` or `pi` as constants
  (algebraic_backend.py:165).
* Smoothing (C86): a decision node that lies below the root of the vtree is counted over the variables of its vtree
  node only, while constants and literals are counted over all variables (`smooth_count_partial`, `smooth_count_below`);
  `smooth_to_root`, which should fill the gap, hands over exchanged sets, so that `1 or 2` over three variables has 24
  instead of 6 models (`smooth_to_root_counterexample`), fails with an AttributeError for constants
  (`smooth_root_constants`), and cannot be combined with the callback of `walk`
  (`smooth_to_root_walk_counterexample`); the option `smooth` of `amc` has no effect (`amc_smooth`), so semirings
  whose literal weights do not add up to one are not summed out.
* Drawing (C87): an edge annotation given for an element and its sub is lost where the sub is replaced by its only
  child (`sdd_dot_note_lost`); `draw_single_or=False` has no effect as long as `draw_false` is True, its default.
* Drawings round integers (C89): leaves go through float and int, so an integer leaf beyond 2^53 is drawn as another
  integer (`view_rounds`), and a leaf beyond the range of floats makes to_dot raise an OverflowError
  (`view_overflow`). The reading theorem assumes that float is exact on integer leaves.
* Density plots with exchanged features (C90): the axes follow the chosen features, the values always follow the order
  of the domain, so exchanging the features draws the density at exchanged coordinates (`density_exchanged`); for a
  domain with a third variable the table has two columns and a support with that variable raises an IndexError
  (`density_third`).
* Copies of adaptive engines (C91): a fraction below 1 as sample_count_build is stored as 0, which copies read as
  missing, so a copy builds its tree with a tenth of sample_count (`build_count_lost`).
* Probabilities of adaptive engines (C91): Engine.compute_probabilities hands add_bounds to compute_volume, which
  AdaptiveRejection does not accept, so it always raises a TypeError; the command line task prob with engine adapt
  does too (`adaptive_probabilities_fail`).
* Names of engines (C92): the names of adaptive rejection (`adaptive_name_refused`) and XSDD (`xsdd_name_refused`) are
  refused as descriptions with a ValueError whatever the settings; those of factorized XSDD, pyxadd (`unknown_names`)
  and mpwmi with a cache (`mpwmi_cache_name`) give no engine at all; that of xadd without a mode gives an engine with
  the mode None as a text (`xadd_no_mode_name`).
* Canonical decisions (C93): to_canonical keeps the order in which variables are mentioned, so x + y < 1 and y + x < 1
  are different decisions although they are the same half-space (`canonical_order_wrong`); diagrams then test both,
  with branches that no point reaches.
* Fast reduction (C94): fast_smt, the default of Diagram.reduce, keeps a node that was reduced on one path unchanged
  on all other paths, so the result has paths that no assignment follows (`reduce_fast_path`); its leaves are all
  taken somewhere (`reduce_leaves`).
* Cache of reductions (C94): the cache is keyed by the node only, so method smt returns the result of an earlier
  fast_smt of the same node (`reduce_full_after_fast`).
* Installer (C95): `--remove` deletes the JAR and then downloads it again (`install_remove_restores`), because the
  test for an existing file comes after the deletion.
* Installer (C95): an interrupted download leaves a truncated JAR that every check takes for installed, and calls
  without `--force` never repair it (`install_interrupted`).
* Installer (C95): `--list` ticks pyxadd without PSI although check_installation_pyxadd asks for it, and crosses XADD
  out without an SMT solver although XaddEngine does not ask for one (`install_listing_wrong`).
* Leaves (C96): `to_binary` compares the expression of a leaf to the integer 0: a leaf `x` gives 1 also where x = 0,
  and an algebra of `Polynomial` objects, which are never equal to an integer, gives the constant 1 (to_binary_wrong,
  to_binary_constant). After a walk of a diagram raised, its leaves cannot be transformed (to_binary_after_raise).
* Orderings (C97): `Pool.test_smaller_eq` asks the ordering for `test_smaller_eg`, which the class `Ordering` does not
  have: with an ordering, combining two diagrams that both test something raises AttributeError unless the result is
  remembered (`order_raises`); results that are returned are those without an ordering (`order_ignored`).
* change_order (C97): `_apply_cache` is not emptied, so combinations made before are returned in the old order
  (`change_order_stale`, `order_not_followed`). `change_order(None)` makes diagrams usable again whose walks raised
  (`change_order_repairs`).
* `p + 0`, `sum([p])` and `p + (-1)*p` keep monomials with coefficient 0: they are not `==` to `p` or to the zero
  polynomial that `from_smt` returns (C99, `polyPlus_zero`, `polySum_single`, `poly_cancel`).
* `Decision.loads(decision.dumps())` holds the text of the test, not a formula (C100, `decision_loads_wrong`).
* `to_file` empties the file before anything is written: a process that dies there has lost the old content and
  `from_file` raises ValueError (C100, `density_save_loses`).
* `DepthFirstUniqueWalker` promises that every node is visited only once, but calls the visiting methods once for
  every edge into a node; only the descent is done once (C102, `unique_visits_again`).
* `Node.pretty_print` looks up the index of a real variable among all variables, so that the names in the text are
  wrong if a Boolean variable comes first (`tree_text_wrong`).
* Texts of inequalities (C105): `<=` is printed as `<`, and a variable whose name begins with a digit is confused with
  a coefficient; equal polynomials may be printed differently.
* `LinearInequality.lcm` divides with `/`, so a common multiple above 2^53 is rounded; the scaled coefficients are
  then no integers and are truncated, often all to 0, and the inequality is lost (`scale_float_rounds`);
  `limit_denominator` turns coefficients below 1/2000000 into 0 (`scale_float_tiny`). LattE gets the result (C107).
* The LattE back-end rounds the coefficients of the polynomial with `limit_denominator`: a weight below 1/2000000 is
  integrated to 0 (`latte_float_loses`); and it can write an inequality as a row of zeros, which cuts nothing off
  (`latte_float_row`, `latte_float_square`) (C108).
* `smt_to_nested` writes fractions as floats: a saved constraint `x = 1/3` is loaded as another one that 1/3 does not
  satisfy (`nested_third`) (C109).
* `weighted_sample` with floats can index past the end of the weights when their sum is rounded up
  (`weighted_float_index`), and can yield a value of weight 0 (`weighted_float_zero`) (C110).
* `Polynomial.from_smt` reads `(10^16 * x + x) - 10^16 * x` as the zero polynomial, and the same term `<= 1` becomes a
  constraint that always holds, because coefficients are floats (`poly_float_zero`, `lin_float_lost`) (C111).
* `evaluate_assignment` says that `x + 1 <= x` holds at x = 10^16, and `10^16 + 1 + 1` differs from `1 + 1 + 10^16`
  (`assignment_float_wrong`, `assignment_float_order`) (C112).

## 5. What is modelled and what is not

Modelled, function by function (the comment of each definition cites the lines):

| Source | Lean |
|---|---|
| smt_walk.py, smt_check.py, transform/*, smt_math.py | Smt/*, Math/Poly |
| engines/latte_backend.py, engines/convex_integrator.py | Math/Latte, Engine/Convex |
| domain.py, engine.py | Domain/Domain, Engine/Engine |
| engines/{xadd,praise,mpwmi,pa}.py | Engine/Wrappers |
| parse.py (nested format, density files) | Parse/Nested, Domain/Domain |
| sample.py, engines/rejection.py, engines/adaptive_rejection.py | Sample/*, Engine/RejectionInt |
| multimap.py, temp.py | Util/Util |
| smt_print.py | Smt/Print |
| __main__.py (options), engines/pa.py (constructor) | Cli/Options |
| __main__.py (tasks compare, prob, normalize) | Cli/Main |
| convert.py | Cli/Convert |
| engines/algebraic_backend.py (generic operations, numbers of PSI) | Algebra/{Backend,PsiFloat} |
| engines/pyxadd/{core,decision,operation,walk,leaf_transform,reduce,resolve,engine,algebra}.py | Xadd/* |
| engines/xsdd/{literals,smt_to_sdd,semiring,sdd_iterator,piecewise,engine,engine_factorized}.py | Xsdd/* |
| engines/xsdd/vtrees/{vtree,int_tree,primal}.py | Xsdd/{Vtree,IntTree,Primal} |
| engines/pyxadd/walk.py (walks from the top, down and up, leaves) | Xadd/TopDown |
| plot.py (without plot_density, figures and files) | Util/Plot |
| algebraic_backend.py:96-122, 175-190, 240-244, 302-313 (integrate_poly of the back-ends) | Algebra/Integrate |
| xsdd/sdd_iterator.py with smooth and smooth_to_root, semiring.py:105-147 | Xsdd/Smooth |
| xsdd/draw.py:10-183 | Xsdd/Draw |
| algebraic_backend.py:316-403 (StringAlgebra, XaddAlgebra; without power) | Algebra/Text |
| pyxadd/view.py:5-38, walk.py:254-260 | Xadd/View |
| plot.py:234-287 (points and values of plot_density) | Util/Density |
| constructors and copy of all engines (settings) | Engine/Copies |
| `__str__` of all engines | Engine/Names |
| pywmi/install.py | Verif/Cli/Install.lean |
| pyxadd/leaf_transform.py | Xadd/LeafTransform.lean |
| `pyxadd/core.py`: `Ordering`, `Pool.change_order`, `Pool.apply` with an ordering | `Xadd/Order.lean` |
| `engine.py`: `compute_probabilities` with shared pools | `Engine/Stateful.lean` |
| `smt_math.py`: operators, `==` and `hash` of `Polynomial` | `Math/PolyKey.lean` |
| parser/smtlib (visitor, from parse trees) | Parse/{Smtlib,Pysmt} |
| parser/minizinc (visitor; precedence of the grammar) | Parse/{Minizinc,MznGrammar,Pysmt} |
| `export.py` with the reader and writer of Python's `json`; `Decision.get_state`, `Decision.from_state` | `Parse/Json.lean` |
| `pyxadd/walk.py`: `DepthFirstWalker`, `DepthFirstUniqueWalker` | `Xadd/DepthFirst.lean` |
| `pyxadd/core.py`: `DefaultCache`, `Pool.diagram`, `Pool.is_cached` | `Xadd/Cache.lean` |
| `adaptive_rejection.py`: `Node.pretty_print`, `Node.__str__` | `Sample/TreeText.lean` |
| `smt_math.py`: `Polynomial.__str__`, `LinearInequality.__str__`; `domain.py`: `Domain.__str__` | `Math/Text.lean` |
| `rejection.py`: `sample` | `Sample/Box.lean` |
| `smt_math.py`: `LinearInequality.lcm`, `scale_to_integer` with floats | `Math/ScaleFloat.lean` |
| `engines/latte_backend.py`: `integrate` with floats and `limit_denominator` | `Engine/ConvexFloat.lean` |
| `parse.py`: constants as floats | `Parse/Nested.lean`, laws in `Props/NestedFloat.lean` |
| `sample.py`: `weighted_sample` with floats | `Sample/WeightedFloat.lean` |
| `smt_math.py`: `Polynomial`, `MathDictConverter` with floats | `Math/PolyFloat.lean` |
| `smt_check.py`: `SmtChecker`, `SmtSingleChecker` with floats | `Smt/CheckFloat.lean` |
| `smt_check.py`: `SmtBatchChecker`, `evaluate` with floats | `Smt/BatchFloat.lean` |

Not modelled: figures, colours and files of plots (plot.py), files and programs around drawings (draw.py from line 186, view.py from line 41), the installer of PSI (psi/setup.py), the generated ANTLR lexers
and parsers (parser/*/antlr; the model starts from parse trees, except for the precedence of MiniZinc operators, C73), the external solvers behind praise.py, xadd.py, mpwmi.py and pa.py, the C code of
PSI, sympy, LattE, PySDD, pysmt's own simplifier and solvers, logging, timing, memory, recursion limits and rounding.

## 6. Trusted base

* Lean 4 kernel and the Mathlib library that is installed; axioms used are at most
  `propext`, `Classical.choice`, `Quot.sound`.
* The correspondence between the Python source and the Lean definitions, by reading.
* External components are parameters with the following assumptions; for each an instance is given in Lean:
  - pysmt `simplify`: keeps truth values and typing (`SimpOk`, instance: identity);
  - SMT solvers: answers are sound (`SolveLaw`, `implies`; instances `exSolve_law`, which recognises
    contradictory literals, and truth by classical logic);
  - sympy/PSI polynomial algebra: the operations compute the mathematical ones (`Algebra.Sound`, `XLaw`; instances `funAlgebra`,
    `exLaw`), `parse_condition` and `integrate` (`ParseExact`, `IntegrateExact`; the default `parse_condition` is proved);
  - convex integrators: `ConvexExact`, instance: the Lebesgue integral; LattE as a program on files: `LatteSound`, instance `Latte.ideal`;
    engines as back-ends: `EngineSound`, `EngineExact`, instance `exact_engine`;
  - PySDD managers: results are SDDs over the vtree with the right meaning (`SddManager.Ok`) and are trimmed
    (`SddManager.Trims`); instances `Sdd.refManager`, `SddManager.trim`;
  - random generators: arbitrary functions of a state, nothing assumed beyond ranges, except in C79 and C80: the numbers are
    independent and uniform (`IidUniform`, instance `streamRng_iid`);
  - `scipy.optimize.linprog` (C80): returns a minimum over the feasible points with `x >= 0` if there is one (`LinprogOk`, instance
    `idealLinprog_ok`); in `integrator_lp_none` it returns None if there is no feasible point;
  - the library `polytope` (C84): regions are sets of points, `intersect`, `union`, `diff` and `from constraints` compute the set operations
    (`PolyLaw`, with an instance beside it);
  - definite integrals of sympy and PSI (C85): one-dimensional integrals are exact (`SympyLaw`, `PsiLaw`, `PsiPieceLaw`; instances `exSympy_law`,
    `exPsi_law`, `exFunPiece_law`);
  - vtrees of pysdd (C86): positions are distinct and nodes lie below their vtree node (`SddLib.Ok`, `SddLib.Below`, instance `exLib_ok`);
  - iteration order of sets and ties in sorting: arbitrary permutations.
* `#print axioms` was run on every theorem listed in `MANIFEST.json`: each list is a subset of the three axioms above.
* The full statement stays in view for every `_partial` theorem: its comment says which inputs are excluded and why; most exclusions
  are matched by a proved counterexample.

## 7. Wrong programs

`seeded/LOG.jsonl` records edits of the model in the manner of realistic bugs (a scratch copy is edited and rebuilt).  How to read it:

* "failed" lists the declarations whose proofs no longer compile.  This shows that the proof noticed the edit; it is not a proof
  that the edited statement is false.
* "properties_failed" lists the theorems of `MANIFEST.json` that depend on a failed declaration, from the recorded dependencies.
* An edit after which everything still compiled although a claim became false is entered once a theorem has been strengthened so
  that it fails; the strengthened theorems are under "tightened".
