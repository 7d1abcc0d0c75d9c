{"claims": [
 {"property": "C01", "status": "proved", "theorems": ["Pywmi.evaluators_agree", "Pywmi.evaluate_table_correct", "Pywmi.evaluate_row_correct", "Pywmi.evaluateAssignment_correct"], "note": "numbers exact"},
 {"property": "C02", "status": "proved", "theorems": ["Pywmi.cached_history_eq_uncached", "Pywmi.batch_history_eq_uncached"], "note": ""},
 {"property": "C03", "status": "proved", "theorems": ["Pywmi.identityWalk_correct"], "note": ""},
 {"property": "C04", "status": "proved", "theorems": ["Pywmi.normalizeFormula_correct", "Pywmi.normalizeFormula_degenerate"], "note": "second theorem records what happens on the boundary: x < x becomes TRUE"},
 {"property": "C05", "status": "proved", "theorems": ["Pywmi.makePositive_correct"], "note": ""},
 {"property": "C06", "status": "partial", "theorems": ["Pywmi.polyFromSmt_correct_partial", "Pywmi.polyFromSmt_zero_exponent_wrong", "Pywmi.polyFromSmt_error"], "note": "the code is wrong for exponent 0 (x^0 becomes x); proved for terms without zero exponents"},
 {"property": "C07", "status": "proved", "theorems": ["Pywmi.polyAdd_eval", "Pywmi.polyMul_eval", "Pywmi.polyNumber_eval", "Pywmi.poly_wf", "Pywmi.polyAdd_comm_assoc", "Pywmi.polyMul_comm_assoc", "Pywmi.polyEq_iff"], "note": ""},
 {"property": "C08", "status": "proved", "theorems": ["Pywmi.polyToSmt_correct", "Pywmi.polyFromSmt_toSmt", "Pywmi.polyTerms_sum", "Pywmi.polyToExpr_correct", "Pywmi.linToExpr_correct", "Pywmi.polyToSmt_empty"], "note": "the empty polynomial makes to_smt raise"},
 {"property": "C09", "status": "proved", "theorems": ["Pywmi.linFromSmt_linear", "Pywmi.linFromSmt_negated", "Pywmi.linFromSmt_nonlinear", "Pywmi.linFromSmt_sound"], "note": ""},
 {"property": "C10", "status": "proved", "theorems": ["Pywmi.linToSmt_halfSpace", "Pywmi.linNormalize_correct", "Pywmi.linInverted_correct", "Pywmi.linScaleToInteger_correct"], "note": "Fraction.limit_denominator is treated as exact"},
 {"property": "C100", "status": "partial", "theorems": ["Pywmi.json_roundtrip", "Pywmi.json_ends", "Pywmi.json_prefix", "Pywmi.json_injective", "Pywmi.dumps_ascii", "Pywmi.domain_text_roundtrip", "Pywmi.domain_text_injective", "Pywmi.domain_text_cut", "Pywmi.density_text_state", "Pywmi.density_text_cut", "Pywmi.density_text_roundtrip_partial", "Pywmi.density_save", "Pywmi.density_save_loses", "Pywmi.decision_loads_wrong", "Pywmi.tenthsLib_read"], "note": "Densities as in C59 (no constant False). Decision.loads keeps the text of the test instead of a formula (decision_loads_wrong); saving is not atomic: a process that dies after opening the file has lost the old content (density_save_loses). The texts of numbers are a parameter with the law that read inverts text."},
 {"property": "C101", "status": "partial", "theorems": ["Pywmi.saved_answers_partial", "Pywmi.saved_pyxadd_partial", "Pywmi.saved_xsdd_partial", "Pywmi.saved_same_partial", "Pywmi.density_text_reread"], "note": "Scope of C98, and of C100: no constant False (it is loaded as True). The engine used after loading must be right on the loaded weight: always so for PyXADD (saved_pyxadd_partial), for XSDD if the terms of the weight are different functions (saved_xsdd_partial, the condition of C46), and for all engines when the formulas are written as pysmt writes them (saved_same_partial)."},
 {"property": "C102", "status": "partial", "theorems": ["Pywmi.depth_first_paths", "Pywmi.unique_edges", "Pywmi.unique_length", "Pywmi.unique_visits_again", "Pywmi.parents_walker", "Pywmi.depth_first_example"], "note": "Holds except for the last clause, which the documentation of DepthFirstUniqueWalker states: a node with two parents is called twice (unique_visits_again); proved instead: one call for the root and one for each edge, with the message of the parent's only expansion (unique_edges)."},
 {"property": "C103", "status": "proved", "theorems": ["Pywmi.diagram_current", "Pywmi.diagram_same", "Pywmi.diagram_distinct", "Pywmi.diagram_fresh", "Pywmi.diagram_counted", "Pywmi.diagram_counts", "Pywmi.diagram_cached", "Pywmi.cache_concrete"], "note": "Requests made inside other methods count as requests in between. Objects are numbered as they are made, since Diagram compares by identity."},
 {"property": "C104", "status": "partial", "theorems": ["Pywmi.tree_text_partial", "Pywmi.unary_shareText", "Pywmi.prettyTree_view", "Pywmi.tree_text_wrong", "Pywmi.tree_text_wrong_differs"], "note": "Needs the real variables to be the first ones of the domain: otherwise tree_text_wrong shows a tree that splits on x printed as one that splits on a. Texts of numbers are a parameter that tells numbers apart; unary_shareText is an instance."},
 {"property": "C105", "status": "partial", "theorems": ["Pywmi.poly_text", "Pywmi.poly_text_order", "Pywmi.lin_text_partial", "Pywmi.lin_text_digit_wrong", "Pywmi.lin_text_strict_wrong", "Pywmi.dom_text_ok", "Pywmi.dom_text_partial", "Pywmi.dom_text_wrong", "Pywmi.unary_strText"], "note": "Equal polynomials with terms in another order have different texts (poly_text_order). Inequalities need names that cannot continue a number (lin_text_digit_wrong), domains need names without the marks of the text (dom_text_wrong). Comparisons with <= are printed with < (lin_text_strict_wrong). str of a number is a parameter that tells numbers apart."},
 {"property": "C106", "status": "proved", "theorems": ["Pywmi.box_sample", "Pywmi.box_uniform", "Pywmi.box_flags", "Pywmi.sampleDomain_boxDomain"], "note": "Exact arithmetic; the global generator is a parameter. C31 and C79 carry over by box_uniform."},
 {"property": "C107", "status": "partial", "theorems": ["Pywmi.scale_float_partial", "Pywmi.scale_float_two", "Pywmi.scale_float_halfSpace_partial", "Pywmi.scale_float_rounds", "Pywmi.scale_float_tiny", "Pywmi.LimLaw.tiny", "Pywmi.limSearch_law", "Pywmi.scale_float_overflows"], "note": "Proved for denominators up to a million whose common multiple is below 2^53, always so for two coefficients. Otherwise false: the common multiple is rounded and x/999983 + y/999979 < 1/999961 becomes 0 <= 0 (scale_float_rounds), many denominators overflow (scale_float_overflows); coefficients below 1/2000000 are lost or raise ZeroDivisionError (scale_float_tiny). LattE's files are written from the result. Products and sums of coefficients before scaling are exact."},
 {"property": "C108", "status": "partial", "theorems": ["Pywmi.latte_float_partial", "Pywmi.latte_float_exact_partial", "Pywmi.latte_float_tiny", "Pywmi.latte_float_loses", "Pywmi.latte_float_example", "Pywmi.latte_float_row", "Pywmi.latte_float_square"], "note": "Proved when all denominators are at most a million and the common multiple of those of each inequality is below 2^53; for other polynomials the answer is the integral of the polynomial with rounded coefficients (latte_float_partial). False in general: a constant below 1/2000000 is integrated to 0 over every region (latte_float_tiny, latte_float_loses), and an inequality can be written as a row of zeros (latte_float_row): about half of the unit square is given the area 1 (latte_float_square). The final division to a float is exact in the model."},
 {"property": "C109", "status": "partial", "theorems": ["Pywmi.nested_float_partial", "Pywmi.density_float_partial", "Pywmi.nested_third", "Pywmi.smtToNested_round", "Pywmi.fixed_floatText"], "note": "Loading gives the meaning of the formula with rounded constants (nested_float_partial, density_float_partial), without the constant False (C28). The first half of the statement is false for constants that are no floats: x = 1/3 does not hold at 1/3 after loading, and a weight 1/3 gets another value (nested_third). Of floats only the laws of FloatText are used: rounding is idempotent, takes whole numbers to whole numbers and gives denominators that are powers of two."},
 {"property": "C11", "status": "proved", "theorems": ["Pywmi.latteRows_correct", "Pywmi.latteRows_closure", "Pywmi.latteMonomials_correct", "Pywmi.latteRows_empty_bound"], "note": "limit_denominator idealised; an empty bound raises TypeError (latteRows_empty_bound)"},
 {"property": "C110", "status": "partial", "theorems": ["Pywmi.weighted_float_partial", "Pywmi.weighted_exact", "Pywmi.weighted_float_index", "Pywmi.weighted_float_zero", "Pywmi.wholeRd_rounds"], "note": "Proved for every rounding: an IndexError is raised or n values of the list are yielded in order. The rest is false with floats: with weights 10^16 and 3 the sum is rounded up and a drawn 0 leads past the end (weighted_float_index), and when the root of the drawn number is rounded to 1 the first value is yielded even if its weight is 0 (weighted_float_zero). C32 proves the full statement for exact numbers, which is this model without rounding (weighted_exact)."},
 {"property": "C111", "status": "partial", "theorems": ["Pywmi.poly_float_partial", "Pywmi.poly_float_value_partial", "Pywmi.lin_float_partial", "Pywmi.poly_float_id", "Pywmi.poly_float_zero", "Pywmi.lin_float_lost", "Pywmi.floatRd_rounds", "Pywmi.floatRd_exact", "Pywmi.poly_float_constants", "Pywmi.poly_float_exponent"], "note": "Proved for terms of any size and depth with whole constants whose expansion stays within 2^53 (termSize): floats give the exact polynomial, which has the value of the term (poly_float_value_partial), and an inequality between such terms is the exact one with each coefficient rounded once (lin_float_partial). False in general: (10^16 x + x) - 10^16 x is read as the zero polynomial (poly_float_zero), and the constraint (10^16 x + x) - 10^16 x <= 1 is read as one that always holds (lin_float_lost). A fraction rounded to 1 is accepted as exponent 1 (poly_float_exponent), constants and products are rounded (poly_float_constants). Without rounding the model is that of C06 (poly_float_id). Fractions are not covered by the partial theorem."},
 {"property": "C112", "status": "partial", "theorems": ["Pywmi.evaluators_float_same", "Pywmi.table_float", "Pywmi.table_float_partial", "Pywmi.evaluators_float_agree", "Pywmi.assignment_float", "Pywmi.row_float", "Pywmi.assignment_float_partial", "Pywmi.assignment_float_wrong", "Pywmi.assignment_float_order", "Pywmi.floatPow_whole", "Pywmi.assignment_float_id", "Pywmi.bounds_float"], "note": "Proved for every rounding: the evaluators of assignments, rows and tables compute the formula in float arithmetic, from the left, and agree (evaluators_float_same). They are exact for whole constants and points as long as the numbers met stay within 2^53 (assignment_float_partial, table_float_partial). For monotone rounding a float within bounds a <= x <= b is never rejected and only a rounded bound is wrongly accepted (bounds_float). Without rounding the value is that of C01 (assignment_float_id). False in general: x + 1 <= x is true at 10^16 (assignment_float_wrong), and the order of summands matters (assignment_float_order). Overflow of ** is excluded; numpy's element-wise power is taken to be Python's."},
 {"property": "C113", "status": "proved", "theorems": ["Pywmi.formula_clear", "Pywmi.term_error", "Pywmi.table_clear", "Pywmi.table_error", "Pywmi.floatRd_error", "Pywmi.floatPow_error"], "note": "All connectives, comparisons, sums, differences, products, case distinctions and powers with natural exponents up to 2^53, for every rounding with relative error u and every ** with relative error u that round whole numbers up to 2^53 exactly. The size of the error is relative to the term with absolute values, as cancellation requires. floatRd_error and floatPow_error show that rounding to 53 binary digits, half to even, meets the assumptions on whole numbers with u = 2^-53; underflow and overflow are excluded. What happens on a boundary is in C112."},
 {"property": "C12", "status": "proved", "theorems": ["Pywmi.toCanonical_selects", "Pywmi.toCanonical_selects_not", "Pywmi.toCanonical_bool", "Pywmi.toCanonical_idempotent", "Pywmi.toCanonical_proportional", "Pywmi.toCanonical_degenerate"], "note": "Linear tests over rationals; on the boundary l = r the two sides may differ, as stated; identical sides raise IndexError (toCanonical_degenerate)."},
 {"property": "C13", "status": "proved", "theorems": ["Pywmi.pool_history", "Pywmi.terminal_again"], "note": "Every finite history of terminal, internal, bool_test, apply, invert, reduce, integrate, conversion and compute_volume calls, including calls that raise: ids keep their nodes, leaves and inner nodes are hash-consed, children are smaller and different. Histories use linear tests and formulas the converter supports."},
 {"property": "C14", "status": "proved", "theorems": ["Pywmi.apply_pointwise", "Pywmi.apply_shape"], "note": "For every reachable pool, every pair of nodes, every assignment, every algebra with the stated laws (instance: exLaw)."},
 {"property": "C15", "status": "partial", "theorems": ["Pywmi.invert_partial", "Pywmi.invert_sympy_raises"], "note": "Value 1-f and an ordered 0/1 result, whether or not the operand is ordered, for every algebra whose is_one and is_zero recognise the constants. Sympy's algebra does not: is_one raises AttributeError, so negating a conjunction raises."},
 {"property": "C16", "status": "proved", "theorems": ["Pywmi.apply_shape", "Pywmi.invert_partial"], "note": "Ordered operands give ordered results of apply; invert gives ordered results on every 0/1 diagram, ordered or not; reduce_same shows the same for reduction as for apply."},
 {"property": "C17", "status": "proved", "theorems": ["Pywmi.apply_history", "Pywmi.reduce_history", "Pywmi.integrate_history", "Pywmi.volume_history"], "note": "Two pools with arbitrary histories and integrators with arbitrary strategies give results with the same function, and compute_volume gives the same number."},
 {"property": "C18", "status": "proved", "theorems": ["Pywmi.reduce_same"], "note": "Both modes, any sound solver (SolveLaw), any reachable pool, any path stack."},
 {"property": "C19", "status": "partial", "theorems": ["Pywmi.convert_formula_partial", "Pywmi.convert_weight_partial", "Pywmi.convert_pow_zero_wrong", "Pywmi.convert_pow_negative_wrong", "Pywmi.convert_nonlinear_raises"], "note": "All connectives, linear comparisons, polynomial weights with natural exponents and nested case distinctions. Fails for powers with exponent 0 inside comparisons (the id of the node of 1 is used as a number) and for negative exponents; non-linear comparisons and equations raise."},
 {"property": "C20", "status": "proved", "theorems": ["Pywmi.integrate_real_exact", "Pywmi.integrate_real_free"], "note": "The result has no test on x, and wherever the diagram vanishes outside a bounded range of x its value is the Lebesgue integral and does not depend on x."},
 {"property": "C21", "status": "partial", "theorems": ["Pywmi.integrate_bool_partial", "Pywmi.integrate_bool_unordered_wrong"], "note": "Holds for ordered diagrams; a diagram that tests the variable twice on a path (built with Pool.internal) is a counterexample."},
 {"property": "C22", "status": "partial", "theorems": ["Pywmi.xadd_volume_partial", "Pywmi.sampleEngine_value", "Pywmi.xadd_strict_wrong", "Pywmi.xadd_mixed_raises", "Pywmi.xadd_no_weight"], "note": "Holds for every shared pool history, strategy and iteration order when Boolean variables come first (as Domain.make builds them) and no strict comparison has sides that are equal everywhere. Both restrictions are needed (counterexamples). Support with linear comparisons, polynomial weights with case distinctions."},
 {"property": "C23", "status": "proved", "theorems": ["Pywmi.probability_laws", "Pywmi.exactVol_exists"], "note": "for every engine class whose volume is the weighted model integral"},
 {"property": "C24", "status": "proved", "theorems": ["Pywmi.withEvidence_correct", "Pywmi.withEvidence_order", "Pywmi.withEvidence_real"], "note": "pysmt substitute modelled, simplify a parameter with laws"},
 {"property": "C25", "status": "proved", "theorems": ["Pywmi.constraints_region", "Pywmi.constraints_volume", "Pywmi.add_bounds_volume"], "note": "engines are immutable values in the model, so originals are unchanged by construction"},
 {"property": "C26", "status": "partial", "theorems": ["Pywmi.Domain.getBounds_correct", "Pywmi.Domain.getVolume_partial", "Pywmi.Domain.getVolume_boolean_zero"], "note": "Bounds formula and volumes (Lebesgue measure of the box) are proved. The full claim fails for purely Boolean domains: the volume is 0, proved by getVolume_boolean_zero."},
 {"property": "C27", "status": "proved", "theorems": ["Pywmi.Domain.fromState_getState", "Pywmi.Domain.make_correct", "Pywmi.Domain.make_errors", "Pywmi.Domain.project_correct"], "note": ""},
 {"property": "C28", "status": "partial", "theorems": ["Pywmi.nested_roundtrip_partial", "Pywmi.nested_same_partial", "Pywmi.nested_false_becomes_true", "Pywmi.combined_split"], "note": "Round trip proved for every exportable formula without the constant False; the very same formula is read back when it has no implication or equivalence and is written as pysmt writes it (nested_same_partial); the constant False is read back as True, proved by nested_false_becomes_true."},
 {"property": "C29", "status": "partial", "theorems": ["Pywmi.nested_rejects_partial", "Pywmi.nested_rejects_operator", "Pywmi.nested_accepts_unbalanced", "Pywmi.nested_accepts_two"], "note": "Surplus closing brackets and unknown operators are rejected; missing closing brackets and several expressions are accepted, proved by nested_accepts_unbalanced and nested_accepts_two."},
 {"property": "C30", "status": "partial", "theorems": ["Pywmi.fromFile_toFile_partial", "Pywmi.fromFile_stale_query", "Pywmi.fromFile_stale_weight"], "note": "Round trip proved when the directory holds no stale files; stale queries and weights leak into the read density, proved by the two stale theorems."},
 {"property": "C31", "status": "proved", "theorems": ["Pywmi.uniform_correct"], "note": "for every generator outcome, domain with intervals, count and one-hot groups"},
 {"property": "C32", "status": "proved", "theorems": ["Pywmi.weightedSample_correct", "Pywmi.realRoot_ok"], "note": "for every generator outcome; numbers are exact, see C110 for floats"},
 {"property": "C33", "status": "partial", "theorems": ["Pywmi.positive_partial", "Pywmi.positive_certain", "Pywmi.positive_wrong_count", "Pywmi.positive_other_generator", "Pywmi.positive_zero"], "note": "terminates, feasible rows, sample limit; the returned count is the pool size without weight and later batches use the default generator: negations proved"},
 {"property": "C34", "status": "proved", "theorems": ["Pywmi.volumeOf_correct", "Pywmi.volumeOf_nonneg", "Pywmi.volumeOf_additive", "Pywmi.boundVolume_correct"], "note": "RejectionIntegrator: C80"},
 {"property": "C35", "status": "proved", "theorems": ["Pywmi.probabilitiesOf_correct", "Pywmi.share_laws"], "note": "for every sample table"},
 {"property": "C36", "status": "proved", "theorems": ["Pywmi.tree_partition", "Pywmi.buildRoot_ok", "Pywmi.adaptiveVolume_correct", "Pywmi.adaptiveVolume_bounds"], "note": "the tree's cells partition the box, whatever the samples and the oracle; the volume is the sum over cells of cell volume times acceptance rate"},
 {"property": "C37", "status": "partial", "theorems": ["Pywmi.asked_path_partial", "Pywmi.stale_declared_empty", "Pywmi.empty_cell_partial", "Pywmi.empty_cell_wrong"], "note": "true for cells whose oracle stack is the path to the root; false in general: the assertion of the second child is not removed, so later cells are asked with contradictory constraints"},
 {"property": "C38", "status": "partial", "theorems": ["Pywmi.probability_partial", "Pywmi.probability_ignores_query"], "note": "weighted case proved; without weight the query is ignored and the answer is always 1"},
 {"property": "C39", "status": "proved", "theorems": ["Pywmi.amc_wmc", "Pywmi.Sdd.expect_eval", "Pywmi.SddWalker.walk_eq", "Pywmi.sampleSdd_wf"], "note": "For every well-formed SDD and weights with pos+neg=1 the memoised traversal returns the weighted model count; weights are exact field elements."},
 {"property": "C40", "status": "proved", "theorems": ["Pywmi.compileToSdd_correct", "Pywmi.recoverFormula_correct", "Pywmi.compile_recover", "Pywmi.Sdd.refManager_ok", "Pywmi.Sdd.Over.wf"], "note": "The SDD library is a parameter: any manager whose operations stay within SDDs over the vtree with the right meaning; a truth-table manager shows the assumption can be met. The default vtree is covered by bami_correct_partial (C51)."},
 {"property": "C41", "status": "proved", "theorems": ["Pywmi.convex_count", "Pywmi.LiteralInfo.boolCount_eq", "Pywmi.extractLiterals_linear"], "note": "At every point, for every Boolean domain containing the SDD's variables."},
 {"property": "C42", "status": "partial", "theorems": ["Pywmi.nonConvex_count_partial", "Pywmi.nonConvex_count_wrong"], "note": "Full claim is false: addition smooths only when the two variable sets differ in size; (A and B) or (not A and C) yields 2 instead of 4. Proved for diagrams where at every addition the sets differ in size or are equal."},
 {"property": "C43", "status": "proved", "theorems": ["Pywmi.extractLiterals_correct", "Pywmi.extractLiterals_total", "Pywmi.extract_again", "Pywmi.extract_equals_raises"], "note": "Soundness for every well-typed formula on which extraction succeeds; totality on propositional combinations of linear inequalities; the lru_cache is not observable."},
 {"property": "C44", "status": "proved", "theorems": ["Pywmi.LiteralInfo.numbering_bijective", "Pywmi.LiteralInfo.isNumberBoolean_always"], "note": "Holds after any history, including failing updates. is_number_boolean is always True (finding)."},
 {"property": "C45", "status": "partial", "theorems": ["Pywmi.Pieces.add_correct_partial", "Pywmi.Pieces.mul_correct_partial", "Pywmi.Pieces.ite_correct_partial", "Pywmi.Pieces.condition_correct", "Pywmi.Pieces.neg_correct", "Pywmi.Pieces.add_disjoint", "Pywmi.Pieces.addPiece_correct"], "note": "Addition, product, conditioning and if-then-else are pointwise correct when no merge meets an existing doubled expression; the failing case is proved in Pieces.splitUp_double_wrong."},
 {"property": "C46", "status": "partial", "theorems": ["Pywmi.Pieces.splitUp_correct_partial", "Pywmi.splitUp_terms_partial", "Pywmi.XWeight.of_terms", "Pywmi.termWeight_terms", "Pywmi.termWeight_converted", "Pywmi.doubleWeight_terms", "Pywmi.Pieces.splitUp_double_wrong", "Pywmi.Pieces.splitUp_int_key", "Pywmi.Pieces.sampleWeight_converts", "Pywmi.splitUp_zeroAlone"], "note": "Splitting a weight is exact whenever the conversion meets no clash between an expression and its double; splitUp_terms_partial gives a condition on the weight alone: its terms, after multiplying out sums and case distinctions, are different functions. The unrestricted claim is refuted by splitUp_double_wrong and splitUp_int_key. A zero piece only occurs alone (splitUp_zeroAlone)."},
 {"property": "C47", "status": "partial", "theorems": ["Pywmi.extractLabels_partial", "Pywmi.extractLabels_repeated", "Pywmi.extractLabels_only_labels"], "note": "Full claim is false: a second label of the same variable replaces the first, and a product of labels only raises TypeError. Proved for distinct labelled variables and at least one other factor."},
 {"property": "C48", "status": "proved", "theorems": ["Pywmi.varGroups_correct", "Pywmi.getTerms_correct"], "note": "groups of get_variable_groups_poly; terms of get_terms"},
 {"property": "C49", "status": "partial", "theorems": ["Pywmi.FactCtx.Fine.recursive", "Pywmi.termVolume_correct", "Pywmi.FactOpts.computeVolume_correct_partial", "Pywmi.FactOpts.computeVolume_oneBool_partial", "Pywmi.factorised_agrees_partial", "Pywmi.factorised_label_wrong", "Pywmi.factorised_smooth_wrong", "Pywmi.label_missing_raises"], "note": "Engine-level volume proved for weights without labels, bounded supports and smooth diagrams; no condition on the diagrams for at most one Boolean variable, where the plain engine is also shown to agree. The full claim is false: a labelled variable missing in an element is counted twice instead of adding its labels (5 instead of 11), and unsmooth diagrams are miscounted (2 instead of 4)."},
 {"property": "C50", "status": "proved", "theorems": ["Pywmi.Vtree.createBalanced_correct", "Pywmi.Vtree.createBalanced_depth", "Pywmi.Vtree.depth_lower", "Pywmi.Vtree.createRightlinear_correct", "Pywmi.Vtree.createLeftlinear_correct", "Pywmi.Vtree.toPysdd_load", "Pywmi.Vtree.lines_missing", "Pywmi.Vtree.toPysdd_empty_child"], "note": "Leaves, shape, depth and the exported file for all three builders."},
 {"property": "C51", "status": "partial", "theorems": ["Pywmi.Bami.bami_correct_partial", "Pywmi.Bami.fromTables_correct", "Pywmi.IntTree.createVtree_spec", "Pywmi.IntTreeFactory.addNode_spec", "Pywmi.IntTreeFactory.getIntTree_spec", "Pywmi.Bami.bami_constant_raises", "Pywmi.Bami.bami_sample"], "note": "Total, complete and full whenever some inequality mentions a variable, for every tie-breaking order; when inequalities exist but none mentions a variable the code raises AttributeError (bami_constant_raises)."},
 {"property": "C52", "status": "partial", "theorems": ["Pywmi.PrimalGraph.removeAll_spec_partial", "Pywmi.PrimalGraph.remove_spec", "Pywmi.PrimalGraph.getLowestFutureMinfill_spec", "Pywmi.PrimalGraph.lookAhead_spec", "Pywmi.PrimalGraph.interaction_spec", "Pywmi.PrimalGraph.removeNode_spec", "Pywmi.PrimalGraph.addEdge_spec", "Pywmi.PrimalGraph.getMinfills_spec", "Pywmi.PrimalGraph.computeAllFills_spec", "Pywmi.PrimalGraph.remove_without_fills_loops", "Pywmi.PrimalGraph.remove_without_fills_raises", "Pywmi.PrimalGraph.mindegrees_keeps_removed", "Pywmi.PrimalGraph.lookAhead_degrees"], "note": "Proved for every graph and elimination sequence once the fills are computed, as bami does; without stored fills the code creates self loops and later KeyErrors, and looking ahead does not restore the degree table."},
 {"property": "C53", "status": "partial", "theorems": ["Pywmi.walk_message_partial", "Pywmi.walk_visits_partial", "Pywmi.walk_after_raise", "Pywmi.walk_dirty_example"], "note": "Holds in every reachable pool for visitors that leave profiles alone, unless an earlier walk of the same root raised; then every later walk raises, because the cached profile is not reset."},
 {"property": "C54", "status": "partial", "theorems": ["Pywmi.parseOptions_documented_partial", "Pywmi.parseOptions_order", "Pywmi.min_ignored", "Pywmi.reduce_ignored", "Pywmi.getEngine_correct", "Pywmi.xsdd_factorized_fails", "Pywmi.parseBackend_rej", "Pywmi.getVolume_first", "Pywmi.factorized_algebra"], "note": "Decoding, order independence, engine construction and fallback are proved for every documented option that has an effect. The full claim fails: min (XSDD) and r… (PyXADD) are ignored, v… and factorized make the XSDD constructor raise."},
 {"property": "C55", "status": "partial", "theorems": ["Pywmi.temp_removed_partial", "Pywmi.temp_leak", "Pywmi.temp_descriptor_leak"], "note": "Removed on every path on which the callback returns; a raising callback leaks the file, proved by temp_leak, and the descriptor is never closed."},
 {"property": "C56", "status": "proved", "theorems": ["Pywmi.MMap.views_agree", "Pywmi.MMap.flatten_iff", "Pywmi.MMap.flatten_twice"], "note": "Flattening is destructive, see flatten_twice."},
 {"property": "C57", "status": "partial", "theorems": ["Pywmi.computeVolume_correct_partial", "Pywmi.volumeCore_correct"], "note": "Proved for weights without a clash of pieces (C46), conditions and supports made of Boolean variables and linear comparisons, none between equal terms; without added bounds the support must contain an inequality that mentions a variable."},
 {"property": "C58", "status": "proved", "theorems": ["Pywmi.defaultAlgebra_sound", "Pywmi.directAlgebra_sound", "Pywmi.algebra_power", "Pywmi.algebra_greater", "Pywmi.pysmtCompare_fails"], "note": "for every backend whose primitive operations are sound; PySmtAlgebra's own comparisons raise (pysmtCompare_fails)"},
 {"property": "C59", "status": "partial", "theorems": ["Pywmi.density_state_roundtrip_partial"], "note": "As C28: formulas without the constant False."},
 {"property": "C60", "status": "partial", "theorems": ["Pywmi.LiteralInfo.make_linked", "Pywmi.LiteralInfo.setBool_linked_partial", "Pywmi.LiteralInfo.setAtom_linked_partial", "Pywmi.LiteralInfo.setBool_used", "Pywmi.LiteralInfo.setBool_update_stale", "Pywmi.LiteralInfo.setBool_update_collision", "Pywmi.LiteralInfo.delBool_always_raises", "Pywmi.LiteralInfo.clearBool_raises"], "note": "Holds for construction and additions of new keys. Fails in the code for updates of existing keys, deletions and clears; the failures are proved."},
 {"property": "C61", "status": "proved", "theorems": ["Pywmi.baseSupport_correct", "Pywmi.pruning_raises_on_cases", "Pywmi.inequalities_of_negated_conjunction", "Pywmi.inequalities_of_closed"], "note": "With a weight that has cases pruning raises a ValueError."},
 {"property": "C62", "status": "partial", "theorems": ["Pywmi.gainCounts_partial", "Pywmi.gain_wrong_column", "Pywmi.sideEntropy_range", "Pywmi.infoGain_range", "Pywmi.infoGain_split_partial", "Pywmi.adaptiveVolume_rest"], "note": "True when no Boolean variable precedes the real ones; negation proved for a Boolean first. The value itself: it lies between 0 and the entropy of the labels, and the cells of a tree and its empty part make up the volume."},
 {"property": "C63", "status": "partial", "theorems": ["Pywmi.volume_of_valid_partial", "Pywmi.volume_without_booleans", "Pywmi.boolean_domain_raises", "Pywmi.few_samples_raise"], "note": "exact box volume is reported, so correct for domains without Booleans; Boolean assignments are not counted"},
 {"property": "C64", "status": "partial", "theorems": ["Pywmi.nonConvex_correct_partial", "Pywmi.nonConvex_oneBool_partial", "Pywmi.nonConvexPiece_correct", "Pywmi.nonConvex_count_wrong"], "note": "Proved for bounded supports and smooth diagrams, no condition on the diagrams for at most one Boolean variable; unsmooth diagrams are miscounted. Weights with a clash of pieces (C46) and domains without real variables are excluded."},
 {"property": "C65", "status": "partial", "theorems": ["Pywmi.poolAlgebra_leaves", "Pywmi.poolAlgebra_times", "Pywmi.poolAlgebra_negate", "Pywmi.poolAlgebra_power", "Pywmi.poolAlgebra_condition", "Pywmi.poolAlgebra_compare", "Pywmi.poolAlgebra_polynomial", "Pywmi.poolAlgebra_inequality", "Pywmi.poolAlgebra_integrate", "Pywmi.poolAlgebra_sum_partial", "Pywmi.poolAlgebra_toFloat"], "note": "The sum over Boolean variables needs ordered diagrams (C21)."},
 {"property": "C66", "status": "partial", "theorems": ["Pywmi.poolEngine_correct_partial", "Pywmi.poolEngine_queries_partial", "Pywmi.poolEngine_noReals_wrong"], "note": "Needs real variables (false without, poolEngine_noReals_wrong), a weight without clash, no equalities and no comparisons of equal terms, smooth diagrams (automatic for at most one Boolean variable), bounds in the support when the domain bounds are not added."},
 {"property": "C67", "status": "proved", "theorems": ["Pywmi.tree_stops", "Pywmi.tree_terminates"], "note": "Oracles (sampler, solver) are parameters; emptiness is what the model's oracle declares."},
 {"property": "C68", "status": "partial", "theorems": ["Pywmi.nested_meaning_partial", "Pywmi.combined_meaning_partial"], "note": "Missing: texts with the constant False (read as true, see C28), exponents that are not natural numbers, exp."},
 {"property": "C69", "status": "proved", "theorems": ["Pywmi.smtlib_meaning", "Pywmi.smtlib_and_one", "Pywmi.smtlib_undeclared", "Pywmi.smtlib_quoted", "Pywmi.smtlib_wrong_type", "Pywmi.smtlib_int_query"], "note": "the hypothesis on the number of arguments is needed: smtlib_and_one; pysmt's simplify is a parameter that keeps type and value; starts from the parse tree"},
 {"property": "C70", "status": "proved", "theorems": ["Pywmi.smtlib_accepts", "Pywmi.smtlib_correct", "Pywmi.smtlib_history", "Pywmi.smtlib_weight_int"], "note": "scripts over Bool and Real; for Int variables reading depends on the order of terms: smtlib_history, smtlib_weight_int"},
 {"property": "C71", "status": "proved", "theorems": ["Pywmi.mzn_meaning", "Pywmi.mzn_include_forgets", "Pywmi.mzn_include_breaks", "Pywmi.mzn_include_integers", "Pywmi.mzn_include_weight"], "note": "Every file that is read means what it says; the findings about included files are theorems."},
 {"property": "C72", "status": "proved", "theorems": ["Pywmi.mzn_accepts", "Pywmi.mzn_correct", "Pywmi.mzn_types", "Pywmi.mzn_no_equations", "Pywmi.mzn_no_inequality", "Pywmi.mzn_no_late_value", "Pywmi.mzn_plus_bool"], "note": "Total correctness on the stated class of files, typing of everything that is read; what is never read is proved."},
 {"property": "C73", "status": "proved", "theorems": ["Pywmi.group_spec", "Pywmi.group_unique", "Pywmi.arith_usual", "Pywmi.mzn_arith", "Pywmi.logic_grouping", "Pywmi.group_standard"], "note": "Grouping characterised and unique, arithmetic has its usual value; the deviation for xor is proved."},
 {"property": "C74", "status": "partial", "theorems": ["Pywmi.print_faithful_partial", "Pywmi.print_support", "Pywmi.print_total", "Pywmi.print_product", "Pywmi.print_difference", "Pywmi.print_power"], "note": "Faithful on supports made of linear comparisons, and on all formulas in which (outside of comparisons) no sum is a factor, subtracted or a base. Without that condition false: (x + 1)*y is printed x + 1*y, x - (y + z) is printed x - y + z, (-3)^2 is printed -3^2."},
 {"property": "C75", "status": "partial", "theorems": ["Pywmi.xadd_volume_correct", "Pywmi.xadd_reported", "Pywmi.reported_first", "Pywmi.reported_none", "Pywmi.reported_all_partial", "Pywmi.pyFloat_text", "Pywmi.probabilities_some", "Pywmi.probabilities_none", "Pywmi.xadd_normalize_correct", "Pywmi.xadd_adjacent_lost", "Pywmi.xadd_bad_number", "Pywmi.mpwmi_correct", "Pywmi.pa_correct", "Pywmi.praise_correct_partial", "Pywmi.praise_volume_wrong", "Pywmi.praise_bounds_ignored"], "note": "Proved for the XADD, message passing and predicate abstraction engines. Missing: of adjacent result lines only every second is read (xadd_adjacent_lost; reported_all_partial needs them separated), a missing answer makes probability queries raise TypeError (probabilities_none), and PRAiSE returns 1 as volume and ignores the box (praise_volume_wrong, praise_bounds_ignored)."},
 {"property": "C76", "status": "partial", "theorems": ["Pywmi.import_smt_correct", "Pywmi.import_mzn_correct", "Pywmi.import_tree_correct", "Pywmi.import_mspn_correct", "Pywmi.import_mspn_refused", "Pywmi.import_synthetic_correct", "Pywmi.import_dialects", "Pywmi.import_100_fails", "Pywmi.import_int_real"], "note": "Integer variables become real ones and the dialect wmi_generate_100 always raises: both proved as counterexamples."},
 {"property": "C77", "status": "partial", "theorems": ["Pywmi.compare_raises", "Pywmi.compare_rows", "Pywmi.compare_warns", "Pywmi.compare_errors_partial", "Pywmi.compare_times", "Pywmi.compare_warning_names_partial", "Pywmi.compare_warning_names_wrong", "Pywmi.compare_zero_reference", "Pywmi.compare_query", "Pywmi.prob_first", "Pywmi.normalize_total"], "note": "The names in the warnings are only right when every engine is exact and answers (counterexample proved), the error column only when the exact answers are not 0 (counterexample proved)."},
 {"property": "C78", "status": "partial", "theorems": ["Pywmi.latte_correct", "Pywmi.latte_sound", "Pywmi.engine_correct", "Pywmi.engine_sound", "Pywmi.computeVolume_sound_partial", "Pywmi.xsdd_latte_partial", "Pywmi.xsdd_engine_partial", "Pywmi.xsdd_engine_correct_partial", "Pywmi.xsdd_engine_zero_piece", "Pywmi.xsdd_engine_zero_weight", "Pywmi.latte_ignores_box", "Pywmi.Latte.hrepText_correct", "Pywmi.Latte.polyText_correct", "Pywmi.Latte.search_correct", "Pywmi.Latte.readAnswer_correct", "Pywmi.Latte.integer_answer_lost", "Pywmi.Latte.ideal_sound"], "note": "The back-ends themselves are proved for all linear regions and polynomials; XSDD with them under the hypotheses of C57. The engine behind a back-end only has to be right on problems without Booleans; PyXADD is (pyxadd_backend_exact, C98). limit_denominator is idealised (C11)."},
 {"property": "C79", "status": "proved", "theorems": ["Pywmi.rejection_unbiased", "Pywmi.rejection_mean_square", "Pywmi.rejection_converges", "Pywmi.rejection_probabilities_converge"], "note": "numbers are idealised as reals, the generator as independent uniform numbers; one-hot groups are not covered by these theorems"},
 {"property": "C80", "status": "partial", "theorems": ["Pywmi.integrator_plain", "Pywmi.integrator_lp_partial", "Pywmi.integrator_lp_nonneg", "Pywmi.integrator_drawn_partial", "Pywmi.integrator_errors", "Pywmi.integrator_lp_none", "Pywmi.integrator_drawn_none", "Pywmi.integrator_lp_negative", "Pywmi.integrator_lp_empty", "Pywmi.integrator_drawn_biased", "Pywmi.integrator_drawn_missed"], "note": "without box: full; bounding_box=1 loses negative coordinates and bounding_box=2 the parts outside the samples (counterexamples proved)"},
 {"property": "C81", "status": "partial", "theorems": ["Pywmi.Psi.psi_float_close", "Pywmi.Psi.psi_float_range", "Pywmi.Psi.psi_float_direct", "Pywmi.Psi.psi_real_text", "Pywmi.Psi.psi_float_whole", "Pywmi.Psi.psi_float_fails", "Pywmi.Psi.psi_float_wrong"], "note": "whole numbers and values beyond 10^250 fail or are wrong (counterexamples proved); float arithmetic idealised"},
 {"property": "C82", "status": "partial", "theorems": ["Pywmi.top_down_visits", "Pywmi.top_down_schedule", "Pywmi.top_down_order", "Pywmi.down_up_result", "Pywmi.down_up_cache", "Pywmi.down_up_unhashable", "Pywmi.map_leaves_partial", "Pywmi.map_leaves_raise", "Pywmi.map_leaves_missed"], "note": "map_leaves returns all leaves only if no earlier walk of the same root raised; the violation is proved by map_leaves_missed and map_leaves_raise"},
 {"property": "C83", "status": "partial", "theorems": ["Pywmi.diagram_operators_partial", "Pywmi.diagram_operands", "Pywmi.diagram_sub_fails", "Pywmi.diagram_sub_never", "Pywmi.diagram_evaluate_never"], "note": "subtraction and evaluate are proved to raise always; the other operators are proved for expressions over all diagrams, and keep the order of ordered ones"},
 {"property": "C84", "status": "partial", "theorems": ["Pywmi.plot_panels_partial", "Pywmi.plot_rows_once", "Pywmi.plot_formula_panels", "Pywmi.plot_nonlinear_blank", "Pywmi.plot_equation_fails", "Pywmi.plot_index_fails", "Pywmi.plot_blank_counterexample", "Pywmi.plot_swapped_counterexample"], "note": "proved for formulas of linear comparisons; nonlinear comparisons, equations, column numbers and exchanged features are proved to go wrong"},
 {"property": "C85", "status": "proved", "theorems": ["Pywmi.sympy_integrate_exact", "Pywmi.psi_integrate_exact", "Pywmi.sympy_missing_bounds", "Pywmi.indicator_integrate_exact", "Pywmi.backends_agree", "Pywmi.backends_order_counterexample", "Pywmi.sympy_order", "Pywmi.triangle_example"], "note": "The agreement of the back-ends needs nested bounds in order; a counterexample shows that the order is needed."},
 {"property": "C86", "status": "partial", "theorems": ["Pywmi.expected_vars", "Pywmi.smooth_count_partial", "Pywmi.smooth_count_root", "Pywmi.smooth_count_below", "Pywmi.smooth_root_constants", "Pywmi.amc_smooth", "Pywmi.smooth_to_root_counterexample", "Pywmi.smooth_to_root_walk_counterexample", "Pywmi.smooth_example"], "note": "Proved for smoothing at the root; decision nodes below the root and smooth_to_root are proved to go wrong."},
 {"property": "C87", "status": "proved", "theorems": ["Pywmi.DotOpts.sdd_dot_wellformed", "Pywmi.DotOpts.sdd_dot_reading", "Pywmi.DotOpts.sdd_dot_depicts", "Pywmi.DotOpts.sdd_dot_complete", "Pywmi.DotOpts.sdd_dot_skips", "Pywmi.DotOpts.sdd_dot_total", "Pywmi.DrawExample.all_nodes", "Pywmi.DrawExample.few_nodes", "Pywmi.DrawExample.sdd_dot_note_lost", "Pywmi.DrawExample.empty_drawing"], "note": "All options; the text of a line is modelled by the values printed into it."},
 {"property": "C88", "status": "proved", "theorems": ["Pywmi.string_text_exact", "Pywmi.xadd_text_exact", "Pywmi.text_poly", "Pywmi.text_linear", "Pywmi.string_negate_example", "Pywmi.text_integral_example"], "note": "Names and non-negative numbers are single tokens; StringAlgebra.power calls PSI and is left out."},
 {"property": "C89", "status": "partial", "theorems": ["Pywmi.view_depicts_partial", "Pywmi.view_raises", "Pywmi.view_reading_partial", "Pywmi.view_same_partial", "Pywmi.view_rounds", "Pywmi.view_overflow", "Pywmi.ViewExample.drawing", "Pywmi.ViewExample.read_example"], "note": "Leaf labels are exact only where float is exact on integers; counterexamples proved."},
 {"property": "C90", "status": "partial", "theorems": ["Pywmi.density_drawn", "Pywmi.density_shows_partial", "Pywmi.density_bool", "Pywmi.density_exchanged", "Pywmi.density_third"], "note": "True for the features in the order of the domain (default); wrong for exchanged features and more variables, counterexamples proved."},
 {"property": "C91", "status": "partial", "theorems": ["Pywmi.copies_keep_partial", "Pywmi.engine_as_told", "Pywmi.copies_generator", "Pywmi.copies_restart", "Pywmi.copies_probabilities_partial", "Pywmi.adaptive_probabilities_fail", "Pywmi.build_count_lost"], "note": "partial because the code loses fractional build counts and adaptive engines have no compute_probabilities"},
 {"property": "C92", "status": "partial", "theorems": ["Pywmi.names_describe_partial", "Pywmi.adaptive_name_refused", "Pywmi.mpwmi_cache_name", "Pywmi.xadd_no_mode_name", "Pywmi.unknown_names", "Pywmi.xsdd_name_refused", "Pywmi.xsdd_names_differ", "Pywmi.sampling_descriptions"], "note": "partial because names of several classes are no descriptions"},
 {"property": "C93", "status": "partial", "theorems": ["Pywmi.canonical_same_partial", "Pywmi.canonical_one_variable", "Pywmi.canonical_order_wrong"], "note": "Same inequality as a dictionary and tests true at the same points for all comparisons; same formula only if the variables are in the same order (always for one variable); the counterexample is proved."},
 {"property": "C94", "status": "partial", "theorems": ["Pywmi.reduce_leaves", "Pywmi.reduce_decides", "Pywmi.integrate_bool_leaves", "Pywmi.reduce_paths_partial", "Pywmi.reduce_again_partial", "Pywmi.reduce_fast_path", "Pywmi.reduce_full_after_fast"], "note": "Leaves and the decision of 0/1 diagrams for both methods and all histories, also for sums over Boolean variables with all reductions on; paths and reducing twice only for method smt on nodes not reduced before, the counterexamples show that the rest of the claim is false. Diagrams that are not ordered are not covered."},
 {"property": "C95", "status": "partial", "theorems": ["Pywmi.install_complete", "Pywmi.install_keeps", "Pywmi.install_force_unreachable", "Pywmi.install_moments", "Pywmi.install_others", "Pywmi.install_history", "Pywmi.install_calm_partial", "Pywmi.install_interrupted", "Pywmi.install_force_repairs", "Pywmi.install_remove_restores", "Pywmi.install_remove_partial", "Pywmi.install_listing", "Pywmi.install_listing_right_partial", "Pywmi.install_listing_wrong", "Pywmi.install_concrete"], "note": "The claims on --remove, interruptions and the listing fail in the code; counterexamples are proved for all servers, and the parts that hold."},
 {"property": "C96", "status": "partial", "theorems": ["Pywmi.transform_leaves_partial", "Pywmi.to_binary_partial", "Pywmi.to_binary_zero_partial", "Pywmi.to_binary_constant", "Pywmi.to_binary_wrong", "Pywmi.to_binary_after_raise", "Pywmi.transform_leaves_concrete"], "note": "for diagrams whose earlier walks did not raise; to_binary is 0 where the leaf compares equal to 0, which is not everywhere the diagram is 0"},
 {"property": "C97", "status": "partial", "theorems": ["Pywmi.order_none", "Pywmi.order_ignored", "Pywmi.order_values", "Pywmi.order_values_partial", "Pywmi.order_followed", "Pywmi.order_raises", "Pywmi.order_not_followed", "Pywmi.change_order_keeps", "Pywmi.change_order_stale", "Pywmi.change_order_repairs", "Pywmi.order_concrete", "Pywmi.order_followed_concrete"], "note": "Orderings that implement the class Ordering make apply raise, and change_order keeps old results (findings). Values are proved for all orderings, that tests follow the ordering for objects that offer the misspelt method in pools that only had orderings that decide alike. The ordering is a parameter of apply; inversion, reduction and integration are modelled for pools without one."},
 {"property": "C98", "status": "partial", "theorems": ["Pywmi.exact_engines_agree_partial", "Pywmi.StatefulEngine.Right.returns", "Pywmi.pyxadd_right_partial", "Pywmi.xsdd_right_partial", "Pywmi.xsddEngine_right_partial", "Pywmi.xsddSymbolic_right_partial", "Pywmi.xsddPool_right_partial", "Pywmi.fxsdd_right_partial", "Pywmi.pyxadd_backend_exact", "Pywmi.rejection_limit_partial", "Pywmi.rejection_queries_limit_partial", "Pywmi.agree_concrete", "Pywmi.agree_wide"], "note": "Scope: Booleans listed first, linear comparisons of terms that differ, weights without a clash (C46), no labels in the factorised engine (C49); at least one real and at most one Boolean variable for XSDD without back-end, XSDD over pools and the factorised engine, any number for PyXADD and XSDD with a back-end; outside that scope some engines return wrong values (see the findings of C22, C46, C49, C64, C66). PA, XADD (jar), PRAiSE and MPWMI hand the problem to external solvers (C75)."},
 {"property": "C99", "status": "partial", "theorems": ["Pywmi.poly_laws_partial", "Pywmi.polyEq_equivalence", "Pywmi.polyEq_sound", "Pywmi.polyEq_monomials", "Pywmi.polyFromSmt_eq_partial", "Pywmi.polyEq_congr", "Pywmi.poly_hash", "Pywmi.poly_get", "Pywmi.poly_other", "Pywmi.poly_number_left", "Pywmi.polyPlus_zero", "Pywmi.polySum_single", "Pywmi.poly_cancel", "Pywmi.poly_key_concrete"], "note": "Laws with 0 fail: p + 0, sum([p]) and p + (-1)*p keep monomials with coefficient 0 and are not == to p or 0 (polyPlus_zero, polySum_single, poly_cancel say exactly when); terms with exponent 0 are excluded (C06). Floats are exact."}
]}
