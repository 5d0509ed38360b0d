{
 "claims": [
  {
   "property": "C01",
   "status": "proved",
   "theorems": [
    "Verif.C01_build_denotes",
    "Verif.C01_zeros",
    "Verif.C01_build_denotes_unitless"
   ],
   "note": "Model of the operators over the reals; exact arithmetic. C01_zeros: also where variables are zero, if nothing is divided by zero."
  },
  {
   "property": "C02",
   "status": "proved",
   "theorems": [
    "Verif.C02_build_canonical",
    "Verif.C02_add_mul_canonical"
   ],
   "note": "All expressions built from variables, numbers and the operators, with units."
  },
  {
   "property": "C03",
   "status": "partial",
   "theorems": [
    "Verif.C03_eq_iff_same_function",
    "Verif.C03_expr_eq_iff",
    "Verif.C03_eqNum_partial",
    "Verif.C03_eqNum_zero_fails",
    "Verif.C03_units_fails"
   ],
   "note": "Full equivalence for nomials with the same units and for non-zero numbers. The code violates the property for `x - x == 0` and for nomials in different units of one dimension; both are proved with witnesses (`_fails`)."
  },
  {
   "property": "C04",
   "status": "proved",
   "theorems": [
    "Verif.C04_equal_vectors_equal_hashes",
    "Verif.C04_hash_stable",
    "Verif.C04_inplace_items"
   ],
   "note": "Every reachable vector, every item-hash function; hashes are 64-bit words under xor."
  },
  {
   "property": "C05",
   "status": "proved",
   "theorems": [
    "Verif.C05_class_decision",
    "Verif.C05_build_class",
    "Verif.C05_build_positive",
    "Verif.C05_build_value_nonneg"
   ],
   "note": "Decision for every input of Signomial(...) and invariants for all expressions."
  },
  {
   "property": "C06",
   "status": "proved",
   "theorems": [
    "Verif.C06_sub_evaluates",
    "Verif.C06_sub_removes",
    "Verif.C06_sub_all",
    "Verif.C06_sub_total",
    "Verif.C06_sub_order_independent",
    "Verif.C06_sub_twice",
    "Verif.C06_quantity_value"
   ],
   "note": "Any values for which Python powers are floats, any order of the sets iterated over; zero and negative values included."
  },
  {
   "property": "C07",
   "status": "proved",
   "theorems": [
    "Verif.C07_diff_is_derivative"
   ],
   "note": "HasDerivAt at every positive point, all real exponents."
  },
  {
   "property": "C08",
   "status": "proved",
   "theorems": [
    "Verif.C08_posy_negy",
    "Verif.C08_chop"
   ],
   "note": "posy_negy and chop for every nomial."
  },
  {
   "property": "C09",
   "status": "proved",
   "theorems": [
    "Verif.C09_add",
    "Verif.C09_convert",
    "Verif.C09_convert_round_trip",
    "Verif.C09_mul",
    "Verif.C09_pow",
    "Verif.C09_build_dim"
   ],
   "note": "Units are a dimension and a positive scale; values compared in base units."
  },
  {
   "property": "C10",
   "status": "partial",
   "theorems": [
    "Verif.C10_ratio_partial",
    "Verif.C10_heap_wf",
    "Verif.C10_ratio_fails"
   ],
   "note": "The cache is keyed on object addresses: correct for histories in which unit objects stay alive, wrong (witness) when an address is reused."
  },
  {
   "property": "C11",
   "status": "proved",
   "theorems": [
    "Verif.C11_total",
    "Verif.C11_tangent_lower_bound"
   ],
   "note": "Every posynomial, every positive x0, every iteration order. OverflowError is not modelled."
  },
  {
   "property": "C12",
   "status": "partial",
   "theorems": [
    "Verif.C12_nonneg_partial",
    "Verif.C12_form_partial",
    "Verif.C12_error_partial",
    "Verif.C12_form_fails"
   ],
   "note": "Equivalence of the constraint and its form, also where variables of the lesser side are zero (C12_nonneg_partial), when no quotient exponent equals a later one; the in-place renaming loses terms otherwise (witness x**2 + x <= 5*x, which becomes no constraint)."
  },
  {
   "property": "C13",
   "status": "partial",
   "theorems": [
    "Verif.C13_value",
    "Verif.C13_form",
    "Verif.C13_error_partial",
    "Verif.C13_constraint_partial",
    "Verif.C13_error_fails",
    "Verif.C13_signomial_fails"
   ],
   "note": "Equivalence for all non-negative constants, exceptions only when infeasible for positive constants. Violated for x <= 1 with x = 0 (raises) and for inequalities made inside SignomialsEnabled (witnesses)."
  },
  {
   "property": "C14",
   "status": "proved",
   "theorems": [
    "Verif.C14_pair",
    "Verif.C14_error",
    "Verif.C14_solver_form",
    "Verif.C14_solver_error"
   ],
   "note": "Before and after substituting positive constants: no form or exactly two, equivalent to equality; exceptions exactly when constants differ by more than the tolerance."
  },
  {
   "property": "C15",
   "status": "partial",
   "theorems": [
    "Verif.C15_shares_partial",
    "Verif.C15_distinct",
    "Verif.C15_two",
    "Verif.C15_moved_fails",
    "Verif.C15_zero_fails"
   ],
   "note": "For posynomials and positive constants such that terms that have been merged contain at most one constant still to be substituted (in particular if all terms stay different, or at most two constants occur), for every iteration order of the sets: every original term has exactly one share, in the term it became, proportional to its value, and the shares of each term add up to one. Violated for terms merged early and moved together twice, and for constants that are zero (witnesses)."
  },
  {
   "property": "C16",
   "status": "partial",
   "theorems": [
    "Verif.C16_posynomial_partial",
    "Verif.C16_equality",
    "Verif.C16_moved_fails"
   ],
   "note": "Posynomial inequalities under the condition of C15 and without leftovers of earlier solves (C49), at every active point, for constants and free variables: reported is the multiplier times the derivative of the log of the solver form, whose value is also identified. Monomial equalities without restriction. Violated where shares are lost (witness)."
  },
  {
   "property": "C17",
   "status": "partial",
   "theorems": [
    "Verif.C17_slack_partial",
    "Verif.C17_inner_approximation_partial",
    "Verif.C17_inner_approximation_fails"
   ],
   "note": "Inner approximation and feasibility of x0 where C12 holds; violated for x**3 + x**2 - x <= 0 (witness)."
  },
  {
   "property": "C18",
   "status": "partial",
   "theorems": [
    "Verif.C18_ends_partial",
    "Verif.C18_limit_fails",
    "Verif.C18_converged",
    "Verif.C18_distance_partial",
    "Verif.C18_quiet_fails",
    "Verif.C18_small_fails",
    "Verif.C18_cost_partial"
   ],
   "note": "Every sequence of costs: the loop ends, convergence of the last two costs, when it warns. Exact solves from a feasible guess stay feasible and do not rise where C17 holds, without slack. Violated: one solve more than the limit, rises accepted when quiet or when costs are small (witnesses)."
  },
  {
   "property": "C19",
   "status": "proved",
   "theorems": [
    "Verif.C19_update",
    "Verif.C19_fewer_terms_fails",
    "Verif.C19_more_terms_fails"
   ],
   "note": "Every program and every sequence of updates that keeps the number of terms of each constraint. When the number changes rows are lost or overwritten (two witnesses), which happens when a guess makes an approximation cancel a term."
  },
  {
   "property": "C20",
   "status": "proved",
   "theorems": [
    "Verif.C20_rows",
    "Verif.C20_blocks",
    "Verif.C20_columns",
    "Verif.C20_equalities"
   ],
   "note": "Rows, blocks, columns and equality indices for every list of posynomials. Terms are assumed to list each variable once, which C02 provides."
  },
  {
   "property": "C21",
   "status": "proved",
   "theorems": [
    "Verif.C21_missing",
    "Verif.C21_error",
    "Verif.C21_hints"
   ],
   "note": "Every program of posynomial inequalities and monomial equalities and every iteration order of the sets: reported missing bounds are exactly the underivable ones; hints are sound and cover each equality. Exponents are assumed non-zero, which C02 provides."
  },
  {
   "property": "C22",
   "status": "partial",
   "theorems": [
    "Verif.C22_bounded_partial",
    "Verif.C22_order",
    "Verif.C22_bounded_fails"
   ],
   "note": "Exact for every nesting, order and set of values when each equality has two or more variables; an equality with a single variable, such as x == 3, gives no bound (witness)."
  },
  {
   "property": "C23",
   "status": "partial",
   "theorems": [
    "Verif.C23_map_partial",
    "Verif.C23_single_fails",
    "Verif.C23_integers_fails",
    "Verif.C23_sweep_fails",
    "Verif.C23_functions_fails",
    "Verif.C23_shared_fails",
    "Verif.C23_failed_write_fails",
    "Verif.C23_string_fails"
   ],
   "note": "Every sequence of writes and reads with whole arrays, lists of floats, elements and scalars that numpy stores exactly. Violated: numbers written to whole vectors are rounded to single precision, lists of integers truncate later fractions, sweeps and functions over whole vectors, one array given to two vectors, failed writes, string keys (witnesses)."
  },
  {
   "property": "C24",
   "status": "partial",
   "theorems": [
    "Verif.C24_copy_partial",
    "Verif.C24_source_fails",
    "Verif.C24_delete_fails",
    "Verif.C24_update_fails"
   ],
   "note": "Any writes and reads of the copy, failing or not, leave the source as it was. Violated for writes to the source, deletions from the copy and update of a dict that is not empty (witnesses)."
  },
  {
   "property": "C25",
   "status": "partial",
   "theorems": [
    "Verif.C25_name_partial",
    "Verif.C25_whole_partial",
    "Verif.C25_element_fails",
    "Verif.C25_unmapped_fails",
    "Verif.C25_missing_fails",
    "Verif.C25_integers_fails",
    "Verif.C25_twins_fails"
   ],
   "note": "Deletion by name after any fine operations, and of a scalar or whole vector after a lookup by name. Violated for elements, for variables deleted before any lookup, for missing names, for integer lists and for vectors sharing a name (witnesses)."
  },
  {
   "property": "C26",
   "status": "partial",
   "theorems": [
    "Verif.C26_class_partial",
    "Verif.C26_mixed_partial",
    "Verif.C26_leak_fails",
    "Verif.C26_twice_fails"
   ],
   "note": "Any order of variables and elements, arrays mixed or not: each key is in one dict at most, with its own value, and in the right dict when no array mixes swept elements with others. Violated for a free element beside a swept one and for a variable named twice in a plain dict (witnesses)."
  },
  {
   "property": "C27",
   "status": "partial",
   "theorems": [
    "Verif.C27_skip_partial",
    "Verif.C27_halt_partial",
    "Verif.C27_collect",
    "Verif.C27_linked_fails",
    "Verif.C27_programs_fails"
   ],
   "note": "Any number of swept variables, any solver outcomes, both values of skipsweepfailures: one program per combination from the constants that belong to it, results in order, reduction of constants loses nothing. Violated when a linked function looks at a linked variable (stale value of the pass before) and for the constants kept with saved programs (witnesses)."
  },
  {
   "property": "C28",
   "status": "partial",
   "theorems": [
    "Verif.C28_sweep_partial",
    "Verif.C28_autosweep_partial",
    "Verif.C28_zero_fails",
    "Verif.C28_error_fails",
    "Verif.C28_array_fails"
   ],
   "note": "Scalar variables, any number of swept variables, any depth of splitting: a sweep or autosweep that returns leaves the substitutions exactly as they were, and each solution belongs to them with the one change. Violated when the variable was zero, when a solve fails, and when the prior value is an array (witnesses)."
  },
  {
   "property": "C29",
   "status": "partial",
   "theorems": [
    "Verif.C29_read_partial",
    "Verif.C29_single_fails",
    "Verif.C29_keys_fails"
   ],
   "note": "Any number of results with the same keys at all levels in any order, any nesting. Violated for a single result with arrays and for results with different keys (witnesses). Inner dicts are plain dicts."
  },
  {
   "property": "C30",
   "status": "proved",
   "theorems": [
    "Verif.C30_tree",
    "Verif.C30_autosweep"
   ],
   "note": "Any splits of any parts of a tree with positive bounds, and every autosweep that ends, for any solver and any way of choosing split points."
  },
  {
   "property": "C31",
   "status": "partial",
   "theorems": [
    "Verif.C31_upper",
    "Verif.C31_lower_partial",
    "Verif.C31_zero_fails",
    "Verif.C31_straight_fails"
   ],
   "note": "Upper bound for every convex log cost and every finished autosweep. Lower bound, gap and estimate where the lower bound is not exactly zero and the interval was not taken for a straight line, with a bound on the error otherwise. Violated in both excluded cases (witnesses). Real arithmetic."
  },
  {
   "property": "C32",
   "status": "partial",
   "theorems": [
    "Verif.C32_one",
    "Verif.C32_grows_partial",
    "Verif.C32_solver",
    "Verif.C32_equally",
    "Verif.C32_equally_solver",
    "Verif.C32_each",
    "Verif.C32_each_solver_partial",
    "Verif.C32_shrinks_fails",
    "Verif.C32_never_fails",
    "Verif.C32_nested_fails"
   ],
   "note": "Every set of posynomial constraints and equalities, all three kinds of relaxation: value 1 gives back the constraints, larger values allow more, some value suffices for posynomials, and the solver sees exactly this. Violated for signomial constraints with minus signs (the set shrinks, or no relaxation suffices) and for nested and vector constraints, which raise IndexError (witnesses)."
  },
  {
   "property": "C33",
   "status": "partial",
   "theorems": [
    "Verif.C33_within",
    "Verif.C33_one",
    "Verif.C33_report",
    "Verif.C33_threshold_partial",
    "Verif.C33_threshold_fails",
    "Verif.C33_variables_partial",
    "Verif.C33_variables_fails",
    "Verif.C33_substitutions_partial",
    "Verif.C33_vectors_fails",
    "Verif.C33_names_fails"
   ],
   "note": "The freed value lies within the factor of the old one, exactly, for all variables and units; report characterised for all values; substitutions for any scalars. Violated: values below the threshold are reported, an empty report raises, vectors with an element that is not relaxed lose it, names shared with constants set later raise, and inside a model under construction the three variables coincide (witnesses)."
  },
  {
   "property": "C34",
   "status": "proved",
   "theorems": [
    "Verif.C34_restores",
    "Verif.C34_restores_inside",
    "Verif.C34_new",
    "Verif.C34_variables"
   ],
   "note": "Every tree of nested environments, with exceptions raised and caught anywhere; lineages are new unless the counters were reset on purpose."
  },
  {
   "property": "C35",
   "status": "partial",
   "theorems": [
    "Verif.C35_outermost_partial",
    "Verif.C35_nested_fails"
   ],
   "note": "Every block that is not inside another, with any exceptions. Violated for nested blocks (witness)."
  },
  {
   "property": "C36",
   "status": "partial",
   "theorems": [
    "Verif.C36_equal_partial",
    "Verif.C36_hash",
    "Verif.C36_pickle",
    "Verif.C36_index_fails",
    "Verif.C36_units_fails"
   ],
   "note": "All names without [ and quotes, all lineages, indices and units without the text None: equal exactly when the parts agree. Hash and pickling for all keys. Violated for a scalar named x[0] and for units written in two ways (witnesses)."
  },
  {
   "property": "C37",
   "status": "partial",
   "theorems": [
    "Verif.C37_history_partial",
    "Verif.C37_options_partial",
    "Verif.C37_options_fails",
    "Verif.C37_stdout",
    "Verif.C37_exceptions_partial",
    "Verif.C37_unknown",
    "Verif.C37_solver",
    "Verif.C37_debug_fails",
    "Verif.C37_relaxed_fails",
    "Verif.C37_infeasible_fails",
    "Verif.C37_log"
   ],
   "note": "Options: exact for every history (the own ones, else for solvers with defaults the last given by any earlier call, else the default), so as stated for solvers without defaults. Violated for cvxopt, whose defaults are changed in place (witness). Standard output for every outcome. Exceptions for every outcome but a plain Infeasible (UnboundLocalError) and quick failures at default verbosity, which return the relaxed solution or raise AttributeError (witnesses)."
  },
  {
   "property": "C38",
   "status": "proved",
   "theorems": [
    "Verif.C38_program",
    "Verif.C38_multipliers"
   ],
   "note": "Every program made of posynomial inequalities and monomial equalities, with and without use_leqs. cvxopt itself is specified from its documentation, not modelled."
  },
  {
   "property": "C39",
   "status": "partial",
   "theorems": [
    "Verif.C39_program",
    "Verif.C39_multipliers",
    "Verif.C39_clipped",
    "Verif.C39_data_partial",
    "Verif.C39_stale_fails"
   ],
   "note": "Program and multipliers for every program made of posynomial inequalities and monomial equalities; for matrices with repeated entries if some constraint has a single term. Fails for updated signomial programs without one (witness). Negative multipliers come back as zero (C39_clipped). Mosek is specified from its documentation, not modelled."
  },
  {
   "property": "C40",
   "status": "proved",
   "theorems": [
    "Verif.C40_near_optimal",
    "Verif.C40_feasible",
    "Verif.C40_optimal",
    "Verif.C40_multipliers",
    "Verif.C40_shares"
   ],
   "note": "Weak duality for every program and competing point at zero tolerance, a bound on the error at any tolerance, and consistency of the multipliers from nu or la. Real arithmetic; 0*log(0) counts as a failed check, as NaN does."
  },
  {
   "property": "C41",
   "status": "partial",
   "theorems": [
    "Verif.C41_variables_partial",
    "Verif.C41_cost_partial",
    "Verif.C41_derivative",
    "Verif.C41_gather",
    "Verif.C41_fresh_partial",
    "Verif.C41_overwritten_fails",
    "Verif.C41_cost_fails",
    "Verif.C41_nested_fails",
    "Verif.C41_stale_fails",
    "Verif.C41_freed_fails"
   ],
   "note": "For linked variables that are not zero and depend on constants only, all gradients, any number of them: what is reported is the sum over linked variables, and that sum is the derivative (chain rule, for functions differentiable at the point). Violated when a linked variable is in the cost with several of its constants or with none, for linked variables depending on linked variables, and after an earlier solve in which a variable was linked that now is a number or free (witnesses)."
  },
  {
   "property": "C42",
   "status": "partial",
   "theorems": [
    "Verif.C42_restores_partial",
    "Verif.C42_missing",
    "Verif.C42_class_fails"
   ],
   "note": "Every state, both kinds of saving, both outcomes, for all constraint classes of the package. Violated for a class with an own attribute of a removed name (witness)."
  },
  {
   "property": "C43",
   "status": "partial",
   "theorems": [
    "Verif.C43_total",
    "Verif.C43_exp",
    "Verif.C43_secant_partial",
    "Verif.C43_tangent",
    "Verif.C43_secant_fails"
   ],
   "note": "Exponential: every number of terms, every expression. Tangent: everywhere it returns (up to 15 terms, above it raises). Secant up to 12 terms; violated from 13 on, where an asymptotic formula replaces the Euler numbers (witness). The helpers return for every posynomial without units. Coefficients are exact reals."
  },
  {
   "property": "C44",
   "status": "partial",
   "theorems": [
    "Verif.C44_unambiguous",
    "Verif.C44_text_partial",
    "Verif.C44_expr_partial",
    "Verif.C44_seen",
    "Verif.C44_flat",
    "Verif.C44_power_fails",
    "Verif.C44_hidden_fails",
    "Verif.C44_powers_fails",
    "Verif.C44_windows_fails",
    "Verif.C44_rounding_fails",
    "Verif.C44_empty_fails"
   ],
   "note": "C44_unambiguous: a text is read in one way. C44_text_partial and C44_expr_partial: the text denotes the expression if numbers are written without loss, powers are of monomials, and operators of operands are not hidden between parentheses; C44_seen gives a simple condition. C44_power_fails, C44_hidden_fails, C44_powers_fails, C44_windows_fails, C44_rounding_fails, C44_empty_fails show the property is violated elsewhere. Units and arrays in texts are not modelled."
  },
  {
   "property": "C45",
   "status": "partial",
   "theorems": [
    "Verif.C45_sum",
    "Verif.C45_sum_fold",
    "Verif.C45_sum_returns_partial",
    "Verif.C45_prod",
    "Verif.C45_prod_returns",
    "Verif.C45_zero_fails",
    "Verif.C45_units_fails"
   ],
   "note": "Values: every array and every point, for all kinds of entries, in both paths of the product. When a sum is returned: entries of one dimension with positive coefficients, or signomials allowed. Violated for zeros and numbers that cancel (the sum raises, addition does not) and for products whose units cancel (witnesses). numpy paths (with axis arguments) not modelled."
  },
  {
   "property": "C46",
   "status": "partial",
   "theorems": [
    "Verif.C46_tight",
    "Verif.C46_loose",
    "Verif.C46_loose_raises",
    "Verif.C46_bounded",
    "Verif.C46_tolerance_partial",
    "Verif.C46_bounds",
    "Verif.C46_zero_tolerance_fails",
    "Verif.C46_zero_side_fails",
    "Verif.C46_sens_fails",
    "Verif.C46_boundedness_fails"
   ],
   "note": "Every result, all constraints with sides of one dimension and a right side that is not zero, every tolerance but zero, every order of sets. Violated: a tolerance of zero is replaced by the default, a zero right side raises, only the last of several sensitivities of one constraint is kept, and a second Bounded set with the same bounds replaces the entries of the first in boundedness (witnesses)."
  },
  {
   "property": "C47",
   "status": "partial",
   "theorems": [
    "Verif.C47_solver",
    "Verif.C47_rejects",
    "Verif.C47_accepts",
    "Verif.C47_flat_partial",
    "Verif.C47_flat_fails"
   ],
   "note": "The constraints that reach the solver are exactly those inside, once and in order; sets with an unusable element raise (see C97 for the exception). flat() is exact unless an array contains a set, where it yields the set itself (witness)."
  },
  {
   "property": "C48",
   "status": "partial",
   "theorems": [
    "Verif.C48_lines",
    "Verif.C48_declared_partial",
    "Verif.C48_rejects",
    "Verif.C48_label_partial",
    "Verif.C48_label_fails",
    "Verif.C48_position_fails",
    "Verif.C48_space_fails",
    "Verif.C48_vectors_fails",
    "Verif.C48_constant_fails"
   ],
   "note": "C48_lines for every docstring. C48_declared_partial: every declared line becomes its declaration in place and all other lines comments, if declared lines follow the format, do not occur inside earlier lines, contain no pieces of the statements, and vector headings have an underline of 18 characters; each condition is needed (witnesses). Execution of the code produced is not modelled."
  },
  {
   "property": "C49",
   "status": "partial",
   "theorems": [
    "Verif.C49_history_partial",
    "Verif.C49_equality",
    "Verif.C49_tautology_fails",
    "Verif.C49_infeasible_fails"
   ],
   "note": "If each earlier solve reported sensitivities or had no constant term, or if there is a constant term now; equalities without restriction. Violated after a solve in which the constraint became a tautology or was infeasible: a later solve without a constant term adds the old constant part, even with the wrong sign (witnesses)."
  },
  {
   "property": "C50",
   "status": "partial",
   "theorems": [
    "Verif.C50_diff_units_partial",
    "Verif.C50_diff_units_fails"
   ],
   "note": "Correct if nomial or variable has no units, or their units differ in dimension, or have the same size; violated for x in cm expressed in m (witness)."
  },
  {
   "property": "C51",
   "status": "partial",
   "theorems": [
    "Verif.C51_add_mul_total_partial",
    "Verif.C51_total_fails"
   ],
   "note": "Totality of + and * when the right operand has terms. The code violates the property for p**0, 0/x and a sum with a cancelled nomial (witnesses)."
  },
  {
   "property": "C52",
   "status": "partial",
   "theorems": [
    "Verif.C52_verify_partial",
    "Verif.C52_verify_fails"
   ],
   "note": "Exact for notes about variables of the model; a note about another variable makes the count of bounds agree by accident, and a missing bound goes unreported (witness)."
  },
  {
   "property": "C53",
   "status": "partial",
   "theorems": [
    "Verif.C53_form_partial",
    "Verif.C53_dropped",
    "Verif.C53_counted",
    "Verif.C53_once_partial",
    "Verif.C53_twice_fails",
    "Verif.C53_cancelled_fails"
   ],
   "note": "C53_form_partial: the form given to the solver is met exactly where the inequality is (C12_form_fails aside), and its quotients are those the sensitivities are computed from; C53_dropped: an inequality dropped as a tautology holds everywhere. C53_counted states exactly what is reported, for all multipliers: each derivative times the number of passes, which is two for variables in the denominator and the merged numerator terms. C53_once_partial: correct if there is no such variable and no terms cancelled. Under the condition of C15 on the order of merging; without units; multipliers are assigned to the terms of posy/negy, which are those of the form unless renaming meets an existing key (C12)."
  },
  {
   "property": "C54",
   "status": "partial",
   "theorems": [
    "Verif.C54_start_partial",
    "Verif.C54_default",
    "Verif.C54_later_partial",
    "Verif.C54_written_fails",
    "Verif.C54_feasible_partial",
    "Verif.C54_variable_fails",
    "Verif.C54_name_fails",
    "Verif.C54_cancelled_fails",
    "Verif.C54_constant_fails",
    "Verif.C54_again_fails"
   ],
   "note": "For an x0 written with VarKeys or given as a KeyDict: a new program starts at the given values for the variables in sgpvks, then at the solution before; a given point that satisfies the constraints satisfies the first approximations. Violated if x0 is written with Variables or names, the way substitutions are written (it changes nothing, C54_written_fails for every such x0); for variables that cancel out of the approximation at 1 (never moved); for constants given in x0 (override the constant in every approximation); and when a program is solved again without x0 (witnesses)."
  },
  {
   "property": "C55",
   "status": "partial",
   "theorems": [
    "Verif.C55_scalars_partial",
    "Verif.C55_vectors_fails"
   ],
   "note": "Any scalar constants: the original reads as before under every key. Violated for vectors, whose values in the original are overwritten with NaN (witness)."
  },
  {
   "property": "C56",
   "status": "partial",
   "theorems": [
    "Verif.C56_aligned_partial",
    "Verif.C56_free",
    "Verif.C56_monomial",
    "Verif.C56_order_fails",
    "Verif.C56_merge_fails",
    "Verif.C56_sets_fails"
   ],
   "note": "Exact where substitution keeps the places of the terms; in particular for costs with one term, and costs without constants. Violated in general: the shares of the terms after substitution are paired by position with the exponents before it, so a*x + y gives the constant a the share of y, merged terms lose constants, and the order of a set decides (witnesses)."
  },
  {
   "property": "C57",
   "status": "partial",
   "theorems": [
    "Verif.C57_write",
    "Verif.C57_program",
    "Verif.C57_read",
    "Verif.C57_status",
    "Verif.C57_sound",
    "Verif.C57_license",
    "Verif.C57_cleanup_fails",
    "Verif.C57_truncated_fails"
   ],
   "note": "C57_write, C57_program, C57_read, C57_status, C57_sound and C57_license hold for every program and file. C57_cleanup_fails: the temporary directory is left behind by every failure. C57_truncated_fails: a solution file cut short among the dual values is accepted. mskexpopt itself is not modelled, only its file format."
  },
  {
   "property": "C58",
   "status": "partial",
   "theorems": [
    "Verif.C58_names",
    "Verif.C58_model",
    "Verif.C58_subs_partial",
    "Verif.C58_ambiguous_fails",
    "Verif.C58_phantom_fails",
    "Verif.C58_element_fails",
    "Verif.C58_vector_fails"
   ],
   "note": "C58_names and C58_model hold after any lookups. Violated: several scalars of one name make a substitution name mean None (C58_ambiguous_fails); a failed lookup makes the name appear substituted (C58_phantom_fails); the name of one element gives a whole array of NaN (C58_element_fails); keys of vectors are found only after some name was looked up (C58_vector_fails). C58_subs_partial gives the rest for substitutions."
  },
  {
   "property": "C59",
   "status": "partial",
   "theorems": [
    "Verif.C59_variable",
    "Verif.C59_value",
    "Verif.C59_sweep",
    "Verif.C59_negative_fails",
    "Verif.C59_unknown_fails",
    "Verif.C59_missing_fails"
   ],
   "note": "C59_variable, C59_value and C59_sweep hold for positive values. Violated: a value that is zero or negative raises InvalidPosynomial outside SignomialsEnabled (C59_negative_fails); sol(v) of a variable the solution lacks is 1 (C59_unknown_fails); a monomial with such variables is given a number as if they were 1 (C59_missing_fails)."
  },
  {
   "property": "C60",
   "status": "partial",
   "theorems": [
    "Verif.C60_feasible_partial",
    "Verif.C60_optimal_partial",
    "Verif.C60_near_optimal_partial",
    "Verif.C60_error_partial",
    "Verif.C60_warning_fails",
    "Verif.C60_violated_fails"
   ],
   "note": "C60_feasible_partial, C60_optimal_partial, C60_near_optimal_partial and C60_error_partial compose C06, C12-C14, C20 and C40. Missing: inequalities made inside SignomialsEnabled that no point satisfies (dropped: C73_negative_fails, C73_margin_fails), those with the defect of C12_form_fails, constants that are negative, and constants that are zero and stand on the greater side of an inequality or in an equality (C73_sign_fails). Violated: a solution that fails the check is returned all the same, with a printed warning only (C60_warning_fails, C60_violated_fails)."
  },
  {
   "property": "C61",
   "status": "partial",
   "theorems": [
    "Verif.C61_elements",
    "Verif.C61_outside",
    "Verif.C61_vectorized_partial",
    "Verif.C61_number_partial",
    "Verif.C61_linked",
    "Verif.C61_view",
    "Verif.C61_view_scalar",
    "Verif.C61_refused_partial",
    "Verif.C61_single_fails",
    "Verif.C61_list_fails",
    "Verif.C61_matrix_fails"
   ],
   "note": "C61_elements, C61_outside, C61_linked, C61_view and C61_view_scalar hold without restriction, C61_vectorized_partial for numpy arrays with one axis at most, C61_number_partial up to single precision. Violated inside Vectorize: numbers are rounded to single precision (C61_single_fails), lists are spread along the wrong axis or refused (C61_list_fails), arrays with two axes are transposed or refused (C61_matrix_fails). Values with units are C94."
  },
  {
   "property": "C62",
   "status": "partial",
   "theorems": [
    "Verif.C62_feasible_partial"
   ],
   "note": "C62_feasible_partial covers the whole run from construction to result; signomial equalities are met up to the factor by which the terms moved since the last approximation (C87). Missing: constraints with the defect of C12_form_fails (also in approximations), programs in which the number of terms of an approximation changes between passes (violated: C19_fewer_terms_fails, C19_more_terms_fails), approximations that are constant without slack, and zero or negative constants."
  },
  {
   "property": "C63",
   "status": "partial",
   "theorems": [
    "Verif.C63_tables",
    "Verif.C63_top_partial",
    "Verif.C63_summary_fails"
   ],
   "note": "Violated: C63_summary_fails. The table of top sensitivities, part of summary() for models with many constants, replaces sensitivities of at most 1e-3 in arrays by NaN in the solution itself; a second summary then leaves the variable out. C63_tables: all tables of variables that are not asked to hide small values leave the solution as it is. C63_top_partial: so does the table of top sensitivities if no array it shows has a small entry."
  },
  {
   "property": "C64",
   "status": "partial",
   "theorems": [
    "Verif.C64_shown",
    "Verif.C64_complete",
    "Verif.C64_lines_partial",
    "Verif.C64_narrow",
    "Verif.C64_lines_fails",
    "Verif.C64_tables"
   ],
   "note": "Rows, headings, order and completeness are proved (C64_shown, C64_complete, C64_narrow). Lines along one axis are proved if the axis is one of the last two (C64_lines_partial) and violated otherwise: C64_lines_fails, an array of shape (3, 2, 1)."
  },
  {
   "property": "C65",
   "status": "partial",
   "theorems": [
    "Verif.C65_read_partial",
    "Verif.C65_header",
    "Verif.C65_zero_fails",
    "Verif.C65_comma_fails"
   ],
   "note": "C65_read_partial: reading the file gives back every variable with a value other than zero, if names, units and descriptions have no commas or line breaks; C65_header: the first row has the right number of columns. Violated: C65_comma_fails (nothing is quoted, so the name C_{D,0} shifts its row by a column) and C65_zero_fails (a variable whose value is zero is left out)."
  },
  {
   "property": "C66",
   "status": "partial",
   "theorems": [
    "Verif.C66_top_partial",
    "Verif.C66_zero_fails"
   ],
   "note": "C66_top_partial: for a positive number of variables, those chosen are the largest among those not shown elsewhere, the number being lowered by one for each shown elsewhere but not below three. Violated for zero variables: topk[-0:] is the whole list (C66_zero_fails)."
  },
  {
   "property": "C67",
   "status": "partial",
   "theorems": [
    "Verif.C67_points_partial",
    "Verif.C67_skip_partial",
    "Verif.C67_feasible_partial",
    "Verif.C67_optimal_partial"
   ],
   "note": "Composition of C26, C27 and C60. Missing: arrays that mix swept elements with others (violated: C26_leak_fails), functions of functions (violated: C27_linked_fails), empty sweeps, and what C60 leaves out."
  },
  {
   "property": "C68",
   "status": "partial",
   "theorems": [
    "Verif.C68_text",
    "Verif.C68_tight_partial",
    "Verif.C68_loose_partial",
    "Verif.C68_name_fails"
   ],
   "note": "C68_text: lines put together are the text, for every text and width, and no line is too long. C68_tight_partial and C68_loose_partial: what is shown, for constraints whose text does not have the name of their model in it (sensitivities compared after rounding to two digits, as the code does). Otherwise violated: the name is removed wherever it occurs, so that Area >= 2 in a model A is shown as rea >= 2 (C68_name_fails). Padding of cells and removal of spaces at the end of lines is not modelled."
  },
  {
   "property": "C69",
   "status": "partial",
   "theorems": [
    "Verif.C69_truth_partial",
    "Verif.C69_error_partial",
    "Verif.C69_array_partial",
    "Verif.C69_raises_fails",
    "Verif.C69_zero_fails"
   ],
   "note": "C69_truth_partial and C69_array_partial: true exactly if the same, for monomials in any units, positive numbers, nomials of several terms in the same units, and arrays of these. C69_error_partial: exceptions only where one side is a multiple of the other. The test does raise: PrimalInfeasible for x == 2*x (C69_raises_fails) and InvalidPosynomial for x == 0 (C69_zero_fails)."
  },
  {
   "property": "C70",
   "status": "partial",
   "theorems": [
    "Verif.C70_constants_partial",
    "Verif.C70_constraints_partial",
    "Verif.C70_feasible_partial",
    "Verif.C70_programs",
    "Verif.C70_returns_partial",
    "Verif.C70_nosubs_fails",
    "Verif.C70_zero_fails",
    "Verif.C70_nested_fails"
   ],
   "note": "C70_constants_partial, C70_constraints_partial and C70_feasible_partial: what is returned, for models with positive constants; C70_programs: both programs can be built and reach the solver as they are; C70_returns_partial: no exceptions for models without sets inside. Violated: UnboundLocalError for every model without substitutions whose bounded form can be solved (C70_nosubs_fails); ValueError for every model whose constants are all zero (C70_zero_fails); IndexError or AttributeError for models with submodels or vector constraints (C70_nested_fails). Solving is any function whose points satisfy the program (C60)."
  },
  {
   "property": "C71",
   "status": "partial",
   "theorems": [
    "Verif.C71_solved_partial",
    "Verif.C71_point_partial",
    "Verif.C71_zero_fails",
    "Verif.C71_linked_fails",
    "Verif.C71_cost_fails"
   ],
   "note": "C71_solved_partial and C71_point_partial, for every finished autosweep. Violated: values that are zero are sampled as NaN at solved points (C71_zero_fails); linked variables are interpolated and not computed (C71_linked_fails); where the cost is just a variable its samples are estimates that may break constraints (C71_cost_fails)."
  },
  {
   "property": "C72",
   "status": "partial",
   "theorems": [
    "Verif.C72_contents_partial",
    "Verif.C72_value_partial",
    "Verif.C72_explicit_partial",
    "Verif.C72_array_fails",
    "Verif.C72_equality_fails",
    "Verif.C72_empty_fails",
    "Verif.C72_reuse_fails",
    "Verif.C72_keyword_fails",
    "Verif.C72_constant_fails"
   ],
   "note": "C72_contents_partial, C72_value_partial and C72_explicit_partial, where every set and model gets its constraints as a list and substitutions in one way. Violated: a single array inequality or monomial equality given instead of a list is dropped without error (C72_array_fails, C72_equality_fails), as are the substitutions of a set without constraints (C72_empty_fails) and the keyword substitutions if setup() returns a dictionary (C72_keyword_fails); building a model takes defaults away from variables, so a second model from the same variables leaves them free (C72_reuse_fails); defaults of constants replace explicit substitutions of submodels (C72_constant_fails)."
  },
  {
   "property": "C73",
   "status": "partial",
   "theorems": [
    "Verif.C73_kind",
    "Verif.C73_inequality",
    "Verif.C73_equality",
    "Verif.C73_meaning",
    "Verif.C73_solution_partial",
    "Verif.C73_optimal_partial",
    "Verif.C73_negative_fails",
    "Verif.C73_margin_fails",
    "Verif.C73_sign_fails"
   ],
   "note": "C73_kind, C73_inequality, C73_equality and C73_meaning hold for all operands. C73_solution_partial and C73_optimal_partial compose C01, C12-C14, C20, C40, C60 and C72. Missing: what C60 and C72 leave out, and signomial inequalities (see C62). Violated inside SignomialsEnabled, where posynomial inequalities that cannot be satisfied are dropped without error once their variables are fixed: x <= -1 at x=2 (C73_negative_fails) and x + 1.0005 <= 1 at x=3 (C73_margin_fails). Violated by values that are not positive where they are divided by: x*y <= x reaches the solver as y <= 1 whatever x is, though for x=0 it is always true and for x=-1 it says y >= 1 (C73_sign_fails). Zero elsewhere is covered."
  },
  {
   "property": "C74",
   "status": "partial",
   "theorems": [
    "Verif.C74_value",
    "Verif.C74_elements",
    "Verif.C74_meaning",
    "Verif.C74_solution_partial",
    "Verif.C74_optimal_partial",
    "Verif.C74_accepts_partial",
    "Verif.C74_integers_fails",
    "Verif.C74_constants_fails",
    "Verif.C74_numpy_fails"
   ],
   "note": "C74_value, C74_elements and C74_meaning hold for all expressions with arrays that Python accepts; C74_solution_partial and C74_optimal_partial compose them with C72 and C60 (missing: what C73 leaves out). C74_accepts_partial: sums, products and differences are accepted exactly if shapes fit and the elements are. Violated: x / NomialArray([1, 2]) raises (C74_integers_fails); NomialArray([1, x]) <= 2 is an array of bool (C74_constants_fails), as is x + np.array([1, 2]) <= y (C74_numpy_fails), and a model with either is refused."
  },
  {
   "property": "C75",
   "status": "partial",
   "theorems": [
    "Verif.C75_equality",
    "Verif.C75_equalities_partial",
    "Verif.C75_not_gp",
    "Verif.C75_meaning",
    "Verif.C75_solution_partial",
    "Verif.C75_optimal_partial",
    "Verif.C75_local_partial",
    "Verif.C75_share",
    "Verif.C75_size"
   ],
   "note": "C75_meaning holds for all comparisons inside and outside of SignomialsEnabled; C75_size and C75_share say that for comparisons without differences its tolerance is that of C73. C75_solution_partial, C75_optimal_partial and C75_local_partial compose it with C72, C60 and C62; C75_equality, C75_equalities_partial and C75_not_gp are for models that have signomial equalities as well (composed with C87). Missing: zero or negative values, constraints with the defect of C12_form_fails, comparisons inside SignomialsEnabled that cannot be satisfied and contain no difference (C73_negative_fails), and for localsolve what C62 leaves out."
  },
  {
   "property": "C76",
   "status": "partial",
   "theorems": [
    "Verif.C76_cast",
    "Verif.C76_cast_partial",
    "Verif.C76_cast_fails",
    "Verif.C76_almost_partial",
    "Verif.C76_symmetric_partial",
    "Verif.C76_vector_fails",
    "Verif.C76_missing_fails",
    "Verif.C76_linked_fails",
    "Verif.C76_nan_fails",
    "Verif.C76_symmetric_fails",
    "Verif.C76_diff_partial",
    "Verif.C76_senss_fails",
    "Verif.C76_zero_fails",
    "Verif.C76_largest_fails"
   ],
   "note": "C76_cast, C76_almost_partial and C76_diff_partial hold for solutions of the same shape in which every value and sensitivity is there and a number (for almost_equal: one number). Violations: a sweep's vector variable is compared with the wrong elements of a single solution, or raises (C76_cast_fails); almost_equal raises for vectors and sweeps and for variables without sensitivity, such as calculated constants (C76_vector_fails, C76_missing_fails, C76_linked_fails), counts what is not a number as equal (C76_nan_fails) and is not symmetric (C76_symmetric_fails, bounded by C76_symmetric_partial); diff with senssdiff raises for variables without sensitivity (C76_senss_fails), if all differences are zero over zero (C76_zero_fails), and may state another difference as the largest (C76_largest_fails). Infinite relative differences, differences of models' texts and files are not modelled."
  },
  {
   "property": "C77",
   "status": "partial",
   "theorems": [
    "Verif.C77_bound_partial",
    "Verif.C77_exact_partial",
    "Verif.C77_derivative_partial",
    "Verif.C77_aligned",
    "Verif.C77_bound_fails"
   ],
   "note": "C77_bound_partial (with the tolerances of the check), C77_exact_partial and C77_derivative_partial hold for solves as a whole: the forms of the constraints after substitution, the dual solution that passed the check, the shares given back to terms before substitution and the sum over constraints and the cost. Required: terms of the cost stay in place if constants are put in (met by costs of one term or without constants, C77_aligned; otherwise see C56 and the violation C77_bound_fails), shares are not lost (C15), constants are positive. Linked variables (C41), constraints left with shares of a failed solve (C49) and signomials are not part of it."
  },
  {
   "property": "C78",
   "status": "partial",
   "theorems": [
    "Verif.C78_sub_partial",
    "Verif.C78_returns_partial",
    "Verif.C78_same_partial",
    "Verif.C78_ignored",
    "Verif.C78_variable",
    "Verif.C78_value",
    "Verif.C78_value_fails",
    "Verif.C78_mixed_fails"
   ],
   "note": "C78_sub_partial, C78_returns_partial, C78_same_partial, C78_ignored, C78_variable and C78_value hold for the call as a whole: lookup of keys and names in the expression's variables, sorting into constants, sweeps and functions, conversion of units and the loop over the terms. Not covered: vectors with several dimensions, arrays given to scalars, KeyDicts with two keys for one variable. Violations: arrays that mix swept elements with constants give results that depend on the order of a set (C78_mixed_fails); x.value raises for a variable made with a value that is zero or negative (C78_value_fails)."
  },
  {
   "property": "C79",
   "status": "partial",
   "theorems": [
    "Verif.C79_distinct_partial",
    "Verif.C79_minimal_partial",
    "Verif.C79_restored",
    "Verif.C79_varnames_partial",
    "Verif.C79_rows_partial",
    "Verif.C79_elements_fails",
    "Verif.C79_keys",
    "Verif.C79_units_fails",
    "Verif.C79_numbers_fails",
    "Verif.C79_objects_fails",
    "Verif.C79_cached_fails",
    "Verif.C79_mat_fails",
    "Verif.C79_exception_fails"
   ],
   "note": "C79_distinct_partial, C79_minimal_partial, C79_restored, C79_varnames_partial and C79_rows_partial hold for names without dots and brackets and models whose names do not end in digits. Violations: elements of vectors with one name in two models get the same name (C79_elements_fails), so do variables that differ in units only (C79_units_fails), and variables in the second model called A and in one called A1 (C79_numbers_fails); a variable made twice is shown without its models (C79_objects_fails); texts are kept and show the names of the model printed first (C79_cached_fails); savemat writes underscores for dots and loses variables (C79_mat_fails); an exception leaves the flags set (C79_exception_fails). LaTeX of variables is C93."
  },
  {
   "property": "C80",
   "status": "partial",
   "theorems": [
    "Verif.C80_bound_partial",
    "Verif.C80_exact_partial",
    "Verif.C80_derivative_partial",
    "Verif.C80_constraints",
    "Verif.C80_models_partial",
    "Verif.C80_model_bound_partial",
    "Verif.C80_table_partial",
    "Verif.C80_table_fails",
    "Verif.C80_below_fails",
    "Verif.C80_names_fails",
    "Verif.C80_constant_fails",
    "Verif.C80_twice_fails"
   ],
   "note": "C80_bound_partial (with tolerances), C80_exact_partial, C80_derivative_partial and C80_model_bound_partial have the hypotheses of C77 and ask relaxed constraints to have no term of constants alone; C80_constraints and C80_models_partial say what the dicts contain, C80_table_partial what the table shows. Violations: the sensitivity of a constraint with a constant term is too small (C80_constant_fails); a constraint that occurs twice has only part of its price (C80_twice_fails); the second model called A and one called A1 share an entry (C80_names_fails); no table is shown for one named model (C80_table_fails); a tenth, hundredth etc. is shown as less than itself (C80_below_fails)."
  },
  {
   "property": "C81",
   "status": "partial",
   "theorems": [
    "Verif.C81_sets_partial",
    "Verif.C81_values_partial",
    "Verif.C81_computed_partial",
    "Verif.C81_computes_partial",
    "Verif.C81_transfer_partial",
    "Verif.C81_reports",
    "Verif.C81_loose_partial",
    "Verif.C81_equally",
    "Verif.C81_constraints",
    "Verif.C81_constants",
    "Verif.C81_array_fails",
    "Verif.C81_order_fails",
    "Verif.C81_overwrites_fails",
    "Verif.C81_twice_fails",
    "Verif.C81_nested_fails",
    "Verif.C81_repeated_fails",
    "Verif.C81_empty_fails"
   ],
   "note": "C81_sets_partial and the theorems that use it are about models without lists inside numpy arrays (C81_array_fails). C81_values_partial asks that a computed vector is solved for as a whole or not at all (C81_overwrites_fails). C81_computed_partial and C81_computes_partial ask that functions read what was solved for or computed by sets inside (C81_order_fails: within one set it depends on Python's order of sets). C81_transfer_partial asks that each constant is relaxed once (C81_twice_fails: a KeyError; C81_nested_fails: the sensitivity stays with an auxiliary variable). C81_repeated_fails: a set that occurs twice warns twice. C81_empty_fails: ConstantsRelaxed with nothing to relax raises an IndexError when solved."
  },
  {
   "property": "C82",
   "status": "partial",
   "theorems": [
    "Verif.C82_lines_partial",
    "Verif.C82_set_lines_partial",
    "Verif.C82_model_partial",
    "Verif.C82_set_partial",
    "Verif.C82_contents_partial",
    "Verif.C82_single",
    "Verif.C82_numbers_fails",
    "Verif.C82_keys_fails",
    "Verif.C82_align_fails"
   ],
   "note": "C82_lines_partial and C82_set_lines_partial: what is printed. C82_model_partial, C82_set_partial and C82_contents_partial: reading it. They ask that the left sides have no operators in them and no line looks like a heading (C82_single gives a simple condition); C82_contents_partial also that names of models do not end in digits. Violations: the second model Wing and the first model Wing1 have the same heading (C82_numbers_fails); the key of a model in a dictionary does not show (C82_keys_fails); with unicode operators the lines of a right side do not stand below each other (C82_align_fails). The texts of the sides are those of C44 and C79; LaTeX is not part of the model."
  },
  {
   "property": "C83",
   "status": "partial",
   "theorems": [
    "Verif.C83_returned",
    "Verif.C83_sweep_partial",
    "Verif.C83_titles",
    "Verif.C83_lost_fails",
    "Verif.C83_shift_fails",
    "Verif.C83_stale_fails"
   ],
   "note": "C83_sweep_partial: sweeps whose points have warnings of the same categories, and in which a constraint is warned about with the same numbers each time. C83_returned: whenever a solution is returned, the table tells of every warning once, but counts only points which have the category. C83_titles: titles tell parts apart. Violations: a category that a later point has and the first does not makes the sweep raise, and all results are lost (C83_lost_fails, for all such sweeps); points without the category shift the numbers (C83_shift_fails); constraints are shown with the numbers of their last warning at all points, since these are attributes of the constraint (C83_stale_fails)."
  },
  {
   "property": "C84",
   "status": "partial",
   "theorems": [
    "Verif.C84_notes_partial",
    "Verif.C84_unknown",
    "Verif.C84_verify_partial",
    "Verif.C84_suggestion_partial",
    "Verif.C84_second_line_fails",
    "Verif.C84_comma_fails",
    "Verif.C84_blank_fails",
    "Verif.C84_empty_fails",
    "Verif.C84_twice_fails",
    "Verif.C84_vector_fails"
   ],
   "note": "C84_notes_partial: sections of any lines ended by an empty line, or one line long; C84_unknown: notes of what does not exist; C84_verify_partial: composed with C52 for notes of the model's own variables; C84_suggestion_partial: docstrings without notes, variables that are attributes under their own names and not elements of vectors. Violations (witnesses): the second line of a last section without an empty line after it is passed over silently (C84_second_line_fails); a list continued after a comma raises (C84_comma_fails); a line of spaces does not end a section (C84_blank_fails); an empty section swallows the next (C84_empty_fails); the suggestion makes a second section where there is one already, an error (C84_twice_fails); for vectors with only some elements unbounded it notes all of them and the verification fails again (C84_vector_fails)."
  },
  {
   "property": "C85",
   "status": "partial",
   "theorems": [
    "Verif.C85_source_partial",
    "Verif.C85_lineno_partial",
    "Verif.C85_declared_partial",
    "Verif.C85_header_fails",
    "Verif.C85_annotation_fails",
    "Verif.C85_string_fails",
    "Verif.C85_comment_fails",
    "Verif.C85_blank_fails",
    "Verif.C85_short_fails"
   ],
   "note": "C85_source_partial, C85_lineno_partial: functions whose header ends with the first `):`, no line of which is further left than the function unless blank, and whose first line after the header longer than its indent has text; C85_declared_partial: composed with C48. Parsing and running of the source (ast, exec) are not modelled. Violations: the lines of the header are always numbered before their place (C85_header_fails, general); with witnesses: an annotated result hides the end of the header (C85_annotation_fails), strings over several lines begun further left are cut (C85_string_fails), comments further left than the function are left out and the numbers after them are off by one (C85_comment_fails), a long blank first line sets the indent (C85_blank_fails), functions of one line raise (C85_short_fails)."
  },
  {
   "property": "C86",
   "status": "partial",
   "theorems": [
    "Verif.C86_roundtrip_partial",
    "Verif.C86_found_partial",
    "Verif.C86_default",
    "Verif.C86_rebuild",
    "Verif.C86_none",
    "Verif.C86_comma_fails",
    "Verif.C86_colon_fails",
    "Verif.C86_env_fails",
    "Verif.C86_newline_fails"
   ],
   "note": "C86_roundtrip_partial: values on one line without ` : `; C86_found_partial, C86_default (composed with C37): directories without newline, ` : ` and `, `; C86_rebuild, C86_none. Violations (witnesses): a directory with `, ` becomes a list (C86_comma_fails) and one with ` : ` is lost (C86_colon_fails); solvers in GPKITSOLVERS separated by commas alone are taken for one that does not exist (C86_env_fails); in a file whose last line has no newline the last character of the value is cut off (C86_newline_fails)."
  },
  {
   "property": "C87",
   "status": "partial",
   "theorems": [
    "Verif.C87_exact",
    "Verif.C87_error_partial",
    "Verif.C87_limit_partial",
    "Verif.C87_fixed",
    "Verif.C87_pass_fails",
    "Verif.C87_stuck_fails",
    "Verif.C87_constructor_fails",
    "Verif.C87_dropped_fails"
   ],
   "note": "C87_exact and C87_fixed: at the point of approximation; C87_error_partial: the bound elsewhere; C87_limit_partial: limits of passes (with the slack's limit as factor). C62_feasible_partial composes the bound with the loop of localsolve. Violations (witnesses): one pass can leave the equality violated by a large factor (C87_pass_fails); a variable that cancels at the first guess is never moved, so no pass improves on that (C87_stuck_fails); an equality is dropped where its approximation is an identity (C87_dropped_fails); the constructor rejects a satisfiable equality if it is infeasible with all variables at 1 (C87_constructor_fails)."
  },
  {
   "property": "C88",
   "status": "partial",
   "theorems": [
    "Verif.C88_upper_partial",
    "Verif.C88_lower_partial",
    "Verif.C88_aligned_fails"
   ],
   "note": "C88_upper_partial and C88_lower_partial, from C31, C71 and C77 together. Missing: checks with tolerances, linked variables, signomials, zero constants, and the conditions of C77 on the order of terms (without which the lower cost can exceed the upper one and the optimum, C88_aligned_fails) and on terms that merge. As in C31 the lower cost needs a lower bound that is not zero and an interval not taken for straight (C31_zero_fails, C31_straight_fails)."
  },
  {
   "property": "C89",
   "status": "partial",
   "theorems": [
    "Verif.C89_rounded",
    "Verif.C89_expression_partial",
    "Verif.C89_constraint_partial",
    "Verif.C89_rows",
    "Verif.C89_one_fails",
    "Verif.C89_empty_fails",
    "Verif.C89_list_fails"
   ],
   "note": "C89_rounded (what is read is the nomial with rounded numbers) and C89_rows hold as stated; C89_expression_partial and C89_constraint_partial for numbers that are not rounded. A coefficient such as 1.04 is shown as one where a variable follows (C89_one_fails), a nomial without terms has no LaTeX (C89_empty_fails), and a list passed as excluded is changed by the call, so that the next one leaves out the array (C89_list_fails). Missing: units, arrays; a name is one token, names themselves are C93."
  },
  {
   "property": "C90",
   "status": "partial",
   "theorems": [
    "Verif.C90_conserved",
    "Verif.C90_conserved_variable",
    "Verif.C90_constraints",
    "Verif.C90_constraints_variable",
    "Verif.C90_total_partial",
    "Verif.C90_total_variable",
    "Verif.C90_constants_partial",
    "Verif.C90_shown",
    "Verif.C90_shown_top",
    "Verif.C90_shown_partial",
    "Verif.C90_shown_conserved_partial",
    "Verif.C90_widths_partial",
    "Verif.C90_twice_fails",
    "Verif.C90_keyed_fails",
    "Verif.C90_many_fails",
    "Verif.C90_widths_fails"
   ],
   "note": "C90_conserved, C90_constraints, and for a variable C90_conserved_variable, C90_constraints_variable and C90_total_variable hold for every set (values up to the 1e-10 the program puts in place of zero). C90_total_partial and C90_constants_partial: without named models that have a key, whose constants are left out (C90_keyed_fails). C90_shown and C90_shown_top say what is shown at most and at least. C90_shown_partial and C90_shown_conserved_partial: up to maxlinks links, beyond which some are left out by design; with keys more are shown all the same (C90_many_fails). C90_widths_partial: without a variable; with one, opposite signs cancel and widths are not conserved (C90_widths_fails). A second diagram of the same object doubles all flows (C90_twice_fails). Missing: clicks, colours, files."
  },
  {
   "property": "C91",
   "status": "partial",
   "theorems": [
    "Verif.C91_listed_partial",
    "Verif.C91_sound",
    "Verif.C91_complete_partial",
    "Verif.C91_least_fails",
    "Verif.C91_asked_fails"
   ],
   "note": "C91_sound holds. C91_listed_partial and C91_complete_partial: for variables with a sensitivity above 0.001, as senss_table, which prints the table, has this lower limit; so the least sensitive variables, all the table is for, are never listed (C91_least_fails). The names of variables asked for are ignored (C91_asked_fails). Missing: widths and padding."
  },
  {
   "property": "C92",
   "status": "partial",
   "theorems": [
    "Verif.C92_made_partial",
    "Verif.C92_ranges_partial",
    "Verif.C92_moved_partial",
    "Verif.C92_sweep_fails",
    "Verif.C92_negative_fails",
    "Verif.C92_variable_fails",
    "Verif.C92_step_fails",
    "Verif.C92_clash_fails",
    "Verif.C92_numbered_fails"
   ],
   "note": "C92_made_partial: without ranges, for constants from zero and the first values of sweeps. Negative constants have their ends swapped (C92_negative_fails); the ends do not depend on the other values of a sweep (C92_sweep_fails), as the line that should take them into account asks whether a number is a sweep. C92_ranges_partial: for ranges given by names, of which those of free variables are ignored; those given for variables are dropped (C92_variable_fails), and the documented form with a step raises ValueError (C92_step_fails). C92_moved_partial: where texts of variables are names of them alone; otherwise moving any slider raises an exception, for names shared with another variable (C92_clash_fails) and for variables in models with a number (C92_numbered_fails). Missing: elements of vectors, the control panel, what is displayed."
  },
  {
   "property": "C93",
   "status": "partial",
   "theorems": [
    "Verif.C93_distinct_partial",
    "Verif.C93_braces_partial",
    "Verif.C93_name_fails",
    "Verif.C93_numbers_fails",
    "Verif.C93_underscore_fails"
   ],
   "note": "C93_distinct_partial and C93_braces_partial: for names with braces that match, not in braces themselves nor starting with an arrow (C93_name_fails), and models with names without braces or dots that do not end in digits (C93_numbers_fails). Models with two underscores in their names give LaTeX that TeX refuses (C93_underscore_fails). Variables that differ in units only have the same LaTeX by design."
  },
  {
   "property": "C94",
   "status": "partial",
   "theorems": [
    "Verif.C94_kept_partial",
    "Verif.C94_names_partial",
    "Verif.C94_dimension_partial",
    "Verif.C94_bare_fails",
    "Verif.C94_list_fails"
   ],
   "note": "C94_kept_partial: for values of the right dimension, where C23 holds for the numbers after conversion. C94_names_partial: the same for whole variables and names. C94_dimension_partial: single values and arrays. Violated: a list with one value of another dimension raises and leaves the vector present but unreadable (C94_list_fails); a monomial without units is taken for a number of the variable's units, where a Quantity without units raises (C94_bare_fails). Missing: units with offsets, integer magnitudes."
  },
  {
   "property": "C95",
   "status": "partial",
   "theorems": [
    "Verif.C95_array_partial",
    "Verif.C95_warnings_fails"
   ],
   "note": "C95_array_partial: for solutions with the same keys at all levels. Violated otherwise (C95_warnings_fails): solutions have a key for warnings only if they have some, so that a warning at a later solve alone raises, and one at the first alone is shown for every solution."
  },
  {
   "property": "C96",
   "status": "partial",
   "theorems": [
    "Verif.C96_array_partial",
    "Verif.C96_vector_fails",
    "Verif.C96_warnings_fails"
   ],
   "note": "C96_array_partial: solutions with the same keys at all levels, constants that are numbers unless swept. Violated for vectors of constants, of which atindex(i) gives the i-th element (C96_vector_fails), and if a solution after the first has warnings that the first has not, where the sweep raises after solving every point (C96_warnings_fails). Inner dicts are plain dicts in the model."
  },
  {
   "property": "C97",
   "status": "partial",
   "theorems": [
    "Verif.C97_named",
    "Verif.C97_positions",
    "Verif.C97_accepts",
    "Verif.C97_rejects",
    "Verif.C97_exceptions",
    "Verif.C97_message_partial",
    "Verif.C97_integer_fails",
    "Verif.C97_uninit_fails"
   ],
   "note": "C97_named, C97_positions, C97_accepts, C97_rejects and C97_exceptions hold as stated. C97_message_partial: if keys are not numbers and there are no sets that are not initialised next to the element or in it. Violated otherwise: with numbers as keys positions are taken for keys, so that the message names wrong neighbours (C97_integer_fails); next to a set that is not initialised, or if it has elements, an AttributeError is raised that names nothing (C97_uninit_fails). Wording, the hint for bools and names of variables as keys are not modelled."
  },
  {
   "property": "C98",
   "status": "partial",
   "theorems": [
    "Verif.C98_found",
    "Verif.C98_shown_partial",
    "Verif.C98_unknown_fails",
    "Verif.C98_phantom_fails"
   ],
   "note": "C98_found holds as stated. C98_shown_partial: if at least one variable of the solution is asked for. Violated otherwise: asked for unknown names only, the table shows everything (C98_unknown_fails), and afterwards the solution claims to contain the name (C98_phantom_fails). The dicts shown have variables of the solution as keys; tables of sensitivities of models and constraints are not covered."
  }
 ]
}