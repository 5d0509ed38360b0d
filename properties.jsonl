{"id": "C01", "title": "Nomial arithmetic computes the arithmetic it writes", "statement": "Take any expression built from variables, numbers, +, -, *, division by a monomial or number, and powers. If building it raises nothing, then evaluating the resulting nomial at any point with positive values gives the real number the written expression denotes.", "quantifier": "for every expression tree, every assignment of positive reals, and every exponent the operators accept", "why_tests_cant": "Expression trees are unbounded; tests evaluate a handful of small sums and products at a few points. Term merging and cancellation interact with nesting depth.", "anchors": ["gpkit/nomials/math.py:Signomial.__add__", "gpkit/nomials/math.py:Signomial.__mul__", "gpkit/nomials/math.py:Signomial.__pow__", "gpkit/nomials/math.py:Signomial.__truediv__", "gpkit/nomials/math.py:Monomial.__pow__", "gpkit/small_classes.py:HashVector.__add__"]}
{"id": "C02", "title": "Arithmetic results are in canonical form", "statement": "Every nomial that arithmetic on variables and non-zero numbers returns has pairwise different terms, no variable with exponent zero inside a term, and no term with coefficient zero.", "quantifier": "for every pair of canonical operands and every operator", "why_tests_cant": "The invariant has to survive any sequence of operations; tests only look at the final text of a few results.", "anchors": ["gpkit/small_classes.py:HashVector.__add__", "gpkit/nomials/math.py:Signomial.__mul__", "gpkit/nomials/math.py:Monomial.__pow__"]}
{"id": "C03", "title": "Equality of nomials is algebraic identity", "statement": "For two nomials in canonical form, a == b is True exactly when the two denote the same function of positive variables (the docstring of __eq__: 'True if self and other are algebraically identical').", "quantifier": "for all pairs of canonical nomials with real exponents", "why_tests_cant": "The 'only if' direction needs every pair of distinct term sets to differ at some point, which no finite set of samples shows.", "anchors": ["gpkit/nomials/core.py:Nomial.__eq__", "gpkit/nomials/data.py:NomialData.__eq__", "gpkit/nomials/math.py:Monomial.__eq__", "gpkit/nomials/math.py:MonomialEquality.__bool__", "gpkit/small_classes.py:HashVector"]}
{"id": "C04", "title": "Hash of an exponent vector never goes stale", "statement": "Whatever sequence of copies, additions, scalings, differentiations and substitutions produced them, two exponent vectors that are equal as mappings have the same hash, including when the cached hash was updated in place.", "quantifier": "for every reachable vector, every item-hash function, every order of operations", "why_tests_cant": "A stale cached hash makes a dict lookup miss only for particular histories; tests rarely look up a key after an in-place update.", "anchors": ["gpkit/small_classes.py:HashVector.__hash__", "gpkit/nomials/map.py:subinplace", "gpkit/nomials/map.py:NomialMap.diff"]}
{"id": "C05", "title": "Class of a nomial tells the truth; positivity is enforced", "statement": "A nomial is a Monomial exactly if it has one positive term, a Posynomial exactly if all coefficients are positive and it does not have one term, a Signomial if some coefficient is not positive. Outside SignomialsEnabled an operation that would give a non-positive coefficient raises InvalidPosynomial instead of returning.", "quantifier": "for every coefficient map and both settings of SignomialsEnabled", "why_tests_cant": "Solvers silently take logs of coefficients, so one missed branch makes a wrong GP; tests try few coefficient patterns.", "anchors": ["gpkit/nomials/math.py:Signomial.__init__", "gpkit/nomials/map.py:NomialMap"]}
{"id": "C06", "title": "Substitution agrees with evaluation", "statement": "Evaluating p.sub(values) at a point gives what p gives at that point with the substituted variables replaced by their values, whatever the order in which the variables are processed, also when terms merge or cancel. The result mentions no substituted variable.", "quantifier": "for every signomial, every set of substituted values, every processing order, every evaluation point", "why_tests_cant": "In-place rewriting of keys makes the result depend on merge order; tests use two or three terms in one order.", "anchors": ["gpkit/nomials/map.py:NomialMap.sub", "gpkit/nomials/map.py:subinplace"]}
{"id": "C07", "title": "Derivatives are derivatives", "statement": "p.diff(v) evaluates, at every positive point, to the partial derivative of p with respect to v; it is zero if v does not occur.", "quantifier": "for every signomial with real exponents, every variable, every positive point", "why_tests_cant": "A derivative is a limit statement over a continuum.", "anchors": ["gpkit/nomials/map.py:NomialMap.diff", "gpkit/nomials/math.py:Signomial.diff"]}
{"id": "C08", "title": "posy_negy splits a signomial", "statement": "The two posynomials returned by posy_negy have only positive coefficients, no variable term is lost, and the first minus the second equals the signomial at every point. chop() returns monomials that sum to the nomial.", "quantifier": "for every signomial and every point", "why_tests_cant": "Holds for every coefficient pattern or the SP reformulation is wrong; tests check one or two signomials.", "anchors": ["gpkit/nomials/math.py:Signomial.posy_negy", "gpkit/nomials/math.py:Signomial.chop"]}
{"id": "C09", "title": "Unit bookkeeping preserves physical values", "statement": "Adding, multiplying, raising and converting nomials with units gives the sum, product, power and same physical quantity (coefficient times unit scale). Adding or converting between different dimensions, or between a unit and no unit, raises and returns nothing.", "quantifier": "for all unit scales and dimensions, all nomials, all points", "why_tests_cant": "Unit combinations are unbounded; conversions with several scales compose in ways fixed examples do not reach.", "anchors": ["gpkit/nomials/map.py:NomialMap.__add__", "gpkit/nomials/map.py:NomialMap.to", "gpkit/nomials/map.py:NomialMap.units_of_product", "gpkit/units.py:GPkitUnits.of_product", "gpkit/nomials/math.py:Monomial.__pow__"]}
{"id": "C10", "title": "The ratio of two units does not depend on history", "statement": "The conversion factor used when comparing two sides of a constraint is the ratio of their units, no matter which unit objects were created, compared and discarded before.", "quantifier": "for every sequence of creating, discarding and dividing unit objects", "why_tests_cant": "The cache goes wrong only when the memory allocator reuses an address; a test run sees one allocation history.", "anchors": ["gpkit/units.py:GPkitUnits.of_division"]}
{"id": "C11", "title": "Monomial approximation is a tangent lower bound", "statement": "p.mono_lower_bound(x0) of a posynomial is a monomial that equals p at x0, has the same logarithmic gradient there, and is at most p at every positive point.", "quantifier": "for every posynomial, every positive x0, every positive point", "why_tests_cant": "A global inequality over a continuum (weighted AM-GM); samples can only fail to find a violation.", "anchors": ["gpkit/nomials/math.py:Signomial.mono_approximation", "gpkit/nomials/math.py:Signomial.mono_lower_bound"]}
{"id": "C12", "title": "A posynomial inequality and its solver form have the same solutions", "statement": "A positive point satisfies posynomial <= monomial exactly when it satisfies all 'posynomial <= 1' forms the constraint hands to the solver, up to the documented 1e-3 tolerance for constraints that reduce to a constant.", "quantifier": "for every posynomial, every monomial, every order of terms, every positive point", "why_tests_cant": "The rewriting happens in place over a dict; whether it loses a term depends on term order and on which exponents coincide.", "anchors": ["gpkit/nomials/math.py:PosynomialInequality._gen_unsubbed", "gpkit/nomials/math.py:PosynomialInequality._simplify_posy_ineq"]}
{"id": "C13", "title": "Substituting constants into an inequality preserves its meaning", "statement": "With constants substituted, the solver form of an inequality holds at a point of the free variables exactly when the original inequality holds at that point with the constants filled in. A form that became constant is dropped only if it holds to within 1e-3 and is reported infeasible otherwise.", "quantifier": "for every posynomial, every set of constants, every point", "why_tests_cant": "The constant part moves across the inequality and rescales it; the cases (no constant, constant below, near or above one) meet all possible merges of terms.", "anchors": ["gpkit/nomials/math.py:PosynomialInequality.as_hmapslt1", "gpkit/nomials/math.py:PosynomialInequality._simplify_posy_ineq"]}
{"id": "C14", "title": "A monomial equality becomes exactly two opposite inequalities", "statement": "The solver form of lhs == rhs for monomials is either nothing (both sides constant and equal to within tolerance) or a pair whose conjunction holds exactly at the points where both sides are equal; constants that differ are reported infeasible.", "quantifier": "for all pairs of monomials and constants, every positive point", "why_tests_cant": "Later steps pair the two halves by position, so any odd count breaks sensitivities; tests do not sweep near-tolerance constants.", "anchors": ["gpkit/nomials/math.py:MonomialEquality", "gpkit/constraints/gp.py:GeometricProgram.gen"]}
{"id": "C15", "title": "Every original term keeps its share of a merged term", "statement": "After substitution, each remaining term knows which original terms it came from and with which fraction, and the fractions of each remaining term sum to one. Sensitivities of constants are computed from these shares.", "quantifier": "for every posynomial, every set of constants, every processing order", "why_tests_cant": "Shares are lost only for particular combinations of merges and order; no test compares them with the originals.", "anchors": ["gpkit/nomials/map.py:NomialMap.mmap", "gpkit/nomials/map.py:subinplace", "gpkit/nomials/map.py:NomialMap.sub"]}
{"id": "C16", "title": "Reported sensitivities are logarithmic derivatives", "statement": "Given the dual variables of a solution, the sensitivity a constraint reports for a constant is the constraint's multiplier times the derivative of the logarithm of its solver form with respect to the logarithm of that constant.", "quantifier": "for every posynomial constraint, every positive constants and active point", "why_tests_cant": "A derivative identity over a continuum with merging and rescaling of terms in between.", "anchors": ["gpkit/nomials/math.py:PosynomialInequality.sens_from_dual", "gpkit/nomials/map.py:NomialMap.mmap", "gpkit/nomials/math.py:PosynomialInequality.as_hmapslt1"]}
{"id": "C17", "title": "Each SP step is an inner approximation", "statement": "The GP constraint that replaces a signomial inequality at x0 implies the signomial inequality at every positive point, and if x0 satisfies the signomial inequality then x0 satisfies the replacement.", "quantifier": "for every signomial inequality, every positive x0 and every positive point", "why_tests_cant": "Feasibility of each iterate is a universally quantified statement over the continuum of points.", "anchors": ["gpkit/nomials/math.py:SignomialInequality.as_gpconstr", "gpkit/constraints/sgp.py:SequentialGeometricProgram"]}
{"id": "C18", "title": "localsolve: cost never rises, the loop ends, and convergence means convergence", "statement": "With a solver that solves each GP exactly and a feasible start, the costs of successive GPs do not increase. localsolve solves at most iteration_limit GPs, and if it returns without a warning the last relative improvement is below reltol.", "quantifier": "for every cost sequence a solver may return, every reltol and iteration limit", "why_tests_cant": "Requires induction over the number of iterations and over all solver behaviours.", "anchors": ["gpkit/constraints/sgp.py:SequentialGeometricProgram.localsolve"]}
{"id": "C19", "title": "Updating an SP's GP in place equals generating it afresh", "statement": "After any number of in-place updates the exponent matrix, coefficients and constraint data equal those of a GP generated from scratch for the current approximations.", "quantifier": "for every sequence of updates that keeps the number of terms", "why_tests_cant": "Stale sparse entries accumulate with the number of iterations; tests compare only final optima.", "anchors": ["gpkit/constraints/sgp.py:SequentialGeometricProgram.gp", "gpkit/constraints/sgp.py:SequentialGeometricProgram.__init__"]}
{"id": "C20", "title": "The data handed to the solver is the program", "statement": "The coefficient list, sparse exponent matrix, row blocks and block index that a GP generates determine the cost and constraints: row i of the matrix times log x plus log c_i is the logarithm of term i, blocks partition the rows in constraint order.", "quantifier": "for every list of posynomials, every point", "why_tests_cant": "Index bookkeeping is over unbounded lists; an off-by-one shows only with particular shapes such as empty terms.", "anchors": ["gpkit/constraints/gp.py:GeometricProgram.gen", "gpkit/small_classes.py:CootMatrix"]}
{"id": "C21", "title": "Bound checking is exact and order-independent", "statement": "The set of missing bounds a GP reports is exactly the complement of what can be derived from inequality terms and, repeatedly, from monomial equalities; it does not depend on the order in which equalities are visited, and the computation ends.", "quantifier": "for every set of terms and equalities, every visiting order", "why_tests_cant": "A least-fixpoint claim over arbitrarily long chains of equalities; tests use chains of length one or two.", "anchors": ["gpkit/constraints/gp.py:GeometricProgram.check_bounds", "gpkit/constraints/gp.py:gen_meq_bounds", "gpkit/constraints/gp.py:fulfill_meq_bounds"]}
{"id": "C22", "title": "Bounds of a set of constraints", "statement": "The variables a constraint set reports as bounded are exactly those derivable from its constraints' own bounds by the monomial-equality rules, whatever the nesting or order of constraints.", "quantifier": "for every family of constraints with conditional bounds, in every order", "why_tests_cant": "Confluence over all rule orders; tests fix one.", "anchors": ["gpkit/constraints/set.py:add_meq_bounds", "gpkit/nomials/math.py:MonomialEquality", "gpkit/nomials/math.py:PosynomialInequality"]}
{"id": "C23", "title": "KeyDict behaves like a map from variables to values", "statement": "After any sequence of writes to scalars, vectors and vector elements, reading a variable or element returns the last value written to it, membership tells whether it has a value, and nothing else changed.", "quantifier": "for every sequence of writes and every key", "why_tests_cant": "Vector storage, NaN holes and partial overwrites combine over unbounded histories.", "anchors": ["gpkit/keydict.py:KeyDict.__setitem__", "gpkit/keydict.py:KeyDict.__getitem__", "gpkit/keydict.py:KeyDict.__contains__"]}
{"id": "C24", "title": "Copies of a KeyDict are independent", "statement": "After KeyDict(other) or update(other), a write or deletion in one of the two is never visible in the other.", "quantifier": "for every sequence of operations on both", "why_tests_cant": "Arrays are shared and copied on write; leaks need a specific interleaving.", "anchors": ["gpkit/keydict.py:KeyDict.update", "gpkit/keydict.py:KeyDict._copyonwrite", "gpkit/keydict.py:KeyDict.__delitem__"]}
{"id": "C25", "title": "Deleting one entry of a KeyDict removes that entry only", "statement": "After deleting a variable or a vector element it is no longer readable or reported as present under any of its names, and every other entry reads as before.", "quantifier": "for every KeyDict, every key, every history", "why_tests_cant": "Depends on whether the name index had been refreshed before the deletion, a hidden history.", "anchors": ["gpkit/keydict.py:KeyDict.__delitem__", "gpkit/keydict.py:KeyMap.update_keymap"]}
{"id": "C26", "title": "Substitutions are sorted into constants, sweeps and functions", "statement": "Parsing substitutions puts each present variable in exactly one class: functions go to linked sweeps, ('sweep', values) goes to sweeps, everything else except NaN goes to constants, with vector entries taken at the element's own index.", "quantifier": "for every substitution dict and every set of variables, in every order", "why_tests_cant": "Classes of elements of one vector can leak into each other depending on element order.", "anchors": ["gpkit/nomials/substitution.py:parse_subs", "gpkit/nomials/substitution.py:append_sub"]}
{"id": "C27", "title": "A sweep visits every combination once", "statement": "Sweeping several variables solves the cartesian product of their value lists, each combination exactly once, and the i-th stored solution belongs to the i-th solved combination; failing points either abort the sweep or are skipped without shifting others.", "quantifier": "for every number of swept variables, all value lists, every pattern of failures", "why_tests_cant": "The number of combinations is unbounded and failure patterns exponential.", "anchors": ["gpkit/constraints/prog_factories.py:run_sweep"]}
{"id": "C28", "title": "Convenience sweeps leave the model as it was", "statement": "After model.sweep or model.autosweep the model's substitutions are what they were before, also if the swept variable had a value of zero or a solve failed.", "quantifier": "for every prior substitution and every outcome of the solves", "why_tests_cant": "A state-restoration claim for all prior states and error paths.", "anchors": ["gpkit/constraints/model.py:Model.sweep", "gpkit/tools/autosweep.py:autosweep_1d"]}
{"id": "C29", "title": "Stored solutions can be read back", "statement": "After appending n results and converting to arrays, atindex(i) returns the i-th result.", "quantifier": "for every sequence of results and every index", "why_tests_cant": "Recursion over arbitrarily nested results and misalignment between results of different structure.", "anchors": ["gpkit/small_classes.py:DictOfLists"]}
{"id": "C30", "title": "Autosweep trees are well formed", "statement": "After any sequence of splits, the solutions listed by an autosweep are in increasing order of the swept variable and contain each solve once; looking up a value returns the smallest interval holding it; solve counts are right; every interval of a finished autosweep is within tolerance.", "quantifier": "for every sequence of splits and every value in range", "why_tests_cant": "Trees are unbounded; invariants need induction over splits.", "anchors": ["gpkit/tools/autosweep.py:BinarySweepTree", "gpkit/tools/autosweep.py:recurse_splits"]}
{"id": "C31", "title": "Autosweep bounds bracket the true cost", "statement": "If log cost is a convex function of the log of the swept variable and sensitivities are its slopes, the lower and upper cost an autosweep reports bracket the true cost everywhere in the range.", "quantifier": "for every convex function, every split tree, every value in range", "why_tests_cant": "An inequality over a continuum of functions and points.", "anchors": ["gpkit/tools/autosweep.py:BinarySweepTree.cost_at", "gpkit/tools/autosweep.py:get_tol"]}
{"id": "C32", "title": "Relaxed constraints contain the original ones", "statement": "A relaxed inequality or equality with relaxation 1 holds exactly where the original does, grows with the relaxation, and every positive point satisfies it for a large enough relaxation.", "quantifier": "for all constraints, relaxation values, points", "why_tests_cant": "A statement about feasible sets over a continuum.", "anchors": ["gpkit/constraints/single_equation.py", "gpkit/nomials/math.py:ScalarSingleEquationConstraint.relaxed", "gpkit/constraints/relax.py:ConstraintsRelaxedEqually", "gpkit/constraints/relax.py:ConstraintsRelaxed"]}
{"id": "C33", "title": "Relaxed constants return to their values", "statement": "With relaxation 1 a relaxed constant is forced to its original value; with relaxation r it may be any value within a factor r. Relaxed constants reported after a solve are exactly those beyond the reporting threshold.", "quantifier": "for all constants, relaxations, points and solved values", "why_tests_cant": "A statement about feasible sets and about arbitrary result lists.", "anchors": ["gpkit/constraints/relax.py:ConstantsRelaxed", "gpkit/constraints/relax.py:get_relaxed"]}
{"id": "C34", "title": "Model instances never share variables", "statement": "Every time a model environment is entered it gets a lineage no earlier environment had, and after leaving it, normally or by an exception, the previous lineage and vectorisation are in force again.", "quantifier": "for every well-nested sequence of entering and leaving environments", "why_tests_cant": "Requires induction over unbounded nesting histories.", "anchors": ["gpkit/globals.py:NamedVariables", "gpkit/globals.py:Vectorize"]}
{"id": "C35", "title": "Leaving a SignomialsEnabled block restores the previous setting", "statement": "After a with SignomialsEnabled() block the permission is what it was before the block, also when blocks are nested.", "quantifier": "for every nesting of blocks", "why_tests_cant": "Nested use arises through library calls, not in unit tests.", "anchors": ["gpkit/globals.py:SignomialsEnabled"]}
{"id": "C36", "title": "Variable identity", "statement": "Two variable keys are equal exactly if name, index, lineage and units agree; equal keys have equal hashes; pickling and unpickling gives an equal key.", "quantifier": "for all names, indices, lineages and units", "why_tests_cant": "Identity is decided on concatenated strings, so collisions depend on the characters in names.", "anchors": ["gpkit/varkey.py:VarKey"]}
{"id": "C37", "title": "A solver option given once stays with that call", "statement": "The options a GP solve passes to the solver are the defaults overridden by that call's own keyword arguments, whatever options earlier solves were given. Standard output is restored and the exception type is as documented on every outcome.", "quantifier": "for every sequence of solves, options and outcomes", "why_tests_cant": "A leak between calls shows only for a particular history of calls.", "anchors": ["gpkit/constraints/gp.py:GeometricProgram.solve"]}
{"id": "C38", "title": "The cvxopt interface solves the given program", "statement": "Splitting a GP into log-sum-exp inequalities, linear inequalities and linear equalities keeps the feasible set and the objective, and each returned multiplier is put at the position of the constraint it belongs to.", "quantifier": "for all block lists and equality index sets, all points", "why_tests_cant": "Position bookkeeping over unbounded lists of mixed constraint kinds.", "anchors": ["gpkit/solvers/cvxopt.py:optimize"]}
{"id": "C39", "title": "The mosek conic interface solves the given program", "statement": "The conic program built from a GP is feasible at an extension of a point exactly when the point satisfies the GP, with the same objective, and multipliers are merged to the right constraints.", "quantifier": "for all programs and points", "why_tests_cant": "Needs the exponential-cone equivalence for all reals.", "anchors": ["gpkit/solvers/mosek_conif.py:optimize"]}
{"id": "C40", "title": "An accepted solution is optimal", "statement": "If the primal and dual values returned by a solver pass check_solution with zero tolerance, no feasible point has lower cost.", "quantifier": "for every program, every primal-dual pair, every competing point", "why_tests_cant": "Weak duality quantifies over all competing points.", "anchors": ["gpkit/constraints/gp.py:GeometricProgram.check_solution"]}
{"id": "C41", "title": "Sensitivities of linked constants follow the chain rule", "statement": "If a value v is computed from constants, the reported sensitivity of each constant is its own sensitivity plus that of v times the logarithmic derivative of v with respect to the constant.", "quantifier": "for every set of linked values and constants", "why_tests_cant": "Loops update shared accumulators; an error needs several constants per linked value.", "anchors": ["gpkit/constraints/gp.py:GeometricProgram._compile_result"]}
{"id": "C42", "title": "Saving a solution does not alter the model", "statement": "Pickling a solution removes solver data from constraints for the duration only: afterwards, on success or exception, every attribute is as before.", "quantifier": "for every set of constraints, every attribute state, both outcomes", "why_tests_cant": "State restoration for all prior states and error paths.", "anchors": ["gpkit/solution_array.py:SolSavingEnvironment"]}
{"id": "C43", "title": "Taylor helpers compute Taylor polynomials", "statement": "te_exp_minus1(p, n), te_secant(v, n) and te_tangent(v, n) evaluate to the Taylor polynomials of exp(p)-1, sec(v) and tan(v) with the exact coefficients.", "quantifier": "for every order in the supported range, every posynomial, every point", "why_tests_cant": "The coefficient for each order and the polynomial identity for each point need a proof.", "anchors": ["gpkit/tools/tools.py:te_exp_minus1", "gpkit/tools/tools.py:te_secant", "gpkit/tools/tools.py:te_tangent"]}
{"id": "C44", "title": "Printed expressions mean what they compute", "statement": "The text printed for an expression, read with the usual precedence, denotes the expression.", "quantifier": "for every expression tree", "why_tests_cant": "Parenthesisation errors need particular nestings.", "anchors": ["gpkit/repr_conventions.py:ReprMixin.parse_ast", "gpkit/repr_conventions.py:parenthesize", "gpkit/nomials/math.py:Signomial.__pow__"]}
{"id": "C45", "title": "Sums and products over arrays", "statement": "The sum and the product of an array of nomials and numbers are what adding or multiplying the entries one after the other gives.", "quantifier": "for every array of entries and every point", "why_tests_cant": "Arrays are unbounded and the fast path accumulates by hand.", "anchors": ["gpkit/nomials/array.py:NomialArray.sum", "gpkit/nomials/array.py:NomialArray.prod"]}
{"id": "C46", "title": "Warnings appear exactly past their thresholds", "statement": "Tight warns exactly when a constraint's sides differ by more than its tolerance, Loose exactly when a sensitivity exceeds its threshold, Bounded exactly when a variable sits near or is pulled to its artificial bound; earlier warnings are kept.", "quantifier": "for every result and threshold", "why_tests_cant": "Decision thresholds over a continuum of results.", "anchors": ["gpkit/constraints/tight.py:Tight", "gpkit/constraints/loose.py:Loose", "gpkit/constraints/bounded.py:Bounded"]}
{"id": "C47", "title": "Nested constraints are enumerated once, in order", "statement": "Flattening a nested structure of constraints lists each constraint exactly once, in order, and an unusable element raises instead of being dropped.", "quantifier": "for every nesting of lists, dicts and constraints", "why_tests_cant": "Nesting is unbounded.", "anchors": ["gpkit/constraints/set.py:flatiter", "gpkit/constraints/set.py:ConstraintSet"]}
{"id": "C48", "title": "Docstring declarations keep their line positions", "statement": "Parsing a model docstring produces code with exactly as many lines as the docstring, one variable declaration per declared variable, so error positions match.", "quantifier": "for every docstring", "why_tests_cant": "Docstrings are unbounded texts.", "anchors": ["gpkit/tools/docstring.py:parse_varstring"]}
{"id": "C49", "title": "Sensitivities do not remember failed solves", "statement": "The sensitivities reported by a constraint depend on the constants and duals of the current solve only, not on earlier solves of the same constraint that failed or used other substitutions.", "quantifier": "for every history of solves, failed or not, with any substitutions", "why_tests_cant": "Needs a particular history: a failed solve followed by a solve with a different set of constants.", "anchors": ["gpkit/nomials/math.py:PosynomialInequality.as_hmapslt1", "gpkit/nomials/math.py:PosynomialInequality.sens_from_dual", "gpkit/nomials/math.py:MonomialEquality.sens_from_dual"]}
{"id": "C50", "title": "Derivatives carry the right units", "statement": "The derivative of a nomial in one unit with respect to a variable in another unit is, as a physical quantity, the physical derivative.", "quantifier": "for all units of nomial and variable", "why_tests_cant": "Conversions only matter for unit pairs that reduce to a number, which tests of diff do not use.", "anchors": ["gpkit/nomials/map.py:NomialMap.diff", "gpkit/nomials/map.py:NomialMap.units_of_product"]}
{"id": "C51", "title": "Operators accept every meaningful expression", "statement": "Adding, multiplying, dividing by monomials and raising to non-negative integer powers works for every pair of nomials with compatible units under SignomialsEnabled; in particular a + b works if b + a does, and p**0 and 0/x give 1 and 0.", "quantifier": "for all nomials, including those whose terms cancelled", "why_tests_cant": "The failing operands are special values that tests of operators rarely include.", "anchors": ["gpkit/nomials/math.py:Signomial.__add__", "gpkit/nomials/math.py:Signomial.__pow__", "gpkit/nomials/math.py:Monomial.__rtruediv__"]}
{"id": "C52", "title": "Docstring verification accepts exactly well-bounded models", "statement": "A model passes docstring verification exactly if none of the bounds noted as missing follows from its constraints, and every bound of its variables follows once the noted ones are supplied.", "quantifier": "for every model, every nesting of constraints and every set of noted bounds", "why_tests_cant": "Depends on a count that is right only for some notes, and on a fixed point over all equalities.", "anchors": ["gpkit/constraints/model.py:Model.verify_docstring", "gpkit/tools/docstring.py:expected_unbounded", "gpkit/constraints/set.py:add_meq_bounds"]}
{"id": "C53", "title": "Sensitivities of signomial constraints count each variable once", "statement": "The sensitivity that a signomial constraint contributes for a fixed variable is its multiplier times the derivative of the posynomial inequality it is solved as, with each occurrence of the variable counted once.", "quantifier": "for every signomial constraint and every assignment of multipliers to its terms", "why_tests_cant": "Only constraints in which a fixed variable occurs on both sides show the error, and no test compares these numbers with finite differences.", "anchors": ["gpkit/nomials/math.py:SignomialInequality.sens_from_dual", "gpkit/nomials/math.py:SignomialInequality.as_hmapslt1"]}
{"id": "C54", "title": "The starting point given by the user is the one used", "statement": "localsolve starts from the values the user supplied in x0 for every variable of a signomial constraint, and from the default for the others (its value for a constant, 1 otherwise). Every later approximation is made at the solution before, and constants keep their values.", "quantifier": "for every program and every x0, whatever keys it is written with", "why_tests_cant": "The value changes only the path to the solution, which tests do not look at.", "anchors": ["gpkit/constraints/sgp.py:SequentialGeometricProgram.gp", "gpkit/constraints/sgp.py:SequentialGeometricProgram.localsolve"]}
{"id": "C55", "title": "Relaxing a model leaves the original model as it was", "statement": "After making a relaxed version of a model, or calling debug, the substitutions of the model itself are what they were before.", "quantifier": "for every model, scalar and vector substitutions, and every choice of constants to relax", "why_tests_cant": "Sharing of arrays between copies of a dict is invisible unless the original is inspected or solved again afterwards.", "anchors": ["gpkit/constraints/relax.py:ConstantsRelaxed.__init__", "gpkit/keydict.py:KeyDict.__delitem__"]}
{"id": "C56", "title": "Sensitivities of the cost to its constants", "statement": "The sensitivity of the cost reported for a constant that occurs in the cost is the derivative of the logarithm of the cost with respect to the logarithm of the constant, at the solution.", "quantifier": "for every posynomial cost, every set of constants in it and every iteration order of sets", "why_tests_cant": "Only costs with several terms and constants in some of them show a difference, and the numbers look plausible.", "anchors": ["gpkit/constraints/gp.py:GeometricProgram._compile_result", "gpkit/nomials/map.py:subinplace"]}
{"id": "C57", "title": "Files exchanged with the command line solver", "statement": "The file written for mskexpopt describes exactly the geometric program: as many constraints and variables, and posynomials with the same values. A solution file is read to exactly its status, objective, primal and dual values; infeasibility, missing licences and files cut short raise the exceptions documented; a temporary directory is removed.", "quantifier": "for every program, every way of writing numbers as words, every solution file and return code", "why_tests_cant": "The solver is not installed where tests run, and failures of it are not exercised.", "anchors": ["gpkit/solvers/mosek_cli.py:write_output_file", "gpkit/solvers/mosek_cli.py:optimize_generator", "gpkit/solvers/mosek_cli.py:read_vals"]}
{"id": "C58", "title": "Names find the variables they name", "statement": "m[name] is the variable of the model with that name, the vector if all variables with that name are elements of one vector, KeyError if there is none and ValueError if the name is ambiguous. Names in m.substitutions mean the same. Looking a name up changes nothing.", "quantifier": "for every model, every name, every order of sets and every sequence of earlier lookups", "why_tests_cant": "Depends on a lazily filled index that lookups themselves change, and on names that several variables share.", "anchors": ["gpkit/constraints/set.py:ConstraintSet.__getitem__", "gpkit/constraints/set.py:ConstraintSet._choosevar", "gpkit/keydict.py:KeyMap.parse_and_index", "gpkit/keydict.py:KeySet.__getitem__"]}
{"id": "C59", "title": "sol(expression) is the value of the expression at the solution", "statement": "Calling a solution with a variable gives the value of the variable, in its units; calling it with another expression gives the value of the expression at the solved point, in the units of the expression, whatever its sign; for a sweep there is one value for every solution. Asking for the value of an expression with a variable the solution does not have is an error.", "quantifier": "for every solution, every expression and every iteration order of sets", "why_tests_cant": "Depends on substitution into arbitrary expressions, on the class test of the result and on what is done with variables left over.", "anchors": ["gpkit/solution_array.py:SolutionArray.__call__", "gpkit/solution_array.py:SolutionArray.subinto", "gpkit/nomials/math.py:Signomial.sub"]}
{"id": "C60", "title": "A solution returned without warning solves the model as written", "statement": "If solve() returns and no solution check warning is printed, then every constant has its value in the solution, every inequality and equality the user wrote holds at the solution in physical units up to the stated tolerances, the reported cost is the cost at the solution, and no other point that satisfies the constraints with the same constants has lower cost. If the program cannot be made although units match, no point satisfies the model. Numbers that do not solve the model are not returned as its solution.", "quantifier": "for every posynomial cost, every list of posynomial inequalities and monomial equalities, all positive constants, every solver output, every tolerance and every iteration order of sets", "why_tests_cant": "Composes unit conversion, normalisation, substitution, the matrix handed to the solver, the check of the answer and the packing of results; a test sees one model at a time.", "anchors": ["gpkit/constraints/gp.py:GeometricProgram.__init__", "gpkit/constraints/gp.py:GeometricProgram.generate_result", "gpkit/constraints/gp.py:GeometricProgram._compile_result", "gpkit/constraints/gp.py:GeometricProgram.check_solution", "gpkit/nomials/math.py:PosynomialInequality.as_hmapslt1"]}
{"id": "C61", "title": "Elements of vector variables have the values declared", "statement": "Element i of a vector variable declared with values v has the value v[i]. Declared inside Vectorize environments there is one copy for each index of them, and every copy has these values. A view m[j] of the model shows the copy j of each array.", "quantifier": "for every shape, every nesting of Vectorize environments, every value (number, list, array or function) and every index", "why_tests_cant": "Depends on numpy broadcasting for every combination of shapes; lists and arrays take different paths.", "anchors": ["gpkit/nomials/variables.py:ArrayVariable.__new__", "gpkit/nomials/variables.py:veclinkedfn", "gpkit/constraints/set.py:ConstraintSetView.__getitem__", "gpkit/constraints/set.py:ConstraintSetView.__getattr__"]}
{"id": "C62", "title": "Local solutions of signomial models satisfy the model as written", "statement": "If localsolve returns a solution and its check passes, then constants have their values, all values are positive and every constraint of the model, posynomial or signomial, holds at the values returned up to the tolerances. If no slack is reported, signomial constraints hold up to a further factor 1 + 1e-6; if it is, they hold up to the reported slack. Signomial equalities hold up to these and the factor by which the terms of a side changed relative to each other since the last approximation. The reported cost is the cost at the values times the slack to the power of the penalty.", "quantifier": "for every signomial model, every initial guess, every number of passes, every answer of the solver in every pass and every iteration limit", "why_tests_cant": "Constraints are approximated anew in each pass and the coefficients of the program are changed in place; whether the last program bounds the model as written depends on all earlier passes.", "anchors": ["gpkit/constraints/sgp.py:SequentialGeometricProgram.localsolve", "gpkit/constraints/sgp.py:SequentialGeometricProgram.gp", "gpkit/constraints/sgp.py:SequentialGeometricProgram.__init__", "gpkit/nomials/math.py:SignomialInequality.as_gpconstr"]}
{"id": "C63", "title": "Printing a solution does not change it", "statement": "Tables and summaries of a solution only read it: after sol.table() or sol.summary() every variable, constant and sensitivity has the value it had before, so that printing twice prints the same.", "quantifier": "for every solution, every choice and order of tables, every selection of variables and every option", "why_tests_cant": "Tables edit the arrays they are given before printing; whether these arrays are the solution's own depends on the table and on options passed through several functions.", "anchors": ["gpkit/solution_array.py:var_table", "gpkit/solution_array.py:topsenss_table", "gpkit/solution_array.py:SolutionArray.table", "gpkit/solution_array.py:SolutionArray.summary"]}
{"id": "C64", "title": "Tables show every variable once, below its model, with all its values", "statement": "A table lists each variable that has a value above the minimum and whose model is not left out exactly once, below the only heading of its model, in the documented order, with all of its values; the lines of an array run along its longest axis that fits the width.", "quantifier": "for every dictionary of variables, numbers and arrays of any shape, every option and every width", "why_tests_cant": "Rows are filtered, decorated, sorted and laid out with headings that depend on the row before; arrays are transposed and cut into lines depending on all their dimensions.", "anchors": ["gpkit/solution_array.py:var_table"]}
{"id": "C65", "title": "Files of comma separated values can be read back", "statement": "The file written by savecsv has one row for each line of each variable of the solution, and splitting rows at commas gives model, name, values, units and description in the columns that the first row names.", "quantifier": "for every solution, every shape of values and every number of columns", "why_tests_cant": "Columns are counted by adding commas to partial rows, and the number of columns depends on the shapes of all values together.", "anchors": ["gpkit/solution_array.py:SolutionArray.savecsv", "gpkit/solution_array.py:var_table"]}
{"id": "C66", "title": "Top sensitivities are the largest ones", "statement": "The table of top sensitivities shows as many variables as asked for, and no variable left out has a larger mean magnitude of sensitivity than one shown.", "quantifier": "for every solution, every number of variables asked for and every selection of variables shown elsewhere", "why_tests_cant": "The selection removes variables from a sorted list while counting down, and takes a slice from its end.", "anchors": ["gpkit/solution_array.py:topsenss_filter"]}
{"id": "C67", "title": "Every result of a solve belongs to its point of the sweep and solves the model there", "statement": "Model.solve returns one result for each combination of swept values (one in all without sweeps). In each, constants have the values of model.substitutions, swept variables those of the combination, linked variables those of their functions, no other variable is fixed, every constraint of the model holds as written up to the tolerances, and no other such point is cheaper.", "quantifier": "for every model of posynomial constraints, every dictionary of substitutions with constants, vectors, sweeps and functions, every answer of the solver and both settings of skipsweepfailures", "why_tests_cant": "The claim spans the parser of substitutions, the evaluation of linked functions, the grid of the sweep, the construction of programs from one shared dictionary of constants and the check of each solution.", "anchors": ["gpkit/constraints/prog_factories.py:solvify", "gpkit/constraints/prog_factories.py:progify", "gpkit/constraints/prog_factories.py:run_sweep", "gpkit/nomials/substitution.py:parse_subs"]}
{"id": "C68", "title": "Tables of constraints show the tightest constraints with their whole text", "statement": "The table of most sensitive constraints shows constraints whose sensitivity reaches the threshold, each once, as many as asked for, and none left out is more sensitive than one shown; the table of insensitive constraints shows all of them, each once. Each constraint stands below the heading of its model, and its lines put together are its text.", "quantifier": "for every set of constraints and sensitivities, every text of a constraint and every name of a model", "why_tests_cant": "Rows are sorted twice by tuples with texts and memory addresses, texts are broken by a loop that moves characters between segments, and names of models are removed from texts; tests print tables of a few short constraints.", "anchors": ["gpkit/solution_array.py:tight_table", "gpkit/solution_array.py:loose_table", "gpkit/solution_array.py:constraint_table"]}
{"id": "C69", "title": "Equality of monomials and arrays is a truthful test", "statement": "For monomials, numbers and arrays of them, bool(a == b) is True exactly if both sides are the same quantity everywhere: of one dimension and equal in base units at every positive point; and the test never raises.", "quantifier": "for all nomials and numbers as operations make them, in any units, and all arrays of them", "why_tests_cant": "== between monomials makes a constraint that is then used as a truth value, so its answer passes through code that simplifies and rejects constraints; tests compare a few monomials that are equal.", "anchors": ["gpkit/nomials/math.py:Monomial.__eq__", "gpkit/nomials/math.py:MonomialEquality.__bool__", "gpkit/nomials/array.py:array_constraint", "gpkit/constraints/array.py:ArrayConstraint.__bool__"]}
{"id": "C70", "title": "debug() says truthfully what has to be changed", "statement": "Model.debug() returns None, or a solution of the model with changes: either all constraints hold as written and each constant lies within its relaxation factor of the value given, or all constants are as given and each constraint holds within its factor; constants and constraints without a warning are within one percent. For a feasible model it changes constants only, and no further than pays in the cost. It does not raise when solving ends with a solution or with infeasibility.", "quantifier": "for all models of posynomial constraints and equalities, any number of constants and free variables, all units, and all ways solving can end", "why_tests_cant": "debug() runs only when a model fails, on one of several paths, and composes two relaxations, bounds and a changed cost; tests call it on two small models and do not check the points it returns.", "anchors": ["gpkit/constraints/model.py:Model.debug", "gpkit/constraints/bounded.py:Bounded", "gpkit/constraints/relax.py:ConstantsRelaxed", "gpkit/constraints/relax.py:ConstraintsRelaxed", "gpkit/constraints/relax.py:get_relaxed"]}
{"id": "C71", "title": "Samples of an autosweep at one value form a point that meets the constraints", "statement": "Sampling a finished autosweep at a value that was solved at gives what that solution has. At any value in the range, the sampled values of the variables form a point: the swept variable has the value asked for, constants have theirs, every posynomial inequality and monomial equality that holds in all solutions holds there, monomials are sampled as this point has them and posynomials not below, and the cost of the point is not above cost_ub(). Values outside the range are refused with a ValueError.", "quantifier": "for all models, solvers, ranges, tolerances, sampled values, expressions and units", "why_tests_cant": "Interpolation in logs keeps constraints only because posynomials are convex in logs; tests compare a few samples with curves known in closed form and never insert samples into constraints.", "anchors": ["gpkit/tools/autosweep.py:BinarySweepTree.posy_at", "gpkit/tools/autosweep.py:BinarySweepTree.cost_at", "gpkit/tools/autosweep.py:SolutionOracle"]}
{"id": "C72", "title": "A model has every constraint, variable and value that was given to it", "statement": "A model or set of constraints has exactly the constraints written in it, at any depth of nested models, lists and arrays, and exactly the variables of these constraints, of the costs and of setup(). A variable has a value in the model if and only if a value for it is given in some dictionary of substitutions inside, or a variable object used has a default value; the value is one of those given, and one in the substitutions of the model itself comes first. A default value disappears from a variable object only if the model has a value for it.", "quantifier": "for all nested models, lists, arrays, defaults, substitutions and orders of variables", "why_tests_cant": "Which constraint or value is silently dropped depends on truth values of constraints, identity of key objects and what was built before; tests build each model once, from fresh variables and lists of constraints.", "anchors": ["gpkit/constraints/set.py:ConstraintSet.__init__", "gpkit/constraints/set.py:ConstraintSet._update", "gpkit/constraints/costed.py:CostedConstraintSet.__init__", "gpkit/constraints/model.py:Model.__init__", "gpkit/constraints/array.py:ArrayConstraint.__bool__"]}
{"id": "C73", "title": "What is solved is what is written", "statement": "If a model is written as comparisons of expressions in variables, at any depth of nested models and lists, and solving it returns a solution that passes its check, then the point returned has the values given, satisfies every comparison as written (in real numbers and physical units, within the tolerances) and its cost is that of the cost expression as written. If the tolerances are zero, no point that has the given values and satisfies all the comparisons has a lower cost. Which side of <=, >= and == has which operand class, and which operand's method Python asks first, has no influence on the meaning.", "quantifier": "for all expressions, comparisons, trees of models, substitutions, units and solvers", "why_tests_cant": "The path from a comparison to a solution goes through operator dispatch, two constraint classes, unit conversion, simplification, substitution, cost normalisation and array data; each test checks one step, or a whole solve for one model with a known optimum.", "anchors": ["gpkit/nomials/core.py", "gpkit/nomials/math.py:Signomial.__le__", "gpkit/nomials/math.py:Posynomial.__le__", "gpkit/nomials/math.py:Monomial.__eq__", "gpkit/nomials/math.py:ScalarSingleEquationConstraint", "gpkit/nomials/math.py:PosynomialInequality.__init__", "gpkit/constraints/model.py:Model.__init__", "gpkit/constraints/prog_factories.py:_solvefcn", "gpkit/constraints/gp.py:GeometricProgram.solve"]}
{"id": "C74", "title": "Arrays mean what their elements mean", "statement": "Arithmetic with arrays of any shapes that numpy can broadcast gives, at each index, the value of the expression one would write for the elements at that index, whatever the order of the operands and the units; sums and products give those of all elements. A comparison of arrays becomes one constraint for each index, which holds exactly where the comparison of the elements at that index does; and if a model written with arrays is solved, every comparison is true at every index and no point satisfying all of them costs less.", "quantifier": "for all expressions with arrays, shapes, indices, comparisons, trees of models and points", "why_tests_cant": "An array expression stands for as many scalar expressions as the array has elements; tests check a few small vectors with a single operator, not the composition of broadcasting, reflected operators, units and constraints for all shapes.", "anchors": ["gpkit/nomials/array.py:array_constraint", "gpkit/nomials/array.py:NomialArray", "gpkit/nomials/math.py:Signomial.__mul__", "gpkit/nomials/math.py:Signomial.__sub__", "gpkit/constraints/array.py:ArrayConstraint"]}
{"id": "C75", "title": "Models with signomials are solved as they are written", "statement": "If a model that is written with differences inside SignomialsEnabled is solved, by solve where substitution leaves posynomial inequalities and by localsolve otherwise, every comparison in it is true of the physical values returned, up to a share of the size of its terms that vanishes with the tolerances and, for localsolve, the slack; values given are kept, and the cost returned is that of these values, times a penalty for slack. The sides of a SignomialEquality are equal up to such a share if the last pass did not move its terms; a model that has one is not solved by solve. If solve's check is exact, no point at which all comparisons are true costs less.", "quantifier": "for all comparisons of expressions, trees of models, substitutions, units, iteration orders, solvers and numbers of passes", "why_tests_cant": "The path from a written difference to the solver goes through a difference of two sides, substitution, a split by signs, monomial approximations, in-place updates of a program and a slack variable; tests see the end result of a few small models at one point each.", "anchors": ["gpkit/nomials/math.py:SignomialInequality.__init__", "gpkit/nomials/math.py:SignomialInequality.as_hmapslt1", "gpkit/nomials/math.py:SingleSignomialEquality.__init__", "gpkit/constraints/sigeq.py:SignomialEquality", "gpkit/constraints/sgp.py:SequentialGeometricProgram.__init__", "gpkit/constraints/sgp.py:SequentialGeometricProgram.localsolve", "gpkit/constraints/model.py:Model.solve"]}
{"id": "C76", "title": "Comparisons of solutions tell the differences", "statement": "sol.almost_equal(other) is True exactly if both solutions have the same variables, with values that differ by less than a part reltol of the other's and sensitivities that differ by less than sens_abstol. sol.diff(other) lists the variables found in only one of the solutions; its tables show every shared variable with a difference above the limit, with the difference of each element from the element at the same place, and if there is none the largest difference is stated.", "quantifier": "for all solutions, shapes of values, sets of shown variables, limits and iteration orders", "why_tests_cant": "Values are stretched to a common shape, compared through divisions that may not be numbers, hidden and sorted in tables; the tests compare one solution of numbers with itself and check that nothing is raised.", "anchors": ["gpkit/solution_array.py:SolutionArray.almost_equal", "gpkit/solution_array.py:SolutionArray.diff", "gpkit/solution_array.py:cast", "gpkit/solution_array.py:unrolled_absmax"]}
{"id": "C77", "title": "Sensitivities bound the cost of every changed model", "statement": "If m.solve() returns a solution without a warning, with sensitivities s, then whatever values the constants of the model are changed to, no point that satisfies its constraints costs less than sol['cost'] times the product, over all constants c, of (new value / old value)**s[c]. So if the logarithm of the optimal cost has a derivative with respect to that of a constant, it is the sensitivity.", "quantifier": "for all models made of posynomial inequalities and monomial equalities with positive constants, all solvers whose solution passes the check, all new values of the constants and all points", "why_tests_cant": "The claim is about all points of all models that differ in their constants; the tests compare a few sensitivities with known numbers at one optimum.", "anchors": ["gpkit/constraints/gp.py:GeometricProgram._compile_result", "gpkit/nomials/math.py:PosynomialInequality.sens_from_dual", "gpkit/nomials/math.py:MonomialEquality.sens_from_dual"]}
{"id": "C78", "title": "Substituting into expressions means what it says", "statement": "p.sub(substitutions) is the expression whose physical value, at every point, is the value of p with the given values put in: a value may be given for a variable, its key, its name or its whole vector, as a number, a Quantity or a constant expression. It has the units of p, holds no variable that got a value, and does not depend on which of these ways was used or on the order of sets. Names that do not occur, sweeps, functions and NaNs are passed over. x.sub(value) is the constant with that value, and p.value is p with the values its variables were made with.", "quantifier": "for all expressions, all dicts and KeyDicts of substitutions, all points and all orders of iteration of sets", "why_tests_cant": "The claim is about all ways to write substitutions and all points; the tests check some results for a few values and names. The order of sets changes between runs.", "anchors": ["gpkit/nomials/math.py:Signomial.sub", "gpkit/nomials/map.py:NomialMap.sub", "gpkit/nomials/substitution.py:parse_subs", "gpkit/nomials/substitution.py:append_sub", "gpkit/nomials/variables.py:Variable.sub", "gpkit/nomials/core.py:Nomial.value"]}
{"id": "C79", "title": "Names in texts and files tell variables apart", "statement": "Texts of models, tables, and the names under which savemat and todataframe put variables leave out models (lineage) where they are not needed: different variables still get different names, a name that only one variable has is shown without models, varnames lists each variable once, a data frame has one row for each value of each variable, and nothing of this remains afterwards.", "quantifier": "for all sets of variables, all names, models, indices and units, all orders of sets and all lookups made before", "why_tests_cant": "Whether a name is ambiguous depends on all other variables, on the strings they are found by and on texts made before; the tests print a few models and compare the text.", "anchors": ["gpkit/varkey.py:VarKey.str_without", "gpkit/constraints/set.py:ConstraintSet.name_collision_varkeys", "gpkit/solution_array.py:SolutionArray.name_collision_varkeys", "gpkit/solution_array.py:SolutionArray.varnames", "gpkit/solution_array.py:SolutionArray.todataframe", "gpkit/repr_conventions.py:lineagestr", "gpkit/repr_conventions.py:ReprMixin.parse_ast"]}
{"id": "C80", "title": "Sensitivities of constraints and models bound the cost of every relaxed model", "statement": "If a model is solved without a warning, then relaxing each constraint by a factor (multiplying its greater side) and changing constants cannot lower the cost below the reported cost times the ratios of the constants to the power of their sensitivities, divided by the factors to the power of the constraints' sensitivities; a constraint's sensitivity is the derivative of the optimal cost if there is one. The sensitivity of a model is the sum of those of its constraints and the magnitudes of those of its variables, so the cost falls by at most the factor to that power if all constraints and constants of the model are relaxed by the factor. The table of models shows this.", "quantifier": "for all costs, constraints, constants, relaxations and points (any number of variables), all solvers, all models the constraints are written in", "why_tests_cant": "It compares the solved model with infinitely many models that are not solved, and depends on what constraints remember of substitutions; the tests look at the sensitivities of a few models.", "anchors": ["gpkit/constraints/gp.py:GeometricProgram._compile_result", "gpkit/nomials/math.py:PosynomialInequality.sens_from_dual", "gpkit/nomials/math.py:MonomialEquality.sens_from_dual", "gpkit/repr_conventions.py:lineagestr", "gpkit/solution_array.py:msenss_table", "docs/source/visint.rst"]}
{"id": "C81", "title": "Processing a result adds what the model's sets are for and keeps what was solved", "statement": "After a solve every set of constraints in the model, however deep, processes the result, sets inside before those around them. The values that were solved for or given, and the sensitivities of constraints, stay. A variable with an evaluation function gets the value that the function gives for the final values. The sensitivity of a constant that was relaxed is the one found for the constant that took its value. Warnings are kept; those about loose constraints are exactly those of the whole model; a relaxation is reported exactly when it is above the threshold, with its percentage.", "quantifier": "for all models (any nesting of sets, lists and arrays), all results, all evaluation functions, all orders in which Python goes through its sets", "why_tests_cant": "The order in which Python goes through sets, the nesting and the functions are arbitrary; the tests have one model with one evaluation function and a few relaxed models.", "anchors": ["gpkit/constraints/set.py:ConstraintSet.process_result", "gpkit/constraints/set.py:flatiter", "gpkit/constraints/relax.py:ConstraintsRelaxedEqually.check_relaxed", "gpkit/constraints/relax.py:ConstraintsRelaxed.check_relaxed", "gpkit/constraints/relax.py:ConstantsRelaxed.process_result", "gpkit/constraints/relax.py:get_relaxed", "gpkit/constraints/prog_factories.py:solvify"]}
{"id": "C82", "title": "The text of a model can be read in one way", "statement": "The text of a model or set of constraints shows its name, its cost and every constraint, once, whole and in order, below the headings of the models and the keys of dictionaries it belongs to, indented by them. Two models with the same text have the same name, cost and constraints, each constraint in the same models and under the same keys.", "quantifier": "for all models (any nesting of models, sets, lists and dictionaries), all texts of the sides of constraints, with and without unicode, constraint names and unnecessary lineage", "why_tests_cant": "The layout is by indentation only, and is put together recursively with lines removed and added; tests compare a few printed models.", "anchors": ["gpkit/constraints/set.py:ConstraintSet.lines_without", "gpkit/constraints/set.py:recursively_line", "gpkit/constraints/set.py:ConstraintSet.str_without", "gpkit/constraints/single_equation.py:SingleEquationConstraint.str_without", "gpkit/constraints/costed.py:CostedConstraintSet._rootlines", "gpkit/constraints/array.py:ArrayConstraint.lines_without"]}
{"id": "C83", "title": "Warnings of sweeps are shown at the point they are about", "statement": "The table of warnings of a sweep (or of a single solve) tells of every warning of every point once: under its category, with the number of its point, by its message or by the constraint with the numbers it was warned about. It tells of nothing else, and a sweep with warnings returns a solution.", "quantifier": "for all sweeps (any number of points, any results), all warnings in any categories at each point and all orders in which they occur", "why_tests_cant": "Whether a warning occurs at a point depends on the numbers there; tests print tables of single solves, or of sweeps without warnings.", "anchors": ["gpkit/solution_array.py:warnings_table", "gpkit/small_scripts.py:appendsolwarning", "gpkit/small_classes.py:DictOfLists", "gpkit/constraints/loose.py:Loose.process_result", "gpkit/constraints/tight.py:Tight.process_result"]}
{"id": "C84", "title": "Notes of missing bounds in docstrings mean what they say", "statement": "The sections Upper Unbounded and Lower Unbounded of a model's docstring are read as the bounds they note: every note on every line counts, under its condition if it has one, and a note of something that does not exist is an error. The verification of the docstring passes exactly if the noted bounds do not follow from the constraints and the others do; and if it fails, adding the text it suggests makes it pass.", "quantifier": "for all docstrings with such sections (any text around them, any number of lines, notes, indents and conditions), all models and all orders in which the set of names may be iterated", "why_tests_cant": "Docstrings are free text; tests read a few of them, and none applies a suggestion.", "anchors": ["gpkit/tools/docstring.py:expected_unbounded", "gpkit/constraints/model.py:Model.verify_docstring"]}
{"id": "C85", "title": "A decorated setup function is the written one with its declarations put in", "statement": "What parse_variables makes of a setup function is the function as written, with the declarations of its docstring, indented like its body, put in between header and body: no line is lost, changed or moved. Every line of the body keeps the number it has in its file, and a declaration has the number of the line of the docstring it was made of, so that tracebacks point to the right places.", "quantifier": "for all docstrings, all functions (any indents, headers of any number of lines, any bodies) and all line numbers", "why_tests_cant": "Source text is free text, and tests decorate a few functions, and never look at the numbers of lines in tracebacks.", "anchors": ["gpkit/tools/docstring.py:parse_variables.__call__"]}
{"id": "C86", "title": "Settings written by the build are the ones used", "statement": "What the build writes to the file of settings is what is read when gpkit is imported: every setting, with lists as lists. So the installed solvers are the ones found, the default is the first of them in the order of preference and is what solves for which no solver is named use, and a directory found is used as found. Without a file, or with one that names no solver, a build is made and its settings are used; if it finds no solver none is made up.", "quantifier": "for all sets of solvers found, all directories, all lists of settings and all previous files", "why_tests_cant": "Tests run on a machine with one set of solvers and one directory.", "anchors": ["gpkit/build.py:build", "gpkit/globals.py:load_settings"]}
{"id": "C87", "title": "Signomial equalities and their approximations", "statement": "A signomial equality is solved by replacing it, at each pass, by an equality of monomials. At the point of the approximation the replacement holds exactly if the equality does, so where the passes stay at a point or converge to one, the equality holds there. Away from it, a point that satisfies the replacement satisfies the equality up to the factor by which terms of one side have moved apart. An equality that can be satisfied is accepted and is not dropped.", "quantifier": "for all signomial equalities with terms on both sides, all positive guesses (1 where none is given), all positive points and slacks, and all orders of sets", "why_tests_cant": "Tests solve a few equalities and check that the result is near; what an approximate equality says of the original depends on all terms and on the distance moved.", "anchors": ["gpkit/nomials/math.py:SingleSignomialEquality", "gpkit/constraints/sigeq.py:SignomialEquality", "gpkit/constraints/sgp.py:SequentialGeometricProgram.__init__", "gpkit/constraints/sgp.py:SequentialGeometricProgram.gp"]}
{"id": "C88", "title": "An autosweep brackets the optimal cost of a model", "statement": "After an autosweep of a geometric program, the costs it reports bracket the optimum at every value of the swept variable in the range, without an assumption on the cost as a function of it: with that value there is a point that satisfies the constraints and costs no more than the upper cost, and no such point costs less than the lower cost. The two are closer than twice the tolerance, and the estimate lies between them.", "quantifier": "for all models with positive constants, all solvers whose results pass the check, all ranges of positive values, depths and tolerances of the autosweep, and all values in the range", "why_tests_cant": "Tests compare a few swept costs with solves at the same values; that values in between are bracketed depends on all optima of the model and on the sensitivities of every solve.", "anchors": ["gpkit/tools/autosweep.py:autosweep_1d", "gpkit/tools/autosweep.py:get_tol", "gpkit/tools/autosweep.py:BinarySweepTree.cost_at", "gpkit/constraints/prog_factories.py:solvefn", "gpkit/constraints/gp.py:GeometricProgram.solve"]}
{"id": "C89", "title": "LaTeX shows the expression or constraint it is made from", "statement": "Read as mathematics, the LaTeX of a nomial is that nomial with its numbers rounded: the same terms and variables, exponents right to two digits, and coefficients right to four digits, or to two where they are shown as 1 or -1. Where the numbers are no longer than that, it denotes the nomial, and the LaTeX of a constraint says what the constraint says. The LaTeX of a set of constraints or model has a row for its cost and one for every constraint, in order.", "quantifier": "for all nomials and constraints between them, all orders of variables and terms, all positive points, and all sets of constraints, nested to any depth", "why_tests_cant": "Tests compare the LaTeX of a few expressions with texts; whether what is shown equals what is meant depends on all coefficients and exponents, signs, fractions and roundings.", "anchors": ["gpkit/nomials/core.py:nomial_latex_helper", "gpkit/nomials/core.py:Nomial.latex", "gpkit/constraints/single_equation.py:SingleEquationConstraint.latex", "gpkit/constraints/set.py:ConstraintSet.latex", "gpkit/constraints/costed.py:CostedConstraintSet._rootlatex"]}
{"id": "C90", "title": "A Sankey diagram contains every constraint with its sensitivity, and conserves flow", "statement": "The links of a Sankey diagram form a tree whose root is the model, or the variable the diagram is made for. At each node in between as much flows in as out. Every constraint, however deep in models, arrays and dictionaries, has a node with its key or text, and a link with its sensitivity (for a variable: its sensitivity to this variable). What arrives at the root is the sum of the sensitivities of all constraints and of the constants of models, or for a variable that of all constraints and of the cost. What is shown are these links, as wide as their values are large.", "quantifier": "for all solutions and all sets of constraints nested to any depth in named models, arrays and dictionaries, with any constants, vectors of constants among them, and all variables", "why_tests_cant": "Tests make a diagram or two and do not look at the links; that flows balance depends on the structure of the whole set, on which nodes get the same name and on what was made before.", "anchors": ["gpkit/interactive/sankey.py:Sankey.diagram", "gpkit/interactive/sankey.py:Sankey.link", "gpkit/interactive/sankey.py:Sankey.linkfixed", "gpkit/interactive/sankey.py:Sankey.add_node", "gpkit/interactive/sankey.py:Sankey._links_and_nodes"]}
{"id": "C91", "title": "The table of insensitive variables lists those with the least sensitivity", "statement": "`insenss_table` lists the variables whose mean magnitude of sensitivity is below `maxval`, each once, below its model and with its sensitivities, and no others. A user finds in it the fixed variables that hardly matter.", "quantifier": "for all solutions of any number of variables, scalars and vectors of any shape, with any models, options and values of maxval", "why_tests_cant": "Tests print the table for one solution and look for no error; which variables are missing from it shows only when compared with all sensitivities.", "anchors": ["gpkit/solution_array.py:insenss_table", "gpkit/solution_array.py:senss_table", "gpkit/solution_array.py:var_table"]}
{"id": "C92", "title": "Sliders start at the constants of a model and change nothing else", "statement": "`model.interact` makes a slider for each constant that is a number or a sweep, or for those asked for, at the value of the constant. The value, and all values of a sweep, lie between its ends, which are those given, if any. Moving sliders sets their variables in the model and no others.", "quantifier": "for all models with any variables, constants and sweeps, all ranges, and all movements of the sliders, whatever was looked up in the model before", "why_tests_cant": "No test runs the interactive part. Which variables a name finds depends on all variables of the model, so that a slider may work in one model and not in another.", "anchors": ["gpkit/interactive/widgets.py:modelinteract", "gpkit/keydict.py:KeyMap.parse_and_index", "gpkit/keydict.py:KeyDict.update"]}
{"id": "C93", "title": "LaTeX of variables tells them apart", "statement": "Two variables with the same LaTeX have the same name, models and index, and both or neither are vectors. Braces match in the LaTeX of any variable.", "quantifier": "for all variables with any names, models, numbers of models, indices and shapes, whether or not all models are shown", "why_tests_cant": "LaTeX of variables is made of their names, which are any text; whether that of two variables is the same depends on both names, and tests compare a few.", "anchors": ["gpkit/varkey.py:VarKey.latex", "gpkit/repr_conventions.py:lineagestr"]}
{"id": "C94", "title": "Values with units are the quantities given", "statement": "A value given with units, as a Quantity or a monomial, for a variable, an element, a list or an array, is kept as the number that means the same in the units of the variable. Read with units it is the quantity that was given last. A value of another dimension raises and changes nothing.", "quantifier": "for all variables with any units, all sequences of writes in any units and forms, and all reads between them", "why_tests_cant": "Conversion depends on both units, on the form of the value and on the order of writes to whole vectors and elements; tests try a few units on a fresh dictionary.", "anchors": ["gpkit/keydict.py:clean_value", "gpkit/keydict.py:KeyDict.__setitem__", "gpkit/keydict.py:KeyDict.__call__"]}
{"id": "C95", "title": "The solution array of an autosweep lists its solves", "statement": "The solution array of a finished autosweep has one solution for each solve, in increasing order of the swept variable from the lower to the upper bound. Every array in it has one row for each solve, in this order. Its length is the number of solves, and atindex(i) is the i-th solution.", "quantifier": "for all models, bounds, tolerances and solutions, however deep the tree of the autosweep and the dicts of the solutions are", "why_tests_cant": "Order and number of solves depend on the tree, which is unbounded, and each solution is taken apart and put together again; tests autosweep one model.", "anchors": ["gpkit/tools/autosweep.py:BinarySweepTree.solarray", "gpkit/tools/autosweep.py:BinarySweepTree.sollist", "gpkit/solution_array.py:SolutionArray.__len__"]}
{"id": "C96", "title": "The solution array of a sweep holds the solutions found", "statement": "The solution array that a sweep returns has as many solutions as were found, and atindex(i) is the i-th of them: cost, variables and sensitivities are those found, swept variables have their values at this point among the swept variables, and all other constants have theirs among the constants.", "quantifier": "for all sweeps, with and without linked functions, all numbers of solutions and all nested dicts of results", "why_tests_cant": "Solutions are taken apart, constants that do not vary are reduced to one value, and all is put together again at the next reading; tests look at costs of small sweeps.", "anchors": ["gpkit/constraints/prog_factories.py:run_sweep", "gpkit/small_classes.py:DictOfLists", "gpkit/solution_array.py:SolutionArray.__len__"]}
{"id": "C97", "title": "Elements of sets are found by key, and unusable ones are pointed out", "statement": "In a set of constraints made of a dict, the element under a key is the one given for it, and in one made of a list numbers are positions. If an element is not usable, the ValueError raised names it, tells truly which elements stand before and after it, and says so if it is a set that was not initialised.", "quantifier": "for all lists and dicts of constraints, sets, lists, arrays and other objects, of any nesting", "why_tests_cant": "The message is made with the set's own lookup by key, of which tests see only lists with one bad element and the type of the exception.", "anchors": ["gpkit/constraints/set.py:badelement", "gpkit/constraints/set.py:ConstraintSet.__init__", "gpkit/constraints/set.py:ConstraintSet.__getitem__", "gpkit/constraints/set.py:ConstraintSet.__repr__"]}
{"id": "C98", "title": "Tables show the variables asked for", "statement": "A table of a solution that is asked for some variables, by name, by themselves or by one of their elements, shows exactly those of its variables that were asked for, and asking does not change the solution.", "quantifier": "for all solutions, all names and variables asked for, in any order of sets, and whatever was looked up before", "why_tests_cant": "Names are looked up in a map that is filled when needed and gains entries on reading, and the result is looked up again for each table; tests ask for few variables that exist.", "anchors": ["gpkit/solution_array.py:SolutionArray._parse_showvars", "gpkit/solution_array.py:SolutionArray.table", "gpkit/keydict.py:KeyMap.parse_and_index", "gpkit/keydict.py:KeyMap.update_keymap"]}
