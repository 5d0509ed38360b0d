# Design

The subject is hoburg/gpkit at the commit in `/repo`, read as text. Properties are in `properties.jsonl`,
the Lean model and proofs in `lean/Verif`, the state of each property in `MANIFEST.json`, and the record of
deliberately broken models in `seeded/LOG.jsonl`. There, `failed` names the theorems whose proofs broke and those that use
them, directly or not, as found by a search of the text of the proofs, which can miss some. In an entry without any, no theorem was
seen to fail; in a few of these an `example` failed, so that modules that import it were not built.

## Layout

* `Verif/Model/*` – one file per group of Python modules. Each definition cites the file and lines it models.
* `Verif/Spec/*` – what the properties talk about (evaluation, derivability, abstract maps), written without use of the model's functions.
* `Verif/Lemmas/*` – helper lemmas.
* `Verif/Props/*` – the property theorems (named `Cnn_...`) with an `example` that their hypotheses can be met.
  A theorem ending in `_partial` proves less than the property says. A theorem ending in `_fails` proves that the code, as modelled, violates the property.

## Trusted base

* Lean's kernel and the axioms `propext`, `Classical.choice`, `Quot.sound`. No other axiom is used.
* The reading of the Python code. Nothing was run.
* Numbers. Python floats are modelled as elements of an ordered field (`ℝ` in the property theorems, `ℚ` in
  examples): no rounding, no overflow, no NaN unless a model says so. `a**b` is a parameter of the model,
  `Real.rpow` in the property theorems.
* Python dicts are insertion-ordered association lists (`Model/PyDict.lean`). Key equality of `HashVector`s is equality
  of mappings; that hashing agrees with it is property C04. Sets whose iteration order matters are lists in arbitrary order.
* Printed expressions are lists of tokens: names contain no operators or parentheses, and `%.3g` and `sorted` are parameters.
* Other strings are lists of characters; what counts as whitespace is a parameter, and `str` methods are written in `Model/Text.lean`.
* Units (pint) are a dimension in an abstract vector space and a positive scale. Parsing of unit names is not modelled.
* numpy, scipy, cvxopt, mosek and pint themselves are not modelled: solvers are parameters. What a task given to mosek means, and its dual, is
  written in `Spec/Conic.lean` from the documentation (coefficients put twice take the last value); for cvxopt see `Spec/Cvx.lean`.

Not modelled: LaTeX of units and arrays (that of nomials, constraints and sets is, see C89, and that of variables, see C93), units in texts (`unitstr`) and texts of arrays, plotting (`plot`, `interactive/` but for the links of Sankey diagrams, see C90, and sliders, see C92), how
`build.py` finds solvers (what it writes is modelled, see C86), file system access (`save`, `savetxt`, `pickle`), widths and padding of table columns, `qty` and the parsing of units,
and the `exec` of code made from docstrings (the code is modelled as text, see C48 and C85).

## Plan per property

| id | model | how it is proved |
|----|-------|------------------|
| C01 | operators of `Signomial`/`Monomial` on `NomialMap`s | each operator commutes with evaluation; induction over expression trees |
| C02 | same | invariant `Canonical` preserved by each operator |
| C03 | `__eq__` of nomials | linear independence of characters on positive vectors gives the 'only if' direction; the zero nomial has two representations, so partial with a witness |
| C04 | `HashVector` with its cached hash and in-place updates | invariant `cached = none ∨ cached = xor of item hashes` over all operations |
| C05 | `Signomial.__init__` | case analysis, both settings |
| C06 | `NomialMap.sub` as a state machine over `cp`, `expmap`, `csmap`, `squished` | loop invariant on the evaluated sum, for every order |
| C07 | `NomialMap.diff` | term-wise `HasDerivAt` |
| C08 | `posy_negy`, `chop` | induction over terms |
| C09 | `NomialMap.__add__`, `to`, `units_of_product`, `of_product`, `__pow__` | evaluation in base units |
| C10 | `of_division` with a cache keyed on addresses and a heap | violated when an address is reused; partial for histories that keep units alive |
| C11 | `mono_approximation` | weighted AM-GM |
| C12 | `_gen_unsubbed`, `_simplify_posy_ineq` | violated: keys are renamed in place, witness `x² + x ≤ 5x`; partial when no renamed key meets a later one |
| C13 | `as_hmapslt1` | C06 and the algebra of moving a constant |
| C14 | `MonomialEquality` | case analysis |
| C15 | `mmap` after `sub` | invariant of `expmap`/`csmap` over any iteration order; violated for terms moved together twice and zero constants (witnesses) |
| C16 | `sens_from_dual` | on top of C15: the weights of the original terms, then `HasDerivAt` of the log of the solver form; violated where C15 is (witness) |
| C17 | `as_gpconstr` | C11 and C12 |
| C18 | `localsolve` loop with an arbitrary solver | induction over iterations, C17 for the costs; the limit is exceeded by one, rising costs accepted when quiet or small (witnesses) |
| C19 | in-place update of `A` | invariant on the meaning of the sparse triplets; wrong rows when the number of terms changes (witnesses) |
| C20 | `gen` | induction over posynomials |
| C21 | `check_bounds`, `gen_meq_bounds`, `fulfill_meq_bounds` | equality with an inductively defined derivability relation |
| C22 | `add_meq_bounds` | same; `x == 3` gives no bound (witness) |
| C23 | `KeyDict` set/get/contains with collapsed arrays | refinement to the last write of each element; single-precision and integer storage, sweeps, shared arrays, failed writes and string keys violate it (witnesses) |
| C24 | two `KeyDict`s over a heap of arrays | violated for writes to the source and for deletions (witness); partial for writes to the copy |
| C25 | `__delitem__`, `update_keymap` | violated (witnesses); partial: by name, and whole variables with a refreshed index, equal to a history without the writes |
| C26 | `parse_subs`, `append_sub` | violated for mixed vectors and doubly named variables (witnesses); partial otherwise |
| C27 | `run_sweep`, `evaluate_linked` | permutation of the cartesian product, invariant on the shared constants; stale values for linked functions of linked variables, saved programs share constants (witnesses) |
| C28 | `Model.sweep`, `autosweep_1d` | violated for zero values, arrays and on exceptions (witnesses); partial otherwise |
| C29 | `DictOfLists` | induction over nested dicts; partial for results of equal structure; single results with arrays and differing keys violate it (witnesses) |
| C30 | `BinarySweepTree`, `recurse_splits` | induction over trees |
| C31 | `cost_at`, `get_tol` | convexity; violated if a lower bound is exactly 0 and for steep ends taken for straight lines (witnesses) |
| C32 | `relaxed` and the relaxing sets | order algebra; violated for signomials with minus signs, and nested or vector constraints raise `IndexError` (witnesses) |
| C33 | `ConstantsRelaxed`, `get_relaxed` | order algebra; list induction; violated for the threshold, empty reports, vectors, shared names and models under construction (witnesses) |
| C34 | environments as operations on global state | induction over well-nested programs |
| C35 | `SignomialsEnabled` | violated for nested blocks (witness); partial for non-nested |
| C36 | `VarKey` | string lemmas; violated for names such as `x[0]` (witness) |
| C37 | `GeometricProgram.solve` | violated for cvxopt options, for quick failures at default verbosity and for a plain `Infeasible` (witnesses); partial |
| C38 | `cvxopt.optimize` | partition lemmas |
| C39 | `mosek_conif.optimize` | exponential-cone equivalence and weak duality; violated for matrices with left-over entries (witness); partial |
| C40 | `check_solution` | weak duality |
| C41 | linked part of `_compile_result`, `evaluate_linked` | two nested inductions, chain rule from Mathlib; violated for linked variables in the cost, nested links, later solves (witnesses) |
| C42 | `SolSavingEnvironment` | state restoration; violated for classes with an own attribute of a removed name (witness) |
| C43 | `te_exp_minus1`, `te_secant`, `te_tangent` | power series of exp, sin and cos; convolution identities of the whole coefficient tables; violated for the secant from 13 terms on (witness) |
| C44 | syntax trees, `parse_ast`, `parenthesize`, `strify`, `str_without` of nomials on tokens | a text is read in one way; text of safe trees denotes the expression; violated for powers of posynomials, powers of powers, operators between parentheses, on Windows, rounding, zero (witnesses) |
| C45 | `NomialArray.sum`, `prod` | induction over entries; violated for zeros, numbers that cancel and units that cancel (witnesses) |
| C46 | `Tight`, `Loose`, `Bounded`, `appendsolwarning` | induction over constraints; violated for tolerance zero, zero right sides, several sensitivities of one constraint, two `Bounded` sets (witnesses) |
| C47 | `flatiter`, `ConstraintSet.__init__`, `as_hmapslt1` on nested objects | induction over nesting; `flat()` does not open sets inside arrays (witness) |
| C48 | `parse_varstring`, `check_and_parse_flag`, `variable_declaration` on texts | the loops over flags agree with a recursion over lines; positions by first occurrence; violated for lines contained in earlier lines, trailing spaces, short vector sections, some descriptions (witnesses) |
| C49 | `as_hmapslt1`/`sens_from_dual` with object state | induction over the history; violated after a failed solve or a tautology (witnesses) |
| C50 | `NomialMap.diff` with units | violated when units reduce to a number (witness); partial |
| C51 | operators as functions into results or exceptions | totality by case analysis; violated for `p**0`, `0/x`, sums with a cancelled nomial (witnesses) |
| C52 | `verify_docstring` on top of C22 | counting argument on disjoint sets of bounds; violated for notes about foreign variables (witness) |
| C53 | `SignomialInequality.as_hmapslt1`, `sens_from_dual` | invariant that `expmap` follows every term, also cancelled ones; sums over classes of terms; violated for variables in the denominator and a numerator, and for cancelled terms (witnesses) |
| C54 | `SequentialGeometricProgram.__init__`, `gp` and the points used by `localsolve` | induction over the solves; violated for keys that are not `VarKey`s, variables that cancel out, constants, and repeated solves (witnesses) |
| C55 | `ConstantsRelaxed` on the model of `KeyDict` | invariant of the loop; violated for vectors (witness) |
| C56 | `cost_senss` in `_compile_result`, on the model of `sub` | sums over terms, derivative of C07; violated for costs whose terms move or merge (witnesses) |
| C57 | `write_output_file`, `optimize`, `read_vals` (solvers/mosek_cli.py) | words and lines of files, on C20; violated for the temporary directory and truncated files |
| C58 | `KeySet`, `parse_and_index` with `cset`, `_choosevar`, `variables_byname` | invariant of the index over all lookups; violated for ambiguous names, after failed lookups, for elements and for keys of vectors |
| C59 | `SolutionArray.__call__`, `subinto` | substitution of C06 and the class of the result; violated for non-positive values and for variables not in the solution |
| C60 | `GeometricProgram.__init__`, `generate_result`, values in `_compile_result` | composition of C06, C12, C13, C14, C20 and C40; violated as the check only prints |
| C61 | `ArrayVariable.__new__`, `veclinkedfn`, `ConstraintSetView` | arrays as shape and function of the multi-index; numpy broadcasting; violated for numbers, lists and matrices inside Vectorize |
| C62 | `SequentialGeometricProgram.__init__`, `gp`, `localsolve` | composition of C12, C17, C18, C19, C20, C40, C54: every approximation bounds its signomial constraint, also at points other than the guess, and the rows solved are those of the approximations |
| C63 | `var_table`, `topsenss_table`, `topsenss_filter`, `senss_table`, `SolutionArray.table`, `summary` | tables are functions of the solution that also return it; contents before and after are compared |
| C64 | `var_table` | a reader of lines recovers model, name and values; sorting by Mathlib's lexicographic orders; `dim_order` and `transpose` on indices of arrays |
| C65 | `SolutionArray.savecsv` | text of the file, split into lines and fields by a specification of readers |
| C66 | `topsenss_filter` | selection against the order by mean magnitude |
| C67 | `solvify`, `progify` | parsing, sweeping and solving composed; the specification reads substitutions key by key |
| C68 | `tight_table`, `loose_table`, `constraint_table` | wrapping loop by an invariant about the text read so far; rows by permutation and sorting |
| C69 | `Monomial.__eq__`, `MonomialEquality.__bool__`, `ArrayConstraint.__bool__` | from C14 and the equality of canonical maps (C03) |
| C70 | `Model.debug`, `varkey_bounds`, `Bounded.__init__` | composition of C32, C33 and C45 for any solver |
| C71 | `posy_at`, `SolutionOracle.__getval`, `_is_cost`, `cost_ub` | weighted geometric means, convexity in logs by the inequality of means, on the trees of C30 |
| C72 | `Model.__init__`, `CostedConstraintSet.__init__`, `ConstraintSet.__init__`, `_update`, `ArrayConstraint.__bool__` | heap of key objects threaded through the building of nested models, one invariant for constraints, variables, values and defaults |
| C73 | `Signomial.__le__`/`__ge__`, `Posynomial.__le__`, `Monomial.__ge__`/`__eq__`, `Model.solve` | reflected dispatch of comparisons modelled, composed with building of models (C72) and the pipeline (C60) |
| C74 | `NomialArray` operators, `array_constraint`, numpy's broadcasting | each operator commutes with taking the element at an index; composed with C73's `runOf` |
| C75 | `SignomialInequality.__init__`, `SingleSignomialEquality.__init__`, `as_hmapslt1`, constructor of `SequentialGeometricProgram` | size of expressions bounds the sum of the absolute terms through every operator; a signomial holds with factor s exactly if it is at most the share (s-1)/(s+1) of that sum; composed with C72, C60, C62 and C87 |
| C76 | `almost_equal`, `diff`, `cast`, `unrolled_absmax` | arrays as functions of multi-indices; numpy's stretching by the same function as C61; tables by C64; linked variables by C41 |
| C77 | `_compile_result` with the constraints' `sens_from_dual` | weak duality with shares: Gibbs' inequality for each posynomial before substitution; derivative by a local minimum of the difference |
| C78 | `Signomial.sub`, `Variable.sub`, `Nomial.value` with `parse_subs` and `NomialMap.sub` | the sorted constants are the given values; then C06 |
| C79 | `str_without` with all options, `name_collision_varkeys` on the keymap of C58, flags on objects, `varnames`, `todataframe` | what can be read off a name: split at brackets, dots and final digits |
| C80 | `c_senss` of all constraints kept beside `gpv_ss` (Model/Shadow), `m_senss`, the dict by constraint and the table | weak duality as in C77, with the relaxation carried through the inequality of Gibbs |
| C81 | results as dicts per element, sets as trees; computing, own steps of each class (those of C46 reused) | the processing as a fold over all sets, with an invariant about what has been computed so far |
| C82 | sets as first-child/next-sibling trees, lines as strings | the printed lines without blank ones are those of an outline; lines of outlines are injective by induction |
| C83 | calls of appendsolwarning, DictOfLists of C29, attributes of constraints, table of C68 | invariant of appending results; parts of the table read separately |
| C84 | `expected_unbounded` on text, attributes of the instance as parameters; suggested text | laws of split, replace, index and strip on joined text; composition with C52 |
| C85 | `parse_variables.__call__` up to the source given to `ast.parse` and the shift of its line numbers | laws of the loops that look for indents and the header; lines of joined text; composition with C48 |
| C86 | the text of the file as written and as read; what is found is given | laws of split on joined text; composition with C37 |
| C87 | `as_gpconstr` of single equalities, on the models of C11 and C14 | a converse of the weighted mean inequality (`monoLowerBound_upper`), continuity for limits |
| C88 | the autosweep of C31 with the solve of C77 at every point | geometric means of points satisfy the constraints; the infimum of the log cost is the function of C31 |
| C89 | LaTeX as tokens, sets as lines | a reader of tokens gives back every term; lines are joined as blocks |
| C90 | links, counters and nodes of `Sankey` | an effect (which links a call adds, with fresh names and balanced flows) composed by induction over the nested set |
| C91 | `insenss_table` on top of the table of C64 | the filter of C64 composed with that of `maxval` |
| C92 | `modelinteract` on top of the lookup of C58 | invariants of the loops over ranges and variables; names by C58 |
| C93 | `VarKey.latex` on variables of C79 | a text in matching braces is found again in what it starts (`close_inj`) |
| C94 | `clean_value` before the `KeyDict` of C23, reading with units after it | writes of quantities run as the writes of their numbers; C23 |
| C95 | `solarray` from the tree of C30 and the nested dicts of C29; `__len__` | C30 for order and number, C29 for reading back |
| C96 | the end of `run_sweep` on the nested dicts of C29 | invariant of the loop over constants; C29 for reading back |
| C97 | `__init__`, `__getitem__` and `badelement` on the objects of C47, with whether texts can be made | induction over the elements before; positions in the lookup |
| C98 | `_parse_showvars` on the maps of C58, with arrays collapsed, and its two uses in `table` | invariant of C58; induction over the names |
