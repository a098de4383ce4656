{"id": "C01", "title": "Interval +, -, negation enclose all results", "statement": "Evaluating x+y, x-y or -x over argument intervals yields an interval containing the exact result for every choice of values in the argument intervals, whatever upward rounding the number type performs.", "quantifier": "all intervals (finite or infinite bounds), all values in them, every rounding that never rounds a bound down", "why_tests_cant": "infinitely many operand values and rounding behaviours; a test fixes one combination", "anchors": ["itv/itv.h:itv_add", "itv/itv.c:itv_sub", "itv/itv.c:itv_neg", "num/bound_def.h:bound_add"]}
{"id": "C02", "title": "Interval multiplication encloses all products and is tight", "statement": "The product of two non-empty intervals contains x*y for all x,y in the operands under every upward rounding; with exact arithmetic no smaller interval does (each finite bound is attained, each infinite bound is necessary).", "quantifier": "all pairs of non-empty intervals, all members", "why_tests_cant": "infinitely many operand values and rounding behaviours; a test fixes one combination; nine sign combinations times infinities times zero", "anchors": ["itv/itv.c:itv_mul", "itv/itv.c:itv_mulp", "itv/itv.c:itv_muln", "num/bound_def.h:bound_mul"]}
{"id": "C03", "title": "Interval division encloses all quotients", "statement": "The quotient of two non-empty intervals contains x/y for all x in the first and all non-zero y in the second, under every upward rounding.", "quantifier": "all pairs of non-empty intervals, all members with non-zero divisor", "why_tests_cant": "infinitely many operand values and rounding behaviours; a test fixes one combination", "anchors": ["itv/itv.c:itv_div", "itv/itv.c:itv_divp", "itv/itv.c:itv_divn", "num/bound_def.h:bound_div"]}
{"id": "C04", "title": "Interval power encloses all powers", "statement": "Evaluating x^n over an interval for a natural number exponent n gives an interval containing every x^n.", "quantifier": "all non-empty intervals incl. unbounded ones, all natural exponents, all members", "why_tests_cant": "infinitely many operand values and rounding behaviours; a test fixes one combination", "anchors": ["itv/itv.c:itv_pow", "num/bound_def.h:bound_pow"]}
{"id": "C05", "title": "Integer rounding of intervals encloses all rounded values", "statement": "Rounding an interval to integers (truncation, ceil, floor, any/nearest) gives an interval containing the rounded image of every member.", "quantifier": "all intervals, all members, all five rounding directions", "why_tests_cant": "infinitely many members between two integers; boundary cases at integers and at 0", "anchors": ["itv/itv.h:itv_trunc", "itv/itv.h:itv_ceil", "itv/itv.h:itv_floor", "itv/itv.h:itv_to_int", "itv/itv_linearize.c:itv_round"]}
{"id": "C06", "title": "Backward integer rounding is an over-approximation of the pre-image", "statement": "When a constraint bounds the value of an integer-rounded expression, refining its operand keeps every operand value whose rounding satisfies the bound.", "quantifier": "all intervals, all rounding directions, all real values", "why_tests_cant": "pre-images are uncountable sets; bugs sit at single boundary points", "anchors": ["itv/itv_linearize.c:itv_unround", "itv/itv.h:itv_untrunc", "itv/itv.h:itv_unceil", "itv/itv.h:itv_unfloor", "itv/itv.h:itv_from_int"]}
{"id": "C07", "title": "Interval modulo encloses all remainders", "statement": "Evaluating x mod y (remainder of truncated division by |y|) over intervals contains the remainder for all members with y non-zero; in the integer variant for all integer members.", "quantifier": "all pairs of non-empty intervals, all members", "why_tests_cant": "infinitely many operand pairs; many sign cases", "anchors": ["itv/itv.c:itv_mod", "itv/itv.c:itv_abs"]}
{"id": "C08", "title": "Interval meet/join/inclusion/emptiness are the set operations", "statement": "Meet is intersection, join is the smallest enclosing interval, inclusion and equality tests coincide with set inclusion/equality of non-empty intervals, emptiness test is exact, and integer normalisation keeps exactly the integer members.", "quantifier": "all intervals, all values", "why_tests_cant": "quantifies over all pairs of intervals and all their members", "anchors": ["itv/itv.h:itv_meet", "itv/itv.h:itv_join", "itv/itv.h:itv_is_leq", "itv/itv.h:itv_is_eq", "itv/itv.c:itv_canonicalize"]}
{"id": "C09", "title": "Interval and box widening cover both arguments and stabilise", "statement": "The widening of two boxes contains both, and every sequence x_{n+1} = x_n widen y_n becomes stationary, in at most 2*dimensions+1 strict changes.", "quantifier": "all boxes, all infinite sequences of arguments", "why_tests_cant": "termination is a statement over infinite sequences", "anchors": ["box/box_otherops.c:box_widening", "itv/itv.h:itv_widening", "itv/itv.h:bound_widening"]}
{"id": "C10", "title": "Box inclusion and equality tests are exact", "statement": "is_leq(a,b) answers true exactly when every point of a is a point of b; is_eq exactly when they denote the same set; is_bottom exactly when the set is empty; is_top exactly when it is everything (non-empty-component representation).", "quantifier": "all pairs of boxes in any number of dimensions, all points", "why_tests_cant": "sets of points are infinite", "anchors": ["box/box_constructor.c:box_is_leq", "box/box_constructor.c:box_is_eq", "box/box_constructor.c:box_is_bottom", "box/box_constructor.c:box_is_top"]}
{"id": "C11", "title": "Box meet is intersection and box join is the least box above both", "statement": "meet(a,b) denotes exactly the intersection; join(a,b) contains both and is included in every box containing both.", "quantifier": "all pairs of boxes, all points, all competing upper bounds", "why_tests_cant": "optimality quantifies over all other abstract values", "anchors": ["box/box_meetjoin.c:box_meet", "box/box_meetjoin.c:box_join", "box/box_meetjoin.c:box_join_array"]}
{"id": "C12", "title": "Evaluating a linear expression on a box encloses all its values", "statement": "bound_linexpr on a box returns an interval containing c0+sum ci*xi for every point of the box and every choice of scalars in interval coefficients; with exact arithmetic and scalar coefficients the result is the exact range.", "quantifier": "all boxes, all sparse/dense interval linear expressions, all points", "why_tests_cant": "infinitely many operand values and rounding behaviours; a test fixes one combination", "anchors": ["box/box_constructor.c:box_bound_linexpr", "itv/itv_linearize.c:itv_eval_ap_linexpr0"]}
{"id": "C13", "title": "Evaluating an expression tree on a box encloses all its values", "statement": "bound_texpr on a box returns an interval containing the value of the tree (constants, variables, neg, cast, +,-,*,/, sqrt, mod, pow with rounding to integer) at every point where it is defined.", "quantifier": "all trees by structural induction, all boxes, all points", "why_tests_cant": "trees have unbounded depth", "anchors": ["itv/itv_linearize.c:itv_eval_ap_texpr0", "itv/itv_linearize.c:itv_eval_ap_texpr0_node", "box/box_constructor.c:box_bound_texpr"]}
{"id": "C14", "title": "Box assignment covers every concrete successor state", "statement": "assign_linexpr / assign_texpr / parallel assignment on a box contain, for every point of the box, the point where the assigned dimensions simultaneously take the values of their expressions in the old point.", "quantifier": "all boxes, all expression arrays with distinct targets, all points", "why_tests_cant": "infinitely many states; simultaneous semantics shows only when expressions read assigned dimensions", "anchors": ["box/box_assign.c:box_assign_linexpr_array", "box/box_assign.c:box_assign_texpr", "box/box_assign.c:box_assign_texpr_array"]}
{"id": "C15", "title": "Assignment with a destination is intersected with that destination", "statement": "assign(a,x,e,dest) denotes a subset of dest; in particular, with an empty dest it is empty.", "quantifier": "all boxes a, dest and expressions", "why_tests_cant": "quantifies over all pairs of abstract values; fails only when dest is empty", "anchors": ["box/box_assign.c:box_assign_linexpr_array", "box/box_assign.c:box_assign_texpr"]}
{"id": "C16", "title": "Meeting a box with linear constraints loses no solution", "statement": "meet_lincons_array on a box keeps every point (integer on integer dimensions) of the box satisfying all constraints, for any number of propagation passes, and never adds a point outside the box.", "quantifier": "all boxes, all constraint arrays (=, >=, >, interval coefficients), all pass counts, all points", "why_tests_cant": "unbounded number of constraints, passes and points", "anchors": ["itv/itv_linearize.c:itv_boxize_lincons", "itv/itv_linearize.c:itv_boxize_lincons_array", "box/box_meetjoin.c:box_meet_lincons_array"]}
{"id": "C17", "title": "A positive constraint-satisfaction answer on a box is right", "statement": "If sat_lincons(box, cons) answers true then every point of the box satisfies the constraint, for every choice of scalars in its interval coefficients.", "quantifier": "all boxes, constraints of every kind, all points", "why_tests_cant": "universal over infinite point sets", "anchors": ["box/box_constructor.c:box_sat_lincons", "itv/itv_linexpr.c:itv_eval_cstlincons"]}
{"id": "C18", "title": "Modulo constraints on constants are decided without dividing by zero", "statement": "Testing a constraint c = 0 mod k on a constant c never divides by zero and answers true only if k divides c.", "quantifier": "all constants c and moduli k including 0", "why_tests_cant": "crash happens only for one modulus value; needs all (c,k)", "anchors": ["itv/itv_linexpr.c:itv_eval_cstlincons"]}
{"id": "C19", "title": "Meeting a box with tree constraints loses no solution", "statement": "meet_tcons_array on a box (forward/backward propagation, any number of rounds) keeps every point of the box at which all constraints are defined and hold.", "quantifier": "all boxes, constraint arrays, trees, iteration counts, points", "why_tests_cant": "trees and iteration counts are unbounded", "anchors": ["itv/itv_linearize.c:itv_meet_ap_tcons0_array", "itv/itv_linearize.c:itv_refine_ap_texpr0_node", "box/box_meetjoin.c:box_meet_tcons_array"]}
{"id": "C20", "title": "Backward power refinement honours rounding", "statement": "Refining x from a bound on round(x^n) keeps every x whose rounded power lies in the bound.", "quantifier": "all intervals, exponents, rounding directions, all x", "why_tests_cant": "pre-images are infinite; needs rounded non-integer powers", "anchors": ["itv/itv_linearize.c:itv_refine_ap_texpr0_node", "itv/itv.c:itv_inv_pow"]}
{"id": "C21", "title": "Box dimension insertion, removal and permutation act pointwise", "statement": "add_dimensions inserts unconstrained (or zero) coordinates at the given positions, remove_dimensions projects them out exactly, permute renames coordinates, and removing freshly added dimensions restores the original.", "quantifier": "all boxes, all sorted position arrays, all permutations, all points", "why_tests_cant": "positions/multiplicities are combinatorially unbounded", "anchors": ["box/box_resize.c:box_add_dimensions", "box/box_resize.c:box_remove_dimensions", "box/box_resize.c:box_permute_dimensions", "apron/ap_dimension.c:ap_dimchange_add_invert"]}
{"id": "C22", "title": "Box forget, expand and fold are sound", "statement": "forget makes the dimensions arbitrary (or zero) and keeps the others; expand yields copies each ranging as the original; fold keeps every value any of the folded dimensions could take.", "quantifier": "all boxes, dimension arrays, points", "why_tests_cant": "universal over points and arrays", "anchors": ["box/box_otherops.c:box_forget_array", "box/box_otherops.c:box_expand", "box/box_otherops.c:box_fold"]}
{"id": "C23", "title": "Box to constraints and back describes the same set", "statement": "The constraint array returned for a box is satisfied exactly by the points of the box.", "quantifier": "all boxes, all points", "why_tests_cant": "universal over points", "anchors": ["box/box_constructor.c:box_to_lincons_array"]}
{"id": "C24", "title": "Generators of a box generate the box", "statement": "The vertices, rays and lines returned for a non-empty box generate every point of the box and nothing else.", "quantifier": "all boxes incl. half-bounded dimensions, all points", "why_tests_cant": "convex/conic combinations are infinite sets; exponential number of vertices", "anchors": ["box/box_constructor.c:box_to_generator_array"]}
{"id": "C25", "title": "Octagon matrix layout has no aliasing and no out-of-bounds access", "statement": "Every access to the octagon's packed constraint matrix for legal dimensions falls inside the allocation, and two different constraints never share a cell.", "quantifier": "all dimensions counts, all index pairs", "why_tests_cant": "unbounded sizes", "anchors": ["octagons/oct_internal.h:matpos", "octagons/oct_internal.h:matpos2", "octagons/oct_internal.h:matsize"]}
{"id": "C26", "title": "Octagon closure never changes the represented set", "statement": "Normalising an octagon (any operation that triggers it) leaves its set of points unchanged, under every upward rounding.", "quantifier": "all octagons, all points, all roundings", "why_tests_cant": "matrices of unbounded size with arbitrary numbers", "anchors": ["octagons/oct_closure.c:hmat_close", "octagons/oct_closure.c:hmat_s_step", "octagons/oct_representation.c:oct_cache_closure"]}
{"id": "C27", "title": "Octagon emptiness test is exact", "statement": "With exact arithmetic, is_bottom on an octagon answers true exactly when no real point satisfies its constraints.", "quantifier": "all octagons in any number of dimensions", "why_tests_cant": "needs existence of a solution for every consistent matrix", "anchors": ["octagons/oct_closure.c:hmat_close", "octagons/oct_predicate.c:oct_is_bottom"]}
{"id": "C28", "title": "Octagon closure yields the tightest bounds", "statement": "With exact arithmetic, after normalisation of a non-empty octagon every stored bound on +-x+-y is the least upper bound over the represented points (and +oo only if unbounded).", "quantifier": "all non-empty octagons, all pairs of signed variables", "why_tests_cant": "optimality over all points of an infinite set, any dimension", "anchors": ["octagons/oct_closure.c:hmat_close", "octagons/oct_closure.c:hmat_s_step"]}
{"id": "C29", "title": "Incremental closure equals full closure", "statement": "After changing constraints on one variable of a normalised octagon, the quadratic incremental normalisation yields the same set, the same emptiness verdict and a normal form, as the full one does.", "quantifier": "all octagons, variables, constraint updates", "why_tests_cant": "all matrices and all updates", "anchors": ["octagons/oct_closure.c:hmat_close_incremental"]}
{"id": "C30", "title": "Octagon inclusion and equality tests are exact", "statement": "With exact arithmetic, is_leq(a,b) answers true exactly when every point of a is in b and is_eq exactly when the sets are equal; under any rounding a true answer is right.", "quantifier": "all pairs of octagons, all points", "why_tests_cant": "sets are infinite", "anchors": ["octagons/oct_predicate.c:oct_is_leq", "octagons/oct_predicate.c:oct_is_eq"]}
{"id": "C31", "title": "Octagon meet is exact intersection", "statement": "meet(a,b) on octagons denotes exactly the intersection.", "quantifier": "all pairs of octagons, all points", "why_tests_cant": "sets are infinite", "anchors": ["octagons/oct_nary.c:oct_meet"]}
{"id": "C32", "title": "Octagon join is the least octagon above both", "statement": "join(a,b) contains both arguments under every rounding and with exact arithmetic is included in every octagon containing both.", "quantifier": "all pairs of octagons, all points, all competing octagons", "why_tests_cant": "optimality quantifies over all octagons", "anchors": ["octagons/oct_nary.c:oct_join"]}
{"id": "C33", "title": "Octagon widening covers both arguments and stabilises", "statement": "The widening contains both arguments (first included in second as the API requires), and any iteration x := x widen y_n, with or without a fixed threshold list, becomes stationary.", "quantifier": "all octagons and all infinite argument sequences, all finite threshold lists", "why_tests_cant": "termination over infinite sequences", "anchors": ["octagons/oct_nary.c:oct_widening", "octagons/oct_nary.c:oct_widening_thresholds"]}
{"id": "C34", "title": "Octagon narrowing stays between its arguments", "statement": "If b is included in a then narrowing(a,b) contains b and is included in a.", "quantifier": "all pairs of octagons with b included in a, all points", "why_tests_cant": "universal over pairs and points", "anchors": ["octagons/oct_nary.c:oct_narrowing"]}
{"id": "C35", "title": "Octagon variable bounds and box conversion are optimal", "statement": "bound_dimension and to_box return intervals containing each variable's range, and with exact arithmetic exactly that range.", "quantifier": "all octagons, all dimensions, all points", "why_tests_cant": "optimality over infinite sets", "anchors": ["octagons/oct_predicate.c:oct_bound_dimension", "octagons/oct_predicate.c:oct_to_box", "octagons/oct_representation.c:oct_of_box"]}
{"id": "C36", "title": "Octagon to constraints describes the same set", "statement": "The constraint array returned for a non-empty octagon is satisfied exactly by its points.", "quantifier": "all octagons, all points", "why_tests_cant": "universal over points", "anchors": ["octagons/oct_predicate.c:oct_to_lincons_array", "octagons/oct_internal.h:lincons_of_bound"]}
{"id": "C37", "title": "Octagon forget is sound and exact projection", "statement": "Forgetting variables yields all points obtained by changing those variables arbitrarily; nothing more with exact arithmetic.", "quantifier": "all octagons, all variable lists, all points", "why_tests_cant": "existential witness needed for every point of an infinite set", "anchors": ["octagons/oct_resize.c:oct_forget_array", "octagons/oct_transfer.c:hmat_forget_var"]}
{"id": "C38", "title": "Octagon dimension insertion, removal and permutation act pointwise", "statement": "Adding dimensions adds free coordinates at the right positions, removing projects them out, permuting renames coordinates, for every sorted position list.", "quantifier": "all octagons, position lists, permutations, points", "why_tests_cant": "combinatorially unbounded positions", "anchors": ["octagons/oct_resize.c:hmat_addrem_dimensions", "octagons/oct_resize.c:oct_add_dimensions", "octagons/oct_resize.c:oct_remove_dimensions", "octagons/oct_resize.c:hmat_permute"]}
{"id": "C39", "title": "Octagon expand and fold are sound", "statement": "expand gives copies obeying the same relations to the other variables; fold keeps every value any folded variable could take.", "quantifier": "all octagons, dimension arrays, points", "why_tests_cant": "universal over points", "anchors": ["octagons/oct_resize.c:oct_expand", "octagons/oct_resize.c:oct_fold"]}
{"id": "C40", "title": "Meeting an octagon with linear constraints loses no solution", "statement": "meet_lincons_array keeps every point of the octagon satisfying all constraints, and for constraints of octagonal shape the result is exactly the intersection.", "quantifier": "all octagons, constraints (octagonal or arbitrary interval linear), points", "why_tests_cant": "unbounded arity and values", "anchors": ["octagons/oct_transfer.c:hmat_add_lincons", "octagons/oct_transfer.c:oct_meet_lincons_array"]}
{"id": "C41", "title": "Octagon assignment covers every successor state", "statement": "assign_linexpr x := e on an octagon contains, for every point, the point with x replaced by the value of e.", "quantifier": "all octagons, all expressions, all points", "why_tests_cant": "unsoundness needs specific infinite/finite bound combinations among several variables", "anchors": ["octagons/oct_transfer.c:hmat_assign"]}
{"id": "C42", "title": "Octagon substitution covers every predecessor state", "statement": "substitute_linexpr x := e on an octagon contains every point whose successor by the assignment lies in the octagon.", "quantifier": "all octagons, expressions, points", "why_tests_cant": "universal over points", "anchors": ["octagons/oct_transfer.c:hmat_subst"]}
{"id": "C43", "title": "A positive constraint-satisfaction answer on an octagon is right", "statement": "If sat_lincons(octagon, cons) is true then every point satisfies the constraint; bound_linexpr encloses all values of the expression.", "quantifier": "all octagons, constraints, points", "why_tests_cant": "universal over points", "anchors": ["octagons/oct_predicate.c:oct_sat_lincons", "octagons/oct_predicate.c:oct_bound_linexpr"]}
{"id": "C44", "title": "Dimension permutations form a group action", "statement": "Inverting and composing permutations of dimensions behaves as inverse and composition: permuting by p then by its inverse restores everything; composition equals sequential application.", "quantifier": "all permutations of any size", "why_tests_cant": "n! permutations for every n", "anchors": ["apron/ap_dimension.c:ap_dimperm_invert", "apron/ap_dimension.c:ap_dimperm_compose"]}
{"id": "C45", "title": "Insertion positions convert to removal positions", "statement": "For a dimension change describing insertions, the inverted change removes exactly the inserted coordinates.", "quantifier": "all sorted insertion arrays, all coordinate vectors", "why_tests_cant": "repeated positions and arbitrary sizes", "anchors": ["apron/ap_dimension.c:ap_dimchange_add_invert"]}
{"id": "C46", "title": "Environment operations keep names sorted, unique, and correctly mapped", "statement": "Adding or removing variables, and the least common environment of two environments, yield exactly the expected set of names of each type; the returned dimension changes/permutations map each variable's old position to its new position.", "quantifier": "all environments and variable sets", "why_tests_cant": "arbitrary interleavings of names", "anchors": ["apron/ap_environment.c:ap_environment_add", "apron/ap_environment.c:ap_environment_remove", "apron/ap_environment.c:ap_environment_lce", "apron/ap_environment.c:env_lce"]}
{"id": "C47", "title": "Dimension change to a super-environment is computed or refused", "statement": "ap_environment_dimchange(e1,e) returns NULL when e is not a super-environment of e1, and otherwise a change whose application maps every name of e1 to its position in e.", "quantifier": "all pairs of environments", "why_tests_cant": "the failing pairs depend on the order of the missing names", "anchors": ["apron/ap_environment.c:ap_environment_dimchange", "apron/ap_environment.c:env_lce_dimchange"]}
{"id": "C48", "title": "Looking up a variable's dimension is a correct binary search", "statement": "ap_environment_dim_of_var returns the unique position of a variable present in the environment and the not-found value otherwise.", "quantifier": "all environments, all names", "why_tests_cant": "all sizes", "anchors": ["apron/ap_environment.c:ap_environment_dim_of_var"]}
{"id": "C49", "title": "Sparse and dense linear expressions agree on reads and writes", "statement": "Setting the coefficient of a dimension then reading gives the written value and leaves other coefficients unchanged, keeping sparse terms sorted without duplicates, for any expression.", "quantifier": "all expressions of any size, all dimensions", "why_tests_cant": "unbounded sizes, linear vs binary search threshold", "anchors": ["apron/ap_linexpr0.c:ap_linexpr0_coeffref", "apron/ap_linexpr0.c:index_of_or_after_dim"]}
{"id": "C50", "title": "Renumbering dimensions in an expression commutes with evaluation", "statement": "Adding dimensions to, or permuting, a linear expression yields an expression whose value at the extended/permuted point equals the original value.", "quantifier": "all expressions, position arrays, permutations, points", "why_tests_cant": "unbounded sizes", "anchors": ["apron/ap_linexpr0.c:ap_linexpr0_add_dimensions", "apron/ap_linexpr0.c:ap_linexpr0_permute_dimensions"]}
{"id": "C51", "title": "Scalar, interval and expression comparisons are total orders", "statement": "The comparison functions on scalars, intervals and linear expressions are reflexive, antisymmetric in sign, transitive, and return 0 exactly on equal arguments.", "quantifier": "all pairs/triples of values", "why_tests_cant": "orders quantify over all triples", "anchors": ["apron/ap_scalar.c:ap_scalar_cmp", "apron/ap_interval.c:ap_interval_cmp", "apron/ap_linexpr0.c:ap_linexpr0_compare"]}
{"id": "C52", "title": "Integer equality test of a coefficient is right", "statement": "ap_coeff_equal_int(c,i) is true exactly when the coefficient is the singleton i.", "quantifier": "all coefficients and integers", "why_tests_cant": "all values", "anchors": ["apron/ap_coeff.c:ap_coeff_equal_int"]}
{"id": "C53", "title": "Argument validation accepts exactly the legal dimension changes", "statement": "The library rejects every insertion/removal array that is unsorted, duplicated (removal) or out of range and every permutation array that is not a permutation, and accepts every legal one.", "quantifier": "all arrays of any length", "why_tests_cant": "exponentially many arrays", "anchors": ["apron/ap_abstract0.c:ap_abstract0_check_ap_dimchange_add_check", "apron/ap_abstract0.c:ap_abstract0_check_ap_dimchange_remove_check", "apron/ap_abstract0.c:ap_abstract0_check_dimperm_check"]}
{"id": "C54", "title": "Integer tightening of constraints keeps all integer solutions", "statement": "Normalising a linear constraint on integer variables keeps exactly its integer solutions.", "quantifier": "all constraints with rational coefficients, all integer points", "why_tests_cant": "infinitely many integer points and coefficients", "anchors": ["itv/itv_linexpr.c:itv_lincons_reduce_integer"]}
{"id": "C55", "title": "Quasi-linearisation over-approximates interval linear expressions", "statement": "Replacing interval coefficients by scalars plus an interval constant, over a box, keeps every value of the expression at every point of the box.", "quantifier": "all interval linear expressions, boxes, points", "why_tests_cant": "infinitely many coefficient choices", "anchors": ["itv/itv_linearize.c:itv_quasilinearize_linexpr", "itv/itv_linearize.c:itv_quasilinearize_choose_middle"]}
{"id": "C56", "title": "Linearisation of expression trees is sound", "statement": "The interval linear form computed for an expression tree over a box contains, at every point, the value of the tree under its rounding semantics.", "quantifier": "all trees, boxes, points", "why_tests_cant": "trees of unbounded depth", "anchors": ["itv/itv_linearize.c:itv_intlinearize_ap_texpr0", "itv/itv_linearize.c:ap_texpr0_node_intlinearize"]}
{"id": "C57", "title": "Generic parallel assignment is simultaneous assignment", "statement": "The generic array assignment/substitution built from add-dimensions, meet, permute and remove equals simultaneous assignment/substitution when those primitives are exact.", "quantifier": "all domains with exact primitives, arrays of expressions, points", "why_tests_cant": "universal over arrays and points", "anchors": ["apron/ap_generic.c:ap_generic_asssub_linexpr_array"]}
{"id": "C58", "title": "Generic threshold widening is sound", "statement": "Widening with a threshold array contains the second argument, hence both under the documented precondition that the first is included in the second, provided the domain's widening does; it is included in the plain widening, and the threshold array keeps the same constraints.", "quantifier": "all domains, arguments and threshold arrays", "why_tests_cant": "universal over domains", "anchors": ["apron/ap_abstract0.c:ap_abstract0_widening_threshold"]}
{"id": "C59", "title": "Failure to linearise is reported", "statement": "Converting an array of tree constraints to interval-linear constraints reports an error whenever some constraint is not interval linear; it never silently replaces the array by an unsatisfiable one.", "quantifier": "all arrays of tree constraints", "why_tests_cant": "position and kind of the offending constraint are arbitrary", "anchors": ["itv/itv_linearize.c:itv_intlinearize_ap_tcons0_array_intlinear"]}
{"id": "C62", "title": "Adding generators to a box is the time-elapse hull", "statement": "Adding an array of rays, lines and vertices to a box contains every point obtained from a point of the box by adding non-negative multiples of the rays and arbitrary multiples of the lines, and is the least box that does.", "quantifier": "all boxes, arrays of generators, points", "why_tests_cant": "universal over rays, multiples and points", "anchors": ["box/box_meetjoin.c:box_add_ray_array"]}
{"id": "C63", "title": "Quasi-linearising a constraint array keeps all solutions", "statement": "itv_quasilinearize_lincons_array (used by the polyhedra and octagon domains before a meet) keeps every point of the box satisfying all constraints of the array, whatever the number type.", "quantifier": "all constraint arrays with interval coefficients, all boxes, all points, all number types", "why_tests_cant": "infinitely many coefficients; depends on rounding", "anchors": ["itv/itv_linearize.c:itv_quasilinearize_lincons_array", "itv/itv_linearize.c:itv_quasilinearize_linexpr"]}
{"id": "C66", "title": "Destructive tree assignment equals copying assignment", "statement": "assign_texpr in destructive form, which evaluates the tree into a cell of the array it reads as environment, gives the same box as the non-destructive form.", "quantifier": "all boxes, dimensions, expression trees (any occurrence of the assigned variable)", "why_tests_cant": "whether an operand is read after being overwritten depends on the shape of the tree; no finite set of trees covers all evaluation orders", "anchors": ["box/box_assign.c:box_assign_texpr", "itv/itv_linearize.c:itv_eval_ap_texpr0"]}
{"id": "C67", "title": "Argument validation of expressions is exact", "statement": "The library accepts a linear expression or an expression tree exactly when every dimension it mentions exists in the abstract value.", "quantifier": "all expressions, all dimensions", "why_tests_cant": "arbitrary sizes and free slots", "anchors": ["apron/ap_abstract0.c:ap_abstract0_check_linexpr_check", "apron/ap_abstract0.c:ap_abstract0_check_texpr_check"]}
{"id": "C68", "title": "Hashing an expression is a pure function compatible with equality", "statement": "ap_linexpr0_hash terminates, leaves the expression unchanged, and gives the same code to equal expressions.", "quantifier": "all expressions, all hash functions on coefficients", "why_tests_cant": "arbitrary sizes; the loop step depends on the size it changes", "anchors": ["apron/ap_linexpr0.c:ap_linexpr0_hash"]}
{"id": "C69", "title": "Classification of linear expressions is exact", "statement": "ap_linexpr0_is_linear, is_quasilinear, type, array_type, is_integer and is_real decide the documented conditions on the coefficients.", "quantifier": "all expressions and arrays of expressions", "why_tests_cant": "arbitrary sizes", "anchors": ["apron/ap_linexpr0.c:ap_linexpr0_type", "apron/ap_linexpr0.c:ap_linexpr0_is_integer", "apron/ap_linexpr0.c:ap_linexpr0_is_real"]}
{"id": "C70", "title": "Changing or minimizing the environment of a level-1 value only forgets or adds the variables concerned", "statement": "ap_abstract1_change_environment: unless a variable has different types in the two environments (then an exception is raised and top is returned), the result is on the new environment, and its valuations are those that agree, on the common variables, with some valuation of the argument (with project: and give 0 to the new variables). ap_abstract1_minimize_environment removes exactly the unconstrained variables and changes no valuation.", "quantifier": "all variable types with a linear order, all well-formed level-1 values of any domain that keeps the level-0 contract (boxes and octagons do), all well-formed target environments", "why_tests_cant": "It combines two dimension change arrays, their inversion, and the domain's insertion and removal for arbitrary overlaps of the environments.", "anchors": ["apron/ap_abstract1.c: ap_abstract1_change_environment, ap_abstract1_minimize_environment", "apron/ap_environment.c: ap_environment_dimchange2", "apron/ap_abstract0.c: ap_abstract0_apply_dimchange2"]}
{"id": "C71", "title": "Renaming variables of a level-1 value", "statement": "ap_abstract1_rename_array succeeds iff the renamed variables are known and the resulting names are distinct; a valuation rho belongs to the result iff rho composed with the (simultaneous) renaming belongs to the argument. Otherwise an exception is raised and top is returned.", "quantifier": "all level-1 values, all arrays of pairs of names, including permutations of names", "why_tests_cant": "The new names change the order of dimensions arbitrarily; the permutation must follow for all environments.", "anchors": ["apron/ap_abstract1.c: ap_abstract1_rename_array", "apron/ap_environment.c: ap_environment_rename"]}
{"id": "C72", "title": "Meet, join and unification of level-1 values", "statement": "Meet (join) of two values on equal environments has as valuations the intersection (an upper bound of the union, the least one of the domain when it is exact); on different environments an exception is raised. ap_abstract1_unify yields exactly the valuations that satisfy both arguments, on the union of the two environments, unless a variable has two types.", "quantifier": "all pairs of well-formed level-1 values", "why_tests_cant": "Unification embeds both values along two computed dimension changes.", "anchors": ["apron/ap_abstract1.c: ap_abstract1_meet, ap_abstract1_join, ap_abstract1_unify", "apron/ap_environment.c: ap_environment_lce"]}
{"id": "C73", "title": "Expansion of a level-1 variable", "statement": "ap_abstract1_expand(a, var, tvar): a valuation belongs to the result iff, for var and each new variable y, replacing the value of var by that of y yields a valuation of the argument; the new variables have the type of var. An unknown var or clashing names raise an exception and yield top.", "quantifier": "all level-1 values, all names, any number of new variables", "why_tests_cant": "The copies are placed after the dimensions of the same type and then permuted to the sorted positions of the new names.", "anchors": ["apron/ap_abstract1.c: ap_abstract1_expand", "apron/ap_environment.c: ap_environment_add_perm"]}
{"id": "C74", "title": "Folding of level-1 variables", "statement": "ap_abstract1_fold(a, [v0; vs]): the result is on the environment without vs; it contains the valuations of the argument where v0 takes the value of any one of the folded variables, and is the least such value of the domain if the domain is exact. Unknown variables raise an exception and yield top.", "quantifier": "all level-1 values, all lists of distinct known variables of the same type, in any order", "why_tests_cant": "The kept dimension is the smallest one at level 0 but the variable v0 at level 1: an ad hoc permutation is computed from the sorted array.", "anchors": ["apron/ap_abstract1.c: ap_abstract1_fold", "apron/ap_abstract0.c: ap_abstract0_fold"]}
{"id": "C75", "title": "Forgetting level-1 variables", "statement": "ap_abstract1_forget_array: the result contains exactly (for exact domains; at least otherwise) the valuations that agree with one of the argument on the other variables (and give 0 to the forgotten ones with project); unknown variables raise an exception and yield top.", "quantifier": "all level-1 values, all lists of variables", "why_tests_cant": "Quantifies over all values and valuations.", "anchors": ["apron/ap_abstract1.c: ap_abstract1_forget_array"]}
{"id": "C77", "title": "Structural operations on expression trees", "statement": "ap_texpr0_has_dim, max_dim and dimlist report exactly the dimensions occurring in a tree, and the value of a tree depends on those only; substitute replaces a dimension by the value of the substituted tree (exactly when that tree has one value); add_dimensions, remove_dimensions and permute_dimensions evaluate as the original tree at the renumbered point, removed dimensions becoming an unknown value; permute is safe iff every dimension is inside of the permutation.", "quantifier": "all trees, all points, all sorted position lists and permutations", "why_tests_cant": "Quantifies over all trees and points; rounding makes trees set-valued, so that values have to be compared as relations.", "anchors": ["apron/ap_texpr0.c: ap_texpr0_has_dim", "apron/ap_texpr0.c: ap_texpr0_max_dim", "apron/ap_texpr0.c: ap_texpr0_dimlist", "apron/ap_texpr0.c: ap_texpr0_substitute", "apron/ap_texpr0.c: ap_texpr0_add_dimensions", "apron/ap_texpr0.c: ap_texpr0_remove_dimensions", "apron/ap_texpr0.c: ap_texpr0_permute_dimensions"]}
{"id": "C78", "title": "Classification of expression trees", "statement": "ap_texpr0_from_linexpr0 keeps the set of values of the linear expression; a tree classified as interval constant has the same values everywhere; as scalar, has at most one value when it does not round; as interval linear (polynomial, polynomial fraction), its values are those of a fixed set of affine forms (polynomials, quotients of polynomials with a non-zero denominator); the array versions hold iff every element is of the class.", "quantifier": "all trees, all points, all rounding semantics", "why_tests_cant": "The claim is about the function denoted by a tree at every point, for each tree accepted by a syntactic test.", "anchors": ["apron/ap_texpr0.c: ap_texpr0_from_linexpr0", "apron/ap_texpr0.c: ap_texpr0_is_interval_cst", "apron/ap_texpr0.c: ap_texpr0_is_scalar", "apron/ap_texpr0.c: ap_texpr0_is_interval_linear", "apron/ap_texpr0.c: ap_texpr0_is_interval_polynomial", "apron/ap_texpr0.c: ap_texpr0_is_interval_polyfrac"]}
{"id": "C79", "title": "Equality and hashing of expression trees", "statement": "ap_texpr0_equal holds iff the two trees are the same (when no constant is an empty interval), equal trees have the same values, and equal trees have the same hash.", "quantifier": "all pairs of trees", "why_tests_cant": "Quantifies over all pairs of trees.", "anchors": ["apron/ap_texpr0.c: ap_texpr0_equal", "apron/ap_texpr0.c: ap_texpr0_hash"]}
{"id": "C76", "title": "Level-1 expressions and constraints", "statement": "The level-1 functions taking expressions or constraints (bound, sat, meet with constraints, assignment and substitution, extension of environments) translate an expression over a smaller environment to one over the environment of the abstract value with the same values under every valuation of the variables, and hence inherit soundness from the domain: bounds contain the values, positive answers are right, meets keep the satisfying valuations, assignments contain the successors, substitutions the predecessors. Unknown variables raise an exception and give the default answer or top.", "quantifier": "all environments, level-1 values, expressions, arrays of expressions and valuations of variables", "why_tests_cant": "Quantifies over all pairs of environments and all valuations; the merge of sorted arrays of names and the renumbering of expressions have to agree in every case.", "anchors": ["apron/ap_abstract1.c: ap_abstract1_bound_linexpr", "apron/ap_abstract1.c: ap_abstract1_sat_lincons", "apron/ap_abstract1.c: ap_abstract1_meet_lincons_array", "apron/ap_abstract1.c: ap_abstract1_asssub_linexpr_array", "apron/ap_abstract1.c: ap_abstract1_bound_variable", "apron/ap_linexpr1.c: ap_linexpr1_extend_environment", "apron/ap_texpr1.c: ap_texpr1_extend_environment", "apron/ap_abstract0.c: ap_abstract0_asssub_linexpr_array"]}
{"id": "C64", "title": "Conversion from internal to user expressions", "statement": "ap_coeff_set_itv, ap_linexpr0_set_itv_linexpr and ap_lincons0_set_itv_lincons build a coefficient, expression or constraint with exactly the same values (solutions) as the internal interval object.", "quantifier": "all intervals, interval linear expressions and constraints, all points", "why_tests_cant": "Equality of two sets of values at every point, for expressions of any length.", "anchors": ["itv/itv.c: ap_coeff_set_itv", "itv/itv_linexpr.c: ap_linexpr0_set_itv_linexpr", "itv/itv_linexpr.c: ap_lincons0_set_itv_lincons"]}
{"id": "C80", "title": "Constant constraints", "statement": "When ap_lincons0_is_unsat answers true no point satisfies the constraint; when ap_lincons0_is_sat answers true every point does, whatever the value of the interval coefficients; ap_lincons0_make_unsat builds a constraint without solution that is recognised.", "quantifier": "all linear constraints, all points and all values of interval coefficients", "why_tests_cant": "Quantifies over the infinitely many values of interval constants; newpolka replaces a polyhedron by bottom on such an answer.", "anchors": ["apron/ap_lincons0.c: ap_lincons0_is_unsat", "apron/ap_lincons0.c: ap_lincons0_is_sat", "apron/ap_lincons0.c: ap_lincons0_make_unsat"]}
{"id": "C81", "title": "Test of a constraint on an expression tree", "statement": "When ap_generic_sat_tcons (oct_sat_tcons) answers true, the constraint holds for every value of the tree at every point of the abstract value.", "quantifier": "all abstract values, trees, rounding modes of the tree and of the domain, all points", "why_tests_cant": "A positive answer is a claim about all points; the linearisation depends on the box of the abstract value.", "anchors": ["apron/ap_generic.c: ap_generic_sat_tcons", "octagons/oct_predicate.c: oct_sat_tcons", "apron/ap_linearize_aux.c: ap_intlinearize_tcons0"]}
{"id": "C82", "title": "Bounds of an expression tree in an abstract value", "statement": "The interval returned by ap_generic_bound_texpr (oct_bound_texpr) contains every value of the tree at every point of the abstract value. In exact arithmetic the interval is empty when the octagon is empty.", "quantifier": "all abstract values, trees, rounding modes of the tree and of the domain, all points", "why_tests_cant": "Containment for every point of an infinite set.", "anchors": ["apron/ap_generic.c: ap_generic_bound_texpr", "octagons/oct_predicate.c: oct_bound_texpr", "apron/ap_linearize_aux.c: ap_intlinearize_texpr0"]}
{"id": "C83", "title": "Meet of an abstract value with constraints on expression trees", "statement": "The linear constraints produced by ap_intlinearize_tcons0_array, including the bounds deduced on the variables, hold at every point of the abstract value satisfying the constraints; hence ap_generic_meet_intlinearize_tcons_array (oct_meet_tcons_array) keeps all these points, and adds none.", "quantifier": "all abstract values, arrays of constraints, kinds of linearisation and numbers of passes, all points", "why_tests_cant": "A dropped point is only visible at that point; the deduction of bounds iterates over the array.", "anchors": ["apron/ap_linearize_aux.c: ap_intlinearize_tcons0_array", "apron/ap_generic.c: ap_generic_meet_intlinearize_tcons_array", "octagons/oct_transfer.c: oct_meet_tcons_array"]}
{"id": "C84", "title": "Vector primitives of the polyhedra library", "statement": "vector_gcd returns the greatest common divisor of the coefficients; vector_normalize divides the coefficients by a positive number, keeps the status and leaves coefficients without common divisor; vector_combine returns, up to a positive factor, the combination of two vectors that cancels the chosen column.", "quantifier": "all integer vectors, all columns, all sizes", "why_tests_cant": "The gcd loop runs a data-dependent number of times and sign conventions of the combination matter for every vector.", "anchors": ["newpolka/pk_vector.c: vector_gcd, vector_normalize, vector_combine"]}
{"id": "C85", "title": "Chernikova's conversion", "statement": "The lines and rays computed by cherni_conversion from a constraint matrix generate exactly the cone of the constraints; the lines generate exactly its linear space; no ray is generated by the others; the saturation matrix tells exactly which constraints each ray saturates.", "quantifier": "all constraint matrices of all sizes and dimensions, all points of the space over any ordered field", "why_tests_cant": "The combinatorial adjacency test and the in-place exchanges must be right for every arrangement of constraints; a missed or superfluous ray appears only on particular inputs of large dimension.", "anchors": ["newpolka/pk_cherni.c: cherni_conversion"]}
{"id": "C86", "title": "Minimisation of a polyhedron", "statement": "cherni_minimize returns constraints and generators that describe the cone of the given constraints, without redundancy on either side; equalities come first, in reduced echelon form; the polyhedron is declared empty exactly when it is.", "quantifier": "all constraint matrices, all dimensions, all points", "why_tests_cant": "Redundancy elimination uses counting arguments on saturation bits; a wrong bound would drop a needed constraint only on particular polyhedra.", "anchors": ["newpolka/pk_cherni.c: cherni_minimize, cherni_simplify, cherni_gauss, cherni_backsubstitute"]}
{"id": "C87", "title": "Incremental addition of constraints and generators", "statement": "cherni_add_and_minimize applied to a minimal representation yields a minimal representation of the intersection with the added constraints, or, with the two sides exchanged, of the cone generated with the added generators; emptiness is detected exactly.", "quantifier": "all minimal representations, all added rows, all points", "why_tests_cant": "The invariant linking constraints, generators and saturation matrices must be preserved through arbitrary sequences of operations.", "anchors": ["newpolka/pk_cherni.c: cherni_add_and_minimize"]}
{"id": "C88", "title": "Meet of convex polyhedra", "statement": "pk_meet and pk_meet_array return exactly the intersection of their arguments, in the lazy and the strict mode, whichever of the two matrices are available, including when both arguments are the same object; the result is well formed.", "quantifier": "all well-formed polyhedra, all dimensions, all options, arrays of any size, all points", "why_tests_cant": "The result depends on which matrices are cached, on the choice of the start polyhedron and on aliasing; tests reach only few of these histories.", "anchors": ["newpolka/pk_meetjoin.c: pk_meet, poly_meet, poly_meet_matrix, poly_meet_array, pk_meet_array"]}
{"id": "C89", "title": "Join of convex polyhedra", "statement": "pk_join and pk_join_array return the least polyhedron that contains their arguments: it contains them, and every linear constraint that holds on all of them holds on the result.", "quantifier": "all well-formed polyhedra, all options, arrays of any size, all linear constraints, all points", "why_tests_cant": "Optimality is a statement about all linear constraints; the implementation works on the dual representation and must undo the dualisation of every argument.", "anchors": ["newpolka/pk_meetjoin.c: pk_join, pk_join_array, poly_meet_array", "newpolka/pk_representation.h: poly_dual"]}
{"id": "C90", "title": "Tests on convex polyhedra", "statement": "pk_is_leq decides inclusion; pk_is_bottom and pk_is_top decide emptiness and universality unless the option algorithm is negative, and are sound then too; pk_top contains every point; conversions between representations change no point.", "quantifier": "all well-formed polyhedra in any representation, all option values, all points", "why_tests_cant": "The shortcuts (number of equalities and lines, one-row matrix) are correct only thanks to minimality and independence invariants over all reachable representations.", "anchors": ["newpolka/pk_test.c: pk_is_leq, pk_is_bottom, pk_is_top, do_generators_sat_vector", "newpolka/pk_constructor.c: pk_top", "newpolka/pk_representation.c: poly_chernikova, poly_obtain_C, poly_obtain_F"]}
{"id": "C91", "title": "Meet of a polyhedron with linear constraints", "statement": "pk_meet_lincons_array loses no point of the polyhedron that satisfies the constraints (interval coefficients read as some choice, integer dimensions read as integers), returns a subset of the polyhedron, and returns exactly the intersection for non-strict numeric constraints on real dimensions.", "quantifier": "all well-formed polyhedra in any representation, all arrays of constraints of any type with interval coefficients, both modes, all points", "why_tests_cant": "Constraints go through quasilinearisation, linearisation, integer reduction, normalisation and sorting before they are added to a matrix; soundness is a statement about all points.", "anchors": ["newpolka/pk_meetjoin.c: pk_meet_lincons_array, poly_meet_itv_lincons_array, poly_meet_matrix", "newpolka/pk_user.c: vector_set_itv_lincons, vector_set_itv_linexpr, pk_matrix_append_itv_lincons_array", "newpolka/pk_vector.c: vector_normalize_constraint_int"]}
{"id": "C92", "title": "Bounds of the dimensions of a polyhedron", "statement": "pk_bound_dimension and pk_to_box return the smallest interval that contains every value of the dimension on the polyhedron, infinite bounds included.", "quantifier": "all well-formed polyhedra, all dimensions, all points, all intervals", "why_tests_cant": "Optimality of bounds computed from generators depends on the duality of the two matrices for all polyhedra.", "anchors": ["newpolka/pk_extract.c: pk_bound_dimension, pk_matrix_bound_dimension, pk_to_box, pk_matrix_to_box"]}
{"id": "C93", "title": "Bounds of a linear expression on a polyhedron", "statement": "pk_bound_linexpr returns an interval that contains every value of the expression for every choice of its interval coefficients, and the smallest one for numeric coefficients.", "quantifier": "all well-formed polyhedra, all linear expressions with interval coefficients, all points, all choices of coefficients", "why_tests_cant": "Interval coefficients multiplied with vertices and rays give infinitely many values.", "anchors": ["newpolka/pk_extract.c: pk_bound_linexpr, pk_matrix_bound_itv_linexpr, vector_bound_itv_linexpr"]}
{"id": "C94", "title": "Addition of rays and lines to a polyhedron", "statement": "pk_add_ray_array returns exactly the set of sums of a point of the polyhedron and of multiples of the given directions, not negative for rays.", "quantifier": "all well-formed polyhedra in any representation, arrays of rays and lines of any size with numeric coefficients, all points", "why_tests_cant": "The operation works on the dual representation and merges matrices incrementally; the equality of sets is over all points.", "anchors": ["newpolka/pk_meetjoin.c: pk_add_ray_array, poly_add_ray_array, poly_meet_matrix", "newpolka/pk_user.c: vector_set_ap_generator0"]}
{"id": "C95", "title": "Polyhedron of a box", "statement": "pk_of_box returns a well-formed polyhedron that contains every point of the box that is integer on the integer dimensions, and nothing else when there are only real dimensions.", "quantifier": "all boxes, all numbers of integer and real dimensions, all points", "why_tests_cant": "Rounding of bounds for integer dimensions has to be right for all rationals; tests use integers.", "anchors": ["newpolka/pk_constructor.c: pk_of_box, pk_matrix_fill_constraint_box", "newpolka/pk_user.c: vector_set_dim_bound"]}
{"id": "C96", "title": "Satisfaction of a linear constraint by a polyhedron", "statement": "When pk_sat_lincons answers true every point satisfies the constraint for every choice of its coefficients; for numeric non-strict constraints on real dimensions it answers true whenever that is so.", "quantifier": "all well-formed polyhedra, all linear constraints, all option values, all points, all choices of coefficients", "why_tests_cant": "A wrong positive answer shows only on particular intervals and polyhedra.", "anchors": ["newpolka/pk_test.c: pk_sat_lincons, do_generators_sat_vector", "newpolka/pk_user.c: vector_set_itv_lincons_sat"]}
{"id": "C97", "title": "Satisfaction of an interval by a dimension of a polyhedron", "statement": "pk_sat_interval answers true exactly when every point of the polyhedron has its coordinate in the interval.", "quantifier": "all well-formed polyhedra, all dimensions, all intervals, all points", "why_tests_cant": "Equality between a test on generators and a statement about all points.", "anchors": ["newpolka/pk_test.c: pk_sat_interval, do_generators_sat_bound"]}
{"id": "C98", "title": "Widening of polyhedra is an upper bound that keeps stable constraints", "statement": "pk_widening(a,b), with a included in b, returns a polyhedron containing a and b (b itself when a is empty), and every constraint of the minimal representation of a that b satisfies is satisfied by the result.", "quantifier": "all well-formed polyhedra a included in b, all dimensions, all values of the option algorithm", "why_tests_cant": "The claim ranges over all pairs of polyhedra and depends on Chernikova's algorithm, a sorted saturation matrix and a binary search; tests only see some of them.", "anchors": ["newpolka/pk_widening.c: pk_widening, esatmat_sort_rows, bsearch2", "newpolka/pk_cherni.c: cherni_buildsatline"]}
{"id": "C99", "title": "Widening of polyhedra terminates", "statement": "Every sequence x(k+1) = pk_widening(x(k), y(k)) with x(k) included in y(k) is ultimately stationary.", "quantifier": "all sequences of well-formed polyhedra, all dimensions, all choices of the option algorithm at each step", "why_tests_cant": "Termination of all infinite sequences; no finite set of runs can show it.", "anchors": ["newpolka/pk_widening.c: pk_widening"]}
{"id": "C100", "title": "Widening of polyhedra with thresholds", "statement": "pk_widening_threshold returns a polyhedron between the union of its arguments and the plain widening, keeps every threshold satisfied by the second argument, and its iterations terminate.", "quantifier": "all well-formed polyhedra a (non-empty) included in b, all arrays of linear constraints, all sequences of iterations", "why_tests_cant": "Quantifies over all thresholds, polyhedra and infinite sequences.", "anchors": ["newpolka/pk_widening.c: pk_widening_threshold", "newpolka/pk_test.c: do_generators_sat_vector"]}
{"id": "C101", "title": "Forget and project of polyhedra are exact", "statement": "pk_forget_array returns exactly the set of points obtained from a point of the argument by giving arbitrary values (or zero, with project) to the listed dimensions, in lazy and strict mode; doing it twice changes nothing.", "quantifier": "all well-formed polyhedra in any representation, all lists of valid dimensions (duplicates allowed), both modes", "why_tests_cant": "Set equality over all points and all polyhedra; the algorithm works on generators through the double description method.", "anchors": ["newpolka/pk_project.c: poly_projectforget_array, pk_forget_array"]}
{"id": "C102", "title": "Adding dimensions to polyhedra is exact", "statement": "pk_add_dimensions returns the polyhedron where each old variable is shifted by the number of dimensions inserted before it and the new ones are free, or zero with project; the updated saturation matrix and line/equation counts stay consistent.", "quantifier": "all well-formed polyhedra in any representation, all non-empty legal dimension changes", "why_tests_cant": "All sizes and positions; the invariant on saturation matrices after the shift is not observable by a test until a later operation uses it.", "anchors": ["newpolka/pk_resize.c: vector_add_dimensions, pk_matrix_add_dimensions, cherni_add_dimensions, pk_add_dimensions"]}
{"id": "C103", "title": "Removing and permuting dimensions of polyhedra is exact", "statement": "pk_remove_dimensions is the projection on the remaining dimensions, pk_permute_dimensions renames variable v to perm(v), and adding then removing the same dimensions is the identity on sets.", "quantifier": "all well-formed polyhedra, all legal dimension changes, all permutations, all algorithms, destructive or not", "why_tests_cant": "All sizes, positions and permutations; in-place loops.", "anchors": ["newpolka/pk_resize.c: vector_remove_dimensions, vector_permute_dimensions, pk_remove_dimensions, pk_permute_dimensions"]}
{"id": "C104", "title": "Linear assignment and substitution in polyhedra are exact", "statement": "pk_assign_linexpr_array with numeric linear expressions and distinct target dimensions returns exactly the image of the polyhedron under the parallel assignment, and pk_substitute_linexpr_array exactly the inverse image, both intersected with the destination; representations with both matrices stay consistent for invertible assignments.", "quantifier": "all well-formed polyhedra in any representation, all arrays of linear expressions, all destinations, lazy or strict mode, destructive or not", "why_tests_cant": "All sizes and rational coefficients; minimality and saturation invariants after in-place row updates are only observable later; the invertible, singular and array cases use different code.", "anchors": ["newpolka/pk_assign.c: pk_matrix_assign_variable, pk_matrix_substitute_variable, pk_matrix_assign_variables, pk_matrix_substitute_variables, vector_invert_expr, poly_asssub_linexpr_det, poly_asssub_linexpr_array_det, pk_assign_linexpr_array, pk_substitute_linexpr_array"]}
{"id": "C105", "title": "Substitution is the weakest precondition of assignment on polyhedra", "statement": "For linear expressions, assign(p) is included in q if and only if p is included in substitute(q); the result of a parallel assignment does not depend on the order of the array.", "quantifier": "all well-formed polyhedra, all legal arrays of linear expressions, all options", "why_tests_cant": "Quantifies over pairs of polyhedra and all arrays.", "anchors": ["newpolka/pk_assign.c: pk_assign_linexpr_array, pk_substitute_linexpr_array, pk_asssub_isort"]}
{"id": "C106", "title": "Expanding a dimension of a polyhedron is exact", "statement": "pk_expand(pa, dim, k) returns a well-formed polyhedron whose points are exactly those for which giving to dim its own value, or the value of any one of the k new dimensions, yields a point of pa. The new dimensions are placed after the dimensions of the type (integer or real) of dim. Expanding by zero dimensions returns pa.", "quantifier": "all well-formed polyhedra in any representation, all dimensions, all numbers of copies, all values of the option algorithm, destructive or not, all points", "why_tests_cant": "the set of points is infinite and the result depends on which matrices are present and on the minimisation algorithm; a test compares a few points or rows", "anchors": ["newpolka/pk_expandfold.c: pk_expand, pk_matrix_expand", "newpolka/pk_resize.c: vector_add_dimensions"]}
{"id": "C107", "title": "Folding dimensions of a polyhedron gives the least polyhedron", "statement": "pk_fold(pa, [d, t1, .., tk]) contains, for each point of pa and each folded dimension t, the point in which d takes the value of t and t1..tk are removed; every system of linear constraints valid on these points is valid on the result, so it is the least polyhedron that contains them. Folding the copies made by pk_expand gives back the original set.", "quantifier": "all well-formed polyhedra, all strictly increasing arrays of dimensions with at least two elements, all values of the option algorithm, all points, all systems of constraints", "why_tests_cant": "minimality quantifies over all polyhedra that contain infinitely many points", "anchors": ["newpolka/pk_expandfold.c: pk_fold, pk_matrix_fold"]}
{"id": "C108", "title": "Polyhedra: canonicalize and minimize keep the set; the canonical form is unique", "statement": "ap_abstract0_canonicalize and ap_abstract0_minimize do not change the set of points of a polyhedron. With the default algorithm, two polyhedra denoting the same set, built by constructors, meets, joins, constraints and rays, are both empty or get the same constraint matrix and the same generator matrix, row by row.", "quantifier": "all dimensions, all well-formed polyhedra with any available matrices; uniqueness for matrices with rows of gcd 1 and truthful flags, which top, of_box, meet, join, meet_lincons_array, add_ray_array, canonicalize and minimize are proved to give", "why_tests_cant": "Uniqueness of a normal form relates all pairs of descriptions of the same set; it rests on the uniqueness of reduced echelon bases and of extreme rays modulo lines.", "anchors": ["newpolka/pk_representation.c:poly_chernikova3", "newpolka/pk_representation.c:pk_canonicalize", "newpolka/pk_representation.c:pk_minimize", "newpolka/pk_matrix.c:pk_matrix_sort_rows_with_sat"]}
{"id": "C109", "title": "Polyhedra: is_eq decides equality of sets", "statement": "ap_abstract0_is_eq answers true only on equal sets; on matrices with rows of gcd 1 and truthful flags it answers true on all equal sets, for every value of the option algorithm.", "quantifier": "all dimensions, all pairs of well-formed polyhedra", "why_tests_cant": "The shortcut through counts of equalities and the comparison of canonical matrices must be complete for every pair of representations.", "anchors": ["newpolka/pk_test.c:pk_is_eq", "newpolka/pk_representation.c:pk_is_canonical", "newpolka/pk_matrix.c:pk_matrix_equal", "newpolka/pk_assign.c:pk_matrix_assign_variable"]}
{"id": "C110", "title": "Polyhedra: is_dimension_unconstrained", "statement": "ap_abstract0_is_dimension_unconstrained answers true iff the polyhedron is not empty and changing the value of the dimension arbitrarily never leaves the polyhedron.", "quantifier": "all dimensions, all well-formed polyhedra (soundness); with rows of gcd 1 and truthful flags (completeness)", "why_tests_cant": "Completeness says that the reduced basis of the lineality space contains the unit vector whenever the space does.", "anchors": ["newpolka/pk_test.c:pk_is_dimension_unconstrained"]}
{"id": "C111", "title": "The polyhedra domain is an exact abstract domain, also over named variables", "statement": "Through the manager interface, convex polyhedra over the reals compute top, bottom, inclusion, equality, meet, join, forget, project, permutation, addition, removal, expansion and folding of dimensions with exactly the promised sets of points (join contains both arguments). As a consequence the environment-level operations on polyhedra are exact: changing the environment, minimising it and unifying two polyhedra give exactly the valuations that the documentation promises, whatever the environments.", "quantifier": "all polyhedra in any representation state (constraints, generators or both, minimised or not), all algorithm parameters, all environments", "why_tests_cant": "The operations combine lazily maintained double descriptions with dimension changes derived from arbitrary environments; tests see finitely many polyhedra and environments.", "anchors": ["newpolka/pk_internal.c", "newpolka/pk_resize.c", "newpolka/pk_project.c", "newpolka/pk_expandfold.c", "newpolka/pk_meetjoin.c", "newpolka/pk_test.c", "apron/ap_abstract1.c: ap_abstract1_change_environment, ap_abstract1_minimize_environment, ap_abstract1_unify"]}
{"id": "C112", "title": "Assignment and substitution of interval linear expressions on polyhedra are sound", "statement": "Parallel assignment and substitution of arbitrary (also interval-valued) linear expressions in a polyhedron contain every point that the concrete semantics allows, for every choice of a value in each interval, intersected with the optional destination; purely linear ones are dispatched to the exact algorithm and others to the generic one with fresh dimensions.", "quantifier": "all polyhedra, expressions, target lists without duplicates, destinations, destructive or not, lazy or strict", "why_tests_cant": "Soundness is about all points of all polyhedra and all values in the intervals.", "anchors": ["newpolka/pk_assign.c: poly_asssub_linexpr_array, poly_asssub_linexpr", "apron/ap_generic.c: ap_generic_asssub_linexpr_array"]}
{"id": "C113", "title": "pk_sat_tcons only answers true when the constraint holds", "statement": "When pk_sat_tcons answers true for a constraint on an arbitrary expression tree (interval coefficients, roundings, non-linear operators), every value of the tree at every point of the polyhedron (integer on integer dimensions) satisfies the constraint. The code violates this for equalities whose linearised form has interval coefficients.", "quantifier": "all polyhedra, trees, types of constraints, options, points and values of the tree", "why_tests_cant": "A positive answer is a claim on infinitely many points and values; the composition of linearisation, quasi-linearisation and a test on generators has to be right for every tree.", "anchors": ["newpolka/pk_test.c: pk_sat_tcons, do_generators_sat_vector", "newpolka/pk_user.c: vector_set_itv_lincons_sat", "itv/itv_linearize.c: itv_intlinearize_ap_tcons0, itv_quasilinearize_lincons"]}
{"id": "C114", "title": "pk_bound_texpr encloses every value of the tree", "statement": "Every value that an expression tree can take at a point of the polyhedron (integer on integer dimensions) lies in the interval returned by pk_bound_texpr; the interval is empty when the polyhedron is empty.", "quantifier": "all polyhedra, trees, options, points", "why_tests_cant": "The interval must contain the values at infinitely many points, through the intersection of two different evaluations (linearised over the generators, interval arithmetic over the box).", "anchors": ["newpolka/pk_extract.c: pk_bound_texpr, pk_matrix_bound_itv_linexpr, pk_matrix_to_box", "itv/itv_linearize.c: itv_intlinearize_ap_texpr0, itv_eval_ap_texpr0"]}
{"id": "C115", "title": "Meet of a polyhedron with constraints on trees", "statement": "pk_meet_tcons_array returns a valid polyhedron with the same dimensions, included in the argument, and containing every point of the argument (integer on integer dimensions) that satisfies all the constraints, whatever the trees (also non-linear).", "quantifier": "all polyhedra, arrays of constraints, options, points", "why_tests_cant": "The constraints go through interval linearisation, deduction of bounds, quasi-linearisation and splitting of equalities before the double description is updated; a lost point is only visible at particular combinations.", "anchors": ["newpolka/pk_meetjoin.c: pk_meet_tcons_array, poly_meet_itv_lincons_array", "apron/ap_generic.c: ap_generic_meet_intlinearize_tcons_array", "apron/ap_linearize_aux.c: ap_intlinearize_tcons0_array"]}
{"id": "C116", "title": "Assignment and substitution of trees in a polyhedron", "statement": "pk_assign_texpr_array returns a valid polyhedron with the same dimensions containing every point (of the destination, if any) obtained from a point of the argument by giving in parallel to the targets values of their trees; pk_substitute_texpr_array contains every point of the destination from which a point of the argument is so reached. Trees that are linear go through exact linear assignment, others through fresh dimensions and constraints.", "quantifier": "all polyhedra, trees without powers, distinct targets, destinations, lazy or strict, destructive or not", "why_tests_cant": "The property is about all points and all values of the trees, for both branches of the algorithm and all states of the double description.", "anchors": ["newpolka/pk_assign.c: poly_asssub_texpr_array, pk_assign_texpr_array, pk_substitute_texpr_array", "apron/ap_generic.c: ap_generic_asssub_texpr_array", "apron/ap_linearize_aux.c: ap_intlinearize_texpr0"]}
{"id": "C117", "title": "A reduced product of abstract domains is an abstract domain", "statement": "Whatever the components (any number, of different types) that keep the promises of an abstract domain, whatever the options, and for every reduction that changes neither the set nor the dimensions, the product denotes the intersection of its components and keeps the same promises: meet, insertion, permutation and expansion are exact; join, projection, removal and fold are upper approximations; hence every theorem about level 0 and level 1 functions applies to products.", "quantifier": "all component domains, all reductions, all options, all products, all points", "why_tests_cant": "The claim ranges over every tuple of domains and every reduction function supplied by the user; the interplay of flags `reduced` with early exits (an empty component) can hide a wrong component for particular inputs only.", "anchors": ["apron/ap_reducedproduct.c:ap_reducedproduct_meetjoin", "apron/ap_reducedproduct.c:ap_reducedproduct_manager_alloc", "apron/ap_reducedproduct.c:set_bottom", "apron/ap_reducedproduct.c:collect_results1"]}
{"id": "C118", "title": "Tests, bounds, conversions and transfer functions of reduced products are sound", "statement": "On a reduced product a positive answer of is_bottom, is_top, is_leq, is_eq and of the satisfaction tests is right; bounds and boxes are the intersections of those of the components and contain every point; the constraints describe the product; meets with constraints, assignments, substitutions, meets and joins of arrays and widening are sound, and without reduction the widening iterations stop as soon as those of the components do. The flag `exact` of the result is not reliable and the flag `best` is always set.", "quantifier": "all component domains, functions of the components that are sound, reductions, options, products, points, widening sequences", "why_tests_cant": "Statements about all points and about infinite widening sequences over arbitrary domains.", "anchors": ["apron/ap_reducedproduct.c:ap_reducedproduct_to_box", "apron/ap_reducedproduct.c:ap_reducedproduct_bound_linexpr", "apron/ap_reducedproduct.c:ap_reducedproduct_asssub_linexpr_array", "apron/ap_reducedproduct.c:ap_reducedproduct_widening", "apron/ap_reducedproduct.c:collect_results0"]}
{"id": "C119", "title": "Every octagon a program can build is well formed: a matrix kept as normalised is tight", "statement": "Start from bottom, top or a box and apply any sequence of octagon operations with legal arguments and any options (exact arithmetic). Whenever the resulting octagon stores a normalised matrix, the octagon is not empty and each entry is the least upper bound of the corresponding +-x+-y; the original and the normalised matrix describe the same set; the tests is_bottom, is_top, is_leq and is_eq are exact.", "quantifier": "all finite histories of operations, all dimensions, all options", "why_tests_cant": "An operation that wrongly keeps the mark 'normalised' is only visible for later operations on particular histories.", "anchors": ["octagons/oct_internal.h:oct_t", "octagons/oct_nary.c:oct_meet", "octagons/oct_nary.c:oct_join", "octagons/oct_resize.c:oct_forget_array", "octagons/oct_representation.c:oct_of_box", "octagons/oct_closure.c:hmat_close_incremental"]}
{"id": "C120", "title": "Finite disjunctions: array handling, tests, join and meet", "statement": "For every underlying domain that meets the abstract-domain contract and whose tests for emptiness, fullness and equality are sound: compaction of the array keeps exactly the non-NULL entries in order; removal of empty, full and equal disjuncts does not change the set of points, never removes the last disjunct and leaves an empty disjunct only alone; bottom and top have no point and all points; is_bottom and is_top are right when they answer true; the points of join and join_array are exactly those of the arguments; the points of meet are exactly the common ones whenever its behaviour is defined. Meet of two disjoint values has no defined behaviour, join_array of three or more empty values yields an array of size 0 that is not a legal value, is_bottom misses values with several empty disjuncts, is_leq and is_eq are never true.", "quantifier": "all domains meeting the contract, all numbers of disjuncts, all arrays", "why_tests_cant": "The number of disjuncts, the positions of the removed entries and the underlying domain are unbounded.", "anchors": ["apron/ap_disjunction.c:ap_disjunction_resize", "apron/ap_disjunction.c:ap_disjunction_null_bottom_top", "apron/ap_disjunction.c:ap_disjunction_elim_redundant", "apron/ap_disjunction.c:ap_disjunction_join", "apron/ap_disjunction.c:ap_disjunction_join_array", "apron/ap_disjunction.c:ap_disjunction_meet"]}
{"id": "C121", "title": "Finite disjunctions: tests, bounds and transfer functions lose no point", "statement": "For every underlying domain that meets the contract: sat tests are right when they answer true and as precise as the domain; meet with constraints, assignment, substitution, addition, removal and permutation of dimensions, projection and folding apply to the union of the disjuncts, exactly when they are exact in the domain; bounds and to_box contain every value when the first disjunct is not empty, and bounds are the join with 1 and -1. The bounds and to_box lose points when the first disjuncts are empty, bounds of [5,7] are [1,7], and expand loses points as soon as there are two disjuncts.", "quantifier": "all domains meeting the contract, all values, all legal arguments", "why_tests_cant": "Unbounded numbers of disjuncts, dimensions and points; the loss of points appears only for certain orders of the disjuncts.", "anchors": ["apron/ap_disjunction.c:ap_disjunction_bound_linexpr", "apron/ap_disjunction.c:ap_disjunction_to_box", "apron/ap_disjunction.c:ap_disjunction_expand", "apron/ap_disjunction.c:ap_disjunction_forget_array", "apron/ap_disjunction.c:ap_disjunction_asssub_linexpr_array"]}
{"id": "C122", "title": "Affine forms (taylor1plus): arithmetic is sound", "statement": "An affine form is a centre interval plus interval multiples of noise symbols in [-1,1], with a separate interval bound. For every assignment of the noise symbols: if x is a value of form a and y of form b, then x+y, -x, x-y, x*y, x/y (y nonzero) and sqrt x are values of the form computed by t1p_aff_add, neg, sub, mul, div, sqrt, and lie in its bound; t1p_aff_reduce keeps the values of a form, extending the assignment to one new symbol only. Subtraction of forms with equal non-point intervals, multiplication when a dropped pair of matrix entries is not a point, and reduction at a coefficient with one infinite bound are unsound in the code.", "quantifier": "all forms, any number of symbols, all values of the symbols, all rounding functions", "why_tests_cant": "The number of noise symbols and their values are unbounded, and errors need matching coefficients.", "anchors": ["taylor1plus/t1p_fun.c:t1p_aff_add", "taylor1plus/t1p_fun.c:t1p_aff_sub", "taylor1plus/t1p_fun.c:t1p_aff_mul", "taylor1plus/t1p_fun.c:square_dep", "taylor1plus/t1p_fun.c:t1p_aff_div", "taylor1plus/t1p_fun.c:t1p_aff_sqrt", "taylor1plus/t1p_internal.h:t1p_aff_reduce"]}
{"id": "C123", "title": "Affine forms: of_box, bound_dimension, top, bottom, is_bottom", "statement": "The points of t1p_of_box are exactly the points of the box, and building it changes the points of no other abstract value of the manager. Every point lies within t1p_bound_dimension of each dimension. t1p_top has all points and t1p_bottom none. A value reported empty by t1p_is_bottom has no point (the converse fails: all boxes must be empty for the answer true). With no dimension is_bottom and is_top read outside the array.", "quantifier": "all boxes of all dimensions, all states of the manager", "why_tests_cant": "Boxes, dimensions and states of the manager (shared objects) are unbounded.", "anchors": ["taylor1plus/t1p_constructor.c:t1p_of_box", "taylor1plus/t1p_constructor.c:t1p_bound_dimension", "taylor1plus/t1p_constructor.c:t1p_is_bottom", "taylor1plus/t1p_constructor.c:t1p_top", "taylor1plus/t1p_constructor.c:t1p_bottom"]}
{"id": "C124", "title": "Affine forms: assignment", "statement": "If x is a point of a and each tree of the array has a value v at x, then the point x with the targets replaced by these values is a point of t1p_assign_texpr_array, also when trees share subexpressions, and the sequence of such assignments from a box gives bounds that hold for all executions. The call modifies shared affine forms in place, yet all other abstract values and its argument keep their points. The code violates this for x-y of two unconstrained dimensions and for differences of equal squares (both give 0), and ignores the type and rounding of nodes.", "quantifier": "all abstract values, all arrays of trees, all sequences of assignments, all executions", "why_tests_cant": "Trees, programs and executions are unbounded; sharing of forms between values depends on the history.", "anchors": ["taylor1plus/t1p_assign.c:t1p_assign_texpr_array", "taylor1plus/t1p_fun.c:t1p_aff_eval_ap_texpr0", "taylor1plus/t1p_internal.h:t1p_aff_reduce"]}
{"id": "C125", "title": "Affine forms: linear straight-line programs have exact bounds", "statement": "Start from a bounded non-empty box and run any sequence of parallel assignments of linear trees (constants, dimensions, negation, sum, difference, product by a constant) in exact arithmetic. Then every call succeeds, and t1p_bound_dimension of each dimension is exactly the set of values that this dimension takes in the executions of the program from the points of the box.", "quantifier": "all boxes, all dimensions, all linear programs of any length, all executions", "why_tests_cant": "The length of the program and the box are unbounded, and exactness is about all executions.", "anchors": ["taylor1plus/t1p_assign.c:t1p_assign_texpr_array", "taylor1plus/t1p_constructor.c:t1p_of_box", "taylor1plus/t1p_constructor.c:t1p_bound_dimension", "taylor1plus/t1p_fun.c:t1p_aff_eval_ap_texpr0"]}
{"id": "C126", "title": "Affine forms: adding, removing, permuting and forgetting dimensions", "statement": "Removing dimensions, adding dimensions (unconstrained or 0), permuting and forgetting dimensions give at least the points obtained from those of the argument by the same operation. The code violates this for additions at several positions, for permutations (those entries are exchanged several times), for forgetting other dimensions than the first ones and for projection (the box is not updated).", "quantifier": "all abstract values, all arrays of positions", "why_tests_cant": "Dimensions and arrays of positions are unbounded.", "anchors": ["taylor1plus/t1p_resize.c:t1p_add_dimensions", "taylor1plus/t1p_resize.c:t1p_remove_dimensions", "taylor1plus/t1p_resize.c:t1p_permute_dimensions", "taylor1plus/t1p_otherops.c:t1p_forget_array"]}
{"id": "C127", "title": "Octagons: assignment and substitution of tree expressions", "statement": "oct_assign_texpr_array returns an octagon, with the dimensions of the argument, that contains every state obtained from a state of the argument by giving to each target a value of its tree and keeping the other dimensions, as long as the new state is in the destination; oct_substitute_texpr_array contains every state of the destination from which a state of the argument is reached in that way. States are integral on the integer dimensions. An empty octagon stays empty.", "quantifier": "all octagons, all arrays of distinct targets and trees, all destinations, all states and values of the trees", "why_tests_cant": "The octagons, trees, values and the sizes of the arrays are unbounded; the claim is about all states.", "anchors": ["octagons/oct_transfer.c:oct_assign_texpr_array", "octagons/oct_transfer.c:oct_substitute_texpr_array", "apron/ap_generic.c:ap_generic_asssub_texpr_array", "octagons/oct_transfer.c:oct_meet_tcons_array"]}
{"id": "C128", "title": "Serialisation of numbers: round trip and buffer size", "statement": "A number written by num_serialize (resp. bound_serialize, bound_serialize_array) is read back by the corresponding deserialisation function from any memory with the same bytes, with the same number of bytes; nothing is written outside of these bytes, and the number of bytes is at most the one announced by num_serialized_size. This is so for GMP integers, GMP rationals with infinite values, native integers and floats (whose bytes do not depend on the endianness), and compounds of these. The code violates it for MPFR floats, whose exponent is replaced by the size of the mantissa, and for the sign of GMP numbers on platforms where char is unsigned.", "quantifier": "all numbers of any size, all memories and addresses", "why_tests_cant": "Numbers have unbounded size; the claim is about all contents of the memory around the buffer.", "anchors": ["num/numint_mpz.h:numint_serialize", "num/numrat_mpq.h:numrat_serialize", "num/numflt_mpfr.h:numflt_serialize", "num/numflt_mpfr.h:numflt_deserialize", "num/numint_native.h:numint_serialize", "num/num_config.h:num_dump_word32", "num/bound_def.h:bound_serialize_array"]}
{"id": "C129", "title": "Serialisation of octagons: round trip and buffer size", "statement": "The octagon read by oct_deserialize_raw from the bytes written by oct_serialize_raw, at any address, has the dimensions, the matrix and the points of the argument; both functions return the same size, which is at most the size of the buffer allocated, out of which nothing is written.", "quantifier": "all octagons, all types of numbers that are read back, all memories", "why_tests_cant": "Octagons and numbers have unbounded size.", "anchors": ["octagons/oct_print.c:oct_serialize_raw", "octagons/oct_print.c:oct_deserialize_raw", "num/bound_def.h:bound_serialize_array"]}
{"id": "C130", "title": "Serialisation of reduced products", "statement": "If every component of a reduced product is read back from the bytes written for it, at any address, then the product read by ap_reducedproduct_deserialize_raw from the bytes written by ap_reducedproduct_serialize_raw has the components of the argument, and both functions return the same size.", "quantifier": "all component domains, all numbers of components, all values", "why_tests_cant": "The domains, the number and the sizes of components are arbitrary.", "anchors": ["apron/ap_reducedproduct.c:ap_reducedproduct_serialize_raw", "apron/ap_reducedproduct.c:ap_reducedproduct_deserialize_raw"]}
{"id": "C131", "title": "The linear-equality domain computes affine hulls", "statement": "The values of the linear-equality domain (pkeq) denote affine subspaces or the empty set and keep both matrices with exactly one non-equality constraint and one non-line generator. Every operation returns such a value: meet is the intersection; join, fold, meet with constraints and addition of rays return the least affine set that contains the exact result; forget, removal, expansion, addition and permutation of dimensions are exact; of_box keeps the dimensions fixed by the box; widening is an upper bound of its second argument and every iteration with it stabilises; the equality test is sound, exact on normalised matrices, and reads no row outside the matrices.", "quantifier": "For all dimensions, all values of the domain, all options and destructive flags, all constraint and generator arrays, all boxes, all infinite increasing sequences.", "why_tests_cant": "Least affine hulls quantify over all points and all affine subspaces; stabilisation quantifies over infinite sequences.", "anchors": ["newpolka/pkeq.c: equality_reduce", "newpolka/pkeq.c: pkeq_of_box, pkeq_is_eq", "newpolka/pkeq.c: pkeq_meet, pkeq_join, pkeq_meet_lincons_array, pkeq_add_ray_array", "newpolka/pkeq.c: pkeq_meet_array, pkeq_join_array", "newpolka/pkeq.c: pkeq_forget_array, pkeq_remove_dimensions, pkeq_expand, pkeq_fold", "newpolka/pkeq.c: pkeq_widening"]}
{"id": "C132", "title": "Assignment and substitution in the linear-equality domain", "statement": "The parallel assignment of linear expressions in the linear-equality domain assigns the expressions with a scalar constant and forgets the targets of the others, then restricts to the destination; it loses no image and is exact for numeric expressions. The substitution of numeric expressions is exact, and that of expressions with interval constants only loses no point. No NULL pointer is used when a destination is given.", "quantifier": "For all dimensions, all values of the domain, all arrays of assignments with distinct targets, all destinations and options.", "why_tests_cant": "Exactness quantifies over all points and all expressions, in parallel on any number of dimensions.", "anchors": ["newpolka/pkeq.c: equality_asssub_linexpr", "newpolka/pkeq.c: equality_asssub_linexpr_array", "newpolka/pkeq.c: pkeq_assign_linexpr_array, pkeq_substitute_linexpr_array"]}
{"id": "C134", "title": "Conversion of polyhedra to constraints and generators; hashing", "statement": "pk_to_lincons_array returns constraints whose common solutions are exactly the points of the polyhedron, including when trivial rows are left out and for the empty polyhedron. pk_to_generator_array returns lines, rays and vertices such that the points of the polyhedron are exactly the combinations of lines, of non-negative multiples of rays and of a convex combination of vertices. pk_hash gives the same code to any two polyhedra with the same points.", "quantifier": "For all dimensions, all polyhedra in any state of representation, all points, all conversions of coefficients to machine integers.", "why_tests_cant": "The claims quantify over all points and all representations of the same set.", "anchors": ["newpolka/pk_extract.c: pk_to_lincons_array, pk_to_generator_array", "newpolka/pk_user.c: lincons0_of_vector, generator0_of_vector", "newpolka/pk_vector.c: vector_is_dummy_constraint, vector_hash", "newpolka/pk_representation.c: pk_hash"]}
{"id": "C135", "title": "Approximation of polyhedra with big coefficients", "statement": "pk_approximate with algorithms 1, 2, 10, 11 and 12 returns a polyhedron that contains its argument; 2 keeps the bounding box; 1 and 10 leave no inequality with a coefficient of more than approximate_max_coeff_size bits; -1 returns a subset that keeps all the points integer on the integer dimensions; other algorithms and a null size change nothing. Algorithm 3, which should also keep the bounding octagon, returns a polyhedron that contains its argument.", "quantifier": "For all dimensions, all polyhedra, all sizes and algorithms.", "why_tests_cant": "Inclusion quantifies over all points, and the rounded constraints depend on bounds computed from all generators.", "anchors": ["newpolka/pk_approximate.c: pk_approximate, poly_approximate_n1", "newpolka/pk_approximate.c: pk_matrix_approximate_constraint_1, poly_approximate_123", "newpolka/pk_approximate.c: pk_matrix_approximate_constraint_1x", "newpolka/pk_user.c: vector_set_linexpr_bound", "newpolka/pk_extract.c: pk_matrix_bound_vector"]}
{"id": "C133", "title": "Reduced product of polyhedra and grids", "statement": "ap_pkgrid_reduce (the reduction of the product of NewPolka polyhedra and PPL linear congruences) neither grows a component nor loses a common point: p' is a subset of p, g' is a subset of g, and every point of both p and g, integer on the integer dimensions, is in both results. It writes inside its array and ends when a canonical grid has at most n+1 constraints. If the polyhedron is empty, or the grid does not meet the affine hull of the polyhedron, both results are empty. The resulting grid satisfies every linear equality implied by the polyhedron. With real dimensions only, the bounds of the expression of each congruence of modulus m are rounded to multiples of m in the resulting polyhedron.", "quantifier": "for all dimensions n, all well-formed polyhedra in either representation, all grids, for every grid library that meets the stated specification (exact meet with equalities, exact emptiness test, sound extraction of equalities and congruences)", "why_tests_cant": "the set of common points is infinite and the congruences, bounds and hulls are arbitrary rationals; the number of constraints is unbounded", "anchors": ["products/ap_pkgrid.c:ap_pkgrid_reduce", "newpolka/pk_extract.c:pk_bound_linexpr", "newpolka/pk_meetjoin.c:pk_meet_lincons_array", "ppl/ppl_grid.cc:ap_ppl_grid_to_lincons_array"]}
{"id": "C136", "title": "A forward analysis built on the library terminates and covers every execution", "statement": "Take the standard analyser of structured programs (parallel linear assignments, linear guards, sequence, choice, loops solved by join, inclusion test and widening) written with assign_linexpr_array, meet_lincons_array, join, widening and is_leq. For boxes, octagons and polyhedra over rationals, for every legal program and every valid initial abstract value, the analysis ends after finitely many iterations, never calls an operation outside its documented precondition, and its result contains every state in which some execution started in the initial value can end.", "quantifier": "all programs (any size, nesting, number of variables), all initial abstract values satisfying the representation invariant, all concrete executions, all options of the domains", "why_tests_cant": "termination of the iteration and coverage of infinitely many executions by one abstract value hold for an unbounded family of programs; a test runs one program on one domain and observes a few states", "anchors": ["apron/ap_abstract0.c: ap_abstract0_widening, ap_abstract0_join, ap_abstract0_is_leq, ap_abstract0_assign_linexpr_array, ap_abstract0_meet_lincons_array", "box/box_meetjoin.c: box_widening", "octagons/oct_nary.c: oct_widening", "newpolka/pk_widening.c: pk_widening"]}
{"id": "C137", "title": "Closing an absolute-value octagon keeps its points", "statement": "For the absolute-value octagons of avoct, every closure (the three full algorithms selected by avo_closure_alg, the two incremental ones and the strengthening step) keeps exactly the points of the matrix, strict constraints included, and declares emptiness only for empty matrices, for any rounding of the bounds.  The strong closure does so only up to 30 variables; from 31 variables on it declares everything empty.  Emptiness that comes from strict constraints is never detected.", "quantifier": "every number of variables, every matrix of bounds and strictness marks with a diagonal of at most 0, every algorithm, every point, every sound rounding", "why_tests_cant": "the closures enumerate 2^n orthants and combine rounded sums over all pairs and triples of variables; a test observes single matrices only", "anchors": ["avoct/avo_closure.c:avo_hmat_close", "avoct/avo_closure.c:avo_hmat_close_incremental", "avoct/avo_closure.c:avo_hmat_s_step", "avoct/avo_closure.c:tighten_nsc", "avoct/avo_internal.h:bound_bmin_nsc", "avoct/avo_internal.h:bound_add_nsc"]}
{"id": "C138", "title": "Meet, join and boxes of absolute-value octagons", "statement": "For well-formed absolute-value octagons of equal dimensions: caching the closure does not change the value; avo_meet is exactly the intersection; avo_join and avo_join_array contain every argument; avo_of_box contains the box; all results are well-formed and no operation dereferences NULL.  avo_meet_array is the exception: its result has no strictness marks and the next closure dereferences NULL.", "quantifier": "all values satisfying the representation invariant, all dimensions (at most 30 with the strong closure), all points, all sound roundings, all values of the options", "why_tests_cant": "the results are sets of rational points, and cells are combined with rounded sums in closures over all orthants; the NULL dereference appears only with a later operation", "anchors": ["avoct/avo_nary.c:avo_meet", "avoct/avo_nary.c:avo_join", "avoct/avo_nary.c:avo_join_array", "avoct/avo_nary.c:avo_meet_array", "avoct/avo_representation.c:avo_of_box", "avoct/avo_representation.c:avo_cache_closure", "avoct/avo_representation.c:avo_top"]}
{"id": "C139", "title": "Widening and narrowing of absolute-value octagons", "statement": "avo_widening and avo_widening_thresholds contain both arguments; a sequence of widenings changes the stored constraints and strictness marks at most 3*matsize+1 times and is then constant; avo_narrowing lies between the intersection of its arguments and the first one.", "quantifier": "all well-formed values, all thresholds, all infinite sequences of second arguments with the marks written by the library, all points and roundings", "why_tests_cant": "termination is a statement on infinite sequences; covering is a statement on all points", "anchors": ["avoct/avo_nary.c:avo_widening", "avoct/avo_nary.c:avo_widening_thresholds", "avoct/avo_nary.c:avo_narrowing"]}
{"id": "C140", "title": "Queries on absolute-value octagons", "statement": "avo_is_bottom, avo_bound_dimension, avo_to_box, avo_sat_interval, avo_sat_lincons, avo_bound_linexpr and (under stated conditions) avo_is_top answer soundly on well-formed values: a positive answer or a returned interval holds of all points. avo_is_leq, avo_is_eq, avo_is_dimension_unconstrained and avo_to_lincons_array are sound only for the constraints without absolute values: is_leq(top, |x|>=1) and is_eq(top, |x|>=1) are true, x is reported unconstrained in |x|>=1, and |x|>=1 is exported as 11x-1>=0.", "quantifier": "all well-formed values, algorithm choices, roundings, expressions, constraints and points", "why_tests_cant": "soundness speaks of all points of a value and of every closure; the faulty comparisons are right whenever the absolute-value rows carry no information of their own", "anchors": ["avoct/avo_predicate.c:avo_is_bottom", "avoct/avo_predicate.c:avo_is_top", "avoct/avo_predicate.c:avo_is_leq", "avoct/avo_predicate.c:avo_is_eq", "avoct/avo_predicate.c:avo_sat_interval", "avoct/avo_predicate.c:avo_is_dimension_unconstrained", "avoct/avo_predicate.c:avo_sat_lincons", "avoct/avo_predicate.c:avo_bound_linexpr", "avoct/avo_predicate.c:avo_bound_dimension", "avoct/avo_predicate.c:avo_to_lincons_array", "avoct/avo_predicate.c:avo_to_box"]}
{"id": "C141", "title": "Constraints on absolute-value octagons", "statement": "avo_meet_lincons_array keeps every point of the value that satisfies the constraints, when these are octagonal (not classified as OTHER) equalities, inequalities, strict inequalities or congruences; with exact numbers such equalities and inequalities are added exactly, strictness included; the result is always included in the argument and is a well-formed value. A general constraint is sound if the value holds no strict mark. Disequalities are not sound: 5!=0 empties the universe, -x+5!=0 becomes |x|<5, x+y!=0 becomes x+y>=0; a general constraint on a value with strict marks is not sound either; a binary constraint marks any result as closed.", "quantifier": "all well-formed values, algorithm choices, roundings, constraint arrays within the dimensions and points", "why_tests_cant": "soundness speaks of all points and of every sequence of pending incremental closures; the strictness marks are only wrong for particular interactions", "anchors": ["avoct/avo_transfer.c:avo_hmat_add_lincons", "avoct/avo_transfer.c:avo_meet_lincons_array"]}
{"id": "C142", "title": "Absolute-value octagons: projection and change of dimensions", "statement": "Forgetting variables returns a value with every point that differs from a point of the argument only on those variables (and is 0 there with `project`). Adding dimensions gives exactly the points whose old coordinates are in the argument, new coordinates being free, or 0 with `project`. Removing dimensions keeps every projected point. Permuting dimensions gives exactly the permuted points. The argument of a non-destructive call keeps its meaning. Folding keeps every point. The last two are false in the code: a non-destructive forget erases the strictness marks of its argument, and the result of a fold contains no point at all.", "quantifier": "every well-formed value, any dimensions, any sorted position lists, any permutation, any rounding of bounds upwards", "why_tests_cant": "values, dimensions and position lists are unbounded; the lost points and the changed argument show only when the strictness marks are read later", "anchors": [{"file": "avoct/avo_resize.c", "symbols": ["avo_forget_array", "avo_hmat_addrem_dimensions_withAV", "avo_add_dimensions", "avo_remove_dimensions", "avo_permute_dimensions", "avo_fold"]}]}
{"id": "C143", "title": "Absolute-value octagons: assignment of a linear expression", "statement": "Assigning a linear expression to a variable returns a value that contains, for every point of the argument and every value the expression can take there, the point with that coordinate replaced, provided it is in `dest` when one is given. The claim is false in the code: `x := 3` and `x := -x` on `0 <= x < 5` lose the image, because the marks of strictness of the bounds of the variable are kept; the empty value makes the function read a null pointer; the result of every assignment has +oo on the diagonal of `|x|`.", "quantifier": "every well-formed value where the sign of the variable is known, any dimensions, any expression, any rounding of bounds upwards", "why_tests_cant": "values and expressions are unbounded, and a lost point shows only when a bound of the old value was strict", "anchors": [{"file": "avoct/avo_transfer.c", "symbols": ["avo_hmat_forget_var", "avo_hmat_assign", "avo_assign_linexpr_d_fixed_sign", "avo_assign_linexpr"]}]}
{"id": "C144", "title": "Boxes: policies for meets", "statement": "A policy chooses, for each bound of a meet, one of the two arguments. Applying any policy of the right size to boxes, to an array of boxes, or to a box and linear constraints gives a box with all the points of the intersection. Improving a policy gives one whose result is the smallest of all policies (for boxes, the meet itself), and keeps a policy that is already best. Equal policies have the same choices and the same hash. The claim is false in the code for constraints: an equality with an interval coefficient loses points; a constraint that always holds makes the loops read outside of the reduced array; a disequality fails an assertion; interval coefficients are ignored by the improvement; ties do not keep the old choice. Improving without an old policy reads a null pointer, and the hash of a policy has only two values.", "quantifier": "every box of any dimensions (also with infinite bounds), every array of any length, every policy, every list of linear constraints over the rationals, every number of passes", "why_tests_cant": "the number of policies is exponential in the dimensions, and optimality is a statement about all of them", "anchors": [{"file": "box/box_policy.c", "symbols": ["box_policy_equal", "box_policy_hash", "box_policy_meet_apply", "box_policy_meet_improve", "box_policy_meet_array_apply", "box_policy_meet_array_improve", "box_policy_meet_lincons_internal", "box_policy_meet_lincons_array_apply", "box_policy_meet_lincons_array_improve"]}]}
{"id": "C145", "title": "Polyhedra: bitstrings and saturation matrices", "statement": "A structured bit index moves as its flat index does, and the size of a bitstring is the least number of words for its bits. Reading, setting and clearing a bit of a bitstring or of a saturation matrix concern exactly that bit. The comparison of bitstrings is the lexicographic order of their bits: a total order. Allocation, copies and changes of the numbers of rows and columns keep the bits in use, and new columns are zero. The transposed matrix has bit (j,i) equal to bit (i,j); moving rows loses none. The loops on words of the Chernikova algorithm compute unions, inclusions, equality and counts of zero bits on the sets of bits of the rows. An access outside of the arrays is undefined.", "quantifier": "every width of word, every number of rows and of bits, every content, every pair of overlapping or disjoint ranges of rows", "why_tests_cant": "the errors of bit arrays sit at word boundaries, for sizes far above those of the polyhedra of tests", "anchors": [{"file": "newpolka/pk_bit.c", "symbols": ["bitindex_init", "bitindex_inc", "bitindex_dec", "bitindex_size", "bitstring_clear", "bitstring_copy", "bitstring_cmp", "bitstring_get", "bitstring_set", "bitstring_clr"]}, {"file": "newpolka/pk_satmat.c", "symbols": ["satmat_alloc", "satmat_clear", "satmat_resize_rows", "satmat_resize_cols", "satmat_copy_resize_cols", "satmat_copy", "satmat_get", "satmat_set", "satmat_clr", "satmat_transpose", "satmat_exch_rows", "satmat_move_rows"]}, {"file": "newpolka/pk_cherni.c", "symbols": ["cherni_conversion", "cherni_simplify"]}]}
{"id": "C146", "title": "Native integers", "statement": "For the integers of fixed size of num/numint_native.h: opposite, absolute value, sum, difference and product are exact and defined exactly when the result is representable; the divisions round down, up and towards zero and the division with remainder leaves the difference; halving and divisions by powers of two round as their names say; gcd, lcm, comparison and sign are those of the integers; a quotient of two longs is rounded up with a right exactness flag; roots are enclosed within one unit; a power that is returned is exact and an overflow is reported as such.", "quantifier": "every size of integers (NUMINT_MAX >= 1), every representable argument", "why_tests_cant": "errors sit at the ends of the range and at sign combinations with a remainder, 2^64 arguments by 2^64", "anchors": [{"file": "num/numint_native.h", "symbols": ["numint_add", "numint_sub", "numint_mul", "numint_fdiv_q", "numint_cdiv_q", "numint_cdiv_qr", "numint_cdiv_2", "numint_cdiv_q_2exp", "numint_fdiv_q_2exp", "numint_tdiv_q_2exp", "numint_mul_2exp", "numint_pow", "numint_root", "numint_gcd", "numint_lcm", "numint_cmp", "numint_set_int2", "double_fits_numint"]}]}
{"id": "C147", "title": "Native rationals", "statement": "For the rationals of num/numrat_native.h in canonical form (positive denominator, no common divisor): opposite, inverse, absolute value, sum, difference, product, quotient, doubling, halving, scaling by powers of two and powers are exact and canonical again, and defined when the cross products are representable; floor, ceiling and truncation always succeed; comparison, minimum, maximum, equality, test for integers and sign agree with the values; conversion to an integer rounds up with a right exactness flag; roots are enclosed.", "quantifier": "every size of integers, every canonical argument", "why_tests_cant": "each operation multiplies and divides by gcds; the range of cases with signs, common factors and sizes is out of reach of samples", "anchors": [{"file": "num/numrat_native.h", "symbols": ["numrat_canonicalize", "numrat_set_numint2", "numrat_neg", "numrat_inv", "numrat_abs", "numrat_add", "numrat_add_uint", "numrat_sub", "numrat_sub_uint", "numrat_mul", "numrat_mul_2", "numrat_div", "numrat_div_2", "numrat_floor", "numrat_ceil", "numrat_trunc", "numrat_pow", "numrat_root", "numrat_mul_2exp", "numrat_cmp", "numrat_cmp_int", "numrat_equal", "numrat_min", "numrat_max", "numrat_integer", "numrat_snprint", "int_set_numrat"]}, {"file": "num/numrat_mpq.h", "symbols": ["numrat_root"]}]}
{"id": "C148", "title": "Quasi-linearisation at levels 0 and 1", "statement": "ap_eval_linexpr0 bounds every value of an interval linear expression on an abstract value, by the least interval over its bounding box with exact numbers; ap_quasilinearize_linexpr0, .._linexpr0_array, .._lincons0 and .._lincons0_array return an object that can be read, is quasi-linear (linear on request) and keeps all values or solutions on the abstract value; ap_abstract1_quasilinear_of_intlinear and ap_abstract1_intlinear_of_tree do the same at level 1 with a result the caller owns.", "quantifier": "every domain whose bounding boxes are right, every abstract value that is not bottom, every expression, constraint or array in its dimensions, every rounding (arrays of constraints: exact numbers)", "why_tests_cant": "soundness is over all points, coefficients and domains; the defects are reads of the wrong type of object, freed or uninitialised memory, which may appear to work", "anchors": [{"file": "apron/ap_linearize.c", "symbols": ["ap_eval_linexpr0", "ap_quasilinearize_linexpr0", "ap_quasilinearize_linexpr0_array", "ap_quasilinearize_lincons0", "ap_quasilinearize_lincons0_array"]}, {"file": "apron/ap_linearize_aux.c", "symbols": ["quasilinearize_alloc", "ap_intlinearize_texpr0_intlinear"]}, {"file": "apron/ap_lincons0.c", "symbols": ["ap_lincons0_array_type"]}, {"file": "apron/ap_generic.c", "symbols": ["ap_generic_meet_quasilinearize_lincons_array"]}, {"file": "apron/ap_abstract1.c", "symbols": ["ap_abstract1_quasilinear_of_intlinear", "ap_abstract1_intlinear_of_tree"]}]}
{"id": "C149", "title": "Managers and abstract values: no use after free, no leak", "statement": "In a program that only passes managers it holds a reference to and abstract values it has not freed, no call of the level 0 interface reads or frees a freed object, gives a value to the functions of another library, or fails the assertion on the counter; a manager lives exactly as long as the program holds a reference or one of its abstract values exists, its counter is the number of these references, its internal part is freed once; when the program has freed everything nothing is left. This includes calls that raise exceptions because of managers of the wrong library.", "quantifier": "every sequence of calls (of any length, with any number of managers, libraries and abstract values), every setting of the abort options", "why_tests_cant": "the interleavings of copies, frees, destructive operations and exceptions over several managers are unbounded, and a use after free may appear to work", "anchors": [{"file": "apron/ap_manager.c", "symbols": ["ap_manager_free", "ap_manager_raise_exception"]}, {"file": "apron/ap_manager.h", "symbols": ["ap_manager_copy"]}, {"file": "apron/ap_abstract0.h", "symbols": ["ap_abstract0_cons", "ap_abstract0_cons2", "_ap_abstract0_free"]}, {"file": "apron/ap_abstract0.c", "symbols": ["ap_abstract0_checkman1", "ap_abstract0_checkman2", "ap_abstract0_copy", "ap_abstract0_free", "ap_abstract0_meetjoin"]}]}
{"id": "C150", "title": "Options, exceptions and three-valued logic of managers", "statement": "Options of functions and abort options are read as set, setting one leaves the others; an exception aborts if its option says so and otherwise is logged first, stored in exn and both precision flags become false; an operation on a value of another library raises AP_EXC_INVALID_ARGUMENT; exn is the exception of the last called function; the connectives of tbool_t are the best ones.", "quantifier": "every manager, option, exception, function identifier, reachable state and call", "why_tests_cant": "the claim is about all states and histories: the stored exception is wrong only after a failing call followed by a successful one", "anchors": [{"file": "apron/ap_manager.c", "symbols": ["ap_manager_alloc", "ap_manager_get_funopt", "ap_manager_set_funopt", "ap_manager_set_abort_if_exception", "ap_manager_raise_exception", "ap_result_add_exception", "ap_manager_clear_exclog"]}, {"file": "apron/ap_manager.h", "symbols": ["ap_result_t", "tbool_of_int", "tbool_or", "tbool_and", "tbool_not"]}, {"file": "apron/ap_abstract0.c", "symbols": ["ap_abstract0_checkman1", "ap_abstract0_checkman_array"]}]}
{"id": "C151", "title": "Zonotopes: equality, inclusion, meet and join", "statement": "For abstract values of taylor1plus without constrained noise symbols: values reported as equal have the same points; if t1p_is_leq returns true every point of the first value is a point of the second; every common point of two values is a point of their meet; every point of either value is a point of their join and within its box; none of these operations changes the points of any abstract value that exists.", "quantifier": "every state of the manager (objects, noise symbols, forms shared between dimensions and values), every pair of abstract values, every rounding (joins of forms: exact arithmetic)", "why_tests_cant": "the forms of a value depend on its whole history and values share forms; a test only compares boxes, and the relations between dimensions that are lost or invented do not show in boxes", "anchors": [{"file": "taylor1plus/t1p_constructor.c", "symbols": ["t1p_is_eq", "t1p_is_leq"]}, {"file": "taylor1plus/t1p_meetjoin.c", "symbols": ["t1p_meet", "t1p_join"]}, {"file": "taylor1plus/t1p_internal.h", "symbols": ["t1p_aff_is_eq", "t1p_aff_is_leq_constrained", "t1p_aff_join_constrained6", "argmin"]}]}
{"id": "C152", "title": "Zonotopes: widening", "statement": "For abstract values of taylor1plus without constrained noise symbols: every point of either argument is a point of the widening and within its box; in any sequence of widenings the box of each dimension changes a bounded number of times, and so do the values; a widening changes the points of no other abstract value; the flags it sets are right.", "quantifier": "every state of the manager, every pair of abstract values, every infinite sequence of widenings, every rounding (points of the result: exact arithmetic)", "why_tests_cant": "stabilisation is a property of infinite sequences; a test observes boxes of a few iterations and not the forms behind them", "anchors": [{"file": "taylor1plus/t1p_otherops.c", "symbols": ["t1p_widening"]}, {"file": "taylor1plus/t1p_internal.h", "symbols": ["t1p_aff_widening_constrained6"]}, {"file": "itv/itv.h", "symbols": ["itv_widening"]}]}
{"id": "C153", "title": "Arrays of constraints and generators own their elements", "statement": "An operation on an array of constraints (or generators) that owns its contents is defined and frees exactly what it says: clear frees what the array holds, resize frees the entries that are cut off, keeps the others and makes the new ones null, set frees the old entry, takes over the constraint and gives up one reference to its environment, and changes nothing if it is refused. A client that makes an array, builds and clears constraints, stores them, clears entries, resizes the array and extends its environment, in any order, never frees a block twice, uses nothing after it was freed, and leaves at the end exactly the blocks and reference counts of the beginning.", "quantifier": "every heap, every size of array, every sequence of calls of any length, every relation between environments", "why_tests_cant": "a double free or leak depends on the order of calls and on who holds which pointer; a test runs a few orders, and often nothing visible happens", "anchors": [{"file": "apron/ap_lincons0.c", "symbols": ["ap_lincons0_array_make", "ap_lincons0_array_resize", "ap_lincons0_array_clear"]}, {"file": "apron/ap_tcons0.c", "symbols": ["ap_tcons0_array_resize", "ap_tcons0_array_clear"]}, {"file": "apron/ap_generator0.c", "symbols": ["ap_generator0_array_resize", "ap_generator0_array_clear"]}, {"file": "apron/ap_lincons1.c", "symbols": ["ap_lincons1_clear", "ap_lincons1_array_make", "ap_lincons1_array_clear", "ap_lincons1_array_get", "ap_lincons1_array_set", "ap_lincons1_array_extend_environment_with"]}, {"file": "apron/ap_environment.h", "symbols": ["ap_environment_copy", "ap_environment_free"]}]}
{"id": "C154", "title": "fppol: constraints in floating point stay sound", "statement": "A point within the bounds of the variables that satisfies an inequality with interval coefficients (for some choice in the intervals) satisfies the linear inequality that quasi_linearisation returns, and the inequality is not reported unsatisfiable; an inequality with numbers as coefficients is returned as it is. A point within the bounds that satisfies a constraint satisfies the constraint after normalise_steep_inequality (whose recursion ends), normalise_integer_inequality and normalise_quasiInteger_inequality, which keep near-integer coefficients near and write only to their own memory. Bound propagation only tightens a bound, and loses no point.", "quantifier": "every number of variables and constraints, every point, every rounding upward and downward, every function giving exponents", "why_tests_cant": "soundness is about all real points and all roundings of all operations; a test sees a few doubles, where most roundings are exact", "anchors": [{"file": "fppol/quasi_linear.c", "symbols": ["quasi_linearisation", "normalise_steep_inequality", "normalise_quasiInteger_inequality", "normalise_integer_inequality", "normalise_integer_inequality_withConstant", "ngcd"]}, {"file": "fppol/bt.c", "symbols": ["bt_half_kthvar_by_bound_propagation"]}, {"file": "fppol/numitv.c", "symbols": ["numitv_mul", "numitv_add", "num_add_downward", "num_div_downward"]}]}
{"id": "C155", "title": "fppol: eliminating a variable and assigning lose no point", "statement": "If a point is within the bounds and satisfies the constraints, then after fm_elimination of a variable the point satisfies the constraints that are left, whatever the value of the variable becomes, the result is not the empty polyhedron and the bounds of the other variables are the same. If arithmetic happens to be exact, a point satisfies the constraints that are left exactly when some value of the variable makes it satisfy the constraints given (the projection), every point does when the universe is returned and none when the empty polyhedron is. After an assignment by substitution the image of each point satisfies the constraints, and the memory read is that of a constraint; an assignment that does not read its variable adds rows that hold exactly at the assigned value. A variable that occurs in no constraint keeps all its values.", "quantifier": "every number of variables and constraints, every point, every rounding upward and downward, every assignment", "why_tests_cant": "soundness is over all real points and all roundings; which of the five combinations is used for a pair of rows depends on the rounding of quotients and products", "anchors": [{"file": "fppol/fm.c", "symbols": ["fm_elimination"]}, {"file": "fppol/fppol_domain.c", "symbols": ["fppol_assign_bySubstitution", "fppol_project", "fppol_factorization"]}, {"file": "fppol/numitv.c", "symbols": ["numitv_add", "numitv_sub", "numitv_mul", "numitv_mul_number", "numitv_div_number"]}]}
{"id": "C156", "title": "fppol: the vectors that record where a constraint comes from", "statement": "Bit vectors of the same size behave as sets of row numbers: bv_or is union, bv_subset inclusion, bv_andTest tells whether two sets meet, bv_1bits is the number of elements, and the vector given to row i at the start is {i}. The vector of a row covers its history: a point within the bounds that satisfies the original rows of the vector satisfies the row; this holds at the start and is kept when two rows are combined by the elimination and their vectors are united. bv_redundancy_removal_firstKs_byKohler (with one vector at least) keeps rows in their order, every row it removes has a row that is kept whose set is included in its own, and no set of a row that is kept includes that of another; the lazy variant keeps all rows without the variable, in order, and every row it removes has a row that is kept with an included set.", "quantifier": "every number of rows and bytes, all vectors, every rounding in the elimination", "why_tests_cant": "the removal is done in place while rows are compared, so whether a row is removed together with its witness depends on the order of all pairs", "anchors": [{"file": "fppol/bv.c", "symbols": ["bv_or", "bv_subset", "bv_andTest", "bv_1bits", "bv_redundancy_removal_firstKs_byKohler", "bv_redundancy_removal_byKohler_lazy"]}, {"file": "fppol/fppol_domain.c", "symbols": ["fppol_initialize_bitVectors"]}, {"file": "fppol/fm.c", "symbols": ["fm_elimination"]}]}
{"id": "C157", "title": "fppol: lazy elimination loses no point and keeps vectors beside their rows", "statement": "If a point is within the bounds and satisfies the constraints, then after fm_elimination_lazy of a variable it satisfies the constraints that are left whatever the variable becomes, and the result is not the empty polyhedron, whichever pairs Kohler's rule drops. The result has as many vectors as rows; if the vector of each row given covers its history and has the common size, the same holds row by row for the result, and the variable is in no row. The constraints without the variable are all kept.", "quantifier": "every number of variables, rows and bytes, all vectors, every point, every rounding", "why_tests_cant": "the rows and the vectors are two arrays that are compacted separately, in different loops and for different reasons (Kohler's rule, tautologies after rounding); whether they stay aligned depends on the order of these events", "anchors": [{"file": "fppol/fm.c", "symbols": ["fm_elimination_lazy", "fm_elimination_combination"]}, {"file": "fppol/bv.c", "symbols": ["bv_redundancy_removal_byKohler_lazy", "bv_or", "bv_set"]}]}
{"id": "C158", "title": "fppol: the strong join contains the convex hull", "statement": "The constraints and bounds built by fppol_construct_convex_hull hold at every convex combination of a point of each argument, with its first part and its weight; conversely a solution whose weight is strictly between 0 and 1 is such a combination. When the added variables are eliminated one after the other by fm_elimination, in any order, whatever rows are dropped as redundant between the steps, every convex combination of a point of each argument satisfies the constraints that are left over the variables of the arguments, and the result is never the empty polyhedron. In particular the points of both arguments are kept. The reshaping of the coefficient of the weight loses no point whose weight is between 0 and 1.", "quantifier": "every number of variables and of constraints, all bounds, present or missing, all points and weights, every order of elimination, every rounding that keeps 0", "why_tests_cant": "soundness of a join is about every point of two polyhedra, over chains of eliminations each of which rounds; a test compares a few results", "anchors": [{"file": "fppol/fppol_domain.c", "symbols": ["fppol_construct_convex_hull", "fppol_strong_join", "fppol_reshape_steep_ineqs"]}, {"file": "fppol/fm.c", "symbols": ["fm_elimination"]}]}
{"id": "C159", "title": "fppol: a test that answers true is right", "statement": "If fpp_is_leq answers true, every point of the first polyhedron is in the second; if fpp_is_eq answers true the polyhedra have the same points; if fpp_sat_lincons answers true every point satisfies the constraint.", "quantifier": "every number of variables and of constraints, every point, every answer of the solver of linear programs that is an upper bound", "why_tests_cant": "the answer goes through a floating-point solver that may fail, and a third truth value stored in a bool; a test sees the cases where the solver succeeds", "anchors": [{"file": "fppol/fpp_predicate.c", "symbols": ["fpp_is_leq", "fpp_is_eq", "fpp_sat_lincons"]}, {"file": "fppol/fppol_domain.c", "symbols": ["fppol_is_eq_bySyntactic", "fppol_is_leq_bySyntactic", "fppol_inclusion_byBound", "fppol_inclusion_byRLP", "fppol_inclusion_byEpsilonLP", "vector_cmp"]}, {"file": "fppol/fpp_config.h", "symbols": ["dntknow", "EPSILON"]}]}
{"id": "C160", "title": "fppol: the meet has the common points, the widening those of both arguments", "statement": "The points of fppol_intersection are those in both arguments, and its bounds hold. If the first argument is in the second, the result of fppol_widen_standard has the points of both; its rows, unless it is the second argument, are rows of the first that hold over the second, and rows of the second that hold over the first and can replace one of its rows without changing it. The widening stays within its arrays.", "quantifier": "every number of variables and of constraints, all bounds, every point, every solver of linear programs whose optima are upper bounds", "why_tests_cant": "the choice of the rows goes through the answers of a solver; the fixed-size array is only overrun by polyhedra of a thousand rows", "anchors": [{"file": "fppol/fppol_domain.c", "symbols": ["fppol_intersection", "fppol_envelope_half", "fppol_widen_standard", "fppol_entailment"]}]}
