{
 "C04": {
  "note": "Partial: sound unless the exponent is odd and the base is unbounded below, where the code returns an empty interval (C04_pow_unsound)."
 },
 "C06": {
  "note": "Partial: ceil and floor are fully proved; truncation is proved when no integer bound is exactly 0; the code drops values otherwise (C06_untrunc_unsound) and for to-nearest/unspecified rounding (C06_from_int_unsound)."
 },
 "C41": {
  "note": "Partial: parallel assignment is fully sound; single assignment is sound unless a general (non-octagonal) expression mentions the last dimension, where the code drops successors (C41_assign_unsound). Exact on unit expressions."
 },
 "C15": {
  "note": "Partial: meeting with the destination is exact unless the destination is bottom: the code then returns the source unchanged instead of bottom (C15_assign_dest_bottom)."
 },
 "C18": {
  "note": "Partial: proved for every non-zero modulus; with modulus 0 the code divides by zero (C18_eqmod_division_by_zero)."
 },
 "C24": {
  "note": "Partial: the generators describe the box exactly when no dimension is bounded on one side only; for half-bounded dimensions the code emits wrong vertices and rays (C24_half_bounded_wrong, C24_half_bounded_unsound)."
 },
 "C16": {
  "note": "Rational arithmetic: fully proved (soundness, reduction, well-formedness, exactness for unary constraints). Partial for other number types: scalar representable coefficients; interval coefficients are unsound under rounding (C16_rounding_unsound)."
 },
 "C54": {
  "note": "No integer solution is lost (all number types). Partial: exact except for an equality without integer solution, which the code turns into a satisfiable one (C54_equality_not_exact)."
 },
 "C63": {
  "note": "Partial: exact arithmetic; with rounding a stale flag makes the code drop solutions (C63_quasilinearize_array_unsound)."
 },
 "C50": {
  "note": "Partial: sparse expressions are covered in full; dense expressions when they are at least as long as the insertion positions / have the size of the permutation. On shorter dense expressions the code copies coefficients (C50_add_short_dense_wrong) or writes outside of the array (C50_permute_short_dense_overflow)."
 },
 "C51": {
  "note": "Partial: scalars are a total order; intervals on non-empty intervals (C51_interval_cmp_empty_wrong otherwise); expression equality is right when it returns, but crashes with free slots (C51_linexpr_equal_crash); expression comparison loses the sign (C51_linexpr_compare_not_order)."
 },
 "C52": {
  "status": "partial",
  "note": "The claim is false: the result of ap_coeff_equal_int is the opposite on every scalar (C52_coeff_equal_int_wrong); the scalar and interval tests are right."
 },
 "C53": {
  "note": "Partial: every legal argument is accepted; the theorems say exactly which illegal ones are accepted too (C53_accepts_illegal)."
 },
 "C67": {
  "note": "Partial: exact when the space has a dimension; C67_accepts_dim_zero otherwise."
 },
 "C68": {
  "note": "Partial: terminates and keeps the values; but sparse expressions are modified and equal expressions get different codes (C68_hash_mutates, C68_hash_not_equal)."
 },
 "C46": {
  "note": "Partial: all operations proved; removing the same variable twice aborts instead of being refused (C46_remove_duplicate_aborts), and lce_array on three or more equal environments does not return a NULL array of changes (C46_lce_array_same_not_null)."
 },
 "C47": {
  "note": "Partial: the change to a super-environment is right; other environments may be accepted with a wrong change (C47_dimchange_accepts_wrong) and values may be written outside of the allocated array (C47_dimchange_overflow); with the same integer variables they are never accepted (C47_dimchange_same_ints)."
 },
 "C76": {
  "note": "Partial only in what the domains guarantee (tree expressions without powers; octagon assignment of two variables or more) and for environments that are not included, which may be accepted (C76_wrong_environment_accepted). The translation itself is proved in full for included environments."
 },
 "C78": {
  "note": "A constant exponent that is not a natural number gives an unspecified power in the model of values (so such trees denote every constant); the classification accepts them."
 },
 "C57": {
  "note": "Proved for every domain with sound (exact) primitives, with instances for boxes; distinct targets and full-length dense expressions are needed (C57_duplicate_targets_not_permutation, C57_short_dense_unsound)."
 },
 "C58": {
  "note": "For every domain, with instances for boxes and octagons. Without the inclusion precondition the first argument may be lost (C58_widening_threshold_wrong)."
 },
 "C56": {
  "note": "Partial: LinSafe excludes odd powers of possibly unbounded-below bases (C56_pow_unsound) and modulo of floating-point type (C56_mod_float_unsound); proved for every outward rounding of the bounds."
 },
 "C59": {
  "note": "Single expressions and single constraints report failure and are sound. The array form is sound when every constraint is interval linear; when one is not, it returns the unsatisfiable array instead of reporting (C59_array_failure_not_reported)."
 },
 "C19": {
  "note": "Partial: the HC4 algorithm under Safe (see counterexamples nearest/trunc/underflow); the legacy algorithm (code below 100) for rational arithmetic under LinSafe; with native floating-point arithmetic the legacy algorithm drops points (C19_legacy_stale_flag_unsound)."
 },
 "C88": {
  "status": "proved",
  "note": "Exactness for every mode and every combination of matrices. Precondition for the destructive strict version, with the defect (NULL dereference) proved."
 },
 "C89": {
  "status": "partial",
  "note": "pk_join fully proved. pk_join_array proved when no address occurs more than twice; the code violates the property otherwise, proved by a witness (three aliases)."
 },
 "C90": {
  "status": "proved",
  "note": "pk_is_eq is not covered here."
 },
 "C91": {
  "status": "partial",
  "note": "Soundness proved for all constraints. Exactness proved for real dimensions and non-strict numeric constraints; the code is not exact otherwise although flag_exact is set, proved by witnesses (strict constraint; integer equality)."
 },
 "C92": {
  "status": "proved",
  "note": "pk_bound_dimension and pk_to_box, all representations."
 },
 "C93": {
  "status": "partial",
  "note": "Soundness for all interval expressions; optimality for numeric ones; a witness shows that it fails for interval coefficients."
 },
 "C94": {
  "status": "proved",
  "note": "Vertices are excluded by an assertion of the code; coefficients are numeric."
 },
 "C95": {
  "status": "partial",
  "note": "Soundness proved; exactness proved for real dimensions; defect for integer lower bounds proved by a witness."
 },
 "C96": {
  "status": "partial",
  "note": "Soundness proved except for equalities with interval coefficients, for which the code is wrong (witness); completeness proved for numeric non-strict constraints on real dimensions."
 },
 "C97": {
  "status": "proved",
  "note": "Intervals whose bounds are not the wrong infinity."
 },
 "C98": {
  "status": "proved",
  "note": "The precondition (a included in b) is documented; outside of it a null dereference is proved."
 },
 "C99": {
  "status": "proved",
  "note": "Proved with a lexicographic measure: number of equalities, then number of facets other than positivity."
 },
 "C100": {
  "status": "partial",
  "note": "Bounds and termination proved for non-empty first argument; thresholds kept proved for numeric non-strict constraints on real dimensions; a witness shows the inconsistent result when the first argument is empty."
 },
 "C101": {
  "status": "proved",
  "note": "Real dimensions; the memory exceptions are not modelled."
 },
 "C102": {
  "status": "partial",
  "note": "Exact for every non-empty change; with an empty change and known sorted generators the code reads a row out of bounds (witness)."
 },
 "C103": {
  "status": "proved",
  "note": "Removal exact on the rational points."
 },
 "C104": {
  "status": "partial",
  "note": "Assignment is proved without restriction. Substitution in strict mode with a destination needs a non-empty result (defect C104_substitute_null_dereference). Expressions with interval coefficients go through the generic code (C57)."
 },
 "C105": {
  "status": "proved",
  "note": ""
 },
 "C106": {
  "status": "proved",
  "note": ""
 },
 "C107": {
  "status": "proved",
  "note": ""
 },
 "C108": {
  "status": "proved",
  "note": ""
 },
 "C109": {
  "status": "partial",
  "note": "Exactness needs normalised matrices. C109_is_eq_wrong: the destructive assignment of an expression with a denominator multiplies the status column, after which pk_is_eq on the canonical forms of equal polyhedra is false (an assertion fails without NDEBUG)."
 },
 "C110": {
  "status": "proved",
  "note": ""
 },
 "C111": {
  "status": "proved",
  "note": "C111_manager is the specification that C46/C70-C76 need from a domain, with the exactness flag True."
 },
 "C112": {
  "status": "partial",
  "note": "Assignment is proved in full; the substitution theorem excludes the null dereference of C104 (C112_substitute_linexpr_sound_partial)."
 },
 "C113": {
  "status": "partial",
  "note": "LinSafe as in C56; equalities need a linear form with scalar coefficients: C113_sat_tcons_unsound is the counterexample (stale equality flag)."
 },
 "C114": {
  "status": "partial",
  "note": "LinSafe and PowSafe as in C56 and C46 (known defects of powers)."
 },
 "C115": {
  "status": "partial",
  "note": "Inclusion, validity and dimensions are unconditional; soundness needs LinSafe as in C56."
 },
 "C116": {
  "status": "partial",
  "note": "Trees without powers and with remainders on integers or reals; in strict mode with a destination the result before the meet must be non-empty (null dereference, C104_substitute_null_dereference)."
 },
 "C117": {
  "status": "proved",
  "note": ""
 },
 "C118": {
  "status": "proved",
  "note": "The components' functions are parameters; their soundness is a hypothesis, discharged for boxes and polyhedra by other properties. C118_flag_exact_wrong is a defect."
 },
 "C119": {
  "status": "proved",
  "note": "Substitutions with a negative `algorithm` are left out of the histories (see C42); intervals of boxes must not be [+oo,+oo] or [-oo,-oo]; interval expressions must have proper coefficients."
 },
 "C120": {
  "status": "partial",
  "note": "Meet is undefined on disjoint values (C120_meet_of_disjoint_undefined) and join_array of three or more empty values is not a legal value (C120_join_array_of_bottoms_wrong); the full statement holds outside these cases."
 },
 "C121": {
  "status": "partial",
  "note": "Bounds and to_box are sound only if the first disjunct is not empty (C121_bound_unsound, C121_to_box_unsound); expand is unsound (C121_expand_unsound)."
 },
 "C122": {
  "status": "partial",
  "note": "Addition, negation and scaling are proved in full; subtraction, product, division, square root and reduction under explicit conditions, since the code is wrong without them (C122_sub_wrong, C122_mul_wrong, C122_reduce_wrong). Constrained noise symbols are modelled in Defs but not proved."
 },
 "C123": {
  "status": "proved",
  "note": "Intervals with a lower bound +oo or an upper bound -oo are excluded. For rounding arithmetic of_box needs finite middles (always true of exact arithmetic)."
 },
 "C124": {
  "status": "partial",
  "note": "Sound under the conditions of C122 at each node and for nodes of type real; C124_assign_top_wrong, C124_assign_square_wrong, C124_assign_type_wrong show that the unconditional statement is false. The invariant is kept unconditionally."
 },
 "C125": {
  "status": "proved",
  "note": "Exact (rational) arithmetic; any reduction threshold >= 0."
 },
 "C126": {
  "status": "partial",
  "note": "Removal is proved in full; addition when all positions are equal; forgetting for dimensions 0..k-1. C126_add_wrong, C126_permute_wrong, C126_forget_wrong, C126_project_wrong show that the rest is false."
 },
 "C13": {
  "note": "Partial: sound except for odd powers of an argument unbounded below, where the code loses values (C13_bound_texpr_unsound); unconditional for trees without power (C13_bound_texpr_sound_nopow)."
 },
 "C14": {
  "note": "Linear expressions fully proved (sound, best, well-formed, with destination). Trees partial: the condition on odd powers inherited from C13 (C13_bound_texpr_unsound)."
 },
 "C17": {
  "note": "Linear constraints fully proved (sound and complete), and bounds. Trees partial: the condition on odd powers inherited from C13 (C13_bound_texpr_unsound)."
 },
 "C20": {
  "note": "Partial: even exponents on integers and reals without rounding; the code loses solutions otherwise (C20_pow_refine_unsound)."
 },
 "C74": {
  "note": "Partial: distinct known variables of one type; the function aborts on repeated variables (C46_remove_duplicate_aborts) and yields an ill-formed value on mixed types (C74_fold_mixed_types)."
 },
 "C80": {
  "note": "Partial: all types of constraints except those for which the code is wrong: C80_is_unsat_eqmod_wrong, C80_is_unsat_diseq_wrong, C80_is_sat_diseq_wrong."
 },
 "C81": {
  "note": "Partial: disequalities are excluded (the code is wrong on them, C81_sat_tcons_diseq_unsound); LinSafe/PowSafe exclude the remainders on floating-point types and the powers on which the evaluation is wrong (C56)."
 },
 "C82": {
  "note": "Partial: LinSafe/PowSafe exclude the remainders on floating-point types and the powers on which the evaluation is wrong (C56)."
 },
 "C83": {
  "note": "Partial: exact numbers; LinSafe excludes the remainders on floating-point types and the powers on which the evaluation is wrong (C56)."
 },
 "C127": {
  "status": "partial",
  "note": "Partial: exact numbers, trees without power and with remainders on integers or reals only (the conditions of C83)."
 },
 "C128": {
  "status": "partial",
  "note": "Partial: GMP numbers when char is signed (C128_mpz_unsigned_char_wrong); MPFR numbers are not read back (C128_mpfr_wrong; C128_mpfr_value tells exactly what is read). Native and compound types fully proved."
 },
 "C129": {
  "status": "partial",
  "note": "Fully proved relative to the round trip of numbers, dimensions below 2^32; partial as C128 is for some number types."
 },
 "C130": {
  "status": "proved",
  "note": "Instance with octagons: C130_product_oct."
 },
 "C131": {
  "status": "partial",
  "note": "Missing: array operations with a negative algorithm option of their own (pkeq_join_array writes the option of another function; C131_join_array_lazy_not_affine), hull of integer/strict constraints and of boxes with integer dimensions or empty boxes (C131_of_box_empty_not_best), equality on unnormalised matrices, meet with tree constraints."
 },
 "C132": {
  "status": "partial",
  "note": "Missing because false: expressions with a scalar constant and interval coefficients (C132_assign_interval_coefficient_unsound), substitution arrays that mix scalar and interval constants (C132_substitute_mixed_unsound)."
 },
 "C134": {
  "status": "proved",
  "note": "Non-strict mode. pk_hash on unbounded integers."
 },
 "C135": {
  "status": "partial",
  "note": "Algorithm 3 is unsound (C135_octagon_unsound): the constraint for an upper bound b of an octagonal expression says that the expression is at most -b; C135_octagon_partial covers the case without positive upper bounds. The size claim is false for the outer rounding of 11 and 12 (C135_outer_not_small)."
 },
 "C133": {
  "status": "partial",
  "note": "C133_reduce_sound, C133_reduce_total, C133_reduce_empty and C133_reduce_equalities are proved in full. C133_reduce_tightens_partial: a congruence is used only if no congruence before it had its upper bound changed; the others are skipped because the inner loop over terms reuses the index of the main loop, and C133_skips_constraints proves it on a concrete square. Tightening with integer dimensions is not stated. The PPL grids are not modelled: their functions are the parameters of GridSpec, for which two instances are given."
 },
 "C136": {
  "status": "partial",
  "note": "Proved for the three domains with exact rationals and for functional calls. Missing: octagon assignments of one dimension that meet the defect C41_assign_unsound are excluded from legal programs (OctLA); tree expressions; rounded number types; the analysis itself is client code (Verif/Client/Analysis.lean), not code of the repository."
 },
 "C137": {
  "status": "proved",
  "note": "all closures of avo_closure.c modelled; defects C137_strong_31, C137_strict_emptiness_undetected, C137_strict_clash"
 },
 "C138": {
  "status": "proved",
  "note": "defect C138_meet_array_null"
 },
 "C139": {
  "status": "proved",
  "note": "stabilisation is for the left operands as returned by the widening (not cached in between)"
 },
 "C140": {
  "status": "partial",
  "note": "is_leq, is_eq, is_dimension_unconstrained and to_lincons_array are unsound in the code (witnesses proved); the partial theorems cover the constraints without absolute values"
 },
 "C141": {
  "status": "partial",
  "note": "disequalities, and general constraints on values with strict marks, are unsound in the code (witnesses proved)"
 },
 "C142": {
  "status": "partial",
  "note": "forget, add, remove, permute proved; the claims on the argument of forget and on fold are refuted (C142_forget_changes_argument, C142_fold_empty, C142_fold_unsound). avo_expand is modelled without a theorem."
 },
 "C143": {
  "status": "partial",
  "note": "Proved when the sign of the assigned variable is known. C143_shift_sound: x := x + [a,b], any mode. C143_assign_partial: any expression, when the closure is not kept (algorithm < 0 or dest given) and either the variable does not occur in the expression or it has no strict bound; an expression on the last variable must be +-x + [a,b] because of the scratch cells. The other cases are refuted or missing: C143_assign_constant_unsound, C143_assign_opposite_unsound, C143_assign_bottom_undefined, C143_assign_loses_diagonal. Splitting on the sign is modelled without a theorem."
 },
 "C144": {
  "status": "partial",
  "note": "Boxes and arrays of boxes: proved in full for an old policy that is given. Constraints: soundness for every policy when equalities have scalar coefficients (C144_lincons_apply_sound_partial), optimality of the improvement for scalar coefficients (C144_lincons_improved_least). The rest is refuted: C144_improve_null, C144_hash_constant, C144_equality_interval_unsound, C144_reduced_array_overrun, C144_diseq_undefined, C144_improve_interval_not_least, C144_lincons_improve_not_stable. Rational numbers only for constraints."
 },
 "C145": {
  "status": "proved",
  "note": "Words of any width. The rows that satmat_resize_rows adds are not initialised: nothing is claimed on their bits. satmat_free, the sorting of matrices with their saturation rows and printing are not covered here."
 },
 "C146": {
  "status": "partial",
  "note": "All but powers and a conversion test. Defects: powers of zero are reported as overflows, the loop of numint_pow squares once too many so that first powers above the square root of NUMINT_MAX overflow, where signed overflow wraps a wrong power is returned without report, double_fits_numint accepts 2^63. numint_sqrt, which works on doubles, is not modelled."
 },
 "C147": {
  "status": "partial",
  "note": "Roots only of non-negative numbers. Defects: the bounds of roots of negative numbers are exchanged (also with GMP), numrat_snprint prints the numerator twice, divisions by zero and zero denominators pass an assertion on an address, canonicalisation does not make the denominator positive, an unsigned long above NUMINT_MAX is read as negative."
 },
 "C148": {
  "status": "partial",
  "note": "Expressions, arrays of expressions and single constraints for all roundings; arrays of constraints with exact numbers and without linearisation. Defects: ap_lincons0_array_type always answers LINEAR, so that linearisation on request returns the array unchanged and otherwise the flag exact is never written; the generic meet and both level 1 functions pass a value of the domain where an ap_abstract0_t is read; level 1 results alias the argument or are freed; ap_intlinearize_texpr0_intlinear uses freed and uninitialised pointers when it succeeds; sparse results may be unsorted."
 },
 "C149": {
  "status": "proved",
  "note": "By an invariant over all reachable states. Modelled calls: allocation, copy and free of managers, options, top, copy, free, binary tests, meet/join (destructive or not, with checks and exceptions). Defect: ap_abstract0_free announces to detect a second free, but its test reads the freed object."
 },
 "C150": {
  "status": "partial",
  "note": "All but the meaning of exn. Defects: no call ever resets exn (nor does clearing the log), so it is not the exception of the last called function; the getters ap_manager_get_exception and ap_manager_get_exclog are declared in ap_manager.h but defined nowhere."
 },
 "C151": {
  "status": "partial",
  "note": "Meets are sound; boxes of joins and of inclusion tests are right; existing values are kept. Equality, inclusion and joins are sound only under conditions on the forms shared by several dimensions or taken over from one argument, stated in the theorems; without them they are unsound (defects: a point off the diagonal is reported as included in, and lost by the join with, a value with x = y; equality does not compare which dimensions share a form). Meets of forms that differ are top. Joins of forms are proved in exact arithmetic."
 },
 "C152": {
  "status": "partial",
  "note": "Boxes have both arguments and change at most three times in a sequence; other values are kept. The points of both arguments are points of the result only if no dimension takes over a form of the other argument (without this a point is lost: defect). Forms never become stationary: each widening by [-1,1] gives a value that differs from the one before (defect). flag_exact is always set (defect)."
 },
 "C153": {
  "status": "proved",
  "note": "Proved for clients that follow the header files. Two defects outside of these rules are proved as well: a cleared array of (linear or tree) constraints keeps its size with a null pointer (arrays of generators do not), so resizing it is undefined; storing the result of get at its own index leaves dangling pointers in the array."
 },
 "C154": {
  "status": "partial",
  "note": "Proved for quasi-linearisation, the steep and the integer normalisation, and bound propagation, for every rounding without overflow. The quasi-integer normalisation is proved sound if the differences of coefficients are not rounded towards 0 (true for doubles that are close; a counterexample without it is proved). Defects: coefficients nearly an integer are set to 0 instead of this integer, which can lose a whole constraint; normalise_integer_inequality_withConstant writes past its buffer."
 },
 "C155": {
  "status": "partial",
  "note": "Proved for every rounding without overflow, and that the elimination is the projection in exact arithmetic. Missing: bit vectors, the lazy variant, redundancy removal, and the bounds of the assigned variable (hypothesis). Defects: the substitution copies from NULL when the new constraint is a tautology (a quotient that is not a double and a missing bound); the bounds of a variable without constraint become [0,0]."
 },
 "C156": {
  "status": "proved",
  "note": "All of the statement. That Kohler's rule removes redundant rows only (exactness of the elimination) is not stated; removing rows is sound in any case. Limits shown: without a vector the loop bound wraps around and the arrays are read outside; the lazy variant is not minimal."
 },
 "C157": {
  "status": "proved",
  "note": "All of the statement, without overflow. One call of realloc resizes the vectors of the caller instead of its own (fm.c:538); they are freed afterwards, so it has no effect that the model shows."
 },
 "C158": {
  "status": "proved",
  "note": "All of the statement, without overflow. The reshaping assumes an exact subtraction. Not in it: the normalisation of steep inequalities between the steps (C154), the envelope, and the tightening of the result (fppol_strong_join after the loop). Dropped rows are arbitrary, which covers Kohler's rule and the redundancy removals. C158_hull_closure shows why the weight must be less than 1 in the converse."
 },
 "C159": {
  "status": "partial",
  "note": "Proved: the answer 1 of fppol_is_leq_bySyntactic and of fppol_inclusion_byRLP is right; fpp_is_eq is right if no row of the first argument is there twice, and in every case the second argument is then in the first; a polyhedron without two rows of the same coefficients is included in itself whatever the solver says. The full statement is false. fpp_is_leq answers 2, which is true, when the solver fails (C159_is_leq_unknown); it takes every other end of the solver for entailment (C159_is_leq_other); it allows a relative error of 1.0e-3 (C159_is_leq_epsilon, C159_is_leq_partial). fpp_is_eq is wrong with duplicate rows (C159_is_eq_duplicates). fpp_sat_lincons always answers true (C159_sat_lincons). No rounding in the comparison with EPSILON."
 },
 "C160": {
  "status": "partial",
  "note": "All of the statement except the last sentence, which is false: fppol_envelope_half clears ncons + 1 entries of an array of 1000, so with 1000 rows in the second argument it writes over the stack (C160_widening_many). C160_widening_needs_inclusion: without the inclusion the result may lose points of the first argument. Left out: the removal of redundant rows and the new bounds of the results."
 }
}