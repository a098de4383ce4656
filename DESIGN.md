# Formal model of APRON: design

Source: `/repo` (antoinemine/apron at the pinned commit), read as text, never built or run.
Model and proofs: `/verif/lean` (Lean 4.33.0 + Mathlib).

## 1. Trusted base

* Lean's kernel, and Mathlib's definitions used in statements (ordered fields, `List`, `Function.update`, floor/ceil).
* Axioms: every property theorem depends on a subset of `propext`, `Classical.choice`, `Quot.sound` (checked by `#print axioms`, see `Verif/Axioms.lean`). No own axioms, no `sorry`, no `native_decide`, no `bv_decide`.
* The hand translation C -> Lean. Each definition cites the file and lines it models.

### Common modelling decisions

* **Numbers.** `num_t` is an element of an arbitrary linearly ordered field `K` (so the theorems hold for `K = ℚ`, the MPQ build, and for `K = ℝ`, i.e. for all real points). Arithmetic that may round (`num_add`, `num_mul`, `num_div`, ...) goes through an arbitrary function `R.up : K → Bound K` with `q ≤ R.up q` (upward rounding, possibly overflowing to +oo). `Rnd.exact` is the exact instance. Soundness theorems quantify over every such `R`; optimality theorems use `Rnd.exact`. NaN, and the machine-integer overflow of the `NUM_LONGINT`/`LONGRAT` builds (documented unsound by the code itself, `num_safe 0`), are not modelled.
* **Bounds.** `bound_t` is `ninf | fin q | pinf` (the `num/bound_def.h` non-float branch).
* **Points** are functions `ℕ → K` (dimension to value).
* **Memory.** In-place updates of arrays are functional updates; `malloc`/`free`, reference counts, GMP internals, and aliasing of output and input pointers are not modelled unless a property is about them. Loops are folds over index ranges, in the order of the C code.
* **Concretisation** (`γ`, the set a value denotes) is a separate small specification (`Spec` files), defined by the meaning of the API documentation, not through the model's operations.

### Not modelled at all

Language bindings (OCaml, Java, C++, Python, Japron), PPL, printing, most of `fppol` (linear programming, weak join, redundancy removal, the domain functions; modelled: C154 to C160), most of the transfer functions of `avoct`, time-outs and out-of-memory, NaN; overflow of native numbers inside the domains (the native operations themselves are C146, C147). In newpolka: the strict mode of the manager (`pk_manager_alloc(true)`), the limits `max_coeff_size`/`max_object_size`; the grids of PPL (parameters of the model of `products/ap_pkgrid.c`), `ap_policy.c` (the wrappers of the policies). In taylor1plus: meet with constraints, values with constrained noise symbols (except C122), `dest`, reference counts; the functions that abort (`sat_*`, `bound_texpr`, `bound_linexpr`, `expand`, `fold`, `substitute`, `closure`, ...).

### Who proves what

`Verif/<Part>/*.lean` hold the model (files cited in section 4) and the helper lemmas; `Verif/Props/*.lean` hold the property theorems, named `Cnn_...`, each with examples showing that the hypotheses can be met. `MANIFEST.json` maps properties to theorems, `Verif/Axioms.lean` prints the axioms of every one of them. `seeded/LOG.jsonl` records the wrong programs tried against the theorems (`tools/mutate.py`).

## 2. Property by property

For each property: what is modelled, and how it is proved. "D:" marks a defect found in the code: the negation is proved on a concrete witness, and the true part is kept as a `_partial` theorem.

| id | modelled | proof |
|----|----------|-------|
| C01 | `bound_add`, `itv_add/sub/neg` | case analysis on infinities, any rounding |
| C02 | `itv_mul` and its 6 helpers | sign case analysis; tightness by exhibiting attained corners |
| C03 | `itv_div` and its helpers | sign case analysis |
| C04 | `itv_pow`, `bound_pow` | monotonicity of powers. D: `[-oo,b]^odd` gets lower bound +oo |
| C05 | `itv_trunc/ceil/floor/to_int`, `itv_round` | floor/ceil monotonicity |
| C06 | `itv_untrunc/unceil/unfloor/from_int` | floor lemmas. D: `untrunc` of a bound 0 is not enlarged |
| C07 | `itv_abs`, `itv_mod` | composition of C02/C03/C05 enclosures with a bound on the remainder |
| C08 | `itv_canonicalize/is_leq/is_eq/meet/join` | order reasoning |
| C09 | `bound_widening`, `itv_widening`, `box_widening` | rank function: number of finite bounds decreases |
| C10, C11 | `box_is_leq/is_eq/is_bottom/is_top/meet/join` | componentwise, witness points |
| C12 | `itv_eval_ap_linexpr0` | induction on the term list; range attained for scalars |
| C13 | `itv_eval_ap_texpr0` | structural induction over trees |
| C14, C15 | `box_assign_*` | from C12/C13. D: empty `dest` ignored |
| C16 | `itv_boxize_lincons(_array)`, `box_meet_lincons_array` | invariant over terms, constraints and passes |
| C17, C18 | `itv_eval_cstlincons`, `box_sat_lincons` | C12 + decision logic. D: inverted modulus test divides by 0 |
| C19, C20 | `itv_expr_build/bottom_up/top_down`, `itv_refine_*` | invariant: annotations contain the value at every solution. D: power refinement skips unrounding |
| C21, C22 | `box_resize.c`, `box_otherops.c` | list surgery lemmas |
| C23, C24 | `box_to_lincons_array`, `box_to_generator_array` | D: half-bounded dims produce wrong rays |
| C25 | `matpos`, `matpos2`, `matsize` | arithmetic, all sizes |
| C26-C28 | `hmat_s_step`, `hmat_close` | soundness: loop invariant (entailment); completeness: in-place passes are sandwiched between one relaxation and the pivot closure, algebraic Floyd-Warshall invariant; strong closure; existence/tightness by variable-by-variable extension |
| C29 | `hmat_close_incremental` | same machinery with the two loop nests |
| C30-C34 | `oct_is_leq/is_eq/meet/join/widening/narrowing` | pointwise matrix reasoning + tightness |
| C35, C36 | `oct_bound_dimension/to_box/of_box/to_lincons_array` | tightness |
| C37-C39 | `oct_forget`, `hmat_addrem_dimensions`, `hmat_permute`, `oct_expand/fold` | extension lemma gives exactness |
| C40-C43 | `hmat_add_lincons`, `hmat_assign`, `hmat_subst`, `oct_sat_lincons`, `oct_bound_linexpr` | entailment per case. D: `hmat_assign` tests the wrong accumulator |
| C44, C45 | `ap_dimension.c` | permutations, list insertion/removal |
| C46-C48 | `ap_environment.c` | merge/sort invariants. D: `dimchange` misses non-inclusion |
| C49, C50 | `ap_linexpr0.c` | sorted association list vs function. D: short dense expressions |
| C51, C52 | `ap_scalar/interval/coeff/linexpr0` comparison | total order laws. D: `ap_linexpr0_compare`, `ap_coeff_equal_int` |
| C53 | `ap_abstract0.c` argument checks | D: first element never compared; permutations not checked |
| C54 | `itv_lincons_reduce_integer` | gcd/lcm scaling |
| C55, C56 | `itv_quasilinearize_linexpr`, `itv_intlinearize_texpr0_rec` | value containment by induction. D: pow not rounded |
| C57, C58 | `ap_generic.c`, `ap_abstract0_widening_threshold` | parametric in the domain's primitives |
| C59 | `itv_intlinearize_ap_tcons0_array_intlinear` | D: shadowed variable |
| C62 | `box_add_ray_array` | generated hull of a box |
| C63 | `itv_quasilinearize_lincons_array` | value containment. D: stale flag `equality` |
| C64 | `ap_linexpr0_set_itv_linexpr`, `ap_lincons0_set_itv_lincons` | round trip |
| C66 | in-place `box_assign_texpr` | memory of cells, frame invariant |
| C67-C69 | argument checks, hashing and classification of linear expressions | D: dimension 0 in an empty space; hashing changes its argument |
| C70-C76 | `ap_abstract1.c` over any domain (`Man.Spec`) | environment lemmas + level-0 specification, instantiated on boxes, octagons, polyhedra |
| C77-C79 | `ap_texpr0.c` structure, tests, hashing | structural induction |
| C80-C83 | `ap_linearize_aux.c`, generic tree operations of `ap_generic.c` | C56 + bounding box |
| C84 | `pk_vector.c` | gcd, combination: sign and incidence facts |
| C85 | `cherni_conversion` | invariant of the double description: cone identity, saturation, adjacency (extremality) |
| C86, C87 | `cherni_minimize`, `cherni_add_and_minimize`, `cherni_simplify`, Gauss elimination | Farkas' lemma proved from C85, irredundancy |
| C88-C90 | `pk_meet/join(_array)`, `pk_is_bottom/top/leq` | cones of the homogenised polyhedra |
| C91-C97 | constraints, boxes, generators, bounds, satisfaction | row semantics + generators attain bounds |
| C98-C100 | `pk_widening`, thresholds | saturation-matrix search; termination by a rank (dimension of the affine hull, number of constraints kept) |
| C101-C107 | `pk_project.c`, `pk_resize.c`, `pk_assign.c`, `pk_expandfold.c` | images of both descriptions under linear maps |
| C108-C110 | `pk_canonicalize/minimize/is_eq/is_dimension_unconstrained` | uniqueness of the reduced sorted form of a cone |
| C111, C112 | the table of functions of newpolka; interval assignments | instance of `Man.Spec` with exactness; generic algorithm of C57 |
| C113-C116 | tree expressions on polyhedra: sat, bound, meet, assignment | structural lemmas on dimensions of linearised trees (`Texpr/LinearizeDims`), then C83, C91, C104, C111 |
| C117-C118 | reduced products over arbitrary domains | the product is `∀ i, A i`; reductions are functions that keep the set; `mapStop` models the early exit |
| C120-C121 | finite disjunctions over an arbitrary domain | value = list of disjuncts, union semantics; undefined behaviour and exceptions are `none`; counterexamples with boxes |
| C122 | affine forms (taylor1plus), with interval coefficients | values of a form under an assignment of the noise symbols; induction on the merge of sorted term lists; conditions of the partial theorems are on the operands |
| C123-C126 | abstract values of taylor1plus on a heap of shared forms | points = exists noise values; dimensions sharing a form have equal values; invariant of the manager; linear programs by point forms with tight bounds |
| C127 | assignment and substitution of trees in octagons | instance of C57 with the meet of C83 |
| C128-C130 | serialisation of numbers, octagons, products | byte memories; `RoundTrip` (read back, frame, size) closed under pairs, flags, arrays |
| C131-C132 | the linear-equality domain of newpolka | affine hulls: a set of the form `{x | A x = b}` contains a polyhedron iff it contains the lines and points of the non-redundant generators; shape of every operation; chains of affine subspaces are finite by dimension |
| C133 | reduced product of polyhedra and grids | the grid library is a structure of functions with a specification; bounds from C93, meet from C91, hull from `eqs_hull` |
| C134-C135 | conversions, hashing and approximation of polyhedra | rows of the canonical matrices read as constraints and generators; uniqueness of the canonical form; rounded rows are valid because the constant is the exact bound over the generators |
| C136 | whole analyses of structured programs with boxes, octagons and polyhedra | the client of `Verif/Client/Analysis.lean` is generic in a domain with a specification (`Dom.Spec`); soundness by induction on the recursion bound, termination by building an infinite widening sequence from a non-terminating loop; three instances assembled from C09-C16, C30-C41, C89-C99, C112 |
| C137 | closure of absolute-value octagons | the quantities are the variables and their absolute values (`ext`); every loop is a step that keeps a point and only tightens (`Ref`, `RefB`); the orthant of a point is one of those enumerated (`exists_flag`); a threshold on the strictness marks gives both the exact and the non-strict reading |
| C138-C139 | lattice operations and widening of absolute-value octagons | values with shared marks; reading missing marks is the outcome `none`; cells are pairs ordered lexicographically; the rank of a pair (at most 3) decreases with each change under widening |
| C140 | queries on absolute-value octagons | octagon queries are reused on the octagon view (`oct_gam`); comparisons are read cell by cell |
| C141 | constraints on absolute-value octagons | invariant of the constraint loop: cells only shrink and stay sound at a point (`addLoop_keep`), every cell written says its constraint (`addLoop_exact`) |
| C142 | projection and dimensions of absolute-value octagons | relation `Copy` between pair matrices: cells come from a legal injective source map, the others carry no information; it composes over the two passes of `addrem` |
| C143 | assignment in absolute-value octagons | every branch of the assignment writes cells that hold at the new point (`gsat_set`, `gsat_shift`, `gsat_neg`, `gsat_gen`), after the cells of `\|x\|` are cleared |
| C144 | policies on boxes | any policy is above the intersection; the deductions are those of the boxization; the evaluation and the deductions are monotone, so the run of the improvement is below the run of every policy |
| C145 | bitstrings and saturation matrices of newpolka | words of any width; the word loops are shown to compute the operations on the numbers that stand for rows in the model of the Chernikova algorithm |
| C146 | native integers | any `NUMINT_MAX`; results of C that are not representable are undefined; powers in part |
| C147 | native rationals | canonical arguments; roots of non-negative numbers only |
| C148 | quasi-linearisation at levels 0 and 1 | bounding boxes of the domain are right; arrays of constraints with exact numbers and `linearize` false; level 1 only for interval linear trees without quasi-linearisation |
| C149 | managers and abstract values: memory | invariant over all reachable states of a program of calls at level 0 (managers, options, top, copy, free, tests, meet/join with their checks); domains are values with a library tag |
| C150 | options and exceptions of managers, `tbool_t` | meaning of `exn` is violated (defect) |
| C151 | equality, inclusion, meet and join of zonotopes | equality, inclusion and join only under conditions on shared forms (defects); join in exact arithmetic |
| C152 | widening of zonotopes | points only under conditions on shared forms (defect); boxes stabilise, forms do not (defect); exact arithmetic for the points |
| C153 | arrays of constraints own their elements | cleared arrays and aliased `set` are outside (defects) |
| C154 | fppol: quasi-linearisation, normalisation, bound propagation | without overflow; quasi-integer normalisation under exact differences (else unsound), defects |
| C155 | fppol: Fourier-Motzkin elimination, assignment by substitution | without overflow and bit vectors; exact when arithmetic is; defects |
| C156 | fppol: bit vectors as sets, histories, Kohler's rule | proved; exactness of Kohler's rule not stated |
| C157 | fppol: lazy Fourier-Motzkin elimination, rows and vectors side by side | proved, without overflow |
| C158 | fppol: convex hull system and eliminations of the strong join | proved, without overflow; envelope left out |
| C159 | fppol: tests of inclusion, equality, satisfaction | partial: `fpp_is_leq` and `fpp_sat_lincons` are wrong, see section 3 |
| C160 | fppol: meet and standard widening | partial: an array of 1000 entries is overrun, see section 3; redundancy removal and new bounds left out |
| C119 | histories of octagon operations | inductive predicate `OctReach`, induction on the history with the invariant `OctT.Wf` |

Every property theorem quantifies over all values of its arguments (sizes, dimensions, expressions, points, roundings, algorithm parameters); what it assumes is written in its hypotheses.

## 3. Defects found

Each line: the theorem that exhibits the wrong behaviour on the model, the code, and the behaviour. All witnesses are evaluated by the kernel on the modelled function, never by running the C code. The theorem with suffix `_partial` next to it states what does hold.

### Numbers and intervals

| theorem | code | behaviour |
|---|---|---|
| `C04_pow_unsound` (also `C13_bound_texpr_unsound`) | `num/bound_def.h` `bound_pow`, `itv/itv.c` `itv_pow` | the power of `-oo` is `+oo` on negated lower bounds: `[-oo,5]^3` is empty-like and loses `2^3` |
| `C06_untrunc_unsound`, `C19_meet_tcons_trunc_unsound` | `itv.c` `itv_untrunc` | bounds equal to 0 are not enlarged: `trunc(1/2)=0`, but refining from `[0,0]` drops `1/2` |
| `C06_from_int_unsound`, `C19_meet_tcons_nearest_unsound` | `itv.c` `itv_from_int` | rounding to nearest is inverted as if it moved by less than 1/2 in one direction: `3/5` is lost |
| `C19_meet_tcons_underflow_unsound` | `itv.c` `itv_from_float` | zero bounds unchanged, numbers that underflow to 0 are lost |
| `C20_pow_refine_unsound` | `itv_linearize.c` HC4, POW | the rounding of a power is not undone before taking the root |
| `C16_rounding_unsound` | `itv_linearize.c` `itv_boxize_lincons` | quotient rounded up and then negated |
| `C54_equality_not_exact` | `itv_linexpr.c` `itv_lincons_reduce_integer` | `2x+1=0` on integers becomes `x=0` instead of false |
| `C63_quasilinearize_array_unsound`, `C96_sat_equality_unsound`, `C113_sat_tcons_unsound`, `C19_legacy_stale_flag_unsound` | `itv_linearize.c` quasi-linearisation, `itv_linexpr_scale` | the flag `equality` of the constant is left set although it is now a proper interval |
| `C56_pow_unsound`, `C56_mod_float_unsound` | `itv_linearize.c` linearisation | powers are not rounded; an unrounded modulo is taken for a value of the format |
| `C59_array_failure_not_reported` | `itv_linearize.c:1034-1038` | a shadowed variable: the failure of one constraint is not reported and the array becomes unsatisfiable |
| `C80_is_unsat_eqmod_wrong`, `C80_is_unsat_diseq_wrong`, `C80_is_sat_diseq_wrong`, `C81_sat_tcons_diseq_unsound` | `ap_lincons0.c` tests on constant constraints | `3 = 0 mod 3` reported unsatisfiable; `[-1,1] != 0` reported both satisfiable and unsatisfiable |
| `C146_pow_defect`, `C146_pow_wrap_defect` | `numint_native.h:171-184` `numint_pow` | 0^n, n > 0, is reported as an overflow; it squares once too many, so that b^1 overflows as soon as b^2 does; where signed overflow wraps, 4294967297^2 is returned as 8589934593 without report |
| `C146_double_fits_defect` | `numint_native.h:447-450` `double_fits_numint` | accepts 2^63, the conversion of `NUMINT_MAX` to `double` |
| `C147_root_defect` | `numrat_native.h:240-246`, `numrat_mpq.h:187-193` `numrat_root` | the bounds of the denominators are exchanged for negative numbers: the cubic root of -1/2 is given between -1/2 and -1 |
| `C147_snprint_defect` | `numrat_native.h:319-332` `numrat_snprint` | prints the numerator twice |
| `C147_zero_defect` | `numrat_native.h:42-53` `numrat_canonicalize` | the assertion is on an address: zero denominators pass; a negative denominator stays negative |
| `C147_uint_defect` | `numrat_native.h:136-141, 156-161` `numrat_add_uint`, `numrat_sub_uint` | an `unsigned long` above `NUMINT_MAX` is read as negative |

### Boxes

| theorem | code | behaviour |
|---|---|---|
| `C10_is_bottom_needs_wf` | `box_is_bottom` | an empty interval stored in a non-NULL box is not noticed |
| `C15_assign_dest_bottom` | `box_assign.c` | with an empty destination the argument is returned unchanged |
| `C18_eqmod_division_by_zero` | `itv_eval_cstlincons` | the test of the modulus is inverted: `1 = 0 mod 0` divides by zero |
| `C24_half_bounded_wrong`, `C24_half_bounded_unsound` | `box_to_generator_array` | half-bounded dimensions get wrong rays and lose points |
| `C144_improve_null` | `box_policy.c:350` | improving without an old policy reads a null pointer (the next lines expect that case) |
| `C144_hash_constant` | `box_policy.c:243-257` | the hash is computed in a `bool`: it is 1 for all policies that are not empty |
| `C144_equality_interval_unsound` | `box_policy.c:617-692` | `[1,2]*x - 4 = 0` gives `x <= 2`: the wrong end of the coefficient is used |
| `C144_reduced_array_overrun` | `box_policy.c:775-776` | the loops use the size of the array before its reduction: `1 >= 0` makes them read outside of it |
| `C144_diseq_undefined` | `box_policy.c:467-469` | disequalities (and congruences) fail an assertion |
| `C144_improve_interval_not_least` | `box_policy.c:617, 660` | interval coefficients are never chosen |
| `C144_lincons_improve_not_stable` | `box_policy.c:560-563` | on ties the old choice is forgotten |

### Octagons

| theorem | code | behaviour |
|---|---|---|
| `C41_assign_unsound` | `oct_transfer.c` `hmat_assign` | the general case (lines 724-729, 752-757) tests scratch cells instead of the coefficient of the unbounded variable: `x0 := 2*x1 - x2` loses a point |

### Core (levels 0 and 1)

| theorem | code | behaviour |
|---|---|---|
| `C46_remove_duplicate_aborts` | `ap_environment_remove` | a variable given twice fails an assertion |
| `C46_lce_array_same_not_null` | `ap_environment_lce_array` | documented `NULL` result not returned for equal environments at distinct addresses |
| `C47_dimchange_accepts_wrong`, `C47_dimchange_overflow`, `C76_wrong_environment_accepted` | `ap_environment_dimchange` | non-inclusion is missed: wrong dimensions are used, memory is written out of bounds, a level-1 expression over another environment is silently evaluated on other variables |
| `C50_add_short_dense_wrong`, `C50_permute_short_dense_overflow`, `C57_short_dense_unsound` | `ap_linexpr0.c`, `ap_generic.c` | short dense expressions: wrong coefficients, out-of-bounds writes, unsound substitution |
| `C51_interval_cmp_empty_wrong`, `C51_linexpr_equal_crash`, `C51_linexpr_compare_not_order`, `C52_coeff_equal_int_wrong` | comparisons | not transitive on empty intervals; null dereference on free slots; `x0` and `2*x0` each greater than the other; opposite result |
| `C53_accepts_illegal`, `C67_accepts_dim_zero` | `ap_abstract0.c` argument checks | illegal dimension changes, non-permutations and dimension 0 of an empty space are accepted |
| `C57_duplicate_targets_not_permutation` | `ap_generic.c` | duplicated targets make the array of the final permutation a non-permutation |
| `C68_hash_mutates`, `C68_hash_not_equal` | `ap_linexpr0_hash` | hashing adds terms to its argument; equal expressions hash differently |
| `C74_fold_mixed_types` | `ap_abstract1_fold` | value and environment of the result of a refused call disagree |
| `C148_array_type_always_linear` | `apron/ap_lincons0.c:238-239` | `type = res` for `res = type`: the type of every array of constraints is LINEAR |
| `C148_linearize_unchanged`, `C148_linearize_not_linear` | `apron/ap_linearize.c:139-171` | hence with `linearize` the array is returned unchanged and declared exact |
| `C148_exact_not_written` | `apron/ap_linearize_aux.c:217-248` | without `linearize` the flag `*pexact` is never written |
| `C148_meet_generic` | `apron/ap_generic.c:170` | the value of the domain is passed as an `ap_abstract0_t*` |
| `C148_result_unsorted` | `itv/itv_linearize.c:548-551` | removal by exchange with the last term: the sparse expression returned need not be sorted |
| `C148_quasilinear_of_intlinear_undefined`, `_alias`, `_extended` | `apron/ap_abstract1.c:1460-1465` | the value of the domain is passed as an `ap_abstract0_t*`; results are the argument itself or already freed |
| `C148_intlinear_of_tree_undefined` | `apron/ap_abstract1.c:1500` | the same for trees that are not interval linear |
| `C148_texpr_intlinear_undefined` | `apron/ap_linearize_aux.c:288-310` | after a successful conversion a freed object and a pointer without value are used |
| `C149_double_free_undetected` | `ap_abstract0.c` (`ap_abstract0_free`) | the test meant to detect a second free of an abstract value reads the freed object |
| `C150_exn_never_reset`, `C150_clear_keeps_exn` | `ap_manager.c` (`ap_result_add_exception`, `ap_manager_clear_exclog`), `ap_manager.h:145` | `exn`, documented as the exception of the last called function, is never reset: after one exception it stays set through all successful calls (and its getter and that of the log are declared but not defined) |
| `C153_cleared_array_keeps_size`, `C153_cleared_array_resize_garbage` | `ap_lincons0.c:198-209`, `ap_tcons0.c:75-85` | a cleared array keeps its size although its pointer is null: resizing it down reads through the null pointer, resizing it up leaves entries uninitialised (`ap_generator0_array_clear` sets the size to 0) |
| `C153_set_get_dangling` | `ap_lincons1.c:151-169` | storing `array_get(array,i)` at `i` frees the entry, keeps the freed pointers in it and gives up the reference of the array to its environment |

### Reduced products

- `C118_flag_exact_wrong`: the flag `exact` of a product is the conjunction of those of its components (`collect_results0`), which does not make the result exact: projecting the product of `x ∈ [0,1]` and `x ∈ [2,3]` gives the whole line for an empty set.
- `C133_skips_constraints`: in `ap_pkgrid_reduce` the loop `ap_linexpr0_ForeachLinterm(.., i, ..)` that negates the coefficients of a congruence (ap_pkgrid.c:131-138) reuses the index `i` of the main loop; after it the index is the number of dimensions, so that the following congruences are skipped. On the square `[0,3]²` with `x` and `y` even, `x ≤ 2` is found but not `y ≤ 2`. (With more constraints than dimensions the same reuse could restart the loop; `C133_reduce_total` excludes it for canonical grids.)
- `C118_flag_best_ignores_components`: `flag_best` is always set (ap_reducedproduct.c:78).
- Not proved (outside of the model): `snprintf(buffer, sizeof(sz), ..)` truncates the messages of exceptions to 7 characters and passes a null pointer for `%s` (:88-89).

### Finite disjunctions (ap_disjunction.c)

| theorem | code | behaviour |
|---|---|---|
| `C120_meet_of_disjoint_undefined`, `C120_meet_undefined` | `ap_disjunction.c:844-849` | when no pair of disjuncts meets, a `void*` of the underlying domain is passed to `ap_abstract0_dimension`, which expects an `ap_abstract0_t*` (and the result would be top) |
| `C120_join_array_of_bottoms_wrong` | `ap_disjunction.c:791` | `length==0` is tested instead of `l==0`: the join of three empty values is an array of size 0, `is_bottom` is false, `dimension` reads `p[0]` |
| `C120_is_bottom_incomplete`, `C120_is_leq_not_reflexive` | `ap_disjunction.c:356-448` | several empty disjuncts are not recognised; `is_leq`, `is_eq` always answer false |
| `C121_bound_unsound`, `C121_bound_imprecise` | `ap_disjunction.c:517-582` | the loop starts from [1,-1] and stops when the interval is empty: an empty first disjunct hides the others; otherwise the interval is joined with [-1,1]-like bounds ([5,7] gives [1,7]) |
| `C121_to_box_unsound` | `ap_disjunction.c:664-682` | the same with two empty disjuncts at the beginning |
| `C121_expand_unsound` | `ap_disjunction.c:1132-1150` | disjunct by disjunct expansion misses the points whose copies come from different disjuncts |

### Affine forms (taylor1plus)

| theorem | code | behaviour |
|---|---|---|
| `C122_sub_wrong`, `C124_assign_top_wrong`, `C124_assign_square_wrong` | `t1p_fun.c:110, 117` | equal intervals are subtracted to 0 even if they are not points: `x0 - x1` of two unconstrained dimensions is 0, so is `x0*x0 - x1*x1` for both in [-1,1] |
| `C151_is_leq_unsound` | `t1p_constructor.c:215-228`, `t1p_internal.h:939-1075` | inclusion is tested dimension by dimension: the point (1/2, -1/2) is reported as included in `x ∈ [-1,1], y := x` |
| `C151_join_unsound` | `t1p_internal.h:1560-1590` | a join takes over the form of the second argument for each dimension separately: (1/2, -1/2) is lost by the join with a value where `y = x` |
| `C151_is_eq_sharing_wrong` | `t1p_constructor.c:125-148`, `t1p_meetjoin.c:491-530` | equality does not compare which dimensions share a form: `x, y ∈ [0,+oo]` equals the same with `y := x`, and a join that starts with this test loses points |
| `C151_meet_not_included` | `t1p_meetjoin.c:131-169` | the meet of `[0,2]` and `[1,3]` is top, in the box too, although `flag_exact` and `flag_best` are set |
| `C152_widening_unsound` | `t1p_internal.h:5198-5203` | the widening of a value where `y = x ∈ [-1,1]` by (1/2, -1/2) is this value: the point is lost |
| `C152_widening_forms_not_stationary` | `t1p_otherops.c:74-136`, `t1p_internal.h:5001-5230` | every widening of forms that differ makes a new noise symbol: widening again and again by `[-1,1]` gives a new value each time, though the box never changes |
| `C152_widening_flag_exact_wrong` | `t1p_otherops.c:126-127` | `flag_exact` is set by every widening |
| `C122_mul_wrong` | `t1p_fun.c:1169-1176` | opposite entries of the product matrix cancel even if they are not points |
| `C122_reduce_wrong` | `t1p_internal.h:1115-1140` | at a coefficient with one infinite bound the deviations collected before are lost |
| `C124_assign_type_wrong` | `t1p_fun.c:1003-1133` | type and rounding of nodes are ignored: integer `5/2` is 5/2 |
| `C123_no_dimension_wrong`, `C123_is_bottom_incomplete` | `t1p_constructor.c:98-124` | `box[0]` is read without dimensions; one empty dimension is not enough, though `flag_exact` is set |
| `C126_add_wrong` | `t1p_resize.c:39-56` | positions of `dimchange` are not shifted by the previous insertions |
| `C126_permute_wrong` | `t1p_resize.c:133-138` | swapping in place: the permutation [1,0] is the identity |
| `C126_forget_wrong`, `C126_project_wrong` | `t1p_otherops.c:35-50` | `box[i]` instead of `box[tdim[i]]`; no update when projecting |

Seen, not proved: `t1p_neg_inplace` skips the last term; an interval [+oo,+oo] is taken for top and then overwrites `pr->top->itv`.

### Polyhedra (newpolka)

| theorem | code | behaviour |
|---|---|---|
| `C88_meet_destructive_null_dereference`, `C104_substitute_null_dereference` | `pk_meetjoin.c:296-312` | strict destructive meet of an empty polyhedron known by constraints with the universe dereferences NULL; reached by substitution with a destination |
| `C89_join_array_three_aliases_unsound` | `pk_meetjoin.c:651-665` | the join of an array holding one object three times is its dual |
| `C91_strict_not_exact`, `C91_integer_equality_not_exact`, `C95_integer_bound_not_exact` | `pk_meetjoin.c`, `pk_user.c:55-57` | results announced exact are not |
| `C93_interval_not_best` | `pk_extract.c` | imprecision only |
| `C98_widening_null_dereference` | `pk_widening.c:179` | outside the documented precondition |
| `C100_threshold_empty_inconsistent` | `pk_widening.c:226-265` | appended thresholds leave a stale saturation matrix |
| `C102_add_nothing_out_of_bounds` | `pk_resize.c:256-258` | adding no dimension reads row -1 |
| `C109_is_eq_wrong` | `pk_assign.c` + `pk_test.c` | a status column multiplied by a denominator makes equal polyhedra compare as different |
| `C131_join_array_lazy_not_affine` | `pkeq.c` (`pkeq_meet_array`, `pkeq_join_array`) | the option that forces the eager mode is written for another function: with the lazy option the result of the join is not reduced to equalities |
| `C131_of_box_empty_not_best` | `pkeq.c` (`pkeq_of_box`) | imprecision: an empty box is not recognised |
| `C132_assign_interval_coefficient_unsound` | `pkeq.c` (`equality_asssub_linexpr_array`) | only the constant of an expression is tested: interval coefficients are treated as numbers and images are lost |
| `C132_substitute_mixed_unsound` | `pkeq.c` (`equality_asssub_linexpr_array`) | a parallel substitution that mixes scalar and interval constants is done in two steps in the order of assignments: points are lost |
| `C135_octagon_unsound` | `pk_user.c` (`vector_set_linexpr_bound`), `pk_approximate.c` | `pk_approximate` with algorithm 3: for an upper bound `b` of an expression the row of `e <= -b` is written (the constant is subtracted and only the coefficients are negated); points are lost |
| `C135_outer_not_small` | `pk_approximate.c` (`pk_matrix_approximate_constraint_1x`) | rounding away from zero (11, 12) can leave coefficients of one bit too many |

### Absolute-value octagons

| theorem | code | behaviour |
|---|---|---|
| `C137_strong_31` | `avo_closure.c:758` (`(int)power(dim)`) | the strong closure enumerates no orthant for 31 variables or more and declares every value empty |
| `C137_strict_emptiness_undetected`, `C137_strict_clash` | `avo_closure.c` (tests of the diagonal) | emptiness caused by strict constraints (`x < 5`, `x >= 5`) is never detected by any closure |
| `C138_meet_array_null` | `avo_nary.c:109-130` (`avo_meet_array`) | the result has no matrix of strictness marks: the next closure dereferences `NULL` |
| `C140_is_leq_unsound` | `avo_predicate.c:64-118` (`avo_is_leq`) | rows of absolute values are skipped: top is included in `\|x\| >= 1` |
| `C140_is_eq_unsound` | `avo_predicate.c:121-180` (`avo_is_eq`) | rows of absolute values are not compared: top equals `\|x\| >= 1` |
| `C140_unconstrained_unsound` | `avo_predicate.c:217-240` | `x` is reported unconstrained in `\|x\| >= 1` |
| `C140_is_top_incomplete` | `avo_predicate.c:50-62` (`avo_is_top`) | `false` on the universe as soon as a closure has written `-2\|x\| <= 0` |
| `C140_to_lincons_unsound` | `avo_internal.h` (`lincons_of_bound`), `avo_predicate.c:495-548` | `\|x\| >= 1` is exported as `11x - 1 >= 0` |
| `C141_diseq_zero` | `avo_transfer.c:119-160` | `5 != 0` empties the universe: the sign of the negated lower bound is read wrongly |
| `C141_diseq_unary` | `avo_transfer.c:165-205` | `-x+5 != 0` becomes `\|x\| < 5` |
| `C141_diseq_binary` | `avo_transfer.c:207-260` | `x+y != 0` becomes `x+y >= 0` |
| `C141_general_strict` | `avo_transfer.c:265-429` | the general case lowers bounds and keeps their strictness marks: `x+y < 10`, `z <= 1`, `x+y <= 2z` give `x+y < 2` |
| `C141_binary_claims_closed` | `avo_transfer.c` (`*respect_closure = 1`) | after one binary constraint the result is stored as closed, even if the argument was not |
| `C142_forget_changes_argument` | `avo_resize.c` (`m1 = a->nsc`) | a non-destructive `forget_array` erases the strictness marks of its argument: `1 <= x < 5` becomes `1 <= x <= 5` |
| `C142_fold_empty`, `C142_fold_unsound` | `avo_resize.c` (`bound_set_int(nsc...,0)`) | `avo_fold` marks `x - x <= 0` as strict, the result has no point |
| `C143_assign_constant_unsound` | `avo_transfer.c:665-668` | `x := 3` on `0 <= x < 5` gives `x < 3`: the old mark of strictness is kept |
| `C143_assign_opposite_unsound` | `avo_transfer.c:710-714` | `x := -x` on `0 <= x < 5` gives `x < 0`: the marks of the two bounds are not exchanged |
| `C143_assign_bottom_undefined` | `avo_transfer.c:995-1015` | the assignment reads `m` of an empty value, which is `NULL` |
| `C143_assign_loses_diagonal` | `avo_transfer.c:619-629` | the result has `+oo` on the diagonal of `\|x\|` |

### Polyhedra in floating point (fppol)

| theorem | code | behaviour |
|---|---|---|
| `C154_quasi_integer_to_zero`, `C154_quasi_integer_loses_constraint`, `C154_quasi_integer_drops_small` | `fppol/quasi_linear.c:272-276` | a coefficient that is nearly an integer is set to 0 instead of this integer (the test for "nearly 0" has `\|\|` where the copy in `quasi_linearisation_bak` has `&&`), and so is any coefficient below one half: 2.00005 x <= 1 becomes a tautology (sound, but the constraint is lost) |
| `C154_with_constant_overflow`, `C154_with_constant_overflow_all` | `fppol/quasi_linear.c:498-534` | `cInt` has one cell per variable but the constant is stored too: a write past the heap block when all absolute values differ |
| `C154_quasi_integer_needs_exact` | `fppol/quasi_linear.c:304-306` | not a defect for doubles: the soundness of `fabs(dk-ak)` in the mode upward relies on the subtraction being exact |
| `C155_substitution_null`, `C155_substitution_null_case` | `fppol/fppol_domain.c:1542-1543` | the result of `quasi_linearisation` is copied without a test for NULL: `x := 3 x` on `x <= 1` without lower bound reads address 0 (the function is declared in `fppol_domain.h` but no domain function calls it at this commit) |
| `C159_is_leq_unknown` | `fppol/fpp_predicate.c:72-74`, `fppol/fppol_domain.c:1260-1263` | `dntknow` (2) is returned as a `bool` and is true: when the solver fails, inclusion is claimed |
| `C159_is_leq_other` | `fppol/fppol_domain.c:1275-1280` | a linear program that ends neither optimal nor unbounded counts as entailment |
| `C159_is_leq_epsilon` | `fppol/fppol_domain.c:1266-1274`, `fppol/fpp_config.h:83` | inclusion is claimed up to a relative error of 1.0e-3 |
| `C159_is_eq_duplicates` | `fppol/fppol_domain.c:1090-1111` | with a row twice in the first argument, different polyhedra are equal |
| `C159_sat_lincons` | `fppol/fpp_predicate.c:97-104` | always true |
| `C160_widening_many` | `fppol/fppol_domain.c:922,934` | `quasiInd[1000]` is cleared for `ncons + 1` entries: a second argument of 1000 rows overruns the stack |
| `C155_unused_variable_bounds` | `fppol/fm.c:106-118`, `fppol/fppol_domain.c:499-513` | eliminating a variable that is in no row sets its bounds to [0,0] although all values are allowed; `fppol_factorization` then restores the bounds through a pointer into the block that the elimination has freed |
| `C156_kohler_no_vector` | `fppol/bv.c:161-164` | with no vector left `bv->nvecs-1` wraps around and `rrIndex` and `bits` are read outside (the model returns the distinct outcome `none`) |
| `C156_kohler_lazy_not_minimal` | `fppol/bv.c:237-261` | not a defect: the lazy variant compares rows with few bits to the rows without the variable only |

### Serialisation

| theorem | code | behaviour |
|---|---|---|
| `C128_mpfr_wrong`, `C128_mpfr_value` | `num/numflt_mpfr.h:315` | the exponent of an MPFR number is not written (the size of the mantissa is written twice): 1 is read back as `2^59` |
| `C128_mpz_unsigned_char_wrong` | `num/numint_mpz.h:341`, `numrat_mpq.h:395` | where `char` is unsigned the sign of negative numbers is lost |

## 4. Simplifications per module

Every model file starts with the list of its simplifications; in short:

| model files | sources | simplifications |
|---|---|---|
| `Num/Bound` | `num/bound_def.h`, `num/bound.h` | ordered field + upward rounding; no NaN, no overflow of native integers |
| `Num/Native` | `num/numint_native.h`, `num/numrat_native.h` | parameter `NUMINT_MAX`; two's complement; conversions from and to GMP and MPFR, `numint_sqrt` and parsing left out; `mpz_root` is the integer root |
| `Core/Manager` | `apron/ap_manager.c`, `ap_manager.h`, `ap_abstract0.h`, `ap_abstract0.c` (checks, copy, free, meet/join) | objects are cells of a heap, freed ones are never reused; a value of a domain is its library; the dimension test is an input; an abort ends the program |
| `Core/ConsArray` | `apron/ap_lincons0.c:172-210`, `ap_tcons0.c:49-85`, `ap_generator0.c:46-81`, `ap_lincons1.c:28-34,124-189` | an expression or scalar is one block, addresses are never reused, `malloc` does not fail; contents of expressions not kept; the relations between environments are inputs; the copying `extend_environment` is not modelled |
| `Num/Serialize` | `num/num_config.h`, `num/num*_*.h` (serialisation), `bound_def.h:622-673`, `octagons/oct_print.c:145-206`, `apron/ap_reducedproduct.c:294-332` | a buffer is a memory of bytes; GMP and MPFR functions by their documentation |
| `Itv/Defs`, `Itv/Pow` | `itv/itv.h`, `itv/itv.c`, `num/numrat_mpq.h`, `num/numint_mpz.h` | aliasing of arguments not modelled; float formats are parameters |
| `Itv/Linexpr` | `itv/itv_linexpr.c`, `itv/itv_linearize.c` I-III | arrays are lists (swap-removal kept); `tchange` not modelled |
| `Box/Defs` | `box/box_*.c` | flags `flag_best/exact` and memory not modelled; in-place reads kept where they matter |
| `Box/Policy` | `box/box_policy.c` | `none` for undefined behaviour; terms sorted by dimension; choices of constraints as functions on dimensions; memory and printing not modelled |
| `Texpr/Defs`, `InPlace`, `Hc4`, `Linearize`, `ApLinearize`, `ApQuasi`, `Struct` | `apron/ap_texpr0.c`, `itv/itv_linearize.c` IV-VII, `apron/ap_linearize_aux.c`, `apron/ap_generic.c`, `apron/ap_lincons0.c` | float formats are parameters; no NaN, no overflow of an execution; result of failed calls not modelled |
| `Oct/Mat`, `Closure`, `Defs`, `Resize`, `Transfer` | `octagons/oct_hmat.c`, `oct_closure.c`, `oct_representation.c`, `oct_nary.c`, `oct_predicate.c`, `oct_resize.c`, `oct_transfer.c` | half-matrices are memories `ℕ → Bound K`, loops and running pointers as in the code; sharing between `m` and `closed` not modelled; not modelled: hashing, printing |
| `Core/Compare`, `Linexpr`, `LinexprOps` | `apron/ap_scalar.c`, `ap_interval.c`, `ap_coeff.c`, `ap_linexpr0.c` | scalars are extended numbers; hash of a coefficient is a parameter; no wrap-around of dimensions |
| `Core/Dim`, `Env`, `Level0`, `Level1`, `Level1Expr`, `Generic` | `apron/ap_dimension.c`, `ap_environment.c`, `ap_abstract0.c`, `ap_abstract1.c`, `ap_generic.c` | names are a linear order; `qsort` any sorting function; out-of-bounds accesses and failed assertions are outcomes; reference counts not modelled |
| `Core/Product`, `Core/Disjunction` | `apron/ap_reducedproduct.c`, `apron/ap_disjunction.c` | the domains are records of functions; memory, exception log, printing not modelled; entries `NULL` of an array are `none` |
| `Zono/Defs`, `State` | `taylor1plus/t1p_internal.h`, `t1p_fun.c`, `t1p_assign.c`, `t1p_constructor.c`, `t1p_resize.c`, `t1p_otherops.c` | forms live on a heap and are shared; noise symbols unconstrained in the theorems; nothing is freed; the threshold of `reduce` is a parameter |
| `Zono/Lattice` | `taylor1plus/t1p_constructor.c:125-235`, `t1p_meetjoin.c:37-178, 491-684`, `t1p_internal.h:844-860, 939-1075, 1263-1300, 1383-1644` | the case of values without constrained symbols (`hypercube`); roundings of single numbers go upwards; a join that would read an infinite bound as a number is `none`; non-destructive |
| `Zono/Widen` | `taylor1plus/t1p_otherops.c:74-136`, `t1p_internal.h:5001-5230` | as `Zono/Lattice`; the loop keeps no term |
| `Fpp/Quasi` | `fppol/quasi_linear.c`, `fppol/bt.c:303-402`, `fppol/numitv.c` | doubles are field elements, operations go through `up`/`down`; no overflow, NaN or -0.0; `frexp` and `round` are arbitrary functions; `normalise_integer_inequality` takes the integers of the coefficients |
| `Fpp/Elim` | `fppol/fm.c:39-368`, `fppol/fppol_domain.c:1450-1550`, `fppol/numitv.c` | as `Fpp/Quasi`; no bit vectors; `trunc(t) == t` is an arbitrary test; the redundancy removal after the elimination is left out |
| `Fpp/BitVecs` | `fppol/bv.c:52-133,139-287`, `fppol/fppol_domain.c:552-560` | vectors are lists of bytes; `rrIndex` is a function; the copies of rows are the list of the indices kept |
| `Fpp/ElimLazy` | `fppol/fm.c:380-780` | as `Fpp/Elim` and `Fpp/BitVecs`; rows and vectors are two lists; the combination is `combine` (same text) |
| `Fpp/Hull` | `fppol/fppol_domain.c:267-290,382-484,686-716` | the order of elimination and the rows dropped between the steps are arbitrary; an eliminated variable keeps its number with coefficient 0 |
| `Fpp/Pred` | `fppol/fpp_predicate.c:60-104`, `fppol/fppol_domain.c:728-742,1090-1285` | the solver is a function of the objective, assumed to give upper bounds where a theorem says so; no rounding |
| `Fpp/Widen` | `fppol/fppol_domain.c:919-996,1291-1391,1556-1705` | the solver is a function of the rows and the objective, as in `Fpp/Pred`; redundancy removal and the bounds of the widening left out |
| `Poly/Defs`, `Minimize` | `newpolka/pk_vector.c`, `pk_matrix.c`, `pk_cherni.c` | integers are unbounded; a ray and its saturation row are one `SRow`; segments of an array are lists; rows of saturation matrices are numbers, justified by C145 |
| `Poly/Bit` | `newpolka/pk_bit.c`, `pk_satmat.c`, the loops on words of `pk_cherni.c:303-348, 531-537, 590-595` | words of any width `w > 0`; rows allocated without initialisation are a parameter; freeing not modelled |
| `Poly/PkDefs`, `PkArray`, `PkUser`, `PkWiden`, `PkResize`, `PkAssign`, `PkExpand`, `PkCanon`, `PkMan`, `PkTexpr` | `newpolka/pk_*.c` | non-strict mode; both saturation matrices present as soon as both matrices are; in-place conversion of arguments modelled apart; exceptions and flags not modelled |
| `Poly/PkEq` | `newpolka/pkeq.c` | as above; tree expressions not modelled |
| `Poly/PkExtract` | `newpolka/pk_extract.c` (`pk_to_lincons_array`, `pk_to_generator_array`), `newpolka/pk_user.c` (conversions of rows), `pk_hash` | hash codes on unbounded integers |
| `Poly/PkGrid` | `products/ap_pkgrid.c` (`ap_pkgrid_reduce`) | the PPL grid operations are parameters; numbers MPQ |
| `Avo/Mat`, `Avo/Closure`, `Avo/Defs`, `Avo/Transfer`, `Avo/Resize`, `Avo/Assign` | `avoct/avo_closure.c`, `avo_hmat.c`, `avo_internal.h`, `avo_representation.c`, `avo_nary.c`, `avo_predicate.c`, `avo_transfer.c` (constraints, assignment), `avo_resize.c` | bounds and strictness marks are one memory of pairs; `(int)power(n)` for `n >= 31` taken as a non-positive number |
| `Client/Analysis` | none: client code written with the operations of `ap_abstract0.h`, used to state what the operations guarantee together | the concrete semantics of programs (`Exec`) is part of the specification |
| `Poly/PkApprox` | `newpolka/pk_approximate.c`, `vector_set_linexpr_bound`, `pk_matrix_bound_vector` | as `PkDefs`; flags not modelled |

What a theorem on polyhedra says about integer dimensions: unless stated otherwise the set of a polyhedron is its set of real points (`Rep.γ`), over any ordered field containing the rationals.
