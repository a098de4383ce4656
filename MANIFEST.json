{
 "claims": [
  {
   "property": "C01",
   "status": "proved",
   "theorems": [
    "Apron.C01_add_sound",
    "Apron.C01_sub_sound",
    "Apron.C01_neg_exact",
    "Apron.C01_add_tight",
    "Apron.C01_sub_tight"
   ],
   "note": ""
  },
  {
   "property": "C02",
   "status": "proved",
   "theorems": [
    "Apron.C02_mul_sound",
    "Apron.C02_mul_tight",
    "Apron.C02_mul_num_sound"
   ],
   "note": ""
  },
  {
   "property": "C03",
   "status": "proved",
   "theorems": [
    "Apron.C03_div_sound",
    "Apron.C03_div_tight"
   ],
   "note": ""
  },
  {
   "property": "C04",
   "status": "partial",
   "theorems": [
    "Apron.C04_pow_sound_partial",
    "Apron.C04_pow_unsound",
    "Apron.C04_sqrt_sound",
    "Apron.C04_mpq_sqrt"
   ],
   "note": "Partial: sound unless the exponent is odd and the base is unbounded below, where the code returns an empty interval (C04_pow_unsound)."
  },
  {
   "property": "C05",
   "status": "proved",
   "theorems": [
    "Apron.C05_round_sound"
   ],
   "note": ""
  },
  {
   "property": "C06",
   "status": "partial",
   "theorems": [
    "Apron.C06_unceil_sound",
    "Apron.C06_unfloor_sound",
    "Apron.C06_untrunc_sound_partial",
    "Apron.C06_untrunc_unsound",
    "Apron.C06_from_int_unsound",
    "Apron.C06_from_int_partial"
   ],
   "note": "Partial: ceil and floor are fully proved; truncation is proved when no integer bound is exactly 0; the code drops values otherwise (C06_untrunc_unsound) and for to-nearest/unspecified rounding (C06_from_int_unsound)."
  },
  {
   "property": "C07",
   "status": "proved",
   "theorems": [
    "Apron.C07_mod_sound",
    "Apron.C07_mod_int_sound"
   ],
   "note": ""
  },
  {
   "property": "C08",
   "status": "proved",
   "theorems": [
    "Apron.C08_meet",
    "Apron.C08_join_hull",
    "Apron.C08_leq",
    "Apron.C08_eq",
    "Apron.C08_bottom",
    "Apron.C08_canonicalize_int",
    "Apron.C08_canonicalize_bottom"
   ],
   "note": ""
  },
  {
   "property": "C09",
   "status": "proved",
   "theorems": [
    "Apron.C09_box_widening_covers",
    "Apron.C09_box_widening_wf",
    "Apron.C09_box_widening_stabilises",
    "Apron.C09_itv_widening_covers",
    "Apron.C09_itv_widening_stabilises"
   ],
   "note": ""
  },
  {
   "property": "C10",
   "status": "proved",
   "theorems": [
    "Apron.C10_is_bottom",
    "Apron.C10_is_top",
    "Apron.C10_is_leq",
    "Apron.C10_is_eq",
    "Apron.C10_is_dimension_unconstrained",
    "Apron.C10_bottom_top",
    "Apron.C10_is_bottom_needs_wf"
   ],
   "note": ""
  },
  {
   "property": "C11",
   "status": "proved",
   "theorems": [
    "Apron.C11_meet",
    "Apron.C11_meet_wf",
    "Apron.C11_join_upper",
    "Apron.C11_join_least",
    "Apron.C11_join_wf",
    "Apron.C11_meet_array",
    "Apron.C11_join_array"
   ],
   "note": ""
  },
  {
   "property": "C12",
   "status": "proved",
   "theorems": [
    "Apron.C12_bound_linexpr_sound",
    "Apron.C12_bound_linexpr_tight",
    "Apron.C12_bound_linexpr_range",
    "Apron.C12_bound_dimension"
   ],
   "note": ""
  },
  {
   "property": "C13",
   "status": "partial",
   "theorems": [
    "Apron.C13_bound_texpr_sound_partial",
    "Apron.C13_bound_texpr_sound_nopow",
    "Apron.C13_bound_texpr_unsound"
   ],
   "note": "Partial: sound except for odd powers of an argument unbounded below, where the code loses values (C13_bound_texpr_unsound); unconditional for trees without power (C13_bound_texpr_sound_nopow)."
  },
  {
   "property": "C14",
   "status": "partial",
   "theorems": [
    "Apron.C14_assign_linexpr_sound",
    "Apron.C14_assign_linexpr_best",
    "Apron.C14_assign_linexpr_wf",
    "Apron.C14_assign_linexpr_dest_sound",
    "Apron.C14_assign_texpr_sound_partial",
    "Apron.C14_assign_texpr_dest_sound_partial"
   ],
   "note": "Linear expressions fully proved (sound, best, well-formed, with destination). Trees partial: the condition on odd powers inherited from C13 (C13_bound_texpr_unsound)."
  },
  {
   "property": "C15",
   "status": "partial",
   "theorems": [
    "Apron.C15_assign_dest_partial",
    "Apron.C15_assign_dest_bottom"
   ],
   "note": "Partial: meeting with the destination is exact unless the destination is bottom: the code then returns the source unchanged instead of bottom (C15_assign_dest_bottom)."
  },
  {
   "property": "C16",
   "status": "partial",
   "theorems": [
    "Apron.C16_meet_lincons_le",
    "Apron.C16_meet_lincons_sound",
    "Apron.C16_meet_lincons_wf",
    "Apron.C16_meet_lincons_rounded_partial",
    "Apron.C16_rounding_unsound",
    "Apron.C16_meet_unary_exact"
   ],
   "note": "Rational arithmetic: fully proved (soundness, reduction, well-formedness, exactness for unary constraints). Partial for other number types: scalar representable coefficients; interval coefficients are unsound under rounding (C16_rounding_unsound)."
  },
  {
   "property": "C17",
   "status": "partial",
   "theorems": [
    "Apron.C17_sat_lincons_sound",
    "Apron.C17_sat_lincons_complete",
    "Apron.C17_sat_interval",
    "Apron.C17_sat_tcons_sound_partial"
   ],
   "note": "Linear constraints fully proved (sound and complete), and bounds. Trees partial: the condition on odd powers inherited from C13 (C13_bound_texpr_unsound)."
  },
  {
   "property": "C18",
   "status": "partial",
   "theorems": [
    "Apron.C18_eqmod_partial",
    "Apron.C18_eqmod_division_by_zero"
   ],
   "note": "Partial: proved for every non-zero modulus; with modulus 0 the code divides by zero (C18_eqmod_division_by_zero)."
  },
  {
   "property": "C19",
   "status": "partial",
   "theorems": [
    "Apron.C19_meet_tcons_legacy_sound_partial",
    "Apron.C19_meet_tcons_legacy_le",
    "Apron.C19_legacy_stale_flag_unsound",
    "Apron.C19_meet_tcons_sound_partial",
    "Apron.C19_meet_tcons_le",
    "Apron.C19_meet_tcons_nearest_unsound",
    "Apron.C19_meet_tcons_trunc_unsound",
    "Apron.C19_meet_tcons_underflow_unsound"
   ],
   "note": "Partial: the HC4 algorithm under Safe (see counterexamples nearest/trunc/underflow); the legacy algorithm (code below 100) for rational arithmetic under LinSafe; with native floating-point arithmetic the legacy algorithm drops points (C19_legacy_stale_flag_unsound)."
  },
  {
   "property": "C20",
   "status": "partial",
   "theorems": [
    "Apron.C20_pow_refine_sound_partial",
    "Apron.C20_pow_refine_le",
    "Apron.C20_pow_refine_unsound"
   ],
   "note": "Partial: even exponents on integers and reals without rounding; the code loses solutions otherwise (C20_pow_refine_unsound)."
  },
  {
   "property": "C21",
   "status": "proved",
   "theorems": [
    "Apron.C21_add_exact",
    "Apron.C21_add_dims",
    "Apron.C21_add_wf",
    "Apron.C21_remove_exact",
    "Apron.C21_remove_dims",
    "Apron.C21_remove_wf",
    "Apron.C21_permute_exact",
    "Apron.C21_permute_dims",
    "Apron.C21_permute_wf",
    "Apron.C21_add_remove"
   ],
   "note": ""
  },
  {
   "property": "C22",
   "status": "proved",
   "theorems": [
    "Apron.C22_forget_exact",
    "Apron.C22_forget_wf",
    "Apron.C22_expand_dims",
    "Apron.C22_expand_exact",
    "Apron.C22_expand_wf",
    "Apron.C22_fold_sound",
    "Apron.C22_fold_least",
    "Apron.C22_fold_dims",
    "Apron.C22_fold_wf"
   ],
   "note": ""
  },
  {
   "property": "C23",
   "status": "proved",
   "theorems": [
    "Apron.C23_to_lincons",
    "Apron.C23_of_box_sound",
    "Apron.C23_of_box_exact"
   ],
   "note": ""
  },
  {
   "property": "C24",
   "status": "partial",
   "theorems": [
    "Apron.C24_generators_partial",
    "Apron.C24_half_bounded_wrong",
    "Apron.C24_half_bounded_unsound"
   ],
   "note": "Partial: the generators describe the box exactly when no dimension is bounded on one side only; for half-bounded dimensions the code emits wrong vertices and rays (C24_half_bounded_wrong, C24_half_bounded_unsound)."
  },
  {
   "property": "C25",
   "status": "proved",
   "theorems": [
    "Apron.C25_cell_in_bounds",
    "Apron.C25_pair_in_bounds",
    "Apron.C25_no_aliasing",
    "Apron.C25_mirror_shared",
    "Apron.C25_no_gap",
    "Apron.C25_row_contiguous"
   ],
   "note": ""
  },
  {
   "property": "C26",
   "status": "proved",
   "theorems": [
    "Apron.C26_close_empty_sound",
    "Apron.C26_close_same_points",
    "Apron.C26_incremental_empty_sound",
    "Apron.C26_incremental_same_points",
    "Apron.C26_cache_same_points",
    "Apron.C26_close_oct_same_points"
   ],
   "note": ""
  },
  {
   "property": "C27",
   "status": "proved",
   "theorems": [
    "Apron.C27_is_bottom_exact",
    "Apron.C27_is_bottom_sound",
    "Apron.C27_close_exact"
   ],
   "note": ""
  },
  {
   "property": "C28",
   "status": "proved",
   "theorems": [
    "Apron.C28_tightest",
    "Apron.C28_attained",
    "Apron.C28_canonical"
   ],
   "note": ""
  },
  {
   "property": "C29",
   "status": "proved",
   "theorems": [
    "Apron.C29_same_verdict",
    "Apron.C29_same_matrix"
   ],
   "note": ""
  },
  {
   "property": "C30",
   "status": "proved",
   "theorems": [
    "Apron.C30_is_leq_sound",
    "Apron.C30_is_leq_exact",
    "Apron.C30_is_eq_sound",
    "Apron.C30_is_eq_exact",
    "Apron.C30_is_top_exact",
    "Apron.C30_unconstrained_exact"
   ],
   "note": ""
  },
  {
   "property": "C31",
   "status": "proved",
   "theorems": [
    "Apron.C31_meet_exact",
    "Apron.C31_meet_array_exact"
   ],
   "note": ""
  },
  {
   "property": "C32",
   "status": "proved",
   "theorems": [
    "Apron.C32_join_sound",
    "Apron.C32_join_least",
    "Apron.C32_join_array_sound"
   ],
   "note": ""
  },
  {
   "property": "C33",
   "status": "proved",
   "theorems": [
    "Apron.C33_widening_sound",
    "Apron.C33_widening_thresholds_sound",
    "Apron.C33_widening_stabilises",
    "Apron.C33_widening_thresholds_stabilises",
    "Apron.C33_widening_sets_stationary",
    "Apron.C33_widening_thresholds_sets_stationary"
   ],
   "note": ""
  },
  {
   "property": "C34",
   "status": "proved",
   "theorems": [
    "Apron.C34_narrowing_above",
    "Apron.C34_narrowing_below"
   ],
   "note": ""
  },
  {
   "property": "C35",
   "status": "proved",
   "theorems": [
    "Apron.C35_bound_dimension_sound",
    "Apron.C35_bound_dimension_exact",
    "Apron.C35_bound_dimension_attained",
    "Apron.C35_to_box",
    "Apron.C35_of_box_sound",
    "Apron.C35_of_box_exact",
    "Apron.C35_sat_interval_exact",
    "Apron.C35_sat_interval_sound"
   ],
   "note": ""
  },
  {
   "property": "C36",
   "status": "proved",
   "theorems": [
    "Apron.C36_to_lincons_sound",
    "Apron.C36_to_lincons_exact"
   ],
   "note": ""
  },
  {
   "property": "C37",
   "status": "proved",
   "theorems": [
    "Apron.C37_forget_sound",
    "Apron.C37_forget_exact",
    "Apron.C37_forget_dims"
   ],
   "note": ""
  },
  {
   "property": "C38",
   "status": "proved",
   "theorems": [
    "Apron.C38_add_exact",
    "Apron.C38_add_dims",
    "Apron.C38_remove_sound",
    "Apron.C38_remove_exact",
    "Apron.C38_remove_dims",
    "Apron.C38_permute_exact",
    "Apron.C38_add_remove"
   ],
   "note": ""
  },
  {
   "property": "C39",
   "status": "proved",
   "theorems": [
    "Apron.C39_expand_exact",
    "Apron.C39_expand_dims",
    "Apron.C39_fold_sound",
    "Apron.C39_fold_least",
    "Apron.C39_fold_dims"
   ],
   "note": ""
  },
  {
   "property": "C40",
   "status": "proved",
   "theorems": [
    "Apron.C40_meet_lincons_sound",
    "Apron.C40_meet_lincons_le",
    "Apron.C40_meet_lincons_exact",
    "Apron.C40_meet_lincons_wf",
    "Apron.C40_meet_lincons_dims"
   ],
   "note": ""
  },
  {
   "property": "C41",
   "status": "partial",
   "theorems": [
    "Apron.C41_assign_unsound",
    "Apron.C41_assign_partial",
    "Apron.C41_assign_array_sound",
    "Apron.C41_assign_exact",
    "Apron.C41_assign_wf",
    "Apron.C41_assign_array_wf",
    "Apron.C41_assign_dims"
   ],
   "note": "Partial: parallel assignment is fully sound; single assignment is sound unless a general (non-octagonal) expression mentions the last dimension, where the code drops successors (C41_assign_unsound). Exact on unit expressions."
  },
  {
   "property": "C42",
   "status": "proved",
   "theorems": [
    "Apron.C42_subst_sound",
    "Apron.C42_subst_array_sound",
    "Apron.C42_subst_wf",
    "Apron.C42_subst_array_wf"
   ],
   "note": ""
  },
  {
   "property": "C43",
   "status": "proved",
   "theorems": [
    "Apron.C43_sat_sound",
    "Apron.C43_sat_complete",
    "Apron.C43_bound_sound",
    "Apron.C43_bound_tight"
   ],
   "note": ""
  },
  {
   "property": "C44",
   "status": "proved",
   "theorems": [
    "Apron.C44_invert",
    "Apron.C44_invert_invert",
    "Apron.C44_compose",
    "Apron.C44_compose_invert",
    "Apron.C44_compose_id",
    "Apron.C44_compose_assoc",
    "Apron.C44_box_action",
    "Apron.C44_oct_action"
   ],
   "note": ""
  },
  {
   "property": "C45",
   "status": "proved",
   "theorems": [
    "Apron.C45_positions",
    "Apron.C45_box",
    "Apron.C45_oct"
   ],
   "note": ""
  },
  {
   "property": "C46",
   "status": "partial",
   "theorems": [
    "Apron.Props.C46_check",
    "Apron.Props.C46_add",
    "Apron.Props.C46_add_perm",
    "Apron.Props.C46_remove_partial",
    "Apron.Props.C46_remove_duplicate_aborts",
    "Apron.Props.C46_lce",
    "Apron.Props.C46_is_eq",
    "Apron.Props.C46_is_leq",
    "Apron.Props.C46_compare",
    "Apron.Props.C46_dimchange2",
    "Apron.Props.C46_rename",
    "Apron.Props.C46_lce_array",
    "Apron.Props.C46_lce_array_same_not_null"
   ],
   "note": "Partial: all operations proved; removing the same variable twice aborts instead of being refused (C46_remove_duplicate_aborts), and lce_array on three or more equal environments does not return a NULL array of changes (C46_lce_array_same_not_null)."
  },
  {
   "property": "C47",
   "status": "partial",
   "theorems": [
    "Apron.Props.C47_dimchange_partial",
    "Apron.Props.C47_dimchange_same_ints",
    "Apron.Props.C47_dimchange_accepts_wrong",
    "Apron.Props.C47_dimchange_overflow"
   ],
   "note": "Partial: the change to a super-environment is right; other environments may be accepted with a wrong change (C47_dimchange_accepts_wrong) and values may be written outside of the allocated array (C47_dimchange_overflow); with the same integer variables they are never accepted (C47_dimchange_same_ints)."
  },
  {
   "property": "C48",
   "status": "proved",
   "theorems": [
    "Apron.Props.C48_dim_of_var"
   ],
   "note": ""
  },
  {
   "property": "C49",
   "status": "proved",
   "theorems": [
    "Apron.C49_get",
    "Apron.C49_set",
    "Apron.C49_set_defined",
    "Apron.C49_set_get",
    "Apron.C49_value",
    "Apron.C49_alloc"
   ],
   "note": ""
  },
  {
   "property": "C50",
   "status": "partial",
   "theorems": [
    "Apron.C50_add_dimensions_partial",
    "Apron.C50_add_short_dense_wrong",
    "Apron.C50_permute_dimensions_partial",
    "Apron.C50_permute_short_dense_overflow",
    "Apron.C50_minimize"
   ],
   "note": "Partial: sparse expressions are covered in full; dense expressions when they are at least as long as the insertion positions / have the size of the permutation. On shorter dense expressions the code copies coefficients (C50_add_short_dense_wrong) or writes outside of the array (C50_permute_short_dense_overflow)."
  },
  {
   "property": "C51",
   "status": "partial",
   "theorems": [
    "Apron.C51_scalar_cmp",
    "Apron.C51_scalar_order",
    "Apron.C51_scalar_agree",
    "Apron.C51_interval_tests",
    "Apron.C51_interval_cmp_partial",
    "Apron.C51_interval_cmp_antisymm",
    "Apron.C51_interval_cmp_empty_wrong",
    "Apron.C51_coeff_cmp",
    "Apron.C51_coeff_equal",
    "Apron.C51_linexpr_equal_partial",
    "Apron.C51_linexpr_equal_defined",
    "Apron.C51_linexpr_equal_values",
    "Apron.C51_linexpr_equal_crash",
    "Apron.C51_linexpr_compare_partial",
    "Apron.C51_linexpr_compare_not_order"
   ],
   "note": "Partial: scalars are a total order; intervals on non-empty intervals (C51_interval_cmp_empty_wrong otherwise); expression equality is right when it returns, but crashes with free slots (C51_linexpr_equal_crash); expression comparison loses the sign (C51_linexpr_compare_not_order)."
  },
  {
   "property": "C52",
   "status": "partial",
   "theorems": [
    "Apron.C52_scalar_interval",
    "Apron.C52_coeff_equal_int_wrong",
    "Apron.C52_coeff_equal_int_interval_wrong"
   ],
   "note": "The claim is false: the result of ap_coeff_equal_int is the opposite on every scalar (C52_coeff_equal_int_wrong); the scalar and interval tests are right."
  },
  {
   "property": "C53",
   "status": "partial",
   "theorems": [
    "Apron.C53_add_partial",
    "Apron.C53_remove_partial",
    "Apron.C53_perm_partial",
    "Apron.C53_accepts_illegal"
   ],
   "note": "Partial: every legal argument is accepted; the theorems say exactly which illegal ones are accepted too (C53_accepts_illegal)."
  },
  {
   "property": "C54",
   "status": "partial",
   "theorems": [
    "Apron.C54_reduce_keeps",
    "Apron.C54_reduce_keeps_rounded",
    "Apron.C54_reduce_exact_partial",
    "Apron.C54_equality_not_exact"
   ],
   "note": "No integer solution is lost (all number types). Partial: exact except for an equality without integer solution, which the code turns into a satisfiable one (C54_equality_not_exact)."
  },
  {
   "property": "C55",
   "status": "proved",
   "theorems": [
    "Apron.C55_quasilinearize_sound",
    "Apron.C55_quasilinear",
    "Apron.C55_linearize_array_sound"
   ],
   "note": ""
  },
  {
   "property": "C56",
   "status": "partial",
   "theorems": [
    "Apron.C56_intlinearize_sound_partial",
    "Apron.C56_intlinearize_sorted",
    "Apron.C56_intlinearize_tcons_sound_partial",
    "Apron.C56_intlinearize_array_sound_partial",
    "Apron.C56_pow_unsound",
    "Apron.C56_mod_float_unsound"
   ],
   "note": "Partial: LinSafe excludes odd powers of possibly unbounded-below bases (C56_pow_unsound) and modulo of floating-point type (C56_mod_float_unsound); proved for every outward rounding of the bounds."
  },
  {
   "property": "C57",
   "status": "partial",
   "theorems": [
    "Apron.Props.C57_assign_array",
    "Apron.Props.C57_substitute_array",
    "Apron.Props.C57_meet_array",
    "Apron.Props.C57_join_array",
    "Apron.Props.C57_box_substitute_linexpr",
    "Apron.Props.C57_box_substitute_texpr_partial",
    "Apron.Props.C57_short_dense_unsound",
    "Apron.Props.C57_duplicate_targets_not_permutation"
   ],
   "note": "Proved for every domain with sound (exact) primitives, with instances for boxes; distinct targets and full-length dense expressions are needed (C57_duplicate_targets_not_permutation, C57_short_dense_unsound)."
  },
  {
   "property": "C58",
   "status": "proved",
   "theorems": [
    "Apron.Props.C58_widening_threshold",
    "Apron.Props.C58_widening_threshold_wrong",
    "Apron.Props.C58_box_widening_threshold",
    "Apron.Props.C58_oct_widening_threshold"
   ],
   "note": "For every domain, with instances for boxes and octagons. Without the inclusion precondition the first argument may be lost (C58_widening_threshold_wrong)."
  },
  {
   "property": "C59",
   "status": "partial",
   "theorems": [
    "Apron.C59_interval_linear_converted",
    "Apron.C59_intlinear_sound",
    "Apron.C59_intlinear_tcons_reports",
    "Apron.C59_intlinear_array_sound_partial",
    "Apron.C59_array_failure_not_reported"
   ],
   "note": "Single expressions and single constraints report failure and are sound. The array form is sound when every constraint is interval linear; when one is not, it returns the unsatisfiable array instead of reporting (C59_array_failure_not_reported)."
  },
  {
   "property": "C62",
   "status": "proved",
   "theorems": [
    "Apron.C62_add_ray_array_sound",
    "Apron.C62_add_ray_array_least"
   ],
   "note": ""
  },
  {
   "property": "C63",
   "status": "partial",
   "theorems": [
    "Apron.C63_quasilinearize_array_partial",
    "Apron.C63_quasilinearize_array_unsound"
   ],
   "note": "Partial: exact arithmetic; with rounding a stale flag makes the code drop solutions (C63_quasilinearize_array_unsound)."
  },
  {
   "property": "C66",
   "status": "proved",
   "theorems": [
    "Apron.C66_assign_in_place",
    "Apron.C66_assign_in_place_gamma"
   ],
   "note": ""
  },
  {
   "property": "C67",
   "status": "partial",
   "theorems": [
    "Apron.C67_check_linexpr_partial",
    "Apron.C67_accepts_dim_zero",
    "Apron.Props.C67_check_texpr"
   ],
   "note": "Partial: exact when the space has a dimension; C67_accepts_dim_zero otherwise."
  },
  {
   "property": "C68",
   "status": "partial",
   "theorems": [
    "Apron.C68_hash_partial",
    "Apron.C68_hash_dense",
    "Apron.C68_hash_mutates",
    "Apron.C68_hash_not_equal"
   ],
   "note": "Partial: terminates and keeps the values; but sparse expressions are modified and equal expressions get different codes (C68_hash_mutates, C68_hash_not_equal)."
  },
  {
   "property": "C69",
   "status": "proved",
   "theorems": [
    "Apron.C69_type",
    "Apron.C69_array_type",
    "Apron.C69_is_real",
    "Apron.C69_is_integer",
    "Apron.C69_zero"
   ],
   "note": ""
  },
  {
   "property": "C70",
   "status": "proved",
   "theorems": [
    "Apron.Props.C70_change_environment",
    "Apron.Props.C70_minimize_environment"
   ],
   "note": ""
  },
  {
   "property": "C71",
   "status": "proved",
   "theorems": [
    "Apron.Props.C71_rename"
   ],
   "note": ""
  },
  {
   "property": "C72",
   "status": "proved",
   "theorems": [
    "Apron.Props.C72_meet",
    "Apron.Props.C72_join",
    "Apron.Props.C72_unify"
   ],
   "note": ""
  },
  {
   "property": "C73",
   "status": "proved",
   "theorems": [
    "Apron.Props.C73_expand"
   ],
   "note": ""
  },
  {
   "property": "C74",
   "status": "partial",
   "theorems": [
    "Apron.Props.C74_fold_partial",
    "Apron.Props.C74_fold_mixed_types"
   ],
   "note": "Partial: distinct known variables of one type; the function aborts on repeated variables (C46_remove_duplicate_aborts) and yields an ill-formed value on mixed types (C74_fold_mixed_types)."
  },
  {
   "property": "C75",
   "status": "proved",
   "theorems": [
    "Apron.Props.C75_forget"
   ],
   "note": ""
  },
  {
   "property": "C77",
   "status": "proved",
   "theorems": [
    "Apron.Props.C77_has_dim",
    "Apron.Props.C77_max_dim",
    "Apron.Props.C77_dimlist",
    "Apron.Props.C77_depth_size",
    "Apron.Props.C77_substitute",
    "Apron.Props.C77_substitute_dims",
    "Apron.Props.C77_add_dimensions",
    "Apron.Props.C77_add_dimensions_dims",
    "Apron.Props.C77_remove_dimensions",
    "Apron.Props.C77_permute_dimensions"
   ],
   "note": ""
  },
  {
   "property": "C78",
   "status": "proved",
   "theorems": [
    "Apron.Props.C78_from_linexpr",
    "Apron.Props.C78_is_interval_cst",
    "Apron.Props.C78_is_scalar",
    "Apron.Props.C78_is_interval_linear",
    "Apron.Props.C78_is_interval_polynomial",
    "Apron.Props.C78_is_interval_polyfrac",
    "Apron.Props.C78_array"
   ],
   "note": "A constant exponent that is not a natural number gives an unspecified power in the model of values (so such trees denote every constant); the classification accepts them."
  },
  {
   "property": "C79",
   "status": "proved",
   "theorems": [
    "Apron.Props.C79_equal",
    "Apron.Props.C79_equal_value",
    "Apron.Props.C79_equal_hash"
   ],
   "note": ""
  },
  {
   "property": "C76",
   "status": "partial",
   "theorems": [
    "Apron.Props.C76_extend",
    "Apron.Props.C76_extend_environment",
    "Apron.Props.C76_query",
    "Apron.Props.C76_query_var",
    "Apron.Props.C76_meet_cons",
    "Apron.Props.C76_asssub",
    "Apron.Props.C76_asssub_nil",
    "Apron.Props.C76_assign_sound",
    "Apron.Props.C76_substitute_sound",
    "Apron.Props.C76_box_bound_linexpr",
    "Apron.Props.C76_box_bound_variable",
    "Apron.Props.C76_box_sat_lincons",
    "Apron.Props.C76_box_meet_lincons",
    "Apron.Props.C76_box_assign_linexpr",
    "Apron.Props.C76_box_bound_texpr_partial",
    "Apron.Props.C76_box_assign_texpr_partial",
    "Apron.Props.C76_oct_meet_lincons",
    "Apron.Props.C76_oct_assign_linexpr_partial",
    "Apron.Props.C76_oct_substitute_linexpr",
    "Apron.Props.C76_wrong_environment_accepted"
   ],
   "note": "Partial only in what the domains guarantee (tree expressions without powers; octagon assignment of two variables or more) and for environments that are not included, which may be accepted (C76_wrong_environment_accepted). The translation itself is proved in full for included environments."
  },
  {
   "property": "C64",
   "status": "proved",
   "theorems": [
    "Apron.C64_coeff_of_itv",
    "Apron.C64_linexpr_of_itv",
    "Apron.C64_lincons_of_itv"
   ],
   "note": ""
  },
  {
   "property": "C80",
   "status": "partial",
   "theorems": [
    "Apron.C80_is_sat_partial",
    "Apron.C80_is_unsat_partial",
    "Apron.C80_make_unsat",
    "Apron.C80_is_unsat_eqmod_wrong",
    "Apron.C80_is_unsat_diseq_wrong",
    "Apron.C80_is_sat_diseq_wrong"
   ],
   "note": "Partial: all types of constraints except those for which the code is wrong: C80_is_unsat_eqmod_wrong, C80_is_unsat_diseq_wrong, C80_is_sat_diseq_wrong."
  },
  {
   "property": "C81",
   "status": "partial",
   "theorems": [
    "Apron.C81_sat_tcons_generic_partial",
    "Apron.C81_oct_sat_tcons_partial",
    "Apron.C81_sat_tcons_diseq_unsound"
   ],
   "note": "Partial: disequalities are excluded (the code is wrong on them, C81_sat_tcons_diseq_unsound); LinSafe/PowSafe exclude the remainders on floating-point types and the powers on which the evaluation is wrong (C56)."
  },
  {
   "property": "C82",
   "status": "partial",
   "theorems": [
    "Apron.C82_bound_texpr_generic_partial",
    "Apron.C82_oct_bound_texpr_partial",
    "Apron.C82_oct_bound_texpr_empty"
   ],
   "note": "Partial: LinSafe/PowSafe exclude the remainders on floating-point types and the powers on which the evaluation is wrong (C56)."
  },
  {
   "property": "C83",
   "status": "partial",
   "theorems": [
    "Apron.C83_intlinearize_array_sound_partial",
    "Apron.C83_meet_tcons_generic_partial",
    "Apron.C83_oct_meet_tcons_partial",
    "Apron.C83_oct_meet_tcons_le"
   ],
   "note": "Partial: exact numbers; LinSafe excludes the remainders on floating-point types and the powers on which the evaluation is wrong (C56)."
  },
  {
   "property": "C84",
   "status": "proved",
   "theorems": [
    "Apron.Props.C84_vector_gcd",
    "Apron.Props.C84_vector_normalize",
    "Apron.Props.C84_vector_combine"
   ],
   "note": ""
  },
  {
   "property": "C85",
   "status": "proved",
   "theorems": [
    "Apron.Props.C85_conversion_exact",
    "Apron.Props.C85_lines_exact",
    "Apron.Props.C85_rays_irredundant",
    "Apron.Props.C85_saturation_exact"
   ],
   "note": ""
  },
  {
   "property": "C86",
   "status": "proved",
   "theorems": [
    "Apron.Props.C86_minimize_exact",
    "Apron.Props.C86_minimize_echelon",
    "Apron.Props.C86_minimize_irredundant",
    "Apron.Props.C86_minimize_rays_irredundant",
    "Apron.Props.C86_minimize_empty"
   ],
   "note": ""
  },
  {
   "property": "C87",
   "status": "proved",
   "theorems": [
    "Apron.Props.C87_add_exact",
    "Apron.Props.C87_minimize_minOk",
    "Apron.Props.C87_add_empty",
    "Apron.Props.C87_add_generators_exact"
   ],
   "note": ""
  },
  {
   "property": "C88",
   "status": "proved",
   "theorems": [
    "Apron.Props.C88_meet_exact",
    "Apron.Props.C88_meet_self",
    "Apron.Props.C88_meet_array_exact",
    "Apron.Props.C88_meet_destructive_null_dereference"
   ],
   "note": "Exactness for every mode and every combination of matrices. Precondition for the destructive strict version, with the defect (NULL dereference) proved."
  },
  {
   "property": "C89",
   "status": "partial",
   "theorems": [
    "Apron.Props.C89_join_least",
    "Apron.Props.C89_join_lub",
    "Apron.Props.C89_join_self",
    "Apron.Props.C89_join_array_least_partial",
    "Apron.Props.C89_join_array_three_aliases_unsound"
   ],
   "note": "pk_join fully proved. pk_join_array proved when no address occurs more than twice; the code violates the property otherwise, proved by a witness (three aliases)."
  },
  {
   "property": "C90",
   "status": "proved",
   "theorems": [
    "Apron.Props.C90_is_leq_exact",
    "Apron.Props.C90_is_bottom_exact",
    "Apron.Props.C90_is_bottom_sound",
    "Apron.Props.C90_is_top_exact",
    "Apron.Props.C90_is_top_sound",
    "Apron.Props.C90_top",
    "Apron.Props.C90_conversions"
   ],
   "note": "pk_is_eq is not covered here."
  },
  {
   "property": "C91",
   "status": "partial",
   "theorems": [
    "Apron.Props.C91_meet_lincons_sound",
    "Apron.Props.C91_meet_lincons_exact_partial",
    "Apron.Props.C91_strict_not_exact",
    "Apron.Props.C91_integer_equality_not_exact"
   ],
   "note": "Soundness proved for all constraints. Exactness proved for real dimensions and non-strict numeric constraints; the code is not exact otherwise although flag_exact is set, proved by witnesses (strict constraint; integer equality)."
  },
  {
   "property": "C92",
   "status": "proved",
   "theorems": [
    "Apron.Props.C92_bound_dimension_sound",
    "Apron.Props.C92_bound_dimension_best",
    "Apron.Props.C92_to_box"
   ],
   "note": "pk_bound_dimension and pk_to_box, all representations."
  },
  {
   "property": "C93",
   "status": "partial",
   "theorems": [
    "Apron.Props.C93_bound_linexpr_sound",
    "Apron.Props.C93_bound_linexpr_best_partial",
    "Apron.Props.C93_interval_not_best"
   ],
   "note": "Soundness for all interval expressions; optimality for numeric ones; a witness shows that it fails for interval coefficients."
  },
  {
   "property": "C94",
   "status": "proved",
   "theorems": [
    "Apron.Props.C94_add_rays_exact"
   ],
   "note": "Vertices are excluded by an assertion of the code; coefficients are numeric."
  },
  {
   "property": "C95",
   "status": "partial",
   "theorems": [
    "Apron.Props.C95_of_box_sound",
    "Apron.Props.C95_of_box_exact_partial",
    "Apron.Props.C95_integer_bound_not_exact"
   ],
   "note": "Soundness proved; exactness proved for real dimensions; defect for integer lower bounds proved by a witness."
  },
  {
   "property": "C96",
   "status": "partial",
   "theorems": [
    "Apron.Props.C96_sat_lincons_sound_partial",
    "Apron.Props.C96_sat_lincons_complete",
    "Apron.Props.C96_sat_equality_unsound"
   ],
   "note": "Soundness proved except for equalities with interval coefficients, for which the code is wrong (witness); completeness proved for numeric non-strict constraints on real dimensions."
  },
  {
   "property": "C97",
   "status": "proved",
   "theorems": [
    "Apron.Props.C97_sat_interval_iff"
   ],
   "note": "Intervals whose bounds are not the wrong infinity."
  },
  {
   "property": "C98",
   "status": "proved",
   "theorems": [
    "Apron.Props.C98_widening_upper_bound",
    "Apron.Props.C98_widening_keeps_stable_constraints",
    "Apron.Props.C98_widening_null_dereference"
   ],
   "note": "The precondition (a included in b) is documented; outside of it a null dereference is proved."
  },
  {
   "property": "C99",
   "status": "proved",
   "theorems": [
    "Apron.Props.C99_widening_terminates"
   ],
   "note": "Proved with a lexicographic measure: number of equalities, then number of facets other than positivity."
  },
  {
   "property": "C100",
   "status": "partial",
   "theorems": [
    "Apron.Props.C100_threshold_upper_bound",
    "Apron.Props.C100_threshold_kept_partial",
    "Apron.Props.C100_threshold_terminates",
    "Apron.Props.C100_threshold_empty_inconsistent"
   ],
   "note": "Bounds and termination proved for non-empty first argument; thresholds kept proved for numeric non-strict constraints on real dimensions; a witness shows the inconsistent result when the first argument is empty."
  },
  {
   "property": "C101",
   "status": "proved",
   "theorems": [
    "Apron.Props.C101_forget_exact",
    "Apron.Props.C101_forget_idempotent"
   ],
   "note": "Real dimensions; the memory exceptions are not modelled."
  },
  {
   "property": "C102",
   "status": "partial",
   "theorems": [
    "Apron.Props.C102_add_exact",
    "Apron.Props.C102_add_nothing_out_of_bounds"
   ],
   "note": "Exact for every non-empty change; with an empty change and known sorted generators the code reads a row out of bounds (witness)."
  },
  {
   "property": "C103",
   "status": "proved",
   "theorems": [
    "Apron.Props.C103_remove_exact",
    "Apron.Props.C103_permute_exact",
    "Apron.Props.C103_add_remove"
   ],
   "note": "Removal exact on the rational points."
  },
  {
   "property": "C104",
   "status": "partial",
   "theorems": [
    "Apron.Props.C104_assign_exact",
    "Apron.Props.C104_substitute_exact_partial",
    "Apron.Props.C104_substitute_null_dereference"
   ],
   "note": "Assignment is proved without restriction. Substitution in strict mode with a destination needs a non-empty result (defect C104_substitute_null_dereference). Expressions with interval coefficients go through the generic code (C57)."
  },
  {
   "property": "C105",
   "status": "proved",
   "theorems": [
    "Apron.Props.C105_weakest_precondition",
    "Apron.Props.C105_assign_order"
   ],
   "note": ""
  },
  {
   "property": "C106",
   "status": "proved",
   "theorems": [
    "Apron.Props.C106_expand_exact",
    "Apron.Props.C106_expand_zero"
   ],
   "note": ""
  },
  {
   "property": "C107",
   "status": "proved",
   "theorems": [
    "Apron.Props.C107_fold_least",
    "Apron.Props.C107_fold_lub",
    "Apron.Props.C107_fold_expand"
   ],
   "note": ""
  },
  {
   "property": "C108",
   "status": "proved",
   "theorems": [
    "Apron.Props.C108_canonicalize",
    "Apron.Props.C108_minimize",
    "Apron.Props.C108_canonical_unique",
    "Apron.Props.C108_nice_top",
    "Apron.Props.C108_nice_of_box",
    "Apron.Props.C108_nice_canonicalize",
    "Apron.Props.C108_nice_minimize",
    "Apron.Props.C108_nice_meet",
    "Apron.Props.C108_nice_join",
    "Apron.Props.C108_nice_meet_lincons",
    "Apron.Props.C108_nice_add_rays"
   ],
   "note": ""
  },
  {
   "property": "C109",
   "status": "partial",
   "theorems": [
    "Apron.Props.C109_is_eq_sound",
    "Apron.Props.C109_is_eq_exact_partial",
    "Apron.Props.C109_is_eq_wrong"
   ],
   "note": "Exactness needs normalised matrices. C109_is_eq_wrong: the destructive assignment of an expression with a denominator multiplies the status column, after which pk_is_eq on the canonical forms of equal polyhedra is false (an assertion fails without NDEBUG)."
  },
  {
   "property": "C110",
   "status": "proved",
   "theorems": [
    "Apron.Props.C110_is_dimension_unconstrained_sound",
    "Apron.Props.C110_is_dimension_unconstrained_exact"
   ],
   "note": ""
  },
  {
   "property": "C111",
   "status": "proved",
   "theorems": [
    "Apron.Props.C111_manager",
    "Apron.Props.C111_change_environment",
    "Apron.Props.C111_minimize_environment",
    "Apron.Props.C111_unify"
   ],
   "note": "C111_manager is the specification that C46/C70-C76 need from a domain, with the exactness flag True."
  },
  {
   "property": "C112",
   "status": "partial",
   "theorems": [
    "Apron.Props.C112_assign_linexpr_sound",
    "Apron.Props.C112_substitute_linexpr_sound_partial"
   ],
   "note": "Assignment is proved in full; the substitution theorem excludes the null dereference of C104 (C112_substitute_linexpr_sound_partial)."
  },
  {
   "property": "C113",
   "status": "partial",
   "theorems": [
    "Apron.Props.C113_sat_tcons_sound_partial",
    "Apron.Props.C113_sat_tcons_unsound"
   ],
   "note": "LinSafe as in C56; equalities need a linear form with scalar coefficients: C113_sat_tcons_unsound is the counterexample (stale equality flag)."
  },
  {
   "property": "C114",
   "status": "partial",
   "theorems": [
    "Apron.Props.C114_bound_texpr_sound_partial",
    "Apron.Props.C114_bound_texpr_empty"
   ],
   "note": "LinSafe and PowSafe as in C56 and C46 (known defects of powers)."
  },
  {
   "property": "C115",
   "status": "partial",
   "theorems": [
    "Apron.Props.C115_meet_tcons_included",
    "Apron.Props.C115_meet_tcons_sound_partial"
   ],
   "note": "Inclusion, validity and dimensions are unconditional; soundness needs LinSafe as in C56."
  },
  {
   "property": "C116",
   "status": "partial",
   "theorems": [
    "Apron.Props.C116_assign_texpr_sound_partial",
    "Apron.Props.C116_substitute_texpr_sound_partial"
   ],
   "note": "Trees without powers and with remainders on integers or reals; in strict mode with a destination the result before the meet must be non-empty (null dereference, C104_substitute_null_dereference)."
  },
  {
   "property": "C117",
   "status": "proved",
   "theorems": [
    "Apron.Props.C117_product_is_a_domain"
   ],
   "note": ""
  },
  {
   "property": "C118",
   "status": "proved",
   "theorems": [
    "Apron.Props.C118_is_bottom_sound",
    "Apron.Props.C118_flag_exact_components",
    "Apron.Props.C118_is_top_sound",
    "Apron.Props.C118_is_leq_sound",
    "Apron.Props.C118_is_eq_sound",
    "Apron.Props.C118_sat_sound",
    "Apron.Props.C118_bound_sound",
    "Apron.Props.C118_bound_is_intersection",
    "Apron.Props.C118_to_box_sound",
    "Apron.Props.C118_to_box_is_intersection",
    "Apron.Props.C118_to_cons",
    "Apron.Props.C118_of_box",
    "Apron.Props.C118_copy",
    "Apron.Props.C118_meet_cons",
    "Apron.Props.C118_asssub_sound",
    "Apron.Props.C118_meet_array",
    "Apron.Props.C118_join_array",
    "Apron.Props.C118_widening_sound",
    "Apron.Props.C118_widening_terminates",
    "Apron.Props.C118_flag_exact_wrong",
    "Apron.Props.C118_flag_best_ignores_components"
   ],
   "note": "The components' functions are parameters; their soundness is a hypothesis, discharged for boxes and polyhedra by other properties. C118_flag_exact_wrong is a defect."
  },
  {
   "property": "C119",
   "status": "proved",
   "theorems": [
    "Apron.C119_reachable_wf",
    "Apron.C119_closed_matrix_is_tight",
    "Apron.C119_two_matrices_agree",
    "Apron.C119_tests_exact"
   ],
   "note": "Substitutions with a negative `algorithm` are left out of the histories (see C42); intervals of boxes must not be [+oo,+oo] or [-oo,-oo]; interval expressions must have proper coefficients."
  },
  {
   "property": "C120",
   "status": "partial",
   "theorems": [
    "Apron.Props.C120_resize",
    "Apron.Props.C120_clean",
    "Apron.Props.C120_elim_redundant",
    "Apron.Props.C120_bottom_top",
    "Apron.Props.C120_dimension",
    "Apron.Props.C120_is_bottom_sound",
    "Apron.Props.C120_is_top_sound",
    "Apron.Props.C120_is_leq_not_reflexive",
    "Apron.Props.C120_join",
    "Apron.Props.C120_join_array_partial",
    "Apron.Props.C120_join_array_of_bottoms_wrong",
    "Apron.Props.C120_meet_partial",
    "Apron.Props.C120_meet_of_disjoint_undefined",
    "Apron.Props.C120_is_bottom_incomplete",
    "Apron.Props.C120_meet_undefined"
   ],
   "note": "Meet is undefined on disjoint values (C120_meet_of_disjoint_undefined) and join_array of three or more empty values is not a legal value (C120_join_array_of_bottoms_wrong); the full statement holds outside these cases."
  },
  {
   "property": "C121",
   "status": "partial",
   "theorems": [
    "Apron.Props.C121_sat",
    "Apron.Props.C121_bound_sound_partial",
    "Apron.Props.C121_bound_value",
    "Apron.Props.C121_to_box_sound_partial",
    "Apron.Props.C121_to_lincons",
    "Apron.Props.C121_meet_cons",
    "Apron.Props.C121_meet_constraints",
    "Apron.Props.C121_asssub",
    "Apron.Props.C121_add",
    "Apron.Props.C121_remove",
    "Apron.Props.C121_permute",
    "Apron.Props.C121_forget",
    "Apron.Props.C121_fold",
    "Apron.Props.C121_expand_partial",
    "Apron.Props.C121_minimize",
    "Apron.Props.C121_bound_unsound",
    "Apron.Props.C121_bound_imprecise",
    "Apron.Props.C121_to_box_unsound",
    "Apron.Props.C121_expand_unsound"
   ],
   "note": "Bounds and to_box are sound only if the first disjunct is not empty (C121_bound_unsound, C121_to_box_unsound); expand is unsound (C121_expand_unsound)."
  },
  {
   "property": "C122",
   "status": "partial",
   "theorems": [
    "Apron.Props.C122_add_sound",
    "Apron.Props.C122_neg_sound",
    "Apron.Props.C122_scale_sound",
    "Apron.Props.C122_sub_sound_partial",
    "Apron.Props.C122_mul_sound_partial",
    "Apron.Props.C122_div_sound_partial",
    "Apron.Props.C122_sqrt_sound_partial",
    "Apron.Props.C122_reduce_sound_partial",
    "Apron.Props.C122_sub_wrong",
    "Apron.Props.C122_mul_wrong",
    "Apron.Props.C122_reduce_wrong"
   ],
   "note": "Addition, negation and scaling are proved in full; subtraction, product, division, square root and reduction under explicit conditions, since the code is wrong without them (C122_sub_wrong, C122_mul_wrong, C122_reduce_wrong). Constrained noise symbols are modelled in Defs but not proved."
  },
  {
   "property": "C123",
   "status": "proved",
   "theorems": [
    "Apron.Props.C123_no_dimension_wrong",
    "Apron.Props.C123_is_bottom_incomplete",
    "Apron.Props.C123_of_box_points",
    "Apron.Props.C123_of_box_exact",
    "Apron.Props.C123_of_box_others",
    "Apron.Props.C123_bound_dimension_sound",
    "Apron.Props.C123_is_bottom_sound",
    "Apron.Props.C123_top_bottom"
   ],
   "note": "Intervals with a lower bound +oo or an upper bound -oo are excluded. For rounding arithmetic of_box needs finite middles (always true of exact arithmetic)."
  },
  {
   "property": "C124",
   "status": "partial",
   "theorems": [
    "Apron.Props.C124_assign_top_wrong",
    "Apron.Props.C124_assign_square_wrong",
    "Apron.Props.C124_assign_type_wrong",
    "Apron.Props.C124_assign_sound_partial",
    "Apron.Props.C124_assign_others_partial",
    "Apron.Props.C124_assign_invariant",
    "Apron.Props.C124_program_sound_partial"
   ],
   "note": "Sound under the conditions of C122 at each node and for nodes of type real; C124_assign_top_wrong, C124_assign_square_wrong, C124_assign_type_wrong show that the unconditional statement is false. The invariant is kept unconditionally."
  },
  {
   "property": "C125",
   "status": "proved",
   "theorems": [
    "Apron.Props.C125_linear_program_exact"
   ],
   "note": "Exact (rational) arithmetic; any reduction threshold >= 0."
  },
  {
   "property": "C126",
   "status": "partial",
   "theorems": [
    "Apron.Props.C126_add_wrong",
    "Apron.Props.C126_permute_wrong",
    "Apron.Props.C126_forget_wrong",
    "Apron.Props.C126_project_wrong",
    "Apron.Props.C126_remove_sound",
    "Apron.Props.C126_add_sound_partial",
    "Apron.Props.C126_forget_sound_partial"
   ],
   "note": "Removal is proved in full; addition when all positions are equal; forgetting for dimensions 0..k-1. C126_add_wrong, C126_permute_wrong, C126_forget_wrong, C126_project_wrong show that the rest is false."
  },
  {
   "property": "C127",
   "status": "partial",
   "theorems": [
    "Apron.Props.C127_oct_assign_texpr_partial",
    "Apron.Props.C127_oct_substitute_texpr_partial",
    "Apron.Props.C127_oct_asssub_texpr_dims",
    "Apron.Props.C127_oct_asssub_texpr_empty"
   ],
   "note": "Partial: exact numbers, trees without power and with remainders on integers or reals only (the conditions of C83)."
  },
  {
   "property": "C128",
   "status": "partial",
   "theorems": [
    "Apron.Props.C128_mpz_partial",
    "Apron.Props.C128_mpz_total",
    "Apron.Props.C128_mpq_partial",
    "Apron.Props.C128_native",
    "Apron.Props.C128_native_portable",
    "Apron.Props.C128_compound",
    "Apron.Props.C128_mpz_unsigned_char_wrong",
    "Apron.Props.C128_mpfr_value",
    "Apron.Props.C128_mpfr_special",
    "Apron.Props.C128_mpfr_wrong"
   ],
   "note": "Partial: GMP numbers when char is signed (C128_mpz_unsigned_char_wrong); MPFR numbers are not read back (C128_mpfr_wrong; C128_mpfr_value tells exactly what is read). Native and compound types fully proved."
  },
  {
   "property": "C129",
   "status": "partial",
   "theorems": [
    "Apron.Props.C129_oct_round_trip",
    "Apron.Props.C129_oct_same_points",
    "Apron.Props.C129_oct_mpq_partial"
   ],
   "note": "Fully proved relative to the round trip of numbers, dimensions below 2^32; partial as C128 is for some number types."
  },
  {
   "property": "C130",
   "status": "proved",
   "theorems": [
    "Apron.Props.C130_product_round_trip",
    "Apron.Props.C130_product_oct"
   ],
   "note": "Instance with octagons: C130_product_oct."
  },
  {
   "property": "C131",
   "status": "partial",
   "theorems": [
    "Apron.Props.C131_reduce",
    "Apron.Props.C131_check",
    "Apron.Props.C131_top_bottom",
    "Apron.Props.C131_meet",
    "Apron.Props.C131_meet_array_partial",
    "Apron.Props.C131_join_least",
    "Apron.Props.C131_join_hull",
    "Apron.Props.C131_forget",
    "Apron.Props.C131_remove",
    "Apron.Props.C131_expand",
    "Apron.Props.C131_expand_zero",
    "Apron.Props.C131_add",
    "Apron.Props.C131_permute",
    "Apron.Props.C131_fold_least",
    "Apron.Props.C131_widening_upper",
    "Apron.Props.C131_widening_terminates",
    "Apron.Props.C131_is_eq_sound",
    "Apron.Props.C131_is_eq_exact_partial",
    "Apron.Props.C131_nice_reduce",
    "Apron.Props.C131_meet_lincons_sound",
    "Apron.Props.C131_meet_lincons_hull_partial",
    "Apron.Props.C131_add_rays_hull",
    "Apron.Props.C131_of_box_sound",
    "Apron.Props.C131_of_box_hull_partial",
    "Apron.Props.C131_join_array_partial",
    "Apron.Props.C131_join_array_lazy_not_affine",
    "Apron.Props.C131_of_box_empty_not_best"
   ],
   "note": "Missing: array operations with a negative algorithm option of their own (pkeq_join_array writes the option of another function; C131_join_array_lazy_not_affine), hull of integer/strict constraints and of boxes with integer dimensions or empty boxes (C131_of_box_empty_not_best), equality on unnormalised matrices, meet with tree constraints."
  },
  {
   "property": "C132",
   "status": "partial",
   "theorems": [
    "Apron.Props.C132_assign_partial",
    "Apron.Props.C132_assign_sound_partial",
    "Apron.Props.C132_assign_exact",
    "Apron.Props.C132_substitute_exact_partial",
    "Apron.Props.C132_substitute_forget",
    "Apron.Props.C132_substitute_mixed_unsound",
    "Apron.Props.C132_assign_interval_coefficient_unsound"
   ],
   "note": "Missing because false: expressions with a scalar constant and interval coefficients (C132_assign_interval_coefficient_unsound), substitution arrays that mix scalar and interval constants (C132_substitute_mixed_unsound)."
  },
  {
   "property": "C134",
   "status": "proved",
   "theorems": [
    "Apron.Props.C134_to_lincons",
    "Apron.Props.C134_to_generators",
    "Apron.Props.C134_hash"
   ],
   "note": "Non-strict mode. pk_hash on unbounded integers."
  },
  {
   "property": "C135",
   "status": "partial",
   "theorems": [
    "Apron.Props.C135_unchanged",
    "Apron.Props.C135_over",
    "Apron.Props.C135_box",
    "Apron.Props.C135_small",
    "Apron.Props.C135_outer_not_small",
    "Apron.Props.C135_integer",
    "Apron.Props.C135_octagon_unsound",
    "Apron.Props.C135_octagon_partial"
   ],
   "note": "Algorithm 3 is unsound (C135_octagon_unsound): the constraint for an upper bound b of an octagonal expression says that the expression is at most -b; C135_octagon_partial covers the case without positive upper bounds. The size claim is false for the outer rounding of 11 and 12 (C135_outer_not_small)."
  },
  {
   "property": "C133",
   "status": "partial",
   "theorems": [
    "Apron.Props.C133_reduce_sound",
    "Apron.Props.C133_reduce_total",
    "Apron.Props.C133_reduce_empty",
    "Apron.Props.C133_reduce_equalities",
    "Apron.Props.C133_reduce_tightens_partial",
    "Apron.Props.C133_skips_constraints"
   ],
   "note": "C133_reduce_sound, C133_reduce_total, C133_reduce_empty and C133_reduce_equalities are proved in full. C133_reduce_tightens_partial: a congruence is used only if no congruence before it had its upper bound changed; the others are skipped because the inner loop over terms reuses the index of the main loop, and C133_skips_constraints proves it on a concrete square. Tightening with integer dimensions is not stated. The PPL grids are not modelled: their functions are the parameters of GridSpec, for which two instances are given."
  },
  {
   "property": "C136",
   "status": "partial",
   "theorems": [
    "Apron.Props.C136_analysis_sound",
    "Apron.Props.C136_analysis_terminates",
    "Apron.Props.C136_box_analysis",
    "Apron.Props.C136_oct_analysis",
    "Apron.Props.C136_pk_analysis"
   ],
   "note": "Proved for the three domains with exact rationals and for functional calls. Missing: octagon assignments of one dimension that meet the defect C41_assign_unsound are excluded from legal programs (OctLA); tree expressions; rounded number types; the analysis itself is client code (Verif/Client/Analysis.lean), not code of the repository."
  },
  {
   "property": "C137",
   "status": "proved",
   "theorems": [
    "Apron.C137_close_keeps_points",
    "Apron.C137_close_adds_nothing",
    "Apron.C137_close_tightens",
    "Apron.C137_incremental_keeps_points",
    "Apron.C137_incremental_adds_nothing",
    "Apron.C137_s_step_keeps_points",
    "Apron.C137_strict_emptiness_undetected",
    "Apron.C137_strict_clash",
    "Apron.C137_strong_31",
    "Apron.C137_top_points"
   ],
   "note": "all closures of avo_closure.c modelled; defects C137_strong_31, C137_strict_emptiness_undetected, C137_strict_clash"
  },
  {
   "property": "C138",
   "status": "proved",
   "theorems": [
    "Apron.C138_top_bottom",
    "Apron.C138_cache",
    "Apron.C138_of_box",
    "Apron.C138_meet",
    "Apron.C138_join",
    "Apron.C138_join_array",
    "Apron.C138_meet_array_null"
   ],
   "note": "defect C138_meet_array_null"
  },
  {
   "property": "C139",
   "status": "proved",
   "theorems": [
    "Apron.C139_widening",
    "Apron.C139_widening_thresholds",
    "Apron.C139_widening_wf",
    "Apron.C139_narrowing",
    "Apron.C139_widening_stabilises"
   ],
   "note": "stabilisation is for the left operands as returned by the widening (not cached in between)"
  },
  {
   "property": "C140",
   "status": "partial",
   "theorems": [
    "Apron.C140_is_bottom",
    "Apron.C140_bound_dimension",
    "Apron.C140_to_box",
    "Apron.C140_sat_interval",
    "Apron.C140_sat_lincons",
    "Apron.C140_bound_linexpr",
    "Apron.C140_is_top",
    "Apron.C140_is_leq_partial",
    "Apron.C140_is_eq_partial",
    "Apron.C140_is_leq_unsound",
    "Apron.C140_is_eq_unsound",
    "Apron.C140_unconstrained_unsound",
    "Apron.C140_is_top_incomplete",
    "Apron.C140_to_lincons_partial",
    "Apron.C140_to_lincons_unsound"
   ],
   "note": "is_leq, is_eq, is_dimension_unconstrained and to_lincons_array are unsound in the code (witnesses proved); the partial theorems cover the constraints without absolute values"
  },
  {
   "property": "C141",
   "status": "partial",
   "theorems": [
    "Apron.C141_meet_sound_partial",
    "Apron.C141_meet_general_partial",
    "Apron.C141_meet_le",
    "Apron.C141_meet_exact",
    "Apron.C141_diseq_zero",
    "Apron.C141_diseq_unary",
    "Apron.C141_diseq_binary",
    "Apron.C141_general_strict",
    "Apron.C141_binary_claims_closed"
   ],
   "note": "disequalities, and general constraints on values with strict marks, are unsound in the code (witnesses proved)"
  },
  {
   "property": "C142",
   "status": "partial",
   "theorems": [
    "Apron.C142_forget_sound",
    "Apron.C142_forget_changes_argument",
    "Apron.C142_add_exact",
    "Apron.C142_remove_sound",
    "Apron.C142_add_remove",
    "Apron.C142_permute_exact",
    "Apron.C142_fold_empty",
    "Apron.C142_fold_unsound"
   ],
   "note": "forget, add, remove, permute proved; the claims on the argument of forget and on fold are refuted (C142_forget_changes_argument, C142_fold_empty, C142_fold_unsound). avo_expand is modelled without a theorem."
  },
  {
   "property": "C143",
   "status": "partial",
   "theorems": [
    "Apron.C143_assign_partial",
    "Apron.C143_shift_sound",
    "Apron.C143_assign_constant_unsound",
    "Apron.C143_assign_opposite_unsound",
    "Apron.C143_assign_bottom_undefined",
    "Apron.C143_assign_loses_diagonal"
   ],
   "note": "Proved when the sign of the assigned variable is known. C143_shift_sound: x := x + [a,b], any mode. C143_assign_partial: any expression, when the closure is not kept (algorithm < 0 or dest given) and either the variable does not occur in the expression or it has no strict bound; an expression on the last variable must be +-x + [a,b] because of the scratch cells. The other cases are refuted or missing: C143_assign_constant_unsound, C143_assign_opposite_unsound, C143_assign_bottom_undefined, C143_assign_loses_diagonal. Splitting on the sign is modelled without a theorem."
  },
  {
   "property": "C144",
   "status": "partial",
   "theorems": [
    "Apron.C144_equal_one",
    "Apron.C144_equal",
    "Apron.C144_hash_one",
    "Apron.C144_hash_constant",
    "Apron.C144_hash",
    "Apron.C144_meet_apply_sound",
    "Apron.C144_meet_improve_defined",
    "Apron.C144_meet_improved",
    "Apron.C144_meet_improved_least",
    "Apron.C144_meet_improve_keeps",
    "Apron.C144_meet_improve_idem",
    "Apron.C144_meet_array_apply_sound",
    "Apron.C144_meet_array_improved",
    "Apron.C144_lincons_apply_sound_partial",
    "Apron.C144_lincons_improved_least",
    "Apron.C144_improve_null",
    "Apron.C144_equality_interval_unsound",
    "Apron.C144_reduced_array_overrun",
    "Apron.C144_diseq_undefined",
    "Apron.C144_improve_interval_not_least",
    "Apron.C144_lincons_improve_not_stable"
   ],
   "note": "Boxes and arrays of boxes: proved in full for an old policy that is given. Constraints: soundness for every policy when equalities have scalar coefficients (C144_lincons_apply_sound_partial), optimality of the improvement for scalar coefficients (C144_lincons_improved_least). The rest is refuted: C144_improve_null, C144_hash_constant, C144_equality_interval_unsound, C144_reduced_array_overrun, C144_diseq_undefined, C144_improve_interval_not_least, C144_lincons_improve_not_stable. Rational numbers only for constraints."
  },
  {
   "property": "C145",
   "status": "proved",
   "theorems": [
    "Apron.C145_index",
    "Apron.C145_size",
    "Apron.C145_get",
    "Apron.C145_set",
    "Apron.C145_clr",
    "Apron.C145_clear",
    "Apron.C145_copy",
    "Apron.C145_cmp",
    "Apron.C145_cmp_zero",
    "Apron.C145_cmp_swap",
    "Apron.C145_cmp_trans",
    "Apron.C145_mat_get",
    "Apron.C145_mat_set",
    "Apron.C145_mat_clr",
    "Apron.C145_alloc",
    "Apron.C145_mat_clear",
    "Apron.C145_resize_cols",
    "Apron.C145_copy_resize_cols",
    "Apron.C145_mat_copy",
    "Apron.C145_resize_rows",
    "Apron.C145_transpose",
    "Apron.C145_transpose_transpose",
    "Apron.C145_move_rows",
    "Apron.C145_move_rows_none",
    "Apron.C145_exch_rows",
    "Apron.C145_mask",
    "Apron.C145_row_eq",
    "Apron.C145_set_mask",
    "Apron.C145_union",
    "Apron.C145_count_zero",
    "Apron.C145_included",
    "Apron.C145_zero_row",
    "Apron.C145_transpose_sat"
   ],
   "note": "Words of any width. The rows that satmat_resize_rows adds are not initialised: nothing is claimed on their bits. satmat_free, the sorting of matrices with their saturation rows and printing are not covered here."
  },
  {
   "property": "C146",
   "status": "partial",
   "theorems": [
    "Apron.C146_arith",
    "Apron.C146_arith_uint",
    "Apron.C146_div",
    "Apron.C146_cdiv_qr",
    "Apron.C146_cdiv_qr_def",
    "Apron.C146_cdiv_2",
    "Apron.C146_div_2exp",
    "Apron.C146_mul_2exp",
    "Apron.C146_gcd",
    "Apron.C146_lcm",
    "Apron.C146_cmp",
    "Apron.C146_sgn",
    "Apron.C146_set_int2",
    "Apron.C146_root",
    "Apron.C146_pow",
    "Apron.C146_pow_defect",
    "Apron.C146_pow_wrap_defect",
    "Apron.C146_double_fits_defect"
   ],
   "note": "All but powers and a conversion test. Defects: powers of zero are reported as overflows, the loop of numint_pow squares once too many so that first powers above the square root of NUMINT_MAX overflow, where signed overflow wraps a wrong power is returned without report, double_fits_numint accepts 2^63. numint_sqrt, which works on doubles, is not modelled."
  },
  {
   "property": "C147",
   "status": "partial",
   "theorems": [
    "Apron.C147_set",
    "Apron.C147_unary",
    "Apron.C147_arith",
    "Apron.C147_arith_def",
    "Apron.C147_uint",
    "Apron.C147_two",
    "Apron.C147_round",
    "Apron.C147_cmp",
    "Apron.C147_minmax",
    "Apron.C147_cmp_int",
    "Apron.C147_tests",
    "Apron.C147_to_int",
    "Apron.C147_pow",
    "Apron.C147_root_partial",
    "Apron.C147_root_defect",
    "Apron.C147_snprint_defect",
    "Apron.C147_zero_defect",
    "Apron.C147_uint_defect"
   ],
   "note": "Roots only of non-negative numbers. Defects: the bounds of roots of negative numbers are exchanged (also with GMP), numrat_snprint prints the numerator twice, divisions by zero and zero denominators pass an assertion on an address, canonicalisation does not make the denominator positive, an unsigned long above NUMINT_MAX is read as negative."
  },
  {
   "property": "C148",
   "status": "partial",
   "theorems": [
    "Apron.C148_eval_linexpr",
    "Apron.C148_eval_linexpr_tight",
    "Apron.C148_linexpr",
    "Apron.C148_linexpr_array",
    "Apron.C148_lincons",
    "Apron.C148_lincons_array_partial",
    "Apron.C148_array_type_always_linear",
    "Apron.C148_linearize_unchanged",
    "Apron.C148_exact_not_written",
    "Apron.C148_meet_generic",
    "Apron.C148_linearize_not_linear",
    "Apron.C148_result_unsorted",
    "Apron.C148_texpr_partial",
    "Apron.C148_texpr_intlinear_undefined",
    "Apron.C148_quasilinear_of_intlinear_undefined",
    "Apron.C148_quasilinear_of_intlinear_alias",
    "Apron.C148_quasilinear_of_intlinear_extended",
    "Apron.C148_level1_exception",
    "Apron.C148_intlinear_of_tree_undefined",
    "Apron.C148_intlinear_of_tree_partial"
   ],
   "note": "Expressions, arrays of expressions and single constraints for all roundings; arrays of constraints with exact numbers and without linearisation. Defects: ap_lincons0_array_type always answers LINEAR, so that linearisation on request returns the array unchanged and otherwise the flag exact is never written; the generic meet and both level 1 functions pass a value of the domain where an ap_abstract0_t is read; level 1 results alias the argument or are freed; ap_intlinearize_texpr0_intlinear uses freed and uninitialised pointers when it succeeds; sparse results may be unsorted."
  },
  {
   "property": "C149",
   "status": "proved",
   "theorems": [
    "Apron.C149_no_failure",
    "Apron.C149_manager_alive",
    "Apron.C149_counter",
    "Apron.C149_internal_freed_once",
    "Apron.C149_values",
    "Apron.C149_no_leak",
    "Apron.C149_double_free_undetected"
   ],
   "note": "By an invariant over all reachable states. Modelled calls: allocation, copy and free of managers, options, top, copy, free, binary tests, meet/join (destructive or not, with checks and exceptions). Defect: ap_abstract0_free announces to detect a second free, but its test reads the freed object."
  },
  {
   "property": "C150",
   "status": "partial",
   "theorems": [
    "Apron.C150_raise",
    "Apron.C150_alloc",
    "Apron.C150_options",
    "Apron.C150_wrong_library",
    "Apron.C150_clear_keeps_exn",
    "Apron.C150_exn_never_reset",
    "Apron.C150_tbool"
   ],
   "note": "All but the meaning of exn. Defects: no call ever resets exn (nor does clearing the log), so it is not the exception of the last called function; the getters ap_manager_get_exception and ap_manager_get_exclog are declared in ap_manager.h but defined nowhere."
  },
  {
   "property": "C151",
   "status": "partial",
   "theorems": [
    "Apron.Props.C151_is_eq",
    "Apron.Props.C151_is_eq_sound_partial",
    "Apron.Props.C151_is_leq_keeps",
    "Apron.Props.C151_is_leq_boxes",
    "Apron.Props.C151_is_leq_sound_partial",
    "Apron.Props.C151_meet_sound",
    "Apron.Props.C151_meet_sound_exact",
    "Apron.Props.C151_meet_keeps",
    "Apron.Props.C151_join_box",
    "Apron.Props.C151_join_sound_left_partial",
    "Apron.Props.C151_join_sound_right_partial",
    "Apron.Props.C151_join_bottom",
    "Apron.Props.C151_join_keeps",
    "Apron.Props.C151_is_leq_unsound",
    "Apron.Props.C151_join_unsound",
    "Apron.Props.C151_is_eq_sharing_wrong",
    "Apron.Props.C151_meet_not_included"
   ],
   "note": "Meets are sound; boxes of joins and of inclusion tests are right; existing values are kept. Equality, inclusion and joins are sound only under conditions on the forms shared by several dimensions or taken over from one argument, stated in the theorems; without them they are unsound (defects: a point off the diagonal is reported as included in, and lost by the join with, a value with x = y; equality does not compare which dimensions share a form). Meets of forms that differ are top. Joins of forms are proved in exact arithmetic."
  },
  {
   "property": "C152",
   "status": "partial",
   "theorems": [
    "Apron.Props.C152_widening_box",
    "Apron.Props.C152_widening_sound_left_partial",
    "Apron.Props.C152_widening_sound_right_partial",
    "Apron.Props.C152_widening_empty_form",
    "Apron.Props.C152_widening_bottom",
    "Apron.Props.C152_widening_keeps",
    "Apron.Props.C152_widening_boxes_stabilise",
    "Apron.Props.C152_widening_unsound",
    "Apron.Props.C152_widening_flag_exact_wrong",
    "Apron.Props.C152_widening_forms_not_stationary"
   ],
   "note": "Boxes have both arguments and change at most three times in a sequence; other values are kept. The points of both arguments are points of the result only if no dimension takes over a form of the other argument (without this a point is lost: defect). Forms never become stationary: each widening by [-1,1] gives a value that differs from the one before (defect). flag_exact is always set (defect)."
  },
  {
   "property": "C153",
   "status": "proved",
   "theorems": [
    "Apron.Props.C153_make",
    "Apron.Props.C153_clear",
    "Apron.Props.C153_resize",
    "Apron.Props.C153_set_refused",
    "Apron.Props.C153_set",
    "Apron.Props.C153_client_no_leak",
    "Apron.Props.C153_cleared_array_keeps_size",
    "Apron.Props.C153_cleared_array_resize_garbage",
    "Apron.Props.C153_cleared_generators_empty",
    "Apron.Props.C153_set_get_dangling"
   ],
   "note": "Proved for clients that follow the header files. Two defects outside of these rules are proved as well: a cleared array of (linear or tree) constraints keeps its size with a null pointer (arrays of generators do not), so resizing it is undefined; storing the result of get at its own index leaves dangling pointers in the array."
  },
  {
   "property": "C154",
   "status": "partial",
   "theorems": [
    "Apron.Props.C154_quasi_sound",
    "Apron.Props.C154_quasi_point",
    "Apron.Props.C154_steep_sound",
    "Apron.Props.C154_steep_terminates",
    "Apron.Props.C154_quasi_integer_sound_partial",
    "Apron.Props.C154_integer_sound",
    "Apron.Props.C154_tighten_upper",
    "Apron.Props.C154_tighten_lower",
    "Apron.Props.C154_quasi_integer_to_zero",
    "Apron.Props.C154_quasi_integer_loses_constraint",
    "Apron.Props.C154_quasi_integer_drops_small",
    "Apron.Props.C154_quasi_integer_needs_exact",
    "Apron.Props.C154_with_constant_overflow",
    "Apron.Props.C154_with_constant_overflow_all"
   ],
   "note": "Proved for quasi-linearisation, the steep and the integer normalisation, and bound propagation, for every rounding without overflow. The quasi-integer normalisation is proved sound if the differences of coefficients are not rounded towards 0 (true for doubles that are close; a counterexample without it is proved). Defects: coefficients nearly an integer are set to 0 instead of this integer, which can lose a whole constraint; normalise_integer_inequality_withConstant writes past its buffer."
  },
  {
   "property": "C155",
   "status": "partial",
   "theorems": [
    "Apron.Props.C155_elimination_sound",
    "Apron.Props.C155_elimination_exact",
    "Apron.Props.C155_elimination_exact_sound",
    "Apron.Props.C155_substitution_sound",
    "Apron.Props.C155_substitution_exists",
    "Apron.Props.C155_definition_rows",
    "Apron.Props.C155_substitution_null",
    "Apron.Props.C155_substitution_null_case",
    "Apron.Props.C155_unused_variable_bounds"
   ],
   "note": "Proved for every rounding without overflow, and that the elimination is the projection in exact arithmetic. Missing: bit vectors, the lazy variant, redundancy removal, and the bounds of the assigned variable (hypothesis). Defects: the substitution copies from NULL when the new constraint is a tautology (a quotient that is not a double and a missing bound); the bounds of a variable without constraint become [0,0]."
  },
  {
   "property": "C156",
   "status": "proved",
   "theorems": [
    "Apron.Props.C156_or",
    "Apron.Props.C156_subset",
    "Apron.Props.C156_and_test",
    "Apron.Props.C156_ones",
    "Apron.Props.C156_unit",
    "Apron.Props.C156_kohler",
    "Apron.Props.C156_kohler_lazy",
    "Apron.Props.C156_history_start",
    "Apron.Props.C156_history_combine",
    "Apron.Props.C156_kohler_no_vector",
    "Apron.Props.C156_kohler_lazy_not_minimal"
   ],
   "note": "All of the statement. That Kohler's rule removes redundant rows only (exactness of the elimination) is not stated; removing rows is sound in any case. Limits shown: without a vector the loop bound wraps around and the arrays are read outside; the lazy variant is not minimal."
  },
  {
   "property": "C157",
   "status": "proved",
   "theorems": [
    "Apron.Props.C157_lazy_sound",
    "Apron.Props.C157_lazy_history",
    "Apron.Props.C157_lazy_zero_rows"
   ],
   "note": "All of the statement, without overflow. One call of realloc resizes the vectors of the caller instead of its own (fm.c:538); they are freed afterwards, so it has no effect that the model shows."
  },
  {
   "property": "C158",
   "status": "proved",
   "theorems": [
    "Apron.Props.C158_hull_system",
    "Apron.Props.C158_hull_sound",
    "Apron.Props.C158_hull_exact",
    "Apron.Props.C158_join_sound",
    "Apron.Props.C158_reshape_sigma",
    "Apron.Props.C158_hull_closure"
   ],
   "note": "All of the statement, without overflow. The reshaping assumes an exact subtraction. Not in it: the normalisation of steep inequalities between the steps (C154), the envelope, and the tightening of the result (fppol_strong_join after the loop). Dropped rows are arbitrary, which covers Kohler's rule and the redundancy removals. C158_hull_closure shows why the weight must be less than 1 in the converse."
  },
  {
   "property": "C159",
   "status": "partial",
   "theorems": [
    "Apron.Props.C159_leq_syntactic",
    "Apron.Props.C159_rlp_sound",
    "Apron.Props.C159_is_leq_partial",
    "Apron.Props.C159_is_leq_refl",
    "Apron.Props.C159_is_eq",
    "Apron.Props.C159_is_eq_half",
    "Apron.Props.C159_is_leq_unknown",
    "Apron.Props.C159_is_leq_other",
    "Apron.Props.C159_is_leq_epsilon",
    "Apron.Props.C159_is_eq_duplicates",
    "Apron.Props.C159_sat_lincons"
   ],
   "note": "Proved: the answer 1 of fppol_is_leq_bySyntactic and of fppol_inclusion_byRLP is right; fpp_is_eq is right if no row of the first argument is there twice, and in every case the second argument is then in the first; a polyhedron without two rows of the same coefficients is included in itself whatever the solver says. The full statement is false. fpp_is_leq answers 2, which is true, when the solver fails (C159_is_leq_unknown); it takes every other end of the solver for entailment (C159_is_leq_other); it allows a relative error of 1.0e-3 (C159_is_leq_epsilon, C159_is_leq_partial). fpp_is_eq is wrong with duplicate rows (C159_is_eq_duplicates). fpp_sat_lincons always answers true (C159_sat_lincons). No rounding in the comparison with EPSILON."
  },
  {
   "property": "C160",
   "status": "partial",
   "theorems": [
    "Apron.Props.C160_meet",
    "Apron.Props.C160_meet_bounds",
    "Apron.Props.C160_widening_sound",
    "Apron.Props.C160_widening_rows",
    "Apron.Props.C160_widening_many",
    "Apron.Props.C160_widening_needs_inclusion"
   ],
   "note": "All of the statement except the last sentence, which is false: fppol_envelope_half clears ncons + 1 entries of an array of 1000, so with 1000 rows in the second argument it writes over the stack (C160_widening_many). C160_widening_needs_inclusion: without the inclusion the result may lose points of the first argument. Left out: the removal of redundant rows and the new bounds of the results."
  }
 ]
}