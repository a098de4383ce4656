import Verif.Props.Analysis
import Verif.Props.ApLinearize
import Verif.Props.ApQuasi
import Verif.Props.AvoAssign
import Verif.Props.AvoClosure
import Verif.Props.AvoConstraint
import Verif.Props.AvoLattice
import Verif.Props.AvoQuery
import Verif.Props.AvoResize
import Verif.Props.Bit
import Verif.Props.Box
import Verif.Props.BoxConstraint
import Verif.Props.BoxGen
import Verif.Props.BoxOps
import Verif.Props.BoxPolicy
import Verif.Props.BoxResize
import Verif.Props.ConsArray
import Verif.Props.ConsArrayInst
import Verif.Props.Constraint
import Verif.Props.CoreCompare
import Verif.Props.CoreDim
import Verif.Props.CoreEnv
import Verif.Props.CoreLinexpr
import Verif.Props.Disjunction
import Verif.Props.Disjunction2
import Verif.Props.DisjunctionInst
import Verif.Props.FppBitVecs
import Verif.Props.FppBitVecsInst
import Verif.Props.FppElim
import Verif.Props.FppElimInst
import Verif.Props.FppHull
import Verif.Props.FppHullInst
import Verif.Props.FppLazy
import Verif.Props.FppLazyInst
import Verif.Props.FppPred
import Verif.Props.FppPredInst
import Verif.Props.FppQuasi
import Verif.Props.FppQuasiInst
import Verif.Props.FppWiden
import Verif.Props.FppWidenInst
import Verif.Props.Generic
import Verif.Props.GenericInst
import Verif.Props.Itv
import Verif.Props.Level1
import Verif.Props.Level1Expr
import Verif.Props.Level1Fold
import Verif.Props.Level1Inst
import Verif.Props.Linearize
import Verif.Props.Manager
import Verif.Props.Native
import Verif.Props.OctClosure
import Verif.Props.OctLattice
import Verif.Props.OctReach
import Verif.Props.OctResize
import Verif.Props.OctTexpr
import Verif.Props.OctTransfer
import Verif.Props.PkApprox
import Verif.Props.PkAssign
import Verif.Props.PkCanon
import Verif.Props.PkEq
import Verif.Props.PkExpand
import Verif.Props.PkExtract
import Verif.Props.PkGrid
import Verif.Props.PkLattice
import Verif.Props.PkMan
import Verif.Props.PkResize
import Verif.Props.PkTexpr
import Verif.Props.PkUser
import Verif.Props.PkWiden
import Verif.Props.PolyConv
import Verif.Props.Product
import Verif.Props.Product2
import Verif.Props.ProductInst
import Verif.Props.Serialize
import Verif.Props.Texpr
import Verif.Props.TexprStruct
import Verif.Props.Zono
import Verif.Props.ZonoInst
import Verif.Props.ZonoLattice
import Verif.Props.ZonoLatticeInst
import Verif.Props.ZonoState
import Verif.Props.ZonoWiden
import Verif.Props.ZonoWidenInst

/-! Axioms used by every property theorem (build output: only propext, Classical.choice, Quot.sound). -/

#print axioms Apron.C01_add_sound
#print axioms Apron.C01_sub_sound
#print axioms Apron.C01_neg_exact
#print axioms Apron.C01_add_tight
#print axioms Apron.C01_sub_tight
#print axioms Apron.C02_mul_sound
#print axioms Apron.C02_mul_tight
#print axioms Apron.C02_mul_num_sound
#print axioms Apron.C03_div_sound
#print axioms Apron.C03_div_tight
#print axioms Apron.C04_pow_sound_partial
#print axioms Apron.C04_pow_unsound
#print axioms Apron.C04_sqrt_sound
#print axioms Apron.C04_mpq_sqrt
#print axioms Apron.C05_round_sound
#print axioms Apron.C06_unceil_sound
#print axioms Apron.C06_unfloor_sound
#print axioms Apron.C06_untrunc_sound_partial
#print axioms Apron.C06_untrunc_unsound
#print axioms Apron.C06_from_int_unsound
#print axioms Apron.C06_from_int_partial
#print axioms Apron.C07_mod_sound
#print axioms Apron.C07_mod_int_sound
#print axioms Apron.C08_meet
#print axioms Apron.C08_join_hull
#print axioms Apron.C08_leq
#print axioms Apron.C08_eq
#print axioms Apron.C08_bottom
#print axioms Apron.C08_canonicalize_int
#print axioms Apron.C08_canonicalize_bottom
#print axioms Apron.C09_box_widening_covers
#print axioms Apron.C09_box_widening_wf
#print axioms Apron.C09_box_widening_stabilises
#print axioms Apron.C09_itv_widening_covers
#print axioms Apron.C09_itv_widening_stabilises
#print axioms Apron.C10_is_bottom
#print axioms Apron.C10_is_top
#print axioms Apron.C10_is_leq
#print axioms Apron.C10_is_eq
#print axioms Apron.C10_is_dimension_unconstrained
#print axioms Apron.C10_bottom_top
#print axioms Apron.C10_is_bottom_needs_wf
#print axioms Apron.C11_meet
#print axioms Apron.C11_meet_wf
#print axioms Apron.C11_join_upper
#print axioms Apron.C11_join_least
#print axioms Apron.C11_join_wf
#print axioms Apron.C11_meet_array
#print axioms Apron.C11_join_array
#print axioms Apron.C12_bound_linexpr_sound
#print axioms Apron.C12_bound_linexpr_tight
#print axioms Apron.C12_bound_linexpr_range
#print axioms Apron.C12_bound_dimension
#print axioms Apron.C13_bound_texpr_sound_partial
#print axioms Apron.C13_bound_texpr_sound_nopow
#print axioms Apron.C13_bound_texpr_unsound
#print axioms Apron.C14_assign_linexpr_sound
#print axioms Apron.C14_assign_linexpr_best
#print axioms Apron.C14_assign_linexpr_wf
#print axioms Apron.C14_assign_linexpr_dest_sound
#print axioms Apron.C14_assign_texpr_sound_partial
#print axioms Apron.C14_assign_texpr_dest_sound_partial
#print axioms Apron.C15_assign_dest_partial
#print axioms Apron.C15_assign_dest_bottom
#print axioms Apron.C16_meet_lincons_le
#print axioms Apron.C16_meet_lincons_sound
#print axioms Apron.C16_meet_lincons_wf
#print axioms Apron.C16_meet_lincons_rounded_partial
#print axioms Apron.C16_rounding_unsound
#print axioms Apron.C16_meet_unary_exact
#print axioms Apron.C17_sat_lincons_sound
#print axioms Apron.C17_sat_lincons_complete
#print axioms Apron.C17_sat_interval
#print axioms Apron.C17_sat_tcons_sound_partial
#print axioms Apron.C18_eqmod_partial
#print axioms Apron.C18_eqmod_division_by_zero
#print axioms Apron.C19_meet_tcons_legacy_sound_partial
#print axioms Apron.C19_meet_tcons_legacy_le
#print axioms Apron.C19_legacy_stale_flag_unsound
#print axioms Apron.C19_meet_tcons_sound_partial
#print axioms Apron.C19_meet_tcons_le
#print axioms Apron.C19_meet_tcons_nearest_unsound
#print axioms Apron.C19_meet_tcons_trunc_unsound
#print axioms Apron.C19_meet_tcons_underflow_unsound
#print axioms Apron.C20_pow_refine_sound_partial
#print axioms Apron.C20_pow_refine_le
#print axioms Apron.C20_pow_refine_unsound
#print axioms Apron.C21_add_exact
#print axioms Apron.C21_add_dims
#print axioms Apron.C21_add_wf
#print axioms Apron.C21_remove_exact
#print axioms Apron.C21_remove_dims
#print axioms Apron.C21_remove_wf
#print axioms Apron.C21_permute_exact
#print axioms Apron.C21_permute_dims
#print axioms Apron.C21_permute_wf
#print axioms Apron.C21_add_remove
#print axioms Apron.C22_forget_exact
#print axioms Apron.C22_forget_wf
#print axioms Apron.C22_expand_dims
#print axioms Apron.C22_expand_exact
#print axioms Apron.C22_expand_wf
#print axioms Apron.C22_fold_sound
#print axioms Apron.C22_fold_least
#print axioms Apron.C22_fold_dims
#print axioms Apron.C22_fold_wf
#print axioms Apron.C23_to_lincons
#print axioms Apron.C23_of_box_sound
#print axioms Apron.C23_of_box_exact
#print axioms Apron.C24_generators_partial
#print axioms Apron.C24_half_bounded_wrong
#print axioms Apron.C24_half_bounded_unsound
#print axioms Apron.C25_cell_in_bounds
#print axioms Apron.C25_pair_in_bounds
#print axioms Apron.C25_no_aliasing
#print axioms Apron.C25_mirror_shared
#print axioms Apron.C25_no_gap
#print axioms Apron.C25_row_contiguous
#print axioms Apron.C26_close_empty_sound
#print axioms Apron.C26_close_same_points
#print axioms Apron.C26_incremental_empty_sound
#print axioms Apron.C26_incremental_same_points
#print axioms Apron.C26_cache_same_points
#print axioms Apron.C26_close_oct_same_points
#print axioms Apron.C27_is_bottom_exact
#print axioms Apron.C27_is_bottom_sound
#print axioms Apron.C27_close_exact
#print axioms Apron.C28_tightest
#print axioms Apron.C28_attained
#print axioms Apron.C28_canonical
#print axioms Apron.C29_same_verdict
#print axioms Apron.C29_same_matrix
#print axioms Apron.C30_is_leq_sound
#print axioms Apron.C30_is_leq_exact
#print axioms Apron.C30_is_eq_sound
#print axioms Apron.C30_is_eq_exact
#print axioms Apron.C30_is_top_exact
#print axioms Apron.C30_unconstrained_exact
#print axioms Apron.C31_meet_exact
#print axioms Apron.C31_meet_array_exact
#print axioms Apron.C32_join_sound
#print axioms Apron.C32_join_least
#print axioms Apron.C32_join_array_sound
#print axioms Apron.C33_widening_sound
#print axioms Apron.C33_widening_thresholds_sound
#print axioms Apron.C33_widening_stabilises
#print axioms Apron.C33_widening_thresholds_stabilises
#print axioms Apron.C33_widening_sets_stationary
#print axioms Apron.C33_widening_thresholds_sets_stationary
#print axioms Apron.C34_narrowing_above
#print axioms Apron.C34_narrowing_below
#print axioms Apron.C35_bound_dimension_sound
#print axioms Apron.C35_bound_dimension_exact
#print axioms Apron.C35_bound_dimension_attained
#print axioms Apron.C35_to_box
#print axioms Apron.C35_of_box_sound
#print axioms Apron.C35_of_box_exact
#print axioms Apron.C35_sat_interval_exact
#print axioms Apron.C35_sat_interval_sound
#print axioms Apron.C36_to_lincons_sound
#print axioms Apron.C36_to_lincons_exact
#print axioms Apron.C37_forget_sound
#print axioms Apron.C37_forget_exact
#print axioms Apron.C37_forget_dims
#print axioms Apron.C38_add_exact
#print axioms Apron.C38_add_dims
#print axioms Apron.C38_remove_sound
#print axioms Apron.C38_remove_exact
#print axioms Apron.C38_remove_dims
#print axioms Apron.C38_permute_exact
#print axioms Apron.C38_add_remove
#print axioms Apron.C39_expand_exact
#print axioms Apron.C39_expand_dims
#print axioms Apron.C39_fold_sound
#print axioms Apron.C39_fold_least
#print axioms Apron.C39_fold_dims
#print axioms Apron.C40_meet_lincons_sound
#print axioms Apron.C40_meet_lincons_le
#print axioms Apron.C40_meet_lincons_exact
#print axioms Apron.C40_meet_lincons_wf
#print axioms Apron.C40_meet_lincons_dims
#print axioms Apron.C41_assign_unsound
#print axioms Apron.C41_assign_partial
#print axioms Apron.C41_assign_array_sound
#print axioms Apron.C41_assign_exact
#print axioms Apron.C41_assign_wf
#print axioms Apron.C41_assign_array_wf
#print axioms Apron.C41_assign_dims
#print axioms Apron.C42_subst_sound
#print axioms Apron.C42_subst_array_sound
#print axioms Apron.C42_subst_wf
#print axioms Apron.C42_subst_array_wf
#print axioms Apron.C43_sat_sound
#print axioms Apron.C43_sat_complete
#print axioms Apron.C43_bound_sound
#print axioms Apron.C43_bound_tight
#print axioms Apron.C44_invert
#print axioms Apron.C44_invert_invert
#print axioms Apron.C44_compose
#print axioms Apron.C44_compose_invert
#print axioms Apron.C44_compose_id
#print axioms Apron.C44_compose_assoc
#print axioms Apron.C44_box_action
#print axioms Apron.C44_oct_action
#print axioms Apron.C45_positions
#print axioms Apron.C45_box
#print axioms Apron.C45_oct
#print axioms Apron.Props.C46_check
#print axioms Apron.Props.C46_add
#print axioms Apron.Props.C46_add_perm
#print axioms Apron.Props.C46_remove_partial
#print axioms Apron.Props.C46_remove_duplicate_aborts
#print axioms Apron.Props.C46_lce
#print axioms Apron.Props.C46_is_eq
#print axioms Apron.Props.C46_is_leq
#print axioms Apron.Props.C46_compare
#print axioms Apron.Props.C46_dimchange2
#print axioms Apron.Props.C46_rename
#print axioms Apron.Props.C46_lce_array
#print axioms Apron.Props.C46_lce_array_same_not_null
#print axioms Apron.Props.C47_dimchange_partial
#print axioms Apron.Props.C47_dimchange_same_ints
#print axioms Apron.Props.C47_dimchange_accepts_wrong
#print axioms Apron.Props.C47_dimchange_overflow
#print axioms Apron.Props.C48_dim_of_var
#print axioms Apron.C49_get
#print axioms Apron.C49_set
#print axioms Apron.C49_set_defined
#print axioms Apron.C49_set_get
#print axioms Apron.C49_value
#print axioms Apron.C49_alloc
#print axioms Apron.C50_add_dimensions_partial
#print axioms Apron.C50_add_short_dense_wrong
#print axioms Apron.C50_permute_dimensions_partial
#print axioms Apron.C50_permute_short_dense_overflow
#print axioms Apron.C50_minimize
#print axioms Apron.C51_scalar_cmp
#print axioms Apron.C51_scalar_order
#print axioms Apron.C51_scalar_agree
#print axioms Apron.C51_interval_tests
#print axioms Apron.C51_interval_cmp_partial
#print axioms Apron.C51_interval_cmp_antisymm
#print axioms Apron.C51_interval_cmp_empty_wrong
#print axioms Apron.C51_coeff_cmp
#print axioms Apron.C51_coeff_equal
#print axioms Apron.C51_linexpr_equal_partial
#print axioms Apron.C51_linexpr_equal_defined
#print axioms Apron.C51_linexpr_equal_values
#print axioms Apron.C51_linexpr_equal_crash
#print axioms Apron.C51_linexpr_compare_partial
#print axioms Apron.C51_linexpr_compare_not_order
#print axioms Apron.C52_scalar_interval
#print axioms Apron.C52_coeff_equal_int_wrong
#print axioms Apron.C52_coeff_equal_int_interval_wrong
#print axioms Apron.C53_add_partial
#print axioms Apron.C53_remove_partial
#print axioms Apron.C53_perm_partial
#print axioms Apron.C53_accepts_illegal
#print axioms Apron.C54_reduce_keeps
#print axioms Apron.C54_reduce_keeps_rounded
#print axioms Apron.C54_reduce_exact_partial
#print axioms Apron.C54_equality_not_exact
#print axioms Apron.C55_quasilinearize_sound
#print axioms Apron.C55_quasilinear
#print axioms Apron.C55_linearize_array_sound
#print axioms Apron.C56_intlinearize_sound_partial
#print axioms Apron.C56_intlinearize_sorted
#print axioms Apron.C56_intlinearize_tcons_sound_partial
#print axioms Apron.C56_intlinearize_array_sound_partial
#print axioms Apron.C56_pow_unsound
#print axioms Apron.C56_mod_float_unsound
#print axioms Apron.Props.C57_assign_array
#print axioms Apron.Props.C57_substitute_array
#print axioms Apron.Props.C57_meet_array
#print axioms Apron.Props.C57_join_array
#print axioms Apron.Props.C57_box_substitute_linexpr
#print axioms Apron.Props.C57_box_substitute_texpr_partial
#print axioms Apron.Props.C57_short_dense_unsound
#print axioms Apron.Props.C57_duplicate_targets_not_permutation
#print axioms Apron.Props.C58_widening_threshold
#print axioms Apron.Props.C58_widening_threshold_wrong
#print axioms Apron.Props.C58_box_widening_threshold
#print axioms Apron.Props.C58_oct_widening_threshold
#print axioms Apron.C59_interval_linear_converted
#print axioms Apron.C59_intlinear_sound
#print axioms Apron.C59_intlinear_tcons_reports
#print axioms Apron.C59_intlinear_array_sound_partial
#print axioms Apron.C59_array_failure_not_reported
#print axioms Apron.C62_add_ray_array_sound
#print axioms Apron.C62_add_ray_array_least
#print axioms Apron.C63_quasilinearize_array_partial
#print axioms Apron.C63_quasilinearize_array_unsound
#print axioms Apron.C66_assign_in_place
#print axioms Apron.C66_assign_in_place_gamma
#print axioms Apron.C67_check_linexpr_partial
#print axioms Apron.C67_accepts_dim_zero
#print axioms Apron.Props.C67_check_texpr
#print axioms Apron.C68_hash_partial
#print axioms Apron.C68_hash_dense
#print axioms Apron.C68_hash_mutates
#print axioms Apron.C68_hash_not_equal
#print axioms Apron.C69_type
#print axioms Apron.C69_array_type
#print axioms Apron.C69_is_real
#print axioms Apron.C69_is_integer
#print axioms Apron.C69_zero
#print axioms Apron.Props.C70_change_environment
#print axioms Apron.Props.C70_minimize_environment
#print axioms Apron.Props.C71_rename
#print axioms Apron.Props.C72_meet
#print axioms Apron.Props.C72_join
#print axioms Apron.Props.C72_unify
#print axioms Apron.Props.C73_expand
#print axioms Apron.Props.C74_fold_partial
#print axioms Apron.Props.C74_fold_mixed_types
#print axioms Apron.Props.C75_forget
#print axioms Apron.Props.C77_has_dim
#print axioms Apron.Props.C77_max_dim
#print axioms Apron.Props.C77_dimlist
#print axioms Apron.Props.C77_depth_size
#print axioms Apron.Props.C77_substitute
#print axioms Apron.Props.C77_substitute_dims
#print axioms Apron.Props.C77_add_dimensions
#print axioms Apron.Props.C77_add_dimensions_dims
#print axioms Apron.Props.C77_remove_dimensions
#print axioms Apron.Props.C77_permute_dimensions
#print axioms Apron.Props.C78_from_linexpr
#print axioms Apron.Props.C78_is_interval_cst
#print axioms Apron.Props.C78_is_scalar
#print axioms Apron.Props.C78_is_interval_linear
#print axioms Apron.Props.C78_is_interval_polynomial
#print axioms Apron.Props.C78_is_interval_polyfrac
#print axioms Apron.Props.C78_array
#print axioms Apron.Props.C79_equal
#print axioms Apron.Props.C79_equal_value
#print axioms Apron.Props.C79_equal_hash
#print axioms Apron.Props.C76_extend
#print axioms Apron.Props.C76_extend_environment
#print axioms Apron.Props.C76_query
#print axioms Apron.Props.C76_query_var
#print axioms Apron.Props.C76_meet_cons
#print axioms Apron.Props.C76_asssub
#print axioms Apron.Props.C76_asssub_nil
#print axioms Apron.Props.C76_assign_sound
#print axioms Apron.Props.C76_substitute_sound
#print axioms Apron.Props.C76_box_bound_linexpr
#print axioms Apron.Props.C76_box_bound_variable
#print axioms Apron.Props.C76_box_sat_lincons
#print axioms Apron.Props.C76_box_meet_lincons
#print axioms Apron.Props.C76_box_assign_linexpr
#print axioms Apron.Props.C76_box_bound_texpr_partial
#print axioms Apron.Props.C76_box_assign_texpr_partial
#print axioms Apron.Props.C76_oct_meet_lincons
#print axioms Apron.Props.C76_oct_assign_linexpr_partial
#print axioms Apron.Props.C76_oct_substitute_linexpr
#print axioms Apron.Props.C76_wrong_environment_accepted
#print axioms Apron.C64_coeff_of_itv
#print axioms Apron.C64_linexpr_of_itv
#print axioms Apron.C64_lincons_of_itv
#print axioms Apron.C80_is_sat_partial
#print axioms Apron.C80_is_unsat_partial
#print axioms Apron.C80_make_unsat
#print axioms Apron.C80_is_unsat_eqmod_wrong
#print axioms Apron.C80_is_unsat_diseq_wrong
#print axioms Apron.C80_is_sat_diseq_wrong
#print axioms Apron.C81_sat_tcons_generic_partial
#print axioms Apron.C81_oct_sat_tcons_partial
#print axioms Apron.C81_sat_tcons_diseq_unsound
#print axioms Apron.C82_bound_texpr_generic_partial
#print axioms Apron.C82_oct_bound_texpr_partial
#print axioms Apron.C82_oct_bound_texpr_empty
#print axioms Apron.C83_intlinearize_array_sound_partial
#print axioms Apron.C83_meet_tcons_generic_partial
#print axioms Apron.C83_oct_meet_tcons_partial
#print axioms Apron.C83_oct_meet_tcons_le
#print axioms Apron.Props.C84_vector_gcd
#print axioms Apron.Props.C84_vector_normalize
#print axioms Apron.Props.C84_vector_combine
#print axioms Apron.Props.C85_conversion_exact
#print axioms Apron.Props.C85_lines_exact
#print axioms Apron.Props.C85_rays_irredundant
#print axioms Apron.Props.C85_saturation_exact
#print axioms Apron.Props.C86_minimize_exact
#print axioms Apron.Props.C86_minimize_echelon
#print axioms Apron.Props.C86_minimize_irredundant
#print axioms Apron.Props.C86_minimize_rays_irredundant
#print axioms Apron.Props.C86_minimize_empty
#print axioms Apron.Props.C87_add_exact
#print axioms Apron.Props.C87_minimize_minOk
#print axioms Apron.Props.C87_add_empty
#print axioms Apron.Props.C87_add_generators_exact
#print axioms Apron.Props.C88_meet_exact
#print axioms Apron.Props.C88_meet_self
#print axioms Apron.Props.C88_meet_array_exact
#print axioms Apron.Props.C88_meet_destructive_null_dereference
#print axioms Apron.Props.C89_join_least
#print axioms Apron.Props.C89_join_lub
#print axioms Apron.Props.C89_join_self
#print axioms Apron.Props.C89_join_array_least_partial
#print axioms Apron.Props.C89_join_array_three_aliases_unsound
#print axioms Apron.Props.C90_is_leq_exact
#print axioms Apron.Props.C90_is_bottom_exact
#print axioms Apron.Props.C90_is_bottom_sound
#print axioms Apron.Props.C90_is_top_exact
#print axioms Apron.Props.C90_is_top_sound
#print axioms Apron.Props.C90_top
#print axioms Apron.Props.C90_conversions
#print axioms Apron.Props.C91_meet_lincons_sound
#print axioms Apron.Props.C91_meet_lincons_exact_partial
#print axioms Apron.Props.C91_strict_not_exact
#print axioms Apron.Props.C91_integer_equality_not_exact
#print axioms Apron.Props.C92_bound_dimension_sound
#print axioms Apron.Props.C92_bound_dimension_best
#print axioms Apron.Props.C92_to_box
#print axioms Apron.Props.C93_bound_linexpr_sound
#print axioms Apron.Props.C93_bound_linexpr_best_partial
#print axioms Apron.Props.C93_interval_not_best
#print axioms Apron.Props.C94_add_rays_exact
#print axioms Apron.Props.C95_of_box_sound
#print axioms Apron.Props.C95_of_box_exact_partial
#print axioms Apron.Props.C95_integer_bound_not_exact
#print axioms Apron.Props.C96_sat_lincons_sound_partial
#print axioms Apron.Props.C96_sat_lincons_complete
#print axioms Apron.Props.C96_sat_equality_unsound
#print axioms Apron.Props.C97_sat_interval_iff
#print axioms Apron.Props.C98_widening_upper_bound
#print axioms Apron.Props.C98_widening_keeps_stable_constraints
#print axioms Apron.Props.C98_widening_null_dereference
#print axioms Apron.Props.C99_widening_terminates
#print axioms Apron.Props.C100_threshold_upper_bound
#print axioms Apron.Props.C100_threshold_kept_partial
#print axioms Apron.Props.C100_threshold_terminates
#print axioms Apron.Props.C100_threshold_empty_inconsistent
#print axioms Apron.Props.C101_forget_exact
#print axioms Apron.Props.C101_forget_idempotent
#print axioms Apron.Props.C102_add_exact
#print axioms Apron.Props.C102_add_nothing_out_of_bounds
#print axioms Apron.Props.C103_remove_exact
#print axioms Apron.Props.C103_permute_exact
#print axioms Apron.Props.C103_add_remove
#print axioms Apron.Props.C104_assign_exact
#print axioms Apron.Props.C104_substitute_exact_partial
#print axioms Apron.Props.C104_substitute_null_dereference
#print axioms Apron.Props.C105_weakest_precondition
#print axioms Apron.Props.C105_assign_order
#print axioms Apron.Props.C106_expand_exact
#print axioms Apron.Props.C106_expand_zero
#print axioms Apron.Props.C107_fold_least
#print axioms Apron.Props.C107_fold_lub
#print axioms Apron.Props.C107_fold_expand
#print axioms Apron.Props.C108_canonicalize
#print axioms Apron.Props.C108_minimize
#print axioms Apron.Props.C108_canonical_unique
#print axioms Apron.Props.C108_nice_top
#print axioms Apron.Props.C108_nice_of_box
#print axioms Apron.Props.C108_nice_canonicalize
#print axioms Apron.Props.C108_nice_minimize
#print axioms Apron.Props.C108_nice_meet
#print axioms Apron.Props.C108_nice_join
#print axioms Apron.Props.C108_nice_meet_lincons
#print axioms Apron.Props.C108_nice_add_rays
#print axioms Apron.Props.C109_is_eq_sound
#print axioms Apron.Props.C109_is_eq_exact_partial
#print axioms Apron.Props.C109_is_eq_wrong
#print axioms Apron.Props.C110_is_dimension_unconstrained_sound
#print axioms Apron.Props.C110_is_dimension_unconstrained_exact
#print axioms Apron.Props.C111_manager
#print axioms Apron.Props.C111_change_environment
#print axioms Apron.Props.C111_minimize_environment
#print axioms Apron.Props.C111_unify
#print axioms Apron.Props.C112_assign_linexpr_sound
#print axioms Apron.Props.C112_substitute_linexpr_sound_partial
#print axioms Apron.Props.C113_sat_tcons_sound_partial
#print axioms Apron.Props.C113_sat_tcons_unsound
#print axioms Apron.Props.C114_bound_texpr_sound_partial
#print axioms Apron.Props.C114_bound_texpr_empty
#print axioms Apron.Props.C115_meet_tcons_included
#print axioms Apron.Props.C115_meet_tcons_sound_partial
#print axioms Apron.Props.C116_assign_texpr_sound_partial
#print axioms Apron.Props.C116_substitute_texpr_sound_partial
#print axioms Apron.Props.C117_product_is_a_domain
#print axioms Apron.Props.C118_is_bottom_sound
#print axioms Apron.Props.C118_flag_exact_components
#print axioms Apron.Props.C118_is_top_sound
#print axioms Apron.Props.C118_is_leq_sound
#print axioms Apron.Props.C118_is_eq_sound
#print axioms Apron.Props.C118_sat_sound
#print axioms Apron.Props.C118_bound_sound
#print axioms Apron.Props.C118_bound_is_intersection
#print axioms Apron.Props.C118_to_box_sound
#print axioms Apron.Props.C118_to_box_is_intersection
#print axioms Apron.Props.C118_to_cons
#print axioms Apron.Props.C118_of_box
#print axioms Apron.Props.C118_copy
#print axioms Apron.Props.C118_meet_cons
#print axioms Apron.Props.C118_asssub_sound
#print axioms Apron.Props.C118_meet_array
#print axioms Apron.Props.C118_join_array
#print axioms Apron.Props.C118_widening_sound
#print axioms Apron.Props.C118_widening_terminates
#print axioms Apron.Props.C118_flag_exact_wrong
#print axioms Apron.Props.C118_flag_best_ignores_components
#print axioms Apron.C119_reachable_wf
#print axioms Apron.C119_closed_matrix_is_tight
#print axioms Apron.C119_two_matrices_agree
#print axioms Apron.C119_tests_exact
#print axioms Apron.Props.C120_resize
#print axioms Apron.Props.C120_clean
#print axioms Apron.Props.C120_elim_redundant
#print axioms Apron.Props.C120_bottom_top
#print axioms Apron.Props.C120_dimension
#print axioms Apron.Props.C120_is_bottom_sound
#print axioms Apron.Props.C120_is_top_sound
#print axioms Apron.Props.C120_is_leq_not_reflexive
#print axioms Apron.Props.C120_join
#print axioms Apron.Props.C120_join_array_partial
#print axioms Apron.Props.C120_join_array_of_bottoms_wrong
#print axioms Apron.Props.C120_meet_partial
#print axioms Apron.Props.C120_meet_of_disjoint_undefined
#print axioms Apron.Props.C120_is_bottom_incomplete
#print axioms Apron.Props.C120_meet_undefined
#print axioms Apron.Props.C121_sat
#print axioms Apron.Props.C121_bound_sound_partial
#print axioms Apron.Props.C121_bound_value
#print axioms Apron.Props.C121_to_box_sound_partial
#print axioms Apron.Props.C121_to_lincons
#print axioms Apron.Props.C121_meet_cons
#print axioms Apron.Props.C121_meet_constraints
#print axioms Apron.Props.C121_asssub
#print axioms Apron.Props.C121_add
#print axioms Apron.Props.C121_remove
#print axioms Apron.Props.C121_permute
#print axioms Apron.Props.C121_forget
#print axioms Apron.Props.C121_fold
#print axioms Apron.Props.C121_expand_partial
#print axioms Apron.Props.C121_minimize
#print axioms Apron.Props.C121_bound_unsound
#print axioms Apron.Props.C121_bound_imprecise
#print axioms Apron.Props.C121_to_box_unsound
#print axioms Apron.Props.C121_expand_unsound
#print axioms Apron.Props.C122_add_sound
#print axioms Apron.Props.C122_neg_sound
#print axioms Apron.Props.C122_scale_sound
#print axioms Apron.Props.C122_sub_sound_partial
#print axioms Apron.Props.C122_mul_sound_partial
#print axioms Apron.Props.C122_div_sound_partial
#print axioms Apron.Props.C122_sqrt_sound_partial
#print axioms Apron.Props.C122_reduce_sound_partial
#print axioms Apron.Props.C122_sub_wrong
#print axioms Apron.Props.C122_mul_wrong
#print axioms Apron.Props.C122_reduce_wrong
#print axioms Apron.Props.C123_no_dimension_wrong
#print axioms Apron.Props.C123_is_bottom_incomplete
#print axioms Apron.Props.C123_of_box_points
#print axioms Apron.Props.C123_of_box_exact
#print axioms Apron.Props.C123_of_box_others
#print axioms Apron.Props.C123_bound_dimension_sound
#print axioms Apron.Props.C123_is_bottom_sound
#print axioms Apron.Props.C123_top_bottom
#print axioms Apron.Props.C124_assign_top_wrong
#print axioms Apron.Props.C124_assign_square_wrong
#print axioms Apron.Props.C124_assign_type_wrong
#print axioms Apron.Props.C124_assign_sound_partial
#print axioms Apron.Props.C124_assign_others_partial
#print axioms Apron.Props.C124_assign_invariant
#print axioms Apron.Props.C124_program_sound_partial
#print axioms Apron.Props.C125_linear_program_exact
#print axioms Apron.Props.C126_add_wrong
#print axioms Apron.Props.C126_permute_wrong
#print axioms Apron.Props.C126_forget_wrong
#print axioms Apron.Props.C126_project_wrong
#print axioms Apron.Props.C126_remove_sound
#print axioms Apron.Props.C126_add_sound_partial
#print axioms Apron.Props.C126_forget_sound_partial
#print axioms Apron.Props.C127_oct_assign_texpr_partial
#print axioms Apron.Props.C127_oct_substitute_texpr_partial
#print axioms Apron.Props.C127_oct_asssub_texpr_dims
#print axioms Apron.Props.C127_oct_asssub_texpr_empty
#print axioms Apron.Props.C128_mpz_partial
#print axioms Apron.Props.C128_mpz_total
#print axioms Apron.Props.C128_mpq_partial
#print axioms Apron.Props.C128_native
#print axioms Apron.Props.C128_native_portable
#print axioms Apron.Props.C128_compound
#print axioms Apron.Props.C128_mpz_unsigned_char_wrong
#print axioms Apron.Props.C128_mpfr_value
#print axioms Apron.Props.C128_mpfr_special
#print axioms Apron.Props.C128_mpfr_wrong
#print axioms Apron.Props.C129_oct_round_trip
#print axioms Apron.Props.C129_oct_same_points
#print axioms Apron.Props.C129_oct_mpq_partial
#print axioms Apron.Props.C130_product_round_trip
#print axioms Apron.Props.C130_product_oct
#print axioms Apron.Props.C131_reduce
#print axioms Apron.Props.C131_check
#print axioms Apron.Props.C131_top_bottom
#print axioms Apron.Props.C131_meet
#print axioms Apron.Props.C131_meet_array_partial
#print axioms Apron.Props.C131_join_least
#print axioms Apron.Props.C131_join_hull
#print axioms Apron.Props.C131_forget
#print axioms Apron.Props.C131_remove
#print axioms Apron.Props.C131_expand
#print axioms Apron.Props.C131_expand_zero
#print axioms Apron.Props.C131_add
#print axioms Apron.Props.C131_permute
#print axioms Apron.Props.C131_fold_least
#print axioms Apron.Props.C131_widening_upper
#print axioms Apron.Props.C131_widening_terminates
#print axioms Apron.Props.C131_is_eq_sound
#print axioms Apron.Props.C131_is_eq_exact_partial
#print axioms Apron.Props.C131_nice_reduce
#print axioms Apron.Props.C131_meet_lincons_sound
#print axioms Apron.Props.C131_meet_lincons_hull_partial
#print axioms Apron.Props.C131_add_rays_hull
#print axioms Apron.Props.C131_of_box_sound
#print axioms Apron.Props.C131_of_box_hull_partial
#print axioms Apron.Props.C131_join_array_partial
#print axioms Apron.Props.C131_join_array_lazy_not_affine
#print axioms Apron.Props.C131_of_box_empty_not_best
#print axioms Apron.Props.C132_assign_partial
#print axioms Apron.Props.C132_assign_sound_partial
#print axioms Apron.Props.C132_assign_exact
#print axioms Apron.Props.C132_substitute_exact_partial
#print axioms Apron.Props.C132_substitute_forget
#print axioms Apron.Props.C132_substitute_mixed_unsound
#print axioms Apron.Props.C132_assign_interval_coefficient_unsound
#print axioms Apron.Props.C134_to_lincons
#print axioms Apron.Props.C134_to_generators
#print axioms Apron.Props.C134_hash
#print axioms Apron.Props.C135_unchanged
#print axioms Apron.Props.C135_over
#print axioms Apron.Props.C135_box
#print axioms Apron.Props.C135_small
#print axioms Apron.Props.C135_outer_not_small
#print axioms Apron.Props.C135_integer
#print axioms Apron.Props.C135_octagon_unsound
#print axioms Apron.Props.C135_octagon_partial
#print axioms Apron.Props.C133_reduce_sound
#print axioms Apron.Props.C133_reduce_total
#print axioms Apron.Props.C133_reduce_empty
#print axioms Apron.Props.C133_reduce_equalities
#print axioms Apron.Props.C133_reduce_tightens_partial
#print axioms Apron.Props.C133_skips_constraints
#print axioms Apron.Props.C136_analysis_sound
#print axioms Apron.Props.C136_analysis_terminates
#print axioms Apron.Props.C136_box_analysis
#print axioms Apron.Props.C136_oct_analysis
#print axioms Apron.Props.C136_pk_analysis
#print axioms Apron.C137_close_keeps_points
#print axioms Apron.C137_close_adds_nothing
#print axioms Apron.C137_close_tightens
#print axioms Apron.C137_incremental_keeps_points
#print axioms Apron.C137_incremental_adds_nothing
#print axioms Apron.C137_s_step_keeps_points
#print axioms Apron.C137_strict_emptiness_undetected
#print axioms Apron.C137_strict_clash
#print axioms Apron.C137_strong_31
#print axioms Apron.C137_top_points
#print axioms Apron.C138_top_bottom
#print axioms Apron.C138_cache
#print axioms Apron.C138_of_box
#print axioms Apron.C138_meet
#print axioms Apron.C138_join
#print axioms Apron.C138_join_array
#print axioms Apron.C138_meet_array_null
#print axioms Apron.C139_widening
#print axioms Apron.C139_widening_thresholds
#print axioms Apron.C139_widening_wf
#print axioms Apron.C139_narrowing
#print axioms Apron.C139_widening_stabilises
#print axioms Apron.C140_is_bottom
#print axioms Apron.C140_bound_dimension
#print axioms Apron.C140_to_box
#print axioms Apron.C140_sat_interval
#print axioms Apron.C140_sat_lincons
#print axioms Apron.C140_bound_linexpr
#print axioms Apron.C140_is_top
#print axioms Apron.C140_is_leq_partial
#print axioms Apron.C140_is_eq_partial
#print axioms Apron.C140_is_leq_unsound
#print axioms Apron.C140_is_eq_unsound
#print axioms Apron.C140_unconstrained_unsound
#print axioms Apron.C140_is_top_incomplete
#print axioms Apron.C140_to_lincons_partial
#print axioms Apron.C140_to_lincons_unsound
#print axioms Apron.C141_meet_sound_partial
#print axioms Apron.C141_meet_general_partial
#print axioms Apron.C141_meet_le
#print axioms Apron.C141_meet_exact
#print axioms Apron.C141_diseq_zero
#print axioms Apron.C141_diseq_unary
#print axioms Apron.C141_diseq_binary
#print axioms Apron.C141_general_strict
#print axioms Apron.C141_binary_claims_closed
#print axioms Apron.C142_forget_sound
#print axioms Apron.C142_forget_changes_argument
#print axioms Apron.C142_add_exact
#print axioms Apron.C142_remove_sound
#print axioms Apron.C142_add_remove
#print axioms Apron.C142_permute_exact
#print axioms Apron.C142_fold_empty
#print axioms Apron.C142_fold_unsound
#print axioms Apron.C143_assign_partial
#print axioms Apron.C143_shift_sound
#print axioms Apron.C143_assign_constant_unsound
#print axioms Apron.C143_assign_opposite_unsound
#print axioms Apron.C143_assign_bottom_undefined
#print axioms Apron.C143_assign_loses_diagonal
#print axioms Apron.C144_equal_one
#print axioms Apron.C144_equal
#print axioms Apron.C144_hash_one
#print axioms Apron.C144_hash_constant
#print axioms Apron.C144_hash
#print axioms Apron.C144_meet_apply_sound
#print axioms Apron.C144_meet_improve_defined
#print axioms Apron.C144_meet_improved
#print axioms Apron.C144_meet_improved_least
#print axioms Apron.C144_meet_improve_keeps
#print axioms Apron.C144_meet_improve_idem
#print axioms Apron.C144_meet_array_apply_sound
#print axioms Apron.C144_meet_array_improved
#print axioms Apron.C144_lincons_apply_sound_partial
#print axioms Apron.C144_lincons_improved_least
#print axioms Apron.C144_improve_null
#print axioms Apron.C144_equality_interval_unsound
#print axioms Apron.C144_reduced_array_overrun
#print axioms Apron.C144_diseq_undefined
#print axioms Apron.C144_improve_interval_not_least
#print axioms Apron.C144_lincons_improve_not_stable
#print axioms Apron.C145_index
#print axioms Apron.C145_size
#print axioms Apron.C145_get
#print axioms Apron.C145_set
#print axioms Apron.C145_clr
#print axioms Apron.C145_clear
#print axioms Apron.C145_copy
#print axioms Apron.C145_cmp
#print axioms Apron.C145_cmp_zero
#print axioms Apron.C145_cmp_swap
#print axioms Apron.C145_cmp_trans
#print axioms Apron.C145_mat_get
#print axioms Apron.C145_mat_set
#print axioms Apron.C145_mat_clr
#print axioms Apron.C145_alloc
#print axioms Apron.C145_mat_clear
#print axioms Apron.C145_resize_cols
#print axioms Apron.C145_copy_resize_cols
#print axioms Apron.C145_mat_copy
#print axioms Apron.C145_resize_rows
#print axioms Apron.C145_transpose
#print axioms Apron.C145_transpose_transpose
#print axioms Apron.C145_move_rows
#print axioms Apron.C145_move_rows_none
#print axioms Apron.C145_exch_rows
#print axioms Apron.C145_mask
#print axioms Apron.C145_row_eq
#print axioms Apron.C145_set_mask
#print axioms Apron.C145_union
#print axioms Apron.C145_count_zero
#print axioms Apron.C145_included
#print axioms Apron.C145_zero_row
#print axioms Apron.C145_transpose_sat
#print axioms Apron.C146_arith
#print axioms Apron.C146_arith_uint
#print axioms Apron.C146_div
#print axioms Apron.C146_cdiv_qr
#print axioms Apron.C146_cdiv_qr_def
#print axioms Apron.C146_cdiv_2
#print axioms Apron.C146_div_2exp
#print axioms Apron.C146_mul_2exp
#print axioms Apron.C146_gcd
#print axioms Apron.C146_lcm
#print axioms Apron.C146_cmp
#print axioms Apron.C146_sgn
#print axioms Apron.C146_set_int2
#print axioms Apron.C146_root
#print axioms Apron.C146_pow
#print axioms Apron.C146_pow_defect
#print axioms Apron.C146_pow_wrap_defect
#print axioms Apron.C146_double_fits_defect
#print axioms Apron.C147_set
#print axioms Apron.C147_unary
#print axioms Apron.C147_arith
#print axioms Apron.C147_arith_def
#print axioms Apron.C147_uint
#print axioms Apron.C147_two
#print axioms Apron.C147_round
#print axioms Apron.C147_cmp
#print axioms Apron.C147_minmax
#print axioms Apron.C147_cmp_int
#print axioms Apron.C147_tests
#print axioms Apron.C147_to_int
#print axioms Apron.C147_pow
#print axioms Apron.C147_root_partial
#print axioms Apron.C147_root_defect
#print axioms Apron.C147_snprint_defect
#print axioms Apron.C147_zero_defect
#print axioms Apron.C147_uint_defect
#print axioms Apron.C148_eval_linexpr
#print axioms Apron.C148_eval_linexpr_tight
#print axioms Apron.C148_linexpr
#print axioms Apron.C148_linexpr_array
#print axioms Apron.C148_lincons
#print axioms Apron.C148_lincons_array_partial
#print axioms Apron.C148_array_type_always_linear
#print axioms Apron.C148_linearize_unchanged
#print axioms Apron.C148_exact_not_written
#print axioms Apron.C148_meet_generic
#print axioms Apron.C148_linearize_not_linear
#print axioms Apron.C148_result_unsorted
#print axioms Apron.C148_texpr_partial
#print axioms Apron.C148_texpr_intlinear_undefined
#print axioms Apron.C148_quasilinear_of_intlinear_undefined
#print axioms Apron.C148_quasilinear_of_intlinear_alias
#print axioms Apron.C148_quasilinear_of_intlinear_extended
#print axioms Apron.C148_level1_exception
#print axioms Apron.C148_intlinear_of_tree_undefined
#print axioms Apron.C148_intlinear_of_tree_partial
#print axioms Apron.C149_no_failure
#print axioms Apron.C149_manager_alive
#print axioms Apron.C149_counter
#print axioms Apron.C149_internal_freed_once
#print axioms Apron.C149_values
#print axioms Apron.C149_no_leak
#print axioms Apron.C149_double_free_undetected
#print axioms Apron.C150_raise
#print axioms Apron.C150_alloc
#print axioms Apron.C150_options
#print axioms Apron.C150_wrong_library
#print axioms Apron.C150_clear_keeps_exn
#print axioms Apron.C150_exn_never_reset
#print axioms Apron.C150_tbool
#print axioms Apron.Props.C151_is_eq
#print axioms Apron.Props.C151_is_eq_sound_partial
#print axioms Apron.Props.C151_is_leq_keeps
#print axioms Apron.Props.C151_is_leq_boxes
#print axioms Apron.Props.C151_is_leq_sound_partial
#print axioms Apron.Props.C151_meet_sound
#print axioms Apron.Props.C151_meet_sound_exact
#print axioms Apron.Props.C151_meet_keeps
#print axioms Apron.Props.C151_join_box
#print axioms Apron.Props.C151_join_sound_left_partial
#print axioms Apron.Props.C151_join_sound_right_partial
#print axioms Apron.Props.C151_join_bottom
#print axioms Apron.Props.C151_join_keeps
#print axioms Apron.Props.C151_is_leq_unsound
#print axioms Apron.Props.C151_join_unsound
#print axioms Apron.Props.C151_is_eq_sharing_wrong
#print axioms Apron.Props.C151_meet_not_included
#print axioms Apron.Props.C152_widening_box
#print axioms Apron.Props.C152_widening_sound_left_partial
#print axioms Apron.Props.C152_widening_sound_right_partial
#print axioms Apron.Props.C152_widening_empty_form
#print axioms Apron.Props.C152_widening_bottom
#print axioms Apron.Props.C152_widening_keeps
#print axioms Apron.Props.C152_widening_boxes_stabilise
#print axioms Apron.Props.C152_widening_unsound
#print axioms Apron.Props.C152_widening_flag_exact_wrong
#print axioms Apron.Props.C152_widening_forms_not_stationary
#print axioms Apron.Props.C153_make
#print axioms Apron.Props.C153_clear
#print axioms Apron.Props.C153_resize
#print axioms Apron.Props.C153_set_refused
#print axioms Apron.Props.C153_set
#print axioms Apron.Props.C153_client_no_leak
#print axioms Apron.Props.C153_cleared_array_keeps_size
#print axioms Apron.Props.C153_cleared_array_resize_garbage
#print axioms Apron.Props.C153_cleared_generators_empty
#print axioms Apron.Props.C153_set_get_dangling
#print axioms Apron.Props.C154_quasi_sound
#print axioms Apron.Props.C154_quasi_point
#print axioms Apron.Props.C154_steep_sound
#print axioms Apron.Props.C154_steep_terminates
#print axioms Apron.Props.C154_quasi_integer_sound_partial
#print axioms Apron.Props.C154_integer_sound
#print axioms Apron.Props.C154_tighten_upper
#print axioms Apron.Props.C154_tighten_lower
#print axioms Apron.Props.C154_quasi_integer_to_zero
#print axioms Apron.Props.C154_quasi_integer_loses_constraint
#print axioms Apron.Props.C154_quasi_integer_drops_small
#print axioms Apron.Props.C154_quasi_integer_needs_exact
#print axioms Apron.Props.C154_with_constant_overflow
#print axioms Apron.Props.C154_with_constant_overflow_all
#print axioms Apron.Props.C155_elimination_sound
#print axioms Apron.Props.C155_elimination_exact
#print axioms Apron.Props.C155_elimination_exact_sound
#print axioms Apron.Props.C155_substitution_sound
#print axioms Apron.Props.C155_substitution_exists
#print axioms Apron.Props.C155_definition_rows
#print axioms Apron.Props.C155_substitution_null
#print axioms Apron.Props.C155_substitution_null_case
#print axioms Apron.Props.C155_unused_variable_bounds
#print axioms Apron.Props.C156_or
#print axioms Apron.Props.C156_subset
#print axioms Apron.Props.C156_and_test
#print axioms Apron.Props.C156_ones
#print axioms Apron.Props.C156_unit
#print axioms Apron.Props.C156_kohler
#print axioms Apron.Props.C156_kohler_lazy
#print axioms Apron.Props.C156_history_start
#print axioms Apron.Props.C156_history_combine
#print axioms Apron.Props.C156_kohler_no_vector
#print axioms Apron.Props.C156_kohler_lazy_not_minimal
#print axioms Apron.Props.C157_lazy_sound
#print axioms Apron.Props.C157_lazy_history
#print axioms Apron.Props.C157_lazy_zero_rows
#print axioms Apron.Props.C158_hull_system
#print axioms Apron.Props.C158_hull_sound
#print axioms Apron.Props.C158_hull_exact
#print axioms Apron.Props.C158_join_sound
#print axioms Apron.Props.C158_reshape_sigma
#print axioms Apron.Props.C158_hull_closure
#print axioms Apron.Props.C159_leq_syntactic
#print axioms Apron.Props.C159_rlp_sound
#print axioms Apron.Props.C159_is_leq_partial
#print axioms Apron.Props.C159_is_leq_refl
#print axioms Apron.Props.C159_is_eq
#print axioms Apron.Props.C159_is_eq_half
#print axioms Apron.Props.C159_is_leq_unknown
#print axioms Apron.Props.C159_is_leq_other
#print axioms Apron.Props.C159_is_leq_epsilon
#print axioms Apron.Props.C159_is_eq_duplicates
#print axioms Apron.Props.C159_sat_lincons
#print axioms Apron.Props.C160_meet
#print axioms Apron.Props.C160_meet_bounds
#print axioms Apron.Props.C160_widening_sound
#print axioms Apron.Props.C160_widening_rows
#print axioms Apron.Props.C160_widening_many
#print axioms Apron.Props.C160_widening_needs_inclusion
