{
 "claims": [
  {
   "property": "C01",
   "status": "proved",
   "theorems": [
    "HPLLL.Props.C01_hlll_preserves_lattice"
   ],
   "note": "every FPOps, every exit"
  },
  {
   "property": "C02",
   "status": "proved",
   "theorems": [
    "HPLLL.Props.C02_transformation"
   ],
   "note": "every FPOps; hypotheses: independent columns, sequential reduction (see C07)"
  },
  {
   "property": "C03",
   "status": "proved",
   "theorems": [
    "HPLLL.Props.C03_getU_unimodular",
    "HPLLL.Props.C03_getU_without_transform"
   ],
   "note": "every FPOps"
  },
  {
   "property": "C04",
   "status": "proved",
   "theorems": [
    "HPLLL.Props.C04_volume"
   ],
   "note": "every FPOps"
  },
  {
   "property": "C05",
   "status": "proved",
   "theorems": [
    "HPLLL.Props.C05_zero_rows_stay_zero"
   ],
   "note": "every FPOps"
  },
  {
   "property": "C06",
   "status": "proved",
   "theorems": [
    "HPLLL.Props.C06_all_schedules",
    "HPLLL.Props.C06_thread_settings_irrelevant"
   ],
   "note": "all interleavings; small-step thread model"
  },
  {
   "property": "C07",
   "status": "proved",
   "theorems": [
    "HPLLL.Props.C07_getU_unimodular_any_threads",
    "HPLLL.Props.C07_getU_wrong_in_parallel_mode"
   ],
   "note": "positive part for every FPOps; the sequential identity is refuted by a witness"
  },
  {
   "property": "C08",
   "status": "proved",
   "theorems": [
    "HPLLL.Props.C08_output_reduced"
   ],
   "note": "exact arithmetic, any tie breaking, both methods"
  },
  {
   "property": "C09",
   "status": "proved",
   "theorems": [
    "HPLLL.Props.C09_never_fails"
   ],
   "note": "exact arithmetic"
  },
  {
   "property": "C10",
   "status": "proved",
   "theorems": [
    "HPLLL.Props.C10_terminates",
    "HPLLL.Props.C10_swap_bound",
    "HPLLL.Props.C10_total_correctness"
   ],
   "note": "exact arithmetic, ties to zero, size-reduction method"
  },
  {
   "property": "C11",
   "status": "proved",
   "theorems": [
    "HPLLL.Props.C11_short_first_vector",
    "HPLLL.Props.C11_successive_minima"
   ],
   "note": "exact arithmetic"
  },
  {
   "property": "C12",
   "status": "proved",
   "theorems": [
    "HPLLL.Props.C12_householder_QR",
    "HPLLL.Props.C12_getR_after_hlll"
   ],
   "note": "exact arithmetic"
  },
  {
   "property": "C13",
   "status": "proved",
   "theorems": [
    "HPLLL.Props.C13_cache_never_stale"
   ],
   "note": "exact arithmetic, all loop heads reachable from a fresh object"
  },
  {
   "property": "C14",
   "status": "proved",
   "theorems": [
    "HPLLL.Props.C14_test_budget"
   ],
   "note": "every FPOps"
  },
  {
   "property": "C15",
   "status": "proved",
   "theorems": [
    "HPLLL.Props.C15_tests_versus_swaps"
   ],
   "note": "every FPOps"
  },
  {
   "property": "C16",
   "status": "proved",
   "theorems": [
    "HPLLL.Props.C16_isreduced",
    "HPLLL.Props.C16_isreduced_sound",
    "HPLLL.Props.C16_isreduced_ignores_failure",
    "HPLLL.Props.C16_isreduced_single_column"
   ],
   "note": "every FPOps / exact arithmetic; two defects stated as theorems"
  },
  {
   "property": "C17",
   "status": "proved",
   "theorems": [
    "HPLLL.Props.C17_verboseDepth_restored"
   ],
   "note": "every FPOps"
  },
  {
   "property": "C18",
   "status": "proved",
   "theorems": [
    "HPLLL.Props.C18_index_safety",
    "HPLLL.Props.C18_put_safety",
    "HPLLL.Props.C18_seysen_blocks"
   ],
   "note": "every FPOps, every history, also with put"
  },
  {
   "property": "C19",
   "status": "proved",
   "theorems": [
    "HPLLL.Props.C19_assign_fresh",
    "HPLLL.Props.C19_assign_ok",
    "HPLLL.Props.C19_assign_not_fresh"
   ],
   "note": "arbitrary arithmetic, all histories; the condition on the profiles is sufficient (the witness shows that some condition is needed)"
  },
  {
   "property": "C20",
   "status": "proved",
   "theorems": [
    "HPLLL.Props.C20_shift_keeps_offdiagonal",
    "HPLLL.Props.C20_shift_not_identity"
   ],
   "note": "the English expectation (identity) is refuted by a witness; exact characterisation proved"
  },
  {
   "property": "C21",
   "status": "proved",
   "theorems": [
    "HPLLL.Props.C21_histories",
    "HPLLL.Props.C21_resume",
    "HPLLL.Props.C21_resume_terminates"
   ],
   "note": "every FPOps, every history; resuming in exact arithmetic"
  },
  {
   "property": "C22",
   "status": "proved",
   "theorems": [
    "HPLLL.Props.C22_seysen_parallel_only_permutes",
    "HPLLL.Props.C22_seysen_parallel_not_reduced"
   ],
   "note": "every FPOps"
  },
  {
   "property": "C23",
   "status": "proved",
   "theorems": [
    "HPLLL.Props.C23_seysen_uses_stale_member",
    "HPLLL.Props.C23_seysen_depends_on_junk"
   ],
   "note": "every FPOps"
  },
  {
   "property": "C24",
   "status": "proved",
   "theorems": [
    "HPLLL.Props.C24_get_put",
    "HPLLL.Props.C24_put_other",
    "HPLLL.Props.C24_rebuild",
    "HPLLL.Props.C24_block_sizes",
    "HPLLL.Props.C24_square_blocks",
    "HPLLL.Props.C24_setblock"
   ],
   "note": "all sizes"
  },
  {
   "property": "C25",
   "status": "proved",
   "theorems": [
    "HPLLL.Props.C25_pmatprod_in_int",
    "HPLLL.Props.C25_tpmatprod_in_int",
    "HPLLL.Props.C25_pmaprod_diag",
    "HPLLL.Props.C25_pmatprod"
   ],
   "note": "every interleaving of the threads"
  },
  {
   "property": "C26",
   "status": "proved",
   "theorems": [
    "HPLLL.Props.C26_pmatprod_in",
    "HPLLL.Props.C26_pmatprod_in_divides",
    "HPLLL.Props.C26_pmatprod_in_drops_rows"
   ],
   "note": "the English expectation is refuted; exact characterisation proved"
  },
  {
   "property": "C27",
   "status": "proved",
   "theorems": [
    "HPLLL.Props.C27_roundtrip",
    "HPLLL.Props.C27_range"
   ],
   "note": "all integers"
  },
  {
   "property": "C28",
   "status": "proved",
   "theorems": [
    "HPLLL.Props.C28_print"
   ],
   "note": "all 128 bit integers"
  },
  {
   "property": "C29",
   "status": "proved",
   "theorems": [
    "HPLLL.Props.C29_set_z_wrong_sign",
    "HPLLL.Props.C29_set_z_witness"
   ],
   "note": "the English expectation is refuted (sign of the low part); exact error for every rounding to 53 bits"
  },
  {
   "property": "C30",
   "status": "proved",
   "theorems": [
    "HPLLL.Props.C30_matrix_cast",
    "HPLLL.Props.C30_no_silent_loss"
   ],
   "note": "exact characterisation"
  },
  {
   "property": "C31",
   "status": "proved",
   "theorems": [
    "HPLLL.Props.C31_maxbitsize",
    "HPLLL.Props.C31_maxbitsize_rows"
   ],
   "note": "all matrices"
  },
  {
   "property": "C32",
   "status": "proved",
   "theorems": [
    "HPLLL.Props.C32_lift_truncate",
    "HPLLL.Props.C32_lift_truncate_long",
    "HPLLL.Props.C32_long_witness",
    "HPLLL.Props.C32_lift_truncate_128",
    "HPLLL.Props.C32_lift_truncate_128_exit",
    "HPLLL.Props.C32_128_witness",
    "HPLLL.Props.C32_trunc"
   ],
   "note": "all matrices; the double product in trunc enters through a bound on the exponent"
  },
  {
   "property": "C33",
   "status": "proved",
   "theorems": [
    "HPLLL.Props.C33_structure"
   ],
   "note": "all matrices"
  },
  {
   "property": "C34",
   "status": "proved",
   "theorems": [
    "HPLLL.Props.C34_relation",
    "HPLLL.Props.C34_relation_primitive",
    "HPLLL.Props.C34_reals",
    "HPLLL.Props.C34_truncation_loses_unimodularity"
   ],
   "note": "any arithmetic, schedule, truncation; unimodularity fails under truncation (witness)"
  },
  {
   "property": "C35",
   "status": "proved",
   "theorems": [
    "HPLLL.Props.C35_iterations",
    "HPLLL.Props.C35_returns"
   ],
   "note": "all parameters"
  },
  {
   "property": "C36",
   "status": "proved",
   "theorems": [
    "HPLLL.Props.C36_parameters_ignored",
    "HPLLL.Props.C36_delta_matters",
    "HPLLL.Props.C36_relation",
    "HPLLL.Props.C36_gap",
    "HPLLL.Props.C36_no_overflow",
    "HPLLL.Props.C36_returns",
    "HPLLL.Props.C36_never_returns",
    "HPLLL.Props.C36_rounding_matters"
   ],
   "note": "The reductions run on rounded FT integers with an arbitrary rounding; conversions are arbitrary functions; primitivity is under the condition that no operation was rounded (C36_rounding_matters shows it is needed)."
  },
  {
   "property": "C37",
   "status": "proved",
   "theorems": [
    "HPLLL.Props.C37_wrappers",
    "HPLLL.Props.C37_phases",
    "HPLLL.Props.C37_reduced",
    "HPLLL.Props.C37_single_column_check"
   ],
   "note": "all dimensions, any arithmetic per phase"
  },
  {
   "property": "C38",
   "status": "proved",
   "theorems": [
    "HPLLL.Props.C38_segment_lll",
    "HPLLL.Props.C38_schedule_independent",
    "HPLLL.Props.C38_padding_loses_lattice",
    "HPLLL.Props.C38_getU_is_last_phase"
   ],
   "note": "the unconditional claim is refuted; conditions for equality proved; sublattice unconditional"
  },
  {
   "property": "C39",
   "status": "proved",
   "theorems": [
    "HPLLL.Props.C39_slll_wrap_gap",
    "HPLLL.Props.C39_slll_wrap",
    "HPLLL.Props.C39_slll_wrapper"
   ],
   "note": "all dimensions, any arithmetic, any schedule"
  },
  {
   "property": "C40",
   "status": "proved",
   "theorems": [
    "HPLLL.Props.C40_precision_after_lcond",
    "HPLLL.Props.C40_lcond_returns"
   ],
   "note": "the original expectation (precision restored) is refuted; exact characterisation"
  },
  {
   "property": "C41",
   "status": "proved",
   "theorems": [
    "HPLLL.Props.C41_ratio",
    "HPLLL.Props.C41_ratio0"
   ],
   "note": "exact arithmetic; conversions to double not modelled"
  },
  {
   "property": "C42",
   "status": "proved",
   "theorems": [
    "HPLLL.Props.C42_l1",
    "HPLLL.Props.C42_returns",
    "HPLLL.Props.C42_never_returns"
   ],
   "note": "l1.h uses names of an older fplll; read as the current ones"
  },
  {
   "property": "C43",
   "status": "proved",
   "theorems": [
    "HPLLL.Props.C43_column_operations",
    "HPLLL.Props.C43_setcol_mixed",
    "HPLLL.Props.C43_other_columns",
    "HPLLL.Props.C43_vectors",
    "HPLLL.Props.C43_rows_outside",
    "HPLLL.Props.C43_addcol_changes_other_rows",
    "HPLLL.Props.C43_hlll_matrixPE",
    "HPLLL.Props.C43_hlll_matrixPE_reduced"
   ],
   "note": "significands are real numbers, exponents unbounded integers: rounding, underflow and overflow are not modelled"
  },
  {
   "property": "C44",
   "status": "proved",
   "theorems": [
    "HPLLL.Props.C44_program",
    "HPLLL.Props.C44_rows"
   ],
   "note": "whole main path of the program after parsing; the external reducer of -lfplll is a parameter"
  },
  {
   "property": "C45",
   "status": "proved",
   "theorems": [
    "HPLLL.Props.C45_matcmp"
   ],
   "note": "exact characterisation, with the defect"
  },
  {
   "property": "C46",
   "status": "proved",
   "theorems": [
    "HPLLL.Props.C46_transpose",
    "HPLLL.Props.C46_transpose_in",
    "HPLLL.Props.C46_setId",
    "HPLLL.Props.C46_isId",
    "HPLLL.Props.C46_set",
    "HPLLL.Props.C46_products",
    "HPLLL.Props.C46_set_columns",
    "HPLLL.Props.C46_shift_in"
   ],
   "note": "all sizes"
  },
  {
   "property": "C47",
   "status": "proved",
   "theorems": [
    "HPLLL.Props.C47_lcond_any",
    "HPLLL.Props.C47_lcond_any_unbounded"
   ],
   "note": "upper bound and dependence on uninitialised storage"
  },
  {
   "property": "C48",
   "status": "proved",
   "theorems": [
    "HPLLL.Props.C48_lcond_triangular",
    "HPLLL.Props.C48_improper_witness"
   ],
   "note": "all dimensions"
  },
  {
   "property": "C49",
   "status": "proved",
   "theorems": [
    "HPLLL.Props.C49_printed_delta"
   ],
   "note": "exact arithmetic"
  },
  {
   "property": "C50",
   "status": "proved",
   "theorems": [
    "HPLLL.Props.C50_lll"
   ],
   "note": "any arithmetic"
  },
  {
   "property": "C51",
   "status": "proved",
   "theorems": [
    "HPLLL.Props.C51_swap_counter",
    "HPLLL.Props.C51_one_thread",
    "HPLLL.Props.C51_lost_update",
    "HPLLL.Props.C51_table"
   ],
   "note": "all interleavings"
  },
  {
   "property": "C52",
   "status": "proved",
   "theorems": [
    "HPLLL.Props.C52_put_unimodular",
    "HPLLL.Props.C52_put_lattice",
    "HPLLL.Props.C52_put_loses_lattice"
   ],
   "note": ""
  },
  {
   "property": "C53",
   "status": "proved",
   "theorems": [
    "HPLLL.Props.C53_uninitialised_storage",
    "HPLLL.Props.C53_seysen_nolong_uninitialised"
   ],
   "note": "every storage content, arithmetic and history"
  },
  {
   "property": "C54",
   "status": "proved",
   "theorems": [
    "HPLLL.Props.C54_reduced_is_fixed",
    "HPLLL.Props.C54_idempotent",
    "HPLLL.Props.C54_no_swap",
    "HPLLL.Props.C54_isreduced_iff",
    "HPLLL.Props.C54_isreduced_terminates"
   ],
   "note": "Gram-Schmidt vectors are invariant under unitriangular integer changes and |mu|<=1/2 minimises (mu+c)^2, so every Lovasz test passes; the size reduction pass finds nothing to do."
  },
  {
   "property": "C55",
   "status": "proved",
   "theorems": [
    "HPLLL.Props.C55_knapsack",
    "HPLLL.Props.C55_ajtai",
    "HPLLL.Props.C55_block",
    "HPLLL.Props.C55_block_default",
    "HPLLL.Props.C55_unif_never",
    "HPLLL.Props.C55_unif",
    "HPLLL.Props.C55_dec_zero",
    "HPLLL.Props.C55_dec",
    "HPLLL.Props.C55_copp",
    "HPLLL.Props.C55_copp_uninitialised",
    "HPLLL.Props.C55_other",
    "HPLLL.Props.C55_alpha",
    "HPLLL.Props.C55_alpha_not_size_reduced",
    "HPLLL.Props.C55_program"
   ],
   "note": "random draws are arbitrary integers; matrices made by fplll's generators enter through their contract; conversions of genalpha are parameters"
  },
  {
   "property": "C56",
   "status": "proved",
   "theorems": [
    "HPLLL.Props.C56_first_block",
    "HPLLL.Props.C56_messages",
    "HPLLL.Props.C56_second_eta",
    "HPLLL.Props.C56_second_eta_witness"
   ],
   "note": "exact arithmetic; the constants theta are parameters; the eta (hence alpha) of the second block is refuted"
  },
  {
   "property": "C57",
   "status": "proved",
   "theorems": [
    "HPLLL.Props.C57_add",
    "HPLLL.Props.C57_sub",
    "HPLLL.Props.C57_mul",
    "HPLLL.Props.C57_div",
    "HPLLL.Props.C57_sqrt",
    "HPLLL.Props.C57_neg_abs",
    "HPLLL.Props.C57_mul_2si",
    "HPLLL.Props.C57_defined",
    "HPLLL.Props.C57_zero",
    "HPLLL.Props.C57_add_witness"
   ],
   "note": "long double = rationals rounded to nearest even on 64 bits (range limits, NaN and infinities left out); int exponents with overflow as an undefined outcome; the claim of correct rounding of sums is refuted in the cases Missed, and products with zero may be undefined"
  },
  {
   "property": "C58",
   "status": "proved",
   "theorems": [
    "HPLLL.Props.C58_cmp",
    "HPLLL.Props.C58_cmp_double",
    "HPLLL.Props.C58_sgn",
    "HPLLL.Props.C58_zeros",
    "HPLLL.Props.C58_bad_zero"
   ],
   "note": "order on normalised numbers; zeros produced by set_z(0), sqrt(0), mul_2si(0) are refuted"
  },
  {
   "property": "C59",
   "status": "proved",
   "theorems": [
    "HPLLL.Props.C59_round",
    "HPLLL.Props.C59_floor",
    "HPLLL.Props.C59_ceil",
    "HPLLL.Props.C59_frac",
    "HPLLL.Props.C59_exact",
    "HPLLL.Props.C59_witness",
    "HPLLL.Props.C59_get_si_exp",
    "HPLLL.Props.C59_get_si_exp_witness",
    "HPLLL.Props.C59_set_f",
    "HPLLL.Props.C59_set_f_ld",
    "HPLLL.Props.C59_set_f_witness",
    "HPLLL.Props.C59_set_z",
    "HPLLL.Props.C59_set_z_witness",
    "HPLLL.Props.C59_size_in_bits",
    "HPLLL.Props.C59_get_z",
    "HPLLL.Props.C59_get_z_exp_witness",
    "HPLLL.Props.C59_set_si",
    "HPLLL.Props.C59_set_d",
    "HPLLL.Props.C59_swap"
   ],
   "note": "exact characterisation of each conversion, with the inputs on which it is not what the header announces"
  },
  {
   "property": "C60",
   "status": "proved",
   "theorems": [
    "HPLLL.Props.C60_seysen_output",
    "HPLLL.Props.C60_seysen_terminates",
    "HPLLL.Props.C60_seysen_short_first_vector"
   ],
   "note": "exact arithmetic; Seysen-reducedness is Spec/Seysen (blocks by binary digits of the column index)"
  },
  {
   "property": "C61",
   "status": "proved",
   "theorems": [
    "HPLLL.Props.C61_hlllp_lattice",
    "HPLLL.Props.C61_hlllp_transformation",
    "HPLLL.Props.C61_hlllp_is_hlll",
    "HPLLL.Props.C61_hlllp_output",
    "HPLLL.Props.C61_hlllp_never_fails",
    "HPLLL.Props.C61_hlllp_terminates",
    "HPLLL.Props.C61_hlllp_short_first_vector"
   ],
   "note": "any arithmetic for lattice/transformation/indices/equality with hlll; exact arithmetic for the rest; 0.501 is a parameter at least 1/2"
  },
  {
   "property": "C62",
   "status": "proved",
   "theorems": [
    "HPLLL.Props.C62_no_overflow_same_run",
    "HPLLL.Props.C62_no_overflow_lattice",
    "HPLLL.Props.C62_wrap_lattice_mod",
    "HPLLL.Props.C62_wrap_transformation",
    "HPLLL.Props.C62_wrap_volume_mod",
    "HPLLL.Props.C62_overflow_loses_lattice",
    "HPLLL.Props.C62_small_input_exact",
    "HPLLL.Props.C62_enough_bits",
    "HPLLL.Props.C62_reduced_input"
   ],
   "note": "two's complement of w bits, strict (overflow undefined) or wrapping; conversions outside the type are an undefined outcome; the claim that a 0 status means same lattice is refuted"
  },
  {
   "property": "C63",
   "status": "proved",
   "theorems": [
    "HPLLL.Props.C63_no_swelling"
   ],
   "note": "exact arithmetic, size reduction method, any stop point given by the test budget"
  },
  {
   "property": "C64",
   "status": "proved",
   "theorems": [
    "HPLLL.Props.C64_final_tests",
    "HPLLL.Props.C64_getR_recomputed"
   ],
   "note": "any arithmetic with exact operations on zero (ZeroLaws); status 0 within the budget; getR statement under absence of division by zero in the recomputation"
  },
  {
   "property": "C65",
   "status": "proved",
   "theorems": [
    "HPLLL.Props.C65_backward_stable",
    "HPLLL.Props.C65_householder",
    "HPLLL.Props.C65_error_size"
   ],
   "note": "standard model with unit roundoff u<1 (Spec/FpErr), ZeroLaws, nonzero computed diagonal; non-vacuity by a 53 bit floating point run evaluated by the kernel"
  },
  {
   "property": "C66",
   "status": "proved",
   "theorems": [
    "HPLLL.Props.C66_truly_reduced",
    "HPLLL.Props.C66_lengths",
    "HPLLL.Props.C66_short_first_vector"
   ],
   "note": "standard model, ZeroLaws; the bound eta on the quotients is a hypothesis on getR() (checked by the user), since the anomaly exit of hsizereduce only guarantees quotients about 1 (C65)"
  },
  {
   "property": "C67",
   "status": "proved",
   "theorems": [
    "HPLLL.Props.C67_never_returns",
    "HPLLL.Props.C67_never_returns_honest",
    "HPLLL.Props.C67_stuck_after_five_tests",
    "HPLLL.Props.C67_returns_iff_columns_do",
    "HPLLL.Props.C67_stuck_only_by_bouncing"
   ],
   "note": "the arithmetic of the run without end is Model/Near (round to nearest even, 53 bits, unbounded exponents); the characterisation needs the standard model and ZeroLaws, and is for method 0"
  },
  {
   "property": "C68",
   "status": "proved",
   "theorems": [
    "HPLLL.Props.C68_zfgas",
    "HPLLL.Props.C68_fgas",
    "HPLLL.Props.C68_fgas_exact",
    "HPLLL.Props.C68_square_out_of_range"
   ],
   "note": "any arithmetic; residue and decomposed matrix of Fgas under exact operations on its entries"
  },
  {
   "property": "C69",
   "status": "proved",
   "theorems": [
    "HPLLL.Props.C69_direct",
    "HPLLL.Props.C69_direct_basis",
    "HPLLL.Props.C69_gap_defect"
   ],
   "note": "any arithmetic; the failing input is a run in 53 bit arithmetic (Model/Near)"
  },
  {
   "property": "C70",
   "status": "proved",
   "theorems": [
    "HPLLL.Props.C70_hjls",
    "HPLLL.Props.C70_hjls_basis",
    "HPLLL.Props.C70_indirect",
    "HPLLL.Props.C70_indirect_basis"
   ],
   "note": "any arithmetic, any uninitialised content"
  },
  {
   "property": "C71",
   "status": "proved",
   "theorems": [
    "HPLLL.Props.C71_lll",
    "HPLLL.Props.C71_lll_basis",
    "HPLLL.Props.C71_complete",
    "HPLLL.Props.C71_small_shift"
   ],
   "note": "lsigma = 0, HLLL; the Lehmer loop and the fplll and L1 variants are not modelled; completeness in exact arithmetic (ExactTies), hlll within its default test budget"
  },
  {
   "property": "C72",
   "status": "proved",
   "theorems": [
    "HPLLL.Props.C72_set_general",
    "HPLLL.Props.C72_set_defect"
   ],
   "note": "general statement with exact entries; negation by a 53 bit run evaluated by the kernel"
  },
  {
   "property": "C73",
   "status": "proved",
   "theorems": [
    "HPLLL.Props.C73_direct_succeeds",
    "HPLLL.Props.C73_direct_terminates"
   ],
   "note": "exact arithmetic (ExactTies); first d columns independent; any gamma > 2/sqrt 3"
  },
  {
   "property": "C74",
   "status": "proved",
   "theorems": [
    "HPLLL.Props.C74_hjls_succeeds",
    "HPLLL.Props.C74_hjls_terminates",
    "HPLLL.Props.C74_hjls_does_not_return",
    "HPLLL.Props.C74_hjls_other_gamma"
   ],
   "note": "exact arithmetic (ExactTies) and gamma > 2/sqrt 3 for the positive part; for the constant 1.1414 of the code the claim is false: a run on (2 1 1 1) with 53 bits enters a cycle of two states, for all fuels and all uninitialised contents"
  },
  {
   "property": "C75",
   "status": "proved",
   "theorems": [
    "HPLLL.Props.C75_lehmer_columns",
    "HPLLL.Props.C75_lehmer_lattice",
    "HPLLL.Props.C75_lehmer_lattice_any",
    "HPLLL.Props.C75_prodOk",
    "HPLLL.Props.C75_one_round",
    "HPLLL.Props.C75_negative_shift",
    "HPLLL.Props.C75_delta_irrelevant",
    "HPLLL.Props.C75_delta_ignored"
   ],
   "note": "lattice equality: no truncation, independent columns below the first row; reducedness: exact arithmetic and one round. Defects proved: delta ignored, negative shifts"
  },
  {
   "property": "C76",
   "status": "proved",
   "theorems": [
    "HPLLL.Props.C76_relations_hjls",
    "HPLLL.Props.C76_residual",
    "HPLLL.Props.C76_restarting",
    "HPLLL.Props.C76_restarting_primitive",
    "HPLLL.Props.C76_restarting_one",
    "HPLLL.Props.C76_restarting_refuses",
    "HPLLL.Props.C76_restarting_accepts",
    "HPLLL.Props.C76_restart_defect"
   ],
   "note": "long transformations of restarting_hjls modelled without overflow; defects proved by runs evaluated by the kernel"
  },
  {
   "property": "C77",
   "status": "proved",
   "theorems": [
    "HPLLL.Props.C77_shifts",
    "HPLLL.Props.C77_shifts_basis",
    "HPLLL.Props.C77_run"
   ],
   "note": "any arithmetic, shift step and digit count; termination of the loop of shifts is not claimed"
  },
  {
   "property": "C78",
   "status": "proved",
   "theorems": [
    "HPLLL.Props.C78_schedules",
    "HPLLL.Props.C78_missing_columns",
    "HPLLL.Props.C78_householder",
    "HPLLL.Props.C78_zero_column"
   ],
   "note": "schedule independence in any arithmetic, entry by entry; equality with householder() in exact arithmetic for independent columns and S dividing d; defects proved: last d mod S columns not computed, zero columns"
  },
  {
   "property": "C79",
   "status": "proved",
   "theorems": [
    "HPLLL.Props.C79_blocks",
    "HPLLL.Props.C79_reduced",
    "HPLLL.Props.C79_terminates",
    "HPLLL.Props.C79_not_reduced"
   ],
   "note": "lattices in any arithmetic; reducedness and termination in exact arithmetic under the profile condition of C19, which the initial matrix of ones was meant to make unnecessary: witness of a block that is not reduced, in 53 bit arithmetic"
  },
  {
   "property": "C80",
   "status": "proved",
   "theorems": [
    "HPLLL.Props.C80_parameters",
    "HPLLL.Props.C80_relation",
    "HPLLL.Props.C80_gap",
    "HPLLL.Props.C80_no_overflow",
    "HPLLL.Props.C80_first_lift",
    "HPLLL.Props.C80_first_lift_missed",
    "HPLLL.Props.C80_false_relation",
    "HPLLL.Props.C80_returns",
    "HPLLL.Props.C80_never_returns"
   ],
   "note": "any arithmetic and conversions; the bound printed when no relation is found is not modelled; fplll's reducer is uninterpreted; the reductions run on floating point integers with an arbitrary rounding, as in C36"
  },
  {
   "property": "C81",
   "status": "proved",
   "theorems": [
    "HPLLL.Props.C81_powers",
    "HPLLL.Props.C81_relation",
    "HPLLL.Props.C81_nan",
    "HPLLL.Props.C81_cases",
    "HPLLL.Props.C81_simultaneous"
   ],
   "note": "exact elementary functions (a result that is not a real number is a distinct value); rounding of exp, log by mpfr is not modelled"
  },
  {
   "property": "C82",
   "status": "proved",
   "theorems": [
    "HPLLL.Props.C82_segment_reduced",
    "HPLLL.Props.C82_reduced_input"
   ],
   "note": "exact arithmetic of R; dpe conversion set_f(RZ, R, 63) with its rounding; dimension a multiple of 2S (no padding)"
  },
  {
   "property": "C83",
   "status": "proved",
   "theorems": [
    "HPLLL.Props.C83_column",
    "HPLLL.Props.C83_history",
    "HPLLL.Props.C83_product",
    "HPLLL.Props.C83_copy_shift",
    "HPLLL.Props.C83_get_set",
    "HPLLL.Props.C83_access",
    "HPLLL.Props.C83_get_set_mismatch",
    "HPLLL.Props.C83_trunc",
    "HPLLL.Props.C83_trunc_small",
    "HPLLL.Props.C83_structure",
    "HPLLL.Props.C83_epsilon",
    "HPLLL.Props.C83_setcol"
   ],
   "note": "integer rows in any arithmetic, real rows in exact arithmetic; (long)(x*0.301029995) by two inequalities; printing not modelled"
  },
  {
   "property": "C84",
   "status": "proved",
   "theorems": [
    "HPLLL.Props.C84_gap",
    "HPLLL.Props.C84_wide",
    "HPLLL.Props.C84_magnitudes",
    "HPLLL.Props.C84_zero_entry",
    "HPLLL.Props.C84_wide_missed"
   ],
   "note": "any exponent function, conversion, arithmetic and reducer; the exponent of zero is the one of mpfr in the concrete cases"
  },
  {
   "property": "C85",
   "status": "proved",
   "theorems": [
    "HPLLL.Props.C85_exact_run",
    "HPLLL.Props.C85_enough_precision",
    "HPLLL.Props.C85_reduced_input",
    "HPLLL.Props.C85_rounding_loses_lattice"
   ],
   "note": "any rounding function of the entries; overflow of the exponent is not modelled; size reduction or long flag (set_f copies a number that is not an integer otherwise)"
  },
  {
   "property": "C86",
   "status": "proved",
   "theorems": [
    "HPLLL.Props.C86_index_safety",
    "HPLLL.Props.C86_index_safety_iff",
    "HPLLL.Props.C86_witness"
   ],
   "note": "every arithmetic, schedule, storage content and history; number of segments above that of the constructor refuted"
  },
  {
   "property": "C87",
   "status": "proved",
   "theorems": [
    "HPLLL.Props.C87_all_schedules",
    "HPLLL.Props.C87_histories",
    "HPLLL.Props.C87_fresh_in_parallel_mode",
    "HPLLL.Props.C87_reduced_in_parallel_mode",
    "HPLLL.Props.C87_reduced_in_sequential_mode",
    "HPLLL.Props.C87_getU_wrong_in_parallel_mode",
    "HPLLL.Props.C87_stale_factor"
   ],
   "note": "schedules, histories and freshness in any arithmetic; reduction in exact arithmetic; getU in parallel mode and freshness of the factor in sequential mode refuted"
  },
  {
   "property": "C88",
   "status": "proved",
   "theorems": [
    "HPLLL.Props.C88_no_overflow",
    "HPLLL.Props.C88_wrapping",
    "HPLLL.Props.C88_assign",
    "HPLLL.Props.C88_assign_loses",
    "HPLLL.Props.C88_randb",
    "HPLLL.Props.C88_compare"
   ],
   "note": "any sequence of calls; two's complement arithmetic as gcc does; assignment from mpz_t and randb limited to 64 bits"
  },
  {
   "property": "C89",
   "status": "proved",
   "theorems": [
    "HPLLL.Props.C89_mod_roundtrip",
    "HPLLL.Props.C89_mod_product",
    "HPLLL.Props.C89_ntl_inv",
    "HPLLL.Props.C89_buffers"
   ],
   "note": "mpz_nextprime and NTL's inv are parameters with their documented behaviour; code under NTL_GMP_LIP"
  },
  {
   "property": "C90",
   "status": "proved",
   "theorems": [
    "HPLLL.Props.C90_value",
    "HPLLL.Props.C90_exact",
    "HPLLL.Props.C90_normalised",
    "HPLLL.Props.C90_not_normalised"
   ],
   "note": "the significand is what is given to fprintf, which rounds it to a fixed number of decimals"
  },
  {
   "property": "C91",
   "status": "proved",
   "theorems": [
    "HPLLL.Props.C91_close",
    "HPLLL.Props.C91_lead",
    "HPLLL.Props.C91_range",
    "HPLLL.Props.C91_int",
    "HPLLL.Props.C91_exact",
    "HPLLL.Props.C91_tiny",
    "HPLLL.Props.C91_flush",
    "HPLLL.Props.C91_outside",
    "HPLLL.Props.C91_empty",
    "HPLLL.Props.C91_getD2exp_split",
    "HPLLL.Props.C91_getD2exp_trunc",
    "HPLLL.Props.C91_getD2exp_exact"
   ],
   "note": "frexp, mpz_get_d_2exp, mpfr_get_d_2exp by their documented contract (concrete model of the truncating one); exponents unbounded"
  },
  {
   "property": "C92",
   "status": "proved",
   "theorems": [
    "HPLLL.Props.C92_close",
    "HPLLL.Props.C92_exact",
    "HPLLL.Props.C92_outside",
    "HPLLL.Props.C92_empty",
    "HPLLL.Props.C92_zero",
    "HPLLL.Props.C92_zero_addcol",
    "HPLLL.Props.C92_zero_addcol_ok",
    "HPLLL.Props.C92_addcol",
    "HPLLL.Props.C92_addcol_empty",
    "HPLLL.Props.C92_addcol_outside",
    "HPLLL.Props.C92_normalize",
    "HPLLL.Props.C92_normalize_empty",
    "HPLLL.Props.C92_normalize_outside",
    "HPLLL.Props.C92_normalize_flush"
   ],
   "note": "int exponents of 32 bits, wrapping around (undefined in C++); normal numbers have exponents below 2^30 in size"
  },
  {
   "property": "C93",
   "status": "proved",
   "theorems": [
    "HPLLL.Props.C93_printcol",
    "HPLLL.Props.C93_print2maple",
    "HPLLL.Props.C93_injective",
    "HPLLL.Props.C93_mixed",
    "HPLLL.Props.C93_mixed_comma",
    "HPLLL.Props.C93_int_plain",
    "HPLLL.Props.C93_int"
   ],
   "note": "texts of the entries are parameters; integers by their decimal text; the reader of Spec/MapleRead skips blanks"
  }
 ]
}