{
 "claims": [
  {
   "property": "C01",
   "status": "proved",
   "theorems": [
    "Paradiseo.IncrEval.C01_oneMax_full",
    "Paradiseo.IncrEval.C01_oneMax_incr",
    "Paradiseo.IncrEval.C01_oneMax_bits_incr",
    "Paradiseo.IncrEval.C01_bits_need_distinct"
   ],
   "note": ""
  },
  {
   "property": "C02",
   "status": "proved",
   "theorems": [
    "Paradiseo.IncrEval.C02_qap_full",
    "Paradiseo.IncrEval.C02_qap_incr"
   ],
   "note": ""
  },
  {
   "property": "C03",
   "status": "proved",
   "theorems": [
    "Paradiseo.IncrEval.C03_ubqp_full",
    "Paradiseo.IncrEval.C03_ubqp_lower",
    "Paradiseo.IncrEval.C03_ubqp_incr",
    "Paradiseo.IncrEval.C03_ubqp_bits_incr"
   ],
   "note": ""
  },
  {
   "property": "C04",
   "status": "proved",
   "theorems": [
    "Paradiseo.IncrEval.C04_ubqp_table",
    "Paradiseo.IncrEval.C04_ubqp_double_eval"
   ],
   "note": ""
  },
  {
   "property": "C05",
   "status": "proved",
   "theorems": [
    "Paradiseo.IncrEval.C05_maxsat_full",
    "Paradiseo.IncrEval.C05_maxsat_incr_random",
    "Paradiseo.IncrEval.C05_maxsat_incr_file",
    "Paradiseo.IncrEval.C05_maxsat_incr_file_value",
    "Paradiseo.IncrEval.C05_maxsat_incr_file_iff",
    "Paradiseo.IncrEval.C05_maxsat_incr_random_iff",
    "Paradiseo.IncrEval.C05_maxsat_file_wrong",
    "Paradiseo.IncrEval.C05_maxsat_random_wrong",
    "Paradiseo.IncrEval.C05_maxsat_needs_nodup"
   ],
   "note": "The intended equality is false of the code: signs are lost for file instances and for clause 0 of random instances (C05_maxsat_file_wrong, C05_maxsat_random_wrong). The two _iff theorems say exactly when it holds."
  },
  {
   "property": "C06",
   "status": "proved",
   "theorems": [
    "Paradiseo.IncrEval.C06_nk_full",
    "Paradiseo.IncrEval.C06_nk_incr",
    "Paradiseo.IncrEval.C06_nk_bits_incr",
    "Paradiseo.IncrEval.C06_nk_needs_distinct_links"
   ],
   "note": ""
  },
  {
   "property": "C07",
   "status": "proved",
   "theorems": [
    "Paradiseo.IncrEval.C07_royal_full",
    "Paradiseo.IncrEval.C07_royal_incr",
    "Paradiseo.IncrEval.C07_royal_trailing",
    "Paradiseo.IncrEval.C07_royal_trailing_out_of_range"
   ],
   "note": "The intended equality fails for the last bits of a trailing incomplete block (C07_royal_trailing_out_of_range); C07_royal_trailing says exactly when."
  },
  {
   "property": "C08",
   "status": "proved",
   "theorems": [
    "Paradiseo.EO.C08_eval_by_copy",
    "Paradiseo.EO.C08_eval_by_modif",
    "Paradiseo.EO.C08_eval_by_modif_invalid",
    "Paradiseo.EO.C08_needs_undo"
   ],
   "note": ""
  },
  {
   "property": "C09",
   "status": "proved",
   "theorems": [
    "Paradiseo.Nbh.C09_order_enumerates",
    "Paradiseo.Nbh.C09_order_empty",
    "Paradiseo.Nbh.C09_order_has"
   ],
   "note": "C09_order_empty: for size 0 the bound wraps around; guarded by hasNeighbor."
  },
  {
   "property": "C10",
   "status": "proved",
   "theorems": [
    "Paradiseo.Nbh.C10_rnd_enumerates",
    "Paradiseo.Nbh.C10_new"
   ],
   "note": ""
  },
  {
   "property": "C11",
   "status": "proved",
   "theorems": [
    "Paradiseo.Nbh.C11_repl_draws",
    "Paradiseo.Nbh.C11_repl_unbounded"
   ],
   "note": "Default bound 0 never ends (C11_repl_unbounded)."
  },
  {
   "property": "C12",
   "status": "proved",
   "theorems": [
    "Paradiseo.Nbh.C12_swap_enumerates"
   ],
   "note": ""
  },
  {
   "property": "C13",
   "status": "proved",
   "theorems": [
    "Paradiseo.Nbh.C13_sqrt_floor",
    "Paradiseo.Nbh.C13_swap_key_bijection",
    "Paradiseo.Nbh.C13_overflow"
   ],
   "note": "sqrt taken exactly (C13_sqrt_floor links to the real square root); C13_overflow: wrong beyond 32-bit keys."
  },
  {
   "property": "C14",
   "status": "proved",
   "theorems": [
    "Paradiseo.Nbh.C14_shift_key_bijection",
    "Paradiseo.Nbh.C14_square_misses"
   ],
   "note": "C14_square_misses: with (n-1)^2 keys, as in the tutorial, some insertions are unreachable."
  },
  {
   "property": "C15",
   "status": "proved",
   "theorems": [
    "Paradiseo.Nbh.C15_swap",
    "Paradiseo.Nbh.C15_shift_spec",
    "Paradiseo.Nbh.C15_shift",
    "Paradiseo.Nbh.C15_shift_in_bounds",
    "Paradiseo.Nbh.C15_twoOpt"
   ],
   "note": ""
  },
  {
   "property": "C16",
   "status": "proved",
   "theorems": [
    "Paradiseo.Nbh.C16_bit",
    "Paradiseo.Nbh.C16_bits"
   ],
   "note": ""
  },
  {
   "property": "C17",
   "status": "proved",
   "theorems": [
    "Paradiseo.Nbh.C17_sample_distinct"
   ],
   "note": ""
  },
  {
   "property": "C18",
   "status": "proved",
   "theorems": [
    "Paradiseo.LS.C18_steepest_step",
    "Paradiseo.LS.C18_first_max_unique"
   ],
   "note": ""
  },
  {
   "property": "C19",
   "status": "proved",
   "theorems": [
    "Paradiseo.LS.C19_simple",
    "Paradiseo.LS.C19_first",
    "Paradiseo.LS.C19_random_best",
    "Paradiseo.LS.C19_local_optimum",
    "Paradiseo.LS.C19_random_best_choice"
   ],
   "note": ""
  },
  {
   "property": "C20",
   "status": "proved",
   "theorems": [
    "Paradiseo.LS.C20_neutral",
    "Paradiseo.LS.C20_neutral_walk_step"
   ],
   "note": ""
  },
  {
   "property": "C21",
   "status": "proved",
   "theorems": [
    "Paradiseo.LS.C21_best_of_moves",
    "Paradiseo.LS.C21_best_visited",
    "Paradiseo.LS.C21_diversification_not_recorded"
   ],
   "note": "Best of all visited without intensification/diversification (the default), best of all applied moves in general; C21_diversification_not_recorded: a better solution produced by the diversification itself can be lost."
  },
  {
   "property": "C22",
   "status": "proved",
   "theorems": [
    "Paradiseo.LS.C22_allowed_best"
   ],
   "note": ""
  },
  {
   "property": "C23",
   "status": "proved",
   "theorems": [
    "Paradiseo.LS.C23_tenure",
    "Paradiseo.LS.C23_never_added",
    "Paradiseo.LS.C23_key_too_large",
    "Paradiseo.LS.C23_effective_tenure"
   ],
   "note": "C23_effective_tenure: inside the tabu search the effective tenure is one less; C23_key_too_large: check reads out of range for keys >= maxSize."
  },
  {
   "property": "C24",
   "status": "proved",
   "theorems": [
    "Paradiseo.LS.C24_ring",
    "Paradiseo.LS.C24_capacity_zero"
   ],
   "note": ""
  },
  {
   "property": "C25",
   "status": "proved",
   "theorems": [
    "Paradiseo.LS.C25_accept_iff",
    "Paradiseo.LS.C25_equal_accepted",
    "Paradiseo.LS.C25_frozen",
    "Paradiseo.LS.C25_accept_monotone",
    "Paradiseo.LS.C25_geometric",
    "Paradiseo.LS.C25_run",
    "Paradiseo.LS.C25_annealing_ends"
   ],
   "note": "Real arithmetic (no rounding)."
  },
  {
   "property": "C26",
   "status": "proved",
   "theorems": [
    "Paradiseo.LS.C26_combined",
    "Paradiseo.LS.C26_combined_history"
   ],
   "note": ""
  },
  {
   "property": "C27",
   "status": "proved",
   "theorems": [
    "Paradiseo.LS.C27_iterations"
   ],
   "note": ""
  },
  {
   "property": "C28",
   "status": "proved",
   "theorems": [
    "Paradiseo.LS.C28_forward",
    "Paradiseo.LS.C28_backward",
    "Paradiseo.LS.C28_random",
    "Paradiseo.LS.C28_cycle",
    "Paradiseo.LS.C28_single_never_stops"
   ],
   "note": "C28_single_never_stops: the underflow for one operator."
  },
  {
   "property": "C29",
   "status": "proved",
   "theorems": [
    "Paradiseo.LS.C29_never_restarts",
    "Paradiseo.LS.C29_cyclic",
    "Paradiseo.LS.C29_restart_wrong",
    "Paradiseo.LS.C29_best",
    "Paradiseo.LS.C29_second_run"
   ],
   "note": "The documented restart is false of the code (C29_restart_wrong); what the code does is proved for all executions."
  },
  {
   "property": "C30",
   "status": "proved",
   "theorems": [
    "Paradiseo.LS.C30_stats"
   ],
   "note": ""
  },
  {
   "property": "C31",
   "status": "proved",
   "theorems": [
    "Paradiseo.Moeo.C31_tolerance_spec",
    "Paradiseo.Moeo.C31_pareto_spec",
    "Paradiseo.Moeo.C31_asymmetric",
    "Paradiseo.Moeo.C31_transitive",
    "Paradiseo.Moeo.C31_tolerance_not_transitive"
   ],
   "note": ""
  },
  {
   "property": "C32",
   "status": "proved",
   "theorems": [
    "Paradiseo.Moeo.C32_pareto_weak",
    "Paradiseo.Moeo.C32_weak_spec",
    "Paradiseo.Moeo.C32_strict_pareto",
    "Paradiseo.Moeo.C32_strict_boundary",
    "Paradiseo.Moeo.C32_strict_zero_tolerance",
    "Paradiseo.Moeo.C32_lex_spec",
    "Paradiseo.Moeo.C32_lex_total",
    "Paradiseo.Moeo.C32_lex_compatible",
    "Paradiseo.Moeo.C32_individual_comparators"
   ],
   "note": ""
  },
  {
   "property": "C33",
   "status": "proved",
   "theorems": [
    "Paradiseo.Moeo.C33_unbounded_archive",
    "Paradiseo.Moeo.C33_order_independent",
    "Paradiseo.Moeo.C33_pareto_front",
    "Paradiseo.Moeo.C33_replace_flag"
   ],
   "note": ""
  },
  {
   "property": "C34",
   "status": "proved",
   "theorems": [
    "Paradiseo.Moeo.C34_answer",
    "Paradiseo.Moeo.C34_effect",
    "Paradiseo.Moeo.C34_population"
   ],
   "note": ""
  },
  {
   "property": "C35",
   "status": "proved",
   "theorems": [
    "Paradiseo.Moeo.C35_drift",
    "Paradiseo.Moeo.C35_order_dependent"
   ],
   "note": ""
  },
  {
   "property": "C36",
   "status": "proved",
   "theorems": [
    "Paradiseo.Moeo.C36_improvement_only",
    "Paradiseo.Moeo.C36_fitness_diversity"
   ],
   "note": ""
  },
  {
   "property": "C37",
   "status": "proved",
   "theorems": [
    "Paradiseo.Moeo.C37_improves",
    "Paradiseo.Moeo.C37_monotone"
   ],
   "note": ""
  },
  {
   "property": "C38",
   "status": "proved",
   "theorems": [
    "Paradiseo.Moeo.C38_depth",
    "Paradiseo.Moeo.C38_pareto",
    "Paradiseo.Moeo.C38_fitness",
    "Paradiseo.Moeo.C38_one"
   ],
   "note": ""
  },
  {
   "property": "C39",
   "status": "proved",
   "theorems": [
    "Paradiseo.Moeo.C39_two",
    "Paradiseo.Moeo.C39_agree",
    "Paradiseo.Moeo.C39_duplicates",
    "Paradiseo.Moeo.C39_mixed_wrong"
   ],
   "note": "Proved under the hypotheses that make the two-objective algorithm right; C39_duplicates and C39_mixed_wrong: duplicates get different ranks, mixed directions with ties are wrong."
  },
  {
   "property": "C40",
   "status": "proved",
   "theorems": [
    "Paradiseo.Moeo.C40_matrix",
    "Paradiseo.Moeo.C40_count_ranking",
    "Paradiseo.Moeo.C40_nocopy",
    "Paradiseo.Moeo.C40_stale"
   ],
   "note": "C40_stale: marks of copies are never cleared between runs."
  },
  {
   "property": "C41",
   "status": "proved",
   "theorems": [
    "Paradiseo.Moeo.C41_assign",
    "Paradiseo.Moeo.C41_delete",
    "Paradiseo.Moeo.C41_add",
    "Paradiseo.Moeo.C41_environmental"
   ],
   "note": ""
  },
  {
   "property": "C42",
   "status": "proved",
   "theorems": [
    "Paradiseo.Moeo.C42_elitist",
    "Paradiseo.Moeo.C42_environmental"
   ],
   "note": ""
  },
  {
   "property": "C43",
   "status": "proved",
   "theorems": [
    "Paradiseo.Moeo.C43_vector_spec",
    "Paradiseo.Moeo.C43_vector_weak",
    "Paradiseo.Moeo.C43_triangle",
    "Paradiseo.Moeo.C43_setup_range",
    "Paradiseo.Moeo.C43_set_spec",
    "Paradiseo.Moeo.C43_set_weak",
    "Paradiseo.Moeo.C43_set_triangle",
    "Paradiseo.Moeo.C43_empty",
    "Paradiseo.Moeo.C43_multiplicative",
    "Paradiseo.Moeo.C43_multiplicative_negative"
   ],
   "note": "Includes the multiplicative indicator: right for positive values, reversed for negative ones (C43_multiplicative_negative)."
  },
  {
   "property": "C44",
   "status": "proved",
   "theorems": [
    "Paradiseo.Moeo.C44_contribution",
    "Paradiseo.Moeo.C44_common_counted_again"
   ],
   "note": "C44_common_counted_again: common vectors are also counted as incomparable, unlike in the published indicator."
  },
  {
   "property": "C45",
   "status": "proved",
   "theorems": [
    "Paradiseo.Moeo.C45_calc",
    "Paradiseo.Moeo.C45_hypervolume",
    "Paradiseo.Moeo.C45_normalized",
    "Paradiseo.Moeo.C45_unnormalized_nonneg",
    "Paradiseo.Moeo.C45_unnormalized_negative",
    "Paradiseo.Moeo.C45_monotone",
    "Paradiseo.Moeo.C45_one_objective"
   ],
   "note": "Lebesgue measure, exact real arithmetic, two or more objectives. C45_one_objective: wrong for one objective; C45_unnormalized_negative: the reference point computed from rho without normalisation is on the wrong side for negative maxima."
  },
  {
   "property": "C46",
   "status": "proved",
   "theorems": [
    "Paradiseo.Moeo.C46_front_by_front",
    "Paradiseo.Moeo.C46_order_independent",
    "Paradiseo.Moeo.C46_plain",
    "Paradiseo.Moeo.C46_ties",
    "Paradiseo.Moeo.C46_plain_constant"
   ],
   "note": "Exact formula for distinct values; C46_ties without that hypothesis; C46_plain_constant: the plain variant divides by zero when an objective is constant."
  },
  {
   "property": "C47",
   "status": "proved",
   "theorems": [
    "Paradiseo.EO.C47_validity",
    "Paradiseo.EO.C47_compare",
    "Paradiseo.EO.C47_print_read",
    "Paradiseo.EO.C47_evalPop"
   ],
   "note": ""
  },
  {
   "property": "C48",
   "status": "proved",
   "theorems": [
    "Paradiseo.EO.C48_plus",
    "Paradiseo.EO.C48_comma",
    "Paradiseo.EO.C48_plus_run"
   ],
   "note": ""
  },
  {
   "property": "C49",
   "status": "proved",
   "theorems": [
    "Paradiseo.EO.C49_weak_elitism",
    "Paradiseo.EO.C49_empty",
    "Paradiseo.EO.C49_generational_run"
   ],
   "note": ""
  },
  {
   "property": "C50",
   "status": "proved",
   "theorems": [
    "Paradiseo.EO.C50_truncate",
    "Paradiseo.EO.C50_random",
    "Paradiseo.EO.C50_ep",
    "Paradiseo.EO.C50_linear",
    "Paradiseo.EO.C50_stochastic",
    "Paradiseo.EO.C50_deterministic",
    "Paradiseo.EO.C50_deterministic_terminates",
    "Paradiseo.EO.C50_deterministic_may_diverge",
    "Paradiseo.EO.C50_all_exact"
   ],
   "note": ""
  },
  {
   "property": "C51",
   "status": "proved",
   "theorems": [
    "Paradiseo.EO.C51_linear_eq_sort"
   ],
   "note": ""
  },
  {
   "property": "C52",
   "status": "proved",
   "theorems": [
    "Paradiseo.EO.C52_elitism_copies_all",
    "Paradiseo.EO.C52_documented_false",
    "Paradiseo.EO.C52_elitism_off_and_errors"
   ],
   "note": ""
  },
  {
   "property": "C53",
   "status": "proved",
   "theorems": [
    "Paradiseo.EO.C53_det_tournament",
    "Paradiseo.EO.C53_det_tournament_zero",
    "Paradiseo.EO.C53_inverse_tournament",
    "Paradiseo.EO.C53_inverse_single_diverges",
    "Paradiseo.EO.C53_inverse_terminates",
    "Paradiseo.EO.C53_stochastic"
   ],
   "note": ""
  },
  {
   "property": "C54",
   "status": "proved",
   "theorems": [
    "Paradiseo.Sel.C54_wheel",
    "Paradiseo.Sel.C54_wheel_total",
    "Paradiseo.Sel.C54_wheel_zero",
    "Paradiseo.Sel.C54_wheel_probability",
    "Paradiseo.Sel.C54_rng_wheel",
    "Paradiseo.Sel.C54_rng_wheel_total",
    "Paradiseo.Sel.C54_rng_wheel_beyond",
    "Paradiseo.Sel.C54_rng_wheel_probability"
   ],
   "note": ""
  },
  {
   "property": "C55",
   "status": "proved",
   "theorems": [
    "Paradiseo.EO.C55_rate",
    "Paradiseo.EO.C55_negative_rate",
    "Paradiseo.EO.C55_rate_above_one",
    "Paradiseo.EO.C55_count",
    "Paradiseo.EO.C55_complement"
   ],
   "note": ""
  },
  {
   "property": "C56",
   "status": "proved",
   "theorems": [
    "Paradiseo.Ops.C56_shift",
    "Paradiseo.Ops.C56_two_opt",
    "Paradiseo.Ops.C56_mutations",
    "Paradiseo.Ops.C56_one_swap",
    "Paradiseo.Ops.C56_small_never_ends",
    "Paradiseo.Ops.C56_pmx",
    "Paradiseo.Ops.C56_order"
   ],
   "note": ""
  },
  {
   "property": "C57",
   "status": "proved",
   "theorems": [
    "Paradiseo.Ops.C57_order",
    "Paradiseo.Ops.C57_positions_not_kept",
    "Paradiseo.Ops.C57_unsigned_char"
   ],
   "note": ""
  },
  {
   "property": "C58",
   "status": "proved",
   "theorems": [
    "Paradiseo.Ops.C58_one_point",
    "Paradiseo.Ops.C58_uniform",
    "Paradiseo.Ops.C58_uniform_mismatch",
    "Paradiseo.Ops.C58_n_points",
    "Paradiseo.Ops.C58_n_points_never_ends",
    "Paradiseo.Ops.C58_genes",
    "Paradiseo.Ops.C58_genes_too_large",
    "Paradiseo.Ops.C58_reversible"
   ],
   "note": ""
  },
  {
   "property": "C59",
   "status": "proved",
   "theorems": [
    "Paradiseo.Ops.C59_exactly_k",
    "Paradiseo.Ops.C59_too_many",
    "Paradiseo.Ops.C59_one_bit",
    "Paradiseo.Ops.C59_with_replacement",
    "Paradiseo.Ops.C59_with_replacement_may_cancel",
    "Paradiseo.Ops.C59_bit_mutation",
    "Paradiseo.Ops.C59_inversion"
   ],
   "note": ""
  },
  {
   "property": "C60",
   "status": "proved",
   "theorems": [
    "Paradiseo.Ops.C60_next",
    "Paradiseo.Ops.C60_prev",
    "Paradiseo.Ops.C60_inverse"
   ],
   "note": ""
  },
  {
   "property": "C61",
   "status": "proved",
   "theorems": [
    "Paradiseo.Bounds.C61_mirror_image_unique",
    "Paradiseo.Bounds.C61_fold_interval",
    "Paradiseo.Bounds.C61_fold_far",
    "Paradiseo.Bounds.C61_fold_inside",
    "Paradiseo.Bounds.C61_fold_inside_moved",
    "Paradiseo.Bounds.C61_fold_one_sided",
    "Paradiseo.Bounds.C61_fold_degenerate",
    "Paradiseo.Bounds.C61_truncate",
    "Paradiseo.Bounds.C61_is_in",
    "Paradiseo.Bounds.C61_truncate_vector",
    "Paradiseo.Bounds.C61_vector_is_in",
    "Paradiseo.Bounds.C61_fold_vector",
    "Paradiseo.Bounds.C61_fold_integer",
    "Paradiseo.Bounds.C61_random_integer"
   ],
   "note": ""
  },
  {
   "property": "C62",
   "status": "proved",
   "theorems": [
    "Paradiseo.Nbh.C62_partition_enumerates",
    "Paradiseo.Nbh.C62_partition_move",
    "Paradiseo.Nbh.C62_partition_has_wrong"
   ],
   "note": "C62_partition_has_wrong: hasNeighbor is true for an empty selection although the exploration reads past the end."
  },
  {
   "property": "C63",
   "status": "proved",
   "theorems": [
    "Paradiseo.Nbh.C63_number_of_neighbors",
    "Paradiseo.Nbh.C63_combinations"
   ],
   "note": ""
  },
  {
   "property": "C64",
   "status": "proved",
   "theorems": [
    "Paradiseo.Nbh.C64_drawBits",
    "Paradiseo.Nbh.C64_drawBits_distinct",
    "Paradiseo.Nbh.C64_choose_distance_wrong"
   ],
   "note": "Distinct in-range positions proved for every fixed distance. For a variable distance C64_choose_distance_wrong proves the loop can only give distance 1 or an out-of-range read."
  },
  {
   "property": "C65",
   "status": "proved",
   "theorems": [
    "Paradiseo.LS.C65_metropolis_positive",
    "Paradiseo.LS.C65_metropolis_zero",
    "Paradiseo.LS.C65_metropolis_negative"
   ],
   "note": "Rule proved for positive fitness; false at zero and negative fitness (C65_metropolis_zero, C65_metropolis_negative)."
  },
  {
   "property": "C66",
   "status": "proved",
   "theorems": [
    "Paradiseo.LS.C66_single_stat",
    "Paradiseo.LS.C66_actual",
    "Paradiseo.LS.C66_two_stats_starve",
    "Paradiseo.LS.C66_two_stats_wrong",
    "Paradiseo.LS.C66_iff"
   ],
   "note": "The documented meaning is false for two or more statistics (C66_two_stats_wrong); C66_iff says exactly when it holds, C66_actual what is computed."
  },
  {
   "property": "C67",
   "status": "proved",
   "theorems": [
    "Paradiseo.LS.C67_stop_means_frozen",
    "Paradiseo.LS.C67_frozen_stops"
   ],
   "note": ""
  },
  {
   "property": "C68",
   "status": "proved",
   "theorems": [
    "Paradiseo.Moeo.C68_keeps_first",
    "Paradiseo.Moeo.C68_discards_best"
   ],
   "note": "The archive keeps the worst with the library comparators."
  },
  {
   "property": "C69",
   "status": "proved",
   "theorems": [
    "Paradiseo.Moeo.C69_gdominance_spec",
    "Paradiseo.Moeo.C69_gdominance_order",
    "Paradiseo.Moeo.C69_no_dominance_between"
   ],
   "note": ""
  },
  {
   "property": "C70",
   "status": "proved",
   "theorems": [
    "Paradiseo.Moeo.C70_dual_order"
   ],
   "note": ""
  },
  {
   "property": "C71",
   "status": "proved",
   "theorems": [
    "Paradiseo.Moeo.C71_delete_undominating",
    "Paradiseo.Moeo.C71_delete_wrong"
   ],
   "note": "C71_delete_wrong: counterexample for a deleted solution that dominates others."
  },
  {
   "property": "C72",
   "status": "proved",
   "theorems": [
    "Paradiseo.Moeo.C72_exclusive_volume",
    "Paradiseo.Moeo.C72_indicator",
    "Paradiseo.Moeo.C72_sign"
   ],
   "note": ""
  },
  {
   "property": "C73",
   "status": "proved",
   "theorems": [
    "Paradiseo.EO.C73_det_truncate_keeps_best",
    "Paradiseo.EO.C73_stochastic_may_lose_best",
    "Paradiseo.EO.C73_ep_may_lose_best",
    "Paradiseo.EO.C73_ep_scores"
   ],
   "note": ""
  },
  {
   "property": "C74",
   "status": "proved",
   "theorems": [
    "Paradiseo.EO.C74_size",
    "Paradiseo.EO.C74_strong_elitism"
   ],
   "note": ""
  },
  {
   "property": "C75",
   "status": "proved",
   "theorems": [
    "Paradiseo.EO.C75_weak_saves",
    "Paradiseo.EO.C75_weak_one_never_saves",
    "Paradiseo.EO.C75_weak_one_loses_best"
   ],
   "note": ""
  },
  {
   "property": "C76",
   "status": "proved",
   "theorems": [
    "Paradiseo.EO.C76_who_dies",
    "Paradiseo.EO.C76_survive_and_die"
   ],
   "note": ""
  },
  {
   "property": "C77",
   "status": "proved",
   "theorems": [
    "Paradiseo.EO.C77_mgg",
    "Paradiseo.EO.C77_mgg_few"
   ],
   "note": ""
  },
  {
   "property": "C78",
   "status": "proved",
   "theorems": [
    "Paradiseo.EO.C78_g3",
    "Paradiseo.EO.C78_g3_rate_throws"
   ],
   "note": ""
  },
  {
   "property": "C79",
   "status": "proved",
   "theorems": [
    "Paradiseo.EO.C79_reduce_merge",
    "Paradiseo.EO.C79_ssga_worse",
    "Paradiseo.EO.C79_ssga_det"
   ],
   "note": ""
  },
  {
   "property": "C80",
   "status": "proved",
   "theorems": [
    "Paradiseo.EO.C80_splits",
    "Paradiseo.EO.C80_too_many",
    "Paradiseo.EO.C80_det_all_diverges",
    "Paradiseo.EO.C80_det",
    "Paradiseo.EO.C80_not_returned"
   ],
   "note": ""
  },
  {
   "property": "C81",
   "status": "proved",
   "theorems": [
    "Paradiseo.Moeo.C81_epsilon_spec",
    "Paradiseo.Moeo.C81_maximised_relaxes",
    "Paradiseo.Moeo.C81_minimised_tightens"
   ],
   "note": ""
  },
  {
   "property": "C82",
   "status": "proved",
   "theorems": [
    "Paradiseo.Moeo.C82_queries",
    "Paradiseo.Moeo.C82_equals",
    "Paradiseo.Moeo.C82_equals_equivalence",
    "Paradiseo.Moeo.C82_after_update",
    "Paradiseo.Moeo.C82_tolerance_not_transitive"
   ],
   "note": ""
  },
  {
   "property": "C83",
   "status": "proved",
   "theorems": [
    "Paradiseo.Sel.C83_interval",
    "Paradiseo.Sel.C83_total",
    "Paradiseo.Sel.C83_probability",
    "Paradiseo.Sel.C83_all_zero",
    "Paradiseo.Sel.C83_stale"
   ],
   "note": ""
  },
  {
   "property": "C84",
   "status": "proved",
   "theorems": [
    "Paradiseo.Sel.C84_copies",
    "Paradiseo.Sel.C84_select_many",
    "Paradiseo.Sel.C84_border",
    "Paradiseo.Sel.C84_all_zero"
   ],
   "note": ""
  },
  {
   "property": "C85",
   "status": "proved",
   "theorems": [
    "Paradiseo.Sel.C85_cycles",
    "Paradiseo.Sel.C85_ordered",
    "Paradiseo.Sel.C85_elitist"
   ],
   "note": ""
  },
  {
   "property": "C86",
   "status": "proved",
   "theorems": [
    "Paradiseo.Sel.C86_first",
    "Paradiseo.Sel.C86_sorted_best",
    "Paradiseo.Sel.C86_not_best"
   ],
   "note": ""
  },
  {
   "property": "C87",
   "status": "proved",
   "theorems": [
    "Paradiseo.Sel.C87_cyclic",
    "Paradiseo.Sel.C87_empty",
    "Paradiseo.Sel.C87_rank_mu"
   ],
   "note": ""
  },
  {
   "property": "C88",
   "status": "proved",
   "theorems": [
    "Paradiseo.Sel.C88_fertile",
    "Paradiseo.Sel.C88_select_many",
    "Paradiseo.Sel.C88_default_individuals"
   ],
   "note": ""
  },
  {
   "property": "C89",
   "status": "proved",
   "theorems": [
    "Paradiseo.Sel.C89_size_and_members"
   ],
   "note": ""
  },
  {
   "property": "C90",
   "status": "proved",
   "theorems": [
    "Paradiseo.Sel.C90_order",
    "Paradiseo.Sel.C90_linear_exceeds_range",
    "Paradiseo.Sel.C90_exponent_range",
    "Paradiseo.Sel.C90_overflow",
    "Paradiseo.Sel.C90_refused"
   ],
   "note": ""
  },
  {
   "property": "C91",
   "status": "proved",
   "theorems": [
    "Paradiseo.Sel.C91_scaling",
    "Paradiseo.Sel.C91_all_equal"
   ],
   "note": ""
  },
  {
   "property": "C92",
   "status": "proved",
   "theorems": [
    "Paradiseo.Sel.C92_niche_count",
    "Paradiseo.Sel.C92_bounds",
    "Paradiseo.Sel.C92_isolated",
    "Paradiseo.Sel.C92_copies"
   ],
   "note": ""
  },
  {
   "property": "C93",
   "status": "proved",
   "theorems": [
    "Paradiseo.Breed.C93_no_stale_fitness",
    "Paradiseo.Breed.C93_truth_needed"
   ],
   "note": ""
  },
  {
   "property": "C94",
   "status": "proved",
   "theorems": [
    "Paradiseo.Breed.C94_size",
    "Paradiseo.Breed.C94_returns",
    "Paradiseo.Breed.C94_simple_operators",
    "Paradiseo.Breed.C94_proportional",
    "Paradiseo.Breed.C94_sequential_never_returns"
   ],
   "note": ""
  },
  {
   "property": "C95",
   "status": "proved",
   "theorems": [
    "Paradiseo.Breed.C95_sga_offspring",
    "Paradiseo.Breed.C95_sga_productive",
    "Paradiseo.Breed.C95_prop_ga",
    "Paradiseo.Breed.C95_sga_no_rates",
    "Paradiseo.Breed.C95_two_crossovers_overrun",
    "Paradiseo.Breed.C95_nested_choice_skips"
   ],
   "note": ""
  },
  {
   "property": "C96",
   "status": "proved",
   "theorems": [
    "Paradiseo.Breed.C96_one_to_one",
    "Paradiseo.Breed.C96_never_worse",
    "Paradiseo.Breed.C96_unevaluated_parent",
    "Paradiseo.Breed.C96_containers_never_succeed"
   ],
   "note": ""
  },
  {
   "property": "C97",
   "status": "proved",
   "theorems": [
    "Paradiseo.Breed.C97_transform",
    "Paradiseo.Breed.C97_no_stale_fitness"
   ],
   "note": ""
  },
  {
   "property": "C98",
   "status": "proved",
   "theorems": [
    "Paradiseo.VL.C98_atom_exchange",
    "Paradiseo.VL.C98_inner_exchange",
    "Paradiseo.VL.C98_uniform_copies",
    "Paradiseo.VL.C98_uniform_duplicates",
    "Paradiseo.VL.C98_bin_untruthful",
    "Paradiseo.VL.C98_bin_first_try"
   ],
   "note": ""
  },
  {
   "property": "C99",
   "status": "proved",
   "theorems": [
    "Paradiseo.VL.C99_add",
    "Paradiseo.VL.C99_add_anywhere",
    "Paradiseo.VL.C99_del",
    "Paradiseo.VL.C99_uniform_chooser"
   ],
   "note": ""
  },
  {
   "property": "C100",
   "status": "proved",
   "theorems": [
    "Paradiseo.Run.C100_size",
    "Paradiseo.Run.C100_evaluated",
    "Paradiseo.Run.C100_best_monotone",
    "Paradiseo.Run.C100_best_ever",
    "Paradiseo.Run.C100_evaluations",
    "Paradiseo.Run.C100_plus_ga"
   ],
   "note": ""
  },
  {
   "property": "C101",
   "status": "proved",
   "theorems": [
    "Paradiseo.Run.C101_generations",
    "Paradiseo.Run.C101_fitness",
    "Paradiseo.Run.C101_steady",
    "Paradiseo.Run.C101_steady_uninitialised",
    "Paradiseo.Run.C101_periodic",
    "Paradiseo.Run.C101_combined",
    "Paradiseo.Run.C101_evaluations",
    "Paradiseo.Run.C101_evaluations_endless"
   ],
   "note": ""
  },
  {
   "property": "C102",
   "status": "proved",
   "theorems": [
    "Paradiseo.Run.C102_call",
    "Paradiseo.Run.C102_run"
   ],
   "note": ""
  },
  {
   "property": "C103",
   "status": "proved",
   "theorems": [
    "Paradiseo.Run.C103_keep_best"
   ],
   "note": ""
  },
  {
   "property": "C104",
   "status": "proved",
   "theorems": [
    "Paradiseo.Run.C104_stop"
   ],
   "note": ""
  },
  {
   "property": "C105",
   "status": "proved",
   "theorems": [
    "Paradiseo.Run.C105_sga_generation",
    "Paradiseo.Run.C105_reset",
    "Paradiseo.Run.C105_restart"
   ],
   "note": ""
  },
  {
   "property": "C106",
   "status": "proved",
   "theorems": [
    "Paradiseo.Smp.C106_complete",
    "Paradiseo.Smp.C106_ring",
    "Paradiseo.Smp.C106_star",
    "Paradiseo.Smp.C106_hypercubic",
    "Paradiseo.Smp.C106_mesh"
   ],
   "note": ""
  },
  {
   "property": "C107",
   "status": "proved",
   "theorems": [
    "Paradiseo.Smp.C107_mesh_sizes"
   ],
   "note": ""
  },
  {
   "property": "C108",
   "status": "proved",
   "theorems": [
    "Paradiseo.Smp.C108_ring",
    "Paradiseo.Smp.C108_complete",
    "Paradiseo.Smp.C108_hypercubic",
    "Paradiseo.Smp.C108_mesh",
    "Paradiseo.Smp.C108_star"
   ],
   "note": ""
  },
  {
   "property": "C109",
   "status": "proved",
   "theorems": [
    "Paradiseo.Smp.C109_isolate",
    "Paradiseo.Smp.C109_isolate_stochastic",
    "Paradiseo.Smp.C109_all_isolated"
   ],
   "note": ""
  },
  {
   "property": "C110",
   "status": "proved",
   "theorems": [
    "Paradiseo.Smp.C110_load",
    "Paradiseo.Smp.C110_square",
    "Paradiseo.Smp.C110_probability"
   ],
   "note": ""
  },
  {
   "property": "C111",
   "status": "proved",
   "theorems": [
    "Paradiseo.Smp.C111_packages",
    "Paradiseo.Smp.C111_no_workers",
    "Paradiseo.Smp.C111_any_interleaving"
   ],
   "note": ""
  },
  {
   "property": "C112",
   "status": "proved",
   "theorems": [
    "Paradiseo.Smp.C112_once",
    "Paradiseo.Smp.C112_never_twice",
    "Paradiseo.Smp.C112_no_deadlock",
    "Paradiseo.Smp.C112_can_return",
    "Paradiseo.Smp.C112_unlocked_reads",
    "Paradiseo.Smp.C112_no_workers"
   ],
   "note": "C112_unlocked_reads exhibits the data race; the interleaving theorems treat each unlocked read as atomic."
  },
  {
   "property": "C113",
   "status": "proved",
   "theorems": [
    "Paradiseo.Smp.C113_only_from_neighbours",
    "Paradiseo.Smp.C113_delivered",
    "Paradiseo.Smp.C113_lost",
    "Paradiseo.Smp.C113_queues_empty"
   ],
   "note": "C113_lost: emigrants taken from the queue too late reach nobody."
  },
  {
   "property": "C114",
   "status": "proved",
   "theorems": [
    "Paradiseo.Smp.C114_immigrants_evaluated",
    "Paradiseo.Smp.C114_can_return"
   ],
   "note": ""
  },
  {
   "property": "C115",
   "status": "proved",
   "theorems": [
    "Paradiseo.Smp.C115_at_most_one_generation",
    "Paradiseo.Smp.C115_inverted"
   ],
   "note": "The intended behaviour is false of the code; the theorems prove what it does instead."
  },
  {
   "property": "C116",
   "status": "proved",
   "theorems": [
    "Paradiseo.Smp.C116_table",
    "Paradiseo.Smp.C116_added_twice"
   ],
   "note": ""
  },
  {
   "property": "C117",
   "status": "proved",
   "theorems": [
    "Paradiseo.Serial.C117_round_trip",
    "Paradiseo.Serial.C117_print_injective",
    "Paradiseo.Serial.C117_string_iff",
    "Paradiseo.Serial.C117_last_wins",
    "Paradiseo.Serial.C117_plain"
   ],
   "note": ""
  },
  {
   "property": "C118",
   "status": "proved",
   "theorems": [
    "Paradiseo.Serial.C118_never_returns",
    "Paradiseo.Serial.C118_unquoted_value"
   ],
   "note": ""
  },
  {
   "property": "C119",
   "status": "proved",
   "theorems": [
    "Paradiseo.Serial.C119_number_lost",
    "Paradiseo.Serial.C119_seventeen_suffice"
   ],
   "note": ""
  },
  {
   "property": "C120",
   "status": "proved",
   "theorems": [
    "Paradiseo.Mpi.C120_dynamic",
    "Paradiseo.Mpi.C120_static"
   ],
   "note": ""
  },
  {
   "property": "C121",
   "status": "proved",
   "theorems": [
    "Paradiseo.Mpi.C121_dynamic",
    "Paradiseo.Mpi.C121_static",
    "Paradiseo.Mpi.C121_static_short",
    "Paradiseo.Mpi.C121_deadlock",
    "Paradiseo.Mpi.C121_rank_zero"
   ],
   "note": ""
  },
  {
   "property": "C122",
   "status": "proved",
   "theorems": [
    "Paradiseo.Mpi.C122_shares",
    "Paradiseo.Mpi.C122_static_uses"
   ],
   "note": ""
  },
  {
   "property": "C123",
   "status": "proved",
   "theorems": [
    "Paradiseo.Edo.C123_sound",
    "Paradiseo.Edo.C123_llt_iff",
    "Paradiseo.Edo.C123_ldlt_iff",
    "Paradiseo.Edo.C123_llt_ldlt",
    "Paradiseo.Edo.C123_posDef",
    "Paradiseo.Edo.C123_unique"
   ],
   "note": ""
  },
  {
   "property": "C124",
   "status": "proved",
   "theorems": [
    "Paradiseo.Edo.C124_robust",
    "Paradiseo.Edo.C124_zero_iff",
    "Paradiseo.Edo.C124_first",
    "Paradiseo.Edo.C124_indefinite",
    "Paradiseo.Edo.C124_zero_fails"
   ],
   "note": ""
  },
  {
   "property": "C125",
   "status": "proved",
   "theorems": [
    "Paradiseo.Edo.C125_clamp",
    "Paradiseo.Edo.C125_clamp_defined",
    "Paradiseo.Edo.C125_uniform",
    "Paradiseo.Edo.C125_draws",
    "Paradiseo.Edo.C125_rng_outside",
    "Paradiseo.Edo.C125_stale_fitness"
   ],
   "note": ""
  },
  {
   "property": "C126",
   "status": "proved",
   "theorems": [
    "Paradiseo.Edo.C126_floor_ceil",
    "Paradiseo.Edo.C126_round",
    "Paradiseo.Edo.C126_round_idem",
    "Paradiseo.Edo.C126_decimals",
    "Paradiseo.Edo.C126_modulo",
    "Paradiseo.Edo.C126_modulo_negative"
   ],
   "note": ""
  },
  {
   "property": "C127",
   "status": "proved",
   "theorems": [
    "Paradiseo.Edo.C127_frame",
    "Paradiseo.Edo.C127_apply",
    "Paradiseo.Edo.C127_gather",
    "Paradiseo.Edo.C127_defined",
    "Paradiseo.Edo.C127_commute",
    "Paradiseo.Edo.C127_out_of_range"
   ],
   "note": ""
  },
  {
   "property": "C128",
   "status": "proved",
   "theorems": [
    "Paradiseo.Edo.C128_smallest_box",
    "Paradiseo.Edo.C128_sample_inside"
   ],
   "note": ""
  },
  {
   "property": "C129",
   "status": "proved",
   "theorems": [
    "Paradiseo.Edo.C129_frequencies",
    "Paradiseo.Edo.C129_fixed_bits"
   ],
   "note": ""
  },
  {
   "property": "C130",
   "status": "proved",
   "theorems": [
    "Paradiseo.Edo.C130_variance",
    "Paradiseo.Edo.C130_estimator"
   ],
   "note": ""
  },
  {
   "property": "C131",
   "status": "proved",
   "theorems": [
    "Paradiseo.Edo.C131_uncentred",
    "Paradiseo.Edo.C131_right_iff",
    "Paradiseo.Edo.C131_converged",
    "Paradiseo.Edo.C131_too_few"
   ],
   "note": ""
  },
  {
   "property": "C132",
   "status": "proved",
   "theorems": [
    "Paradiseo.Edo.C132_multi",
    "Paradiseo.Edo.C132_mono",
    "Paradiseo.Edo.C132_inflation"
   ],
   "note": ""
  },
  {
   "property": "C133",
   "status": "proved",
   "theorems": [
    "Paradiseo.Edo.C133_always_accepts",
    "Paradiseo.Edo.C133_keeps_all"
   ],
   "note": ""
  },
  {
   "property": "C134",
   "status": "proved",
   "theorems": [
    "Paradiseo.Edo.C134_weights",
    "Paradiseo.Edo.C134_effective",
    "Paradiseo.Edo.C134_mean_in_hull"
   ],
   "note": ""
  },
  {
   "property": "C135",
   "status": "proved",
   "theorems": [
    "Paradiseo.Edo.C135_step",
    "Paradiseo.Edo.C135_run"
   ],
   "note": ""
  },
  {
   "property": "C136",
   "status": "proved",
   "theorems": [
    "Paradiseo.Edo.C136_rates_exceed_one",
    "Paradiseo.Edo.C136_breaks_down",
    "Paradiseo.Edo.C136_witness"
   ],
   "note": ""
  },
  {
   "property": "C137",
   "status": "proved",
   "theorems": [
    "Paradiseo.Edo.C137_moments",
    "Paradiseo.Edo.C137_after_decomposition",
    "Paradiseo.Edo.C137_step_size_bias"
   ],
   "note": ""
  },
  {
   "property": "C138",
   "status": "proved",
   "theorems": [
    "Paradiseo.Edo.C138_update",
    "Paradiseo.Edo.C138_run"
   ],
   "note": ""
  },
  {
   "property": "C139",
   "status": "proved",
   "theorems": [
    "Paradiseo.Pso.C139_personal_best",
    "Paradiseo.Pso.C139_everyone_moves_async",
    "Paradiseo.Pso.C139_everyone_moves_sync"
   ],
   "note": ""
  },
  {
   "property": "C140",
   "status": "proved",
   "theorems": [
    "Paradiseo.Pso.C140_groups",
    "Paradiseo.Pso.C140_linear",
    "Paradiseo.Pso.C140_star"
   ],
   "note": ""
  },
  {
   "property": "C141",
   "status": "proved",
   "theorems": [
    "Paradiseo.Pso.C141_ring_never_learns",
    "Paradiseo.Pso.C141_ring_of_one",
    "Paradiseo.Pso.C141_witness"
   ],
   "note": "The intended behaviour is false of the code; the theorems prove what it does instead (C141_witness)."
  },
  {
   "property": "C142",
   "status": "proved",
   "theorems": [
    "Paradiseo.Pso.C142_move",
    "Paradiseo.Pso.C142_run"
   ],
   "note": ""
  },
  {
   "property": "C143",
   "status": "proved",
   "theorems": [
    "Paradiseo.Pso.C143_confined",
    "Paradiseo.Pso.C143_constricted",
    "Paradiseo.Pso.C143_variable_never_searched"
   ],
   "note": ""
  },
  {
   "property": "C144",
   "status": "proved",
   "theorems": [
    "Paradiseo.Pso.C144_linear",
    "Paradiseo.Pso.C144_decreasing",
    "Paradiseo.Pso.C144_wraps"
   ],
   "note": ""
  },
  {
   "property": "C145",
   "status": "proved",
   "theorems": [
    "Paradiseo.Pso.C145_compounds",
    "Paradiseo.Pso.C145_second_particle",
    "Paradiseo.Pso.C145_run"
   ],
   "note": "The documented formula holds for the first call only; the theorems prove what the code computes."
  },
  {
   "property": "C146",
   "status": "proved",
   "theorems": [
    "Paradiseo.ES.C146_free",
    "Paradiseo.ES.C146_bounded",
    "Paradiseo.ES.C146_outside_stays_outside",
    "Paradiseo.ES.C146_scaled_twice",
    "Paradiseo.ES.C146_det_free_replaces",
    "Paradiseo.ES.C146_det_bounded"
   ],
   "note": ""
  },
  {
   "property": "C147",
   "status": "proved",
   "theorems": [
    "Paradiseo.ES.C147_segment",
    "Paradiseo.ES.C147_hypercube",
    "Paradiseo.ES.C147_uniform",
    "Paradiseo.ES.C147_uniform_sizes",
    "Paradiseo.ES.C147_sbx",
    "Paradiseo.ES.C147_sbx_spread",
    "Paradiseo.ES.C147_sbx_bounds"
   ],
   "note": ""
  },
  {
   "property": "C148",
   "status": "proved",
   "theorems": [
    "Paradiseo.ES.C148_vector_free",
    "Paradiseo.ES.C148_one_fifth",
    "Paradiseo.ES.C148_one_fifth_positive",
    "Paradiseo.ES.C148_one_fifth_idle"
   ],
   "note": ""
  },
  {
   "property": "C149",
   "status": "proved",
   "theorems": [
    "Paradiseo.ES.C149_stdevs",
    "Paradiseo.ES.C149_simple",
    "Paradiseo.ES.C149_angle_range",
    "Paradiseo.ES.C149_full",
    "Paradiseo.ES.C149_step",
    "Paradiseo.ES.C149_step_simple",
    "Paradiseo.ES.C149_step_full",
    "Paradiseo.ES.C149_returns",
    "Paradiseo.ES.C149_rotation_keeps_length",
    "Paradiseo.ES.C149_first_never_rotated",
    "Paradiseo.ES.C149_angles_unused",
    "Paradiseo.ES.C149_two_variables",
    "Paradiseo.ES.C149_three_variables",
    "Paradiseo.ES.C149_angle_negated",
    "Paradiseo.ES.C149_angle_witness"
   ],
   "note": ""
  },
  {
   "property": "C150",
   "status": "proved",
   "theorems": [
    "Paradiseo.ES.C150_exchange",
    "Paradiseo.ES.C150_intermediate",
    "Paradiseo.ES.C150_exchange_truthful",
    "Paradiseo.ES.C150_local",
    "Paradiseo.ES.C150_local_sizes",
    "Paradiseo.ES.C150_global"
   ],
   "note": ""
  },
  {
   "property": "C151",
   "status": "proved",
   "theorems": [
    "Paradiseo.Cma.C151_weights",
    "Paradiseo.Cma.C151_default",
    "Paradiseo.Cma.C151_schemes_swapped",
    "Paradiseo.Cma.C151_mean_in_hull",
    "Paradiseo.Cma.C151_more_parents",
    "Paradiseo.Cma.C151_fewer_parents",
    "Paradiseo.Cma.C151_negative_weight"
   ],
   "note": ""
  },
  {
   "property": "C152",
   "status": "proved",
   "theorems": [
    "Paradiseo.Cma.C152_parameters",
    "Paradiseo.Cma.C152_init",
    "Paradiseo.Cma.C152_reestimate",
    "Paradiseo.Cma.C152_eigensystem",
    "Paradiseo.Cma.C152_run",
    "Paradiseo.Cma.C152_total",
    "Paradiseo.Cma.C152_sample"
   ],
   "note": ""
  },
  {
   "property": "C153",
   "status": "proved",
   "theorems": [
    "Paradiseo.Cma.C153_first_generation_grows",
    "Paradiseo.Cma.C153_parents_at_mean",
    "Paradiseo.Cma.C153_default"
   ],
   "note": ""
  },
  {
   "property": "C154",
   "status": "proved",
   "theorems": [
    "Paradiseo.Gp.C154_numbers",
    "Paradiseo.Gp.C154_iterate",
    "Paradiseo.Gp.C154_select",
    "Paradiseo.Gp.C154_assign",
    "Paradiseo.Gp.C154_same_tree",
    "Paradiseo.Gp.C154_documented_example",
    "Paradiseo.Gp.C154_assign_node",
    "Paradiseo.Gp.C154_other_arity"
   ],
   "note": ""
  },
  {
   "property": "C155",
   "status": "proved",
   "theorems": [
    "Paradiseo.Gp.C155_sequence",
    "Paradiseo.Gp.C155_print_read",
    "Paradiseo.Gp.C155_same_tree_unreadable",
    "Paradiseo.Gp.C155_push",
    "Paradiseo.Gp.C155_push_sound",
    "Paradiseo.Gp.C155_push_fresh"
   ],
   "note": ""
  },
  {
   "property": "C156",
   "status": "proved",
   "theorems": [
    "Paradiseo.Gp.C156_prune",
    "Paradiseo.Gp.C156_prune_small",
    "Paradiseo.Gp.C156_crossover",
    "Paradiseo.Gp.C156_branch",
    "Paradiseo.Gp.C156_collapse_expand",
    "Paradiseo.Gp.C156_point",
    "Paradiseo.Gp.C156_hoist"
   ],
   "note": ""
  },
  {
   "property": "C157",
   "status": "proved",
   "theorems": [
    "Paradiseo.Gp.C157_depth",
    "Paradiseo.Gp.C157_no_terminal",
    "Paradiseo.Gp.C157_full_no_function",
    "Paradiseo.Gp.C157_ramped",
    "Paradiseo.Gp.C157_population"
   ],
   "note": ""
  },
  {
   "property": "C158",
   "status": "proved",
   "theorems": [
    "Paradiseo.Gp.C158_init",
    "Paradiseo.Gp.C158_crossover",
    "Paradiseo.Gp.C158_hoist",
    "Paradiseo.Gp.C158_point_ill_typed",
    "Paradiseo.Gp.C158_crossover_no_limit",
    "Paradiseo.Gp.C158_missing_type"
   ],
   "note": ""
  },
  {
   "property": "C159",
   "status": "proved",
   "theorems": [
    "Paradiseo.Moeo.Hv2.C159_front",
    "Paradiseo.Moeo.Hv2.C159_fitness",
    "Paradiseo.Moeo.Hv2.C159_area",
    "Paradiseo.Moeo.Hv2.C159_unbounded",
    "Paradiseo.Moeo.Hv2.C159_answer",
    "Paradiseo.Moeo.Hv2.C159_full",
    "Paradiseo.Moeo.Hv2.C159_extremes",
    "Paradiseo.Moeo.Hv2.C159_volume",
    "Paradiseo.Moeo.Hv2.C159_before_last_undefined",
    "Paradiseo.Moeo.Hv2.C159_large_areas_undefined"
   ],
   "note": ""
  },
  {
   "property": "C160",
   "status": "proved",
   "theorems": [
    "Paradiseo.Moeo.Eps.C160_bounds",
    "Paradiseo.Moeo.Eps.C160_exact_bounds",
    "Paradiseo.Moeo.Eps.C160_nondominated",
    "Paradiseo.Moeo.Eps.C160_epsilon_cover",
    "Paradiseo.Moeo.Eps.C160_two_objectives",
    "Paradiseo.Moeo.Eps.C160_refuses_nondominated",
    "Paradiseo.Moeo.Eps.C160_true_without_insertion",
    "Paradiseo.Moeo.Eps.C160_constant_objective",
    "Paradiseo.Moeo.Eps.C160_duplicates"
   ],
   "note": ""
  },
  {
   "property": "C161",
   "status": "proved",
   "theorems": [
    "Paradiseo.Moeo.Spea2.C161_size",
    "Paradiseo.Moeo.Spea2.C161_room",
    "Paradiseo.Moeo.Spea2.C161_members",
    "Paradiseo.Moeo.Spea2.C161_full",
    "Paradiseo.Moeo.Spea2.C161_no_dominated",
    "Paradiseo.Moeo.Spea2.C161_empty_undefined",
    "Paradiseo.Moeo.Spea2.C161_single_undefined",
    "Paradiseo.Moeo.Spea2.C161_best_stays",
    "Paradiseo.Moeo.Spea2.C161_dominated_kept"
   ],
   "note": ""
  },
  {
   "property": "C162",
   "status": "proved",
   "theorems": [
    "Paradiseo.Nds.C162_general",
    "Paradiseo.Nds.C162_two",
    "Paradiseo.Nds.C162_declone",
    "Paradiseo.Nds.C162_one",
    "Paradiseo.Nds.C162_penalties_I",
    "Paradiseo.Nds.C162_penalties_II",
    "Paradiseo.Nds.C162_singleton_front",
    "Paradiseo.Nds.C162_best_is_worst"
   ],
   "note": ""
  },
  {
   "property": "C163",
   "status": "proved",
   "theorems": [
    "Paradiseo.Nds.C163_fresh",
    "Paradiseo.Nds.C163_sort",
    "Paradiseo.Nds.C163_truncate",
    "Paradiseo.Nds.C163_stale"
   ],
   "note": ""
  },
  {
   "property": "C164",
   "status": "proved",
   "theorems": [
    "Paradiseo.Fit.C164_less",
    "Paradiseo.Fit.C164_less_defined",
    "Paradiseo.Fit.C164_strict_weak",
    "Paradiseo.Fit.C164_operators",
    "Paradiseo.Fit.C164_equal",
    "Paradiseo.Fit.C164_feasible_better",
    "Paradiseo.Fit.C164_best",
    "Paradiseo.Fit.C164_best_needs_feasibility",
    "Paradiseo.Fit.C164_sorted",
    "Paradiseo.Fit.C164_arithmetic",
    "Paradiseo.Fit.C164_sum",
    "Paradiseo.Fit.C164_scalar_modifies",
    "Paradiseo.Fit.C164_init_overwritten",
    "Paradiseo.Fit.C164_average",
    "Paradiseo.Fit.C164_round_trip",
    "Paradiseo.Fit.C164_unread",
    "Paradiseo.Fit.C164_split",
    "Paradiseo.Fit.C164_split_sorted",
    "Paradiseo.Fit.C164_switch",
    "Paradiseo.Fit.C164_ratio"
   ],
   "note": ""
  },
  {
   "property": "C165",
   "status": "proved",
   "theorems": [
    "Paradiseo.Fit.C165_order",
    "Paradiseo.Fit.C165_operators",
    "Paradiseo.Fit.C165_empty_term",
    "Paradiseo.Fit.C165_describe",
    "Paradiseo.Fit.C165_push",
    "Paradiseo.Fit.C165_assign",
    "Paradiseo.Fit.C165_shared_names",
    "Paradiseo.Fit.C165_round_trip",
    "Paradiseo.Fit.C165_wrong_size",
    "Paradiseo.Fit.C165_average",
    "Paradiseo.Fit.C165_average_range",
    "Paradiseo.Fit.C165_best"
   ],
   "note": ""
  },
  {
   "property": "C166",
   "status": "proved",
   "theorems": [
    "Paradiseo.Stat.C166_nth_position",
    "Paradiseo.Stat.C166_nth_ratio",
    "Paradiseo.Stat.C166_quartiles",
    "Paradiseo.Stat.C166_range_maximise",
    "Paradiseo.Stat.C166_range_minimise",
    "Paradiseo.Stat.C166_nth_best",
    "Paradiseo.Stat.C166_nth_best_range",
    "Paradiseo.Stat.C166_best_so_far",
    "Paradiseo.Stat.C166_kept",
    "Paradiseo.Stat.C166_dump"
   ],
   "note": ""
  },
  {
   "property": "C167",
   "status": "proved",
   "theorems": [
    "Paradiseo.Stat.C167_average",
    "Paradiseo.Stat.C167_deviation",
    "Paradiseo.Stat.C167_average_size",
    "Paradiseo.Stat.C167_correlation",
    "Paradiseo.Stat.C167_perfect"
   ],
   "note": ""
  },
  {
   "property": "C168",
   "status": "proved",
   "theorems": [
    "Paradiseo.Stat.C168_l1",
    "Paradiseo.Stat.C168_hamming",
    "Paradiseo.Stat.C168_euclidean",
    "Paradiseo.Stat.C168_sizes",
    "Paradiseo.Stat.C168_fitness",
    "Paradiseo.Stat.C168_diversity",
    "Paradiseo.Stat.C168_diversity_sizes",
    "Paradiseo.Stat.C168_genes",
    "Paradiseo.Stat.C168_bits",
    "Paradiseo.Stat.C168_unsigned"
   ],
   "note": ""
  },
  {
   "property": "C169",
   "status": "proved",
   "theorems": [
    "Paradiseo.Moeo.Dmls.C169_local_optimum_set",
    "Paradiseo.Moeo.Dmls.C169_selection",
    "Paradiseo.Moeo.Dmls.C169_terminates",
    "Paradiseo.Moeo.Dmls.C169_first_improving",
    "Paradiseo.Moeo.Dmls.C169_no_desimproving"
   ],
   "note": ""
  },
  {
   "property": "C170",
   "status": "proved",
   "theorems": [
    "Paradiseo.Moeo.Dmls.C170_isolated_solution",
    "Paradiseo.Moeo.Dmls.C170_sub_never_marks",
    "Paradiseo.Moeo.Dmls.C170_replace_cycles",
    "Paradiseo.Moeo.Dmls.C170_no_desimproving_livelock",
    "Paradiseo.Moeo.Dmls.C170_stale_marks",
    "Paradiseo.Moeo.Dmls.C170_mutation",
    "Paradiseo.Moeo.Dmls.C170_mutation_reuses_archive",
    "Paradiseo.Moeo.Dmls.C170_updater"
   ],
   "note": ""
  },
  {
   "property": "C171",
   "status": "proved",
   "theorems": [
    "Paradiseo.Moeo.Ea.C171_generation",
    "Paradiseo.Moeo.Ea.C171_front_kept",
    "Paradiseo.Moeo.Ea.C171_size",
    "Paradiseo.Moeo.Ea.C171_covers",
    "Paradiseo.Moeo.Ea.C171_forgets"
   ],
   "note": ""
  },
  {
   "property": "C172",
   "status": "proved",
   "theorems": [
    "Paradiseo.Moeo.Ea.C172_seea",
    "Paradiseo.Moeo.Ea.C172_transform_ignored",
    "Paradiseo.Moeo.Ea.C172_transform_copies",
    "Paradiseo.Moeo.Ea.C172_archive_select",
    "Paradiseo.Moeo.Ea.C172_aseea",
    "Paradiseo.Moeo.Ea.C172_easy_size",
    "Paradiseo.Moeo.Ea.C172_easy_assigned_once",
    "Paradiseo.Moeo.Ea.C172_easy_assigned_always"
   ],
   "note": ""
  },
  {
   "property": "C173",
   "status": "proved",
   "theorems": [
    "Paradiseo.State.C173_load_restores_nothing",
    "Paradiseo.State.C173_saved_not_restored",
    "Paradiseo.State.C173_save",
    "Paradiseo.State.C173_register",
    "Paradiseo.State.C173_register_all",
    "Paradiseo.State.C173_one_character"
   ],
   "note": ""
  },
  {
   "property": "C174",
   "status": "proved",
   "theorems": [
    "Paradiseo.Param.C174_arguments",
    "Paradiseo.Param.C174_file",
    "Paradiseo.Param.C174_file_wins",
    "Paradiseo.Param.C174_blank",
    "Paradiseo.Param.C174_comment",
    "Paradiseo.Param.C174_dash",
    "Paradiseo.Param.C174_unknown",
    "Paradiseo.Param.C174_print_read",
    "Paradiseo.Param.C174_print_read_blanks"
   ],
   "note": ""
  },
  {
   "property": "C175",
   "status": "proved",
   "theorems": [
    "Paradiseo.Param.C175_vector_first",
    "Paradiseo.Param.C175_vector_not_restored",
    "Paradiseo.Param.C175_vector_one_digit",
    "Paradiseo.Param.C175_keyword_roundtrip",
    "Paradiseo.Param.C175_keyword_unclosed",
    "Paradiseo.Param.C175_keyword_blank"
   ],
   "note": ""
  },
  {
   "property": "C176",
   "status": "proved",
   "theorems": [
    "Paradiseo.Rng.C176_recurrence",
    "Paradiseo.Rng.C176_recurrence_exists",
    "Paradiseo.Rng.C176_same",
    "Paradiseo.Rng.C176_different",
    "Paradiseo.Rng.C176_reference"
   ],
   "note": ""
  },
  {
   "property": "C177",
   "status": "proved",
   "theorems": [
    "Paradiseo.Rng.C177_uniform",
    "Paradiseo.Rng.C177_random",
    "Paradiseo.Rng.C177_random_frequency",
    "Paradiseo.Rng.C177_flip_frequency",
    "Paradiseo.Rng.C177_binomial",
    "Paradiseo.Rng.C177_random_between",
    "Paradiseo.Rng.C177_powerlaw"
   ],
   "note": ""
  },
  {
   "property": "C178",
   "status": "proved",
   "theorems": [
    "Paradiseo.Rng.C178_reseed_clear",
    "Paradiseo.Rng.C178_reseed_stale",
    "Paradiseo.Rng.C178_pair",
    "Paradiseo.Rng.C178_restored",
    "Paradiseo.Rng.C178_restored_cached"
   ],
   "note": ""
  },
  {
   "property": "C179",
   "status": "proved",
   "theorems": [
    "Paradiseo.BitMut.C179_standard",
    "Paradiseo.BitMut.C179_rate_kept",
    "Paradiseo.BitMut.C179_uniform",
    "Paradiseo.BitMut.C179_conditional",
    "Paradiseo.BitMut.C179_conditional_endless",
    "Paradiseo.BitMut.C179_shifted",
    "Paradiseo.BitMut.C179_normal",
    "Paradiseo.BitMut.C179_fast_rate",
    "Paradiseo.BitMut.C179_fast",
    "Paradiseo.BitMut.C179_bucket"
   ],
   "note": ""
  },
  {
   "property": "C180",
   "status": "proved",
   "theorems": [
    "Paradiseo.QT.C180_exact",
    "Paradiseo.QT.C180_sound",
    "Paradiseo.QT.C180_removed",
    "Paradiseo.QT.C180_lost"
   ],
   "note": ""
  },
  {
   "property": "C181",
   "status": "proved",
   "theorems": [
    "Paradiseo.QT.C181_update_only_root",
    "Paradiseo.QT.C181_no_domination",
    "Paradiseo.QT.C181_wrong_one",
    "Paradiseo.QT.C181_quadtree_archive"
   ],
   "note": ""
  },
  {
   "property": "C182",
   "status": "proved",
   "theorems": [
    "Paradiseo.QT.C182_submit",
    "Paradiseo.QT.C182_run"
   ],
   "note": ""
  },
  {
   "property": "C183",
   "status": "proved",
   "theorems": [
    "Paradiseo.QT.C183_no_domination",
    "Paradiseo.QT.C183_stale",
    "Paradiseo.QT.C183_lost",
    "Paradiseo.QT.C183_outside"
   ],
   "note": ""
  },
  {
   "property": "C184",
   "status": "proved",
   "theorems": [
    "Paradiseo.Scalar.C184_from_pop",
    "Paradiseo.Scalar.C184_order",
    "Paradiseo.Scalar.C184_minmax",
    "Paradiseo.Scalar.C184_change_max",
    "Paradiseo.Scalar.C184_update_bounds",
    "Paradiseo.Scalar.C184_update_pop",
    "Paradiseo.Scalar.C184_update_minmax"
   ],
   "note": ""
  },
  {
   "property": "C185",
   "status": "proved",
   "theorems": [
    "Paradiseo.Scalar.C185_aggregation",
    "Paradiseo.Scalar.C185_aggregation_optimal",
    "Paradiseo.Scalar.C185_too_few",
    "Paradiseo.Scalar.C185_constraint",
    "Paradiseo.Scalar.C185_feasible",
    "Paradiseo.Scalar.C185_violation",
    "Paradiseo.Scalar.C185_achievement_direction",
    "Paradiseo.Scalar.C185_asf",
    "Paradiseo.Scalar.C185_asf_optimal",
    "Paradiseo.Scalar.C185_cheb_mono",
    "Paradiseo.Scalar.C185_cheb_is_manhattan",
    "Paradiseo.Scalar.C185_normaliser_ignored",
    "Paradiseo.Scalar.C185_normaliser_used"
   ],
   "note": ""
  },
  {
   "property": "C186",
   "status": "proved",
   "theorems": [
    "Paradiseo.Weights.C186_one_direction",
    "Paradiseo.Weights.C186_both_directions",
    "Paradiseo.Weights.C186_both_jump",
    "Paradiseo.Weights.C186_no_step"
   ],
   "note": ""
  },
  {
   "property": "C187",
   "status": "proved",
   "theorems": [
    "Paradiseo.Weights.C187_anytime",
    "Paradiseo.Weights.C187_qexplore"
   ],
   "note": ""
  },
  {
   "property": "C188",
   "status": "proved",
   "theorems": [
    "Paradiseo.Weights.C188_proposed",
    "Paradiseo.Weights.C188_never",
    "Paradiseo.Weights.C188_ends",
    "Paradiseo.Weights.C188_all",
    "Paradiseo.Weights.C188_single"
   ],
   "note": ""
  },
  {
   "property": "C189",
   "status": "proved",
   "theorems": [
    "Paradiseo.Diversity.C189_sharing",
    "Paradiseo.Diversity.C189_isolated",
    "Paradiseo.Diversity.C189_front_by_front"
   ],
   "note": ""
  },
  {
   "property": "C190",
   "status": "proved",
   "theorems": [
    "Paradiseo.Diversity.C190_nearest",
    "Paradiseo.Diversity.C190_order"
   ],
   "note": ""
  },
  {
   "property": "C191",
   "status": "proved",
   "theorems": [
    "Paradiseo.Moeo.C191_dominance",
    "Paradiseo.Moeo.C191_nocopy"
   ],
   "note": ""
  },
  {
   "property": "C192",
   "status": "proved",
   "theorems": [
    "Paradiseo.LS.C192_candidates",
    "Paradiseo.LS.C192_better",
    "Paradiseo.LS.C192_always",
    "Paradiseo.LS.C192_default_may_worsen",
    "Paradiseo.LS.C192_iterations",
    "Paradiseo.LS.C192_exact"
   ],
   "note": ""
  },
  {
   "property": "C193",
   "status": "proved",
   "theorems": [
    "Paradiseo.LS.C193_counts",
    "Paradiseo.LS.C193_no_move_wrong",
    "Paradiseo.LS.C193_restarts",
    "Paradiseo.LS.C193_threshold_one",
    "Paradiseo.LS.C193_period"
   ],
   "note": ""
  },
  {
   "property": "C194",
   "status": "proved",
   "theorems": [
    "Paradiseo.LS.C194_position",
    "Paradiseo.LS.C194_always_second",
    "Paradiseo.LS.C194_all_neighbours"
   ],
   "note": ""
  },
  {
   "property": "C195",
   "status": "proved",
   "theorems": [
    "Paradiseo.LS.C195_perturb",
    "Paradiseo.LS.C195_times",
    "Paradiseo.LS.C195_times_swapped",
    "Paradiseo.LS.C195_diversify_plain",
    "Paradiseo.LS.C195_diversify_stale"
   ],
   "note": ""
  },
  {
   "property": "C196",
   "status": "proved",
   "theorems": [
    "Paradiseo.LS.C196_stop_iff",
    "Paradiseo.LS.C196_tracked_best",
    "Paradiseo.LS.C196_checkpoint"
   ],
   "note": ""
  },
  {
   "property": "C197",
   "status": "proved",
   "theorems": [
    "Paradiseo.LS.C197_budget",
    "Paradiseo.LS.C197_no_restart",
    "Paradiseo.LS.C197_overflow",
    "Paradiseo.LS.C197_overshoot",
    "Paradiseo.LS.C197_time"
   ],
   "note": ""
  },
  {
   "property": "C198",
   "status": "proved",
   "theorems": [
    "Paradiseo.LS.C198_run",
    "Paradiseo.LS.C198_runs",
    "Paradiseo.LS.C198_start_lost"
   ],
   "note": ""
  },
  {
   "property": "C199",
   "status": "proved",
   "theorems": [
    "Paradiseo.LS.C199_random_search",
    "Paradiseo.LS.C199_not_best"
   ],
   "note": ""
  },
  {
   "property": "C200",
   "status": "proved",
   "theorems": [
    "Paradiseo.LS.C200_aspiration",
    "Paradiseo.LS.C200_no_loss"
   ],
   "note": ""
  },
  {
   "property": "C201",
   "status": "proved",
   "theorems": [
    "Paradiseo.LS.C201_records",
    "Paradiseo.LS.C201_random_search",
    "Paradiseo.LS.C201_random_walk",
    "Paradiseo.LS.C201_walk_length"
   ],
   "note": ""
  },
  {
   "property": "C202",
   "status": "proved",
   "theorems": [
    "Paradiseo.LS.C202_basic",
    "Paradiseo.LS.C202_distances"
   ],
   "note": ""
  },
  {
   "property": "C203",
   "status": "proved",
   "theorems": [
    "Paradiseo.LS.C203_autocorrelation",
    "Paradiseo.LS.C203_range"
   ],
   "note": ""
  },
  {
   "property": "C204",
   "status": "proved",
   "theorems": [
    "Paradiseo.LS.C204_yule_walker",
    "Paradiseo.LS.C204_first",
    "Paradiseo.LS.C204_out_of_range"
   ],
   "note": ""
  },
  {
   "property": "C205",
   "status": "proved",
   "theorems": [
    "Paradiseo.Run.C205_generation",
    "Paradiseo.Run.C205_run",
    "Paradiseo.Run.C205_limit",
    "Paradiseo.Run.C205_last_lost",
    "Paradiseo.Run.C205_offspring_size"
   ],
   "note": ""
  },
  {
   "property": "C206",
   "status": "proved",
   "theorems": [
    "Paradiseo.Run.C206_decode",
    "Paradiseo.Run.C206_fitness",
    "Paradiseo.Run.C206_bias"
   ],
   "note": ""
  },
  {
   "property": "C207",
   "status": "proved",
   "theorems": [
    "Paradiseo.Run.C207_cached",
    "Paradiseo.Run.C207_uncached",
    "Paradiseo.Run.C207_shared",
    "Paradiseo.Run.C207_parameter"
   ],
   "note": ""
  },
  {
   "property": "C208",
   "status": "proved",
   "theorems": [
    "Paradiseo.Run.C208_in_place",
    "Paradiseo.Run.C208_cells"
   ],
   "note": ""
  },
  {
   "property": "C209",
   "status": "proved",
   "theorems": [
    "Paradiseo.LongPath.C209_distance",
    "Paradiseo.LongPath.C209_fitness",
    "Paradiseo.LongPath.C209_climb",
    "Paradiseo.LongPath.C209_no_shortcut",
    "Paradiseo.LongPath.C209_other_dimension"
   ],
   "note": ""
  },
  {
   "property": "C210",
   "status": "proved",
   "theorems": [
    "Paradiseo.DTLZ.C210_dtlz1",
    "Paradiseo.DTLZ.C210_dtlz234",
    "Paradiseo.DTLZ.C210_dtlz56",
    "Paradiseo.DTLZ.C210_dtlz7",
    "Paradiseo.DTLZ.C210_few"
   ],
   "note": ""
  },
  {
   "property": "C211",
   "status": "proved",
   "theorems": [
    "Paradiseo.DTLZ.C211_sbx_pair",
    "Paradiseo.DTLZ.C211_sbx",
    "Paradiseo.DTLZ.C211_sbx_unbounded",
    "Paradiseo.DTLZ.C211_sbx_spread",
    "Paradiseo.DTLZ.C211_sbx_symmetric",
    "Paradiseo.DTLZ.C211_poly_gene",
    "Paradiseo.DTLZ.C211_poly_direction",
    "Paradiseo.DTLZ.C211_poly"
   ],
   "note": ""
  },
  {
   "property": "C212",
   "status": "proved",
   "theorems": [
    "Paradiseo.Inst.C212_nk_links",
    "Paradiseo.Inst.C212_nk_links_uniform",
    "Paradiseo.Inst.C212_nk_consecutive",
    "Paradiseo.Inst.C212_nk_incremental",
    "Paradiseo.Inst.C212_nk_contributions",
    "Paradiseo.Inst.C212_nk_range"
   ],
   "note": ""
  },
  {
   "property": "C213",
   "status": "proved",
   "theorems": [
    "Paradiseo.Inst.C213_nk_load",
    "Paradiseo.Inst.C213_nk_saved"
   ],
   "note": ""
  },
  {
   "property": "C214",
   "status": "proved",
   "theorems": [
    "Paradiseo.Inst.C214_sat_random",
    "Paradiseo.Inst.C214_sat_random_few",
    "Paradiseo.Inst.C214_sat_incremental"
   ],
   "note": ""
  },
  {
   "property": "C215",
   "status": "proved",
   "theorems": [
    "Paradiseo.Inst.C215_sat_roundtrip",
    "Paradiseo.Inst.C215_sat_missing",
    "Paradiseo.Inst.C215_sat_truncated"
   ],
   "note": ""
  },
  {
   "property": "C216",
   "status": "proved",
   "theorems": [
    "Paradiseo.Inst.C216_bbroyal",
    "Paradiseo.Inst.C216_bbroyal_best",
    "Paradiseo.Inst.C216_queens",
    "Paradiseo.Inst.C216_queens_solution",
    "Paradiseo.Inst.C216_popsol"
   ],
   "note": ""
  },
  {
   "property": "C217",
   "status": "proved",
   "theorems": [
    "Paradiseo.Init.C217_fixed",
    "Paradiseo.Init.C217_variable",
    "Paradiseo.Init.C217_variable_lengths",
    "Paradiseo.Init.C217_variable_refuses",
    "Paradiseo.Init.C217_old_atoms_show"
   ],
   "note": ""
  },
  {
   "property": "C218",
   "status": "proved",
   "theorems": [
    "Paradiseo.Init.C218_permutation",
    "Paradiseo.Init.C218_not_reproducible",
    "Paradiseo.Init.C218_wraps"
   ],
   "note": ""
  },
  {
   "property": "C219",
   "status": "proved",
   "theorems": [
    "Paradiseo.Init.C219_interval",
    "Paradiseo.Init.C219_total",
    "Paradiseo.Init.C219_all_zero"
   ],
   "note": ""
  },
  {
   "property": "C220",
   "status": "proved",
   "theorems": [
    "Paradiseo.Init.C220_all",
    "Paradiseo.Init.C220_all_false",
    "Paradiseo.Init.C220_k",
    "Paradiseo.Init.C220_k_empty"
   ],
   "note": ""
  },
  {
   "property": "C221",
   "status": "proved",
   "theorems": [
    "Paradiseo.Init.C221_counter",
    "Paradiseo.Init.C221_saver",
    "Paradiseo.Init.C221_saver_names",
    "Paradiseo.Init.C221_saver_zero",
    "Paradiseo.Init.C221_timed"
   ],
   "note": ""
  },
  {
   "property": "C222",
   "status": "proved",
   "theorems": [
    "Paradiseo.Init.C222_uniform",
    "Paradiseo.Init.C222_uniform_edge",
    "Paradiseo.Init.C222_uniform_one",
    "Paradiseo.Init.C222_uniform_int",
    "Paradiseo.Init.C222_random_int"
   ],
   "note": ""
  },
  {
   "property": "C223",
   "status": "proved",
   "theorems": [
    "Paradiseo.Init.C223_genes",
    "Paradiseo.Init.C223_unbounded",
    "Paradiseo.Init.C223_sigmas",
    "Paradiseo.Init.C223_sigmas_positive",
    "Paradiseo.Init.C223_correlations",
    "Paradiseo.Init.C223_correlations_wrap"
   ],
   "note": ""
  },
  {
   "property": "C224",
   "status": "proved",
   "theorems": [
    "Paradiseo.Worth.C224_cached"
   ],
   "note": ""
  },
  {
   "property": "C225",
   "status": "proved",
   "theorems": [
    "Paradiseo.Worth.C225_det",
    "Paradiseo.Worth.C225_stoch",
    "Paradiseo.Worth.C225_roulette",
    "Paradiseo.Worth.C225_debug",
    "Paradiseo.Worth.C225_stale"
   ],
   "note": ""
  },
  {
   "property": "C226",
   "status": "proved",
   "theorems": [
    "Paradiseo.Worth.C226_iff",
    "Paradiseo.Worth.C226_accepts"
   ],
   "note": ""
  },
  {
   "property": "C227",
   "status": "proved",
   "theorems": [
    "Paradiseo.Pso.C227_round",
    "Paradiseo.Pso.C227_run",
    "Paradiseo.Pso.C227_stuck",
    "Paradiseo.Pso.C227_extended",
    "Paradiseo.Pso.C227_velocity_init"
   ],
   "note": ""
  },
  {
   "property": "C228",
   "status": "proved",
   "theorems": [
    "Paradiseo.Pso.C228_bits",
    "Paradiseo.Pso.C228_probability",
    "Paradiseo.Pso.C228_reachable",
    "Paradiseo.Pso.C228_slope_zero"
   ],
   "note": ""
  },
  {
   "property": "C229",
   "status": "proved",
   "theorems": [
    "Paradiseo.Moeo.C229_antisymmetric",
    "Paradiseo.Moeo.C229_affine",
    "Paradiseo.Moeo.C229_volume",
    "Paradiseo.Moeo.C229_unnormalized",
    "Paradiseo.Moeo.C229_covers",
    "Paradiseo.Moeo.C229_equivalent",
    "Paradiseo.Moeo.C229_strict"
   ],
   "note": ""
  },
  {
   "property": "C230",
   "status": "proved",
   "theorems": [
    "Paradiseo.Moeo.C230_stops",
    "Paradiseo.Moeo.C230_stops_elsewhere",
    "Paradiseo.Moeo.C230_empty",
    "Paradiseo.Moeo.C230_front",
    "Paradiseo.Moeo.C230_dual_stops_early",
    "Paradiseo.Moeo.C230_dual_same"
   ],
   "note": ""
  },
  {
   "property": "C231",
   "status": "proved",
   "theorems": [
    "Paradiseo.Moeo.C231_nondominated",
    "Paradiseo.Moeo.C231_value",
    "Paradiseo.Moeo.C231_isolated",
    "Paradiseo.Moeo.C231_isolated_below_one",
    "Paradiseo.Moeo.C231_two_points",
    "Paradiseo.Moeo.C231_small"
   ],
   "note": ""
  },
  {
   "property": "C232",
   "status": "proved",
   "theorems": [
    "Paradiseo.Moeo.C232_selects",
    "Paradiseo.Moeo.C232_never",
    "Paradiseo.Moeo.C232_past_end",
    "Paradiseo.Moeo.C232_proportional"
   ],
   "note": ""
  },
  {
   "property": "C233",
   "status": "proved",
   "theorems": [
    "Paradiseo.Moeo.C233_deterministic",
    "Paradiseo.Moeo.C233_rate",
    "Paradiseo.Moeo.C233_stochastic"
   ],
   "note": ""
  },
  {
   "property": "C234",
   "status": "proved",
   "theorems": [
    "Paradiseo.Moeo.C234_value",
    "Paradiseo.Moeo.C234_individual_of_first",
    "Paradiseo.Moeo.C234_stale",
    "Paradiseo.Moeo.C234_index",
    "Paradiseo.Moeo.C234_average",
    "Paradiseo.Moeo.C234_binary"
   ],
   "note": ""
  },
  {
   "property": "C235",
   "status": "proved",
   "theorems": [
    "Paradiseo.Moeo.C235_dominance",
    "Paradiseo.Moeo.C235_depends_on_others"
   ],
   "note": ""
  },
  {
   "property": "C236",
   "status": "proved",
   "theorems": [
    "Paradiseo.Eig.C236_orthonormal",
    "Paradiseo.Eig.C236_decomposition",
    "Paradiseo.Eig.C236_exact",
    "Paradiseo.Eig.C236_real_test",
    "Paradiseo.Eig.C236_float_test",
    "Paradiseo.Eig.C236_solver",
    "Paradiseo.Eig.C236_reflect_defined",
    "Paradiseo.Eig.C236_shift_defined",
    "Paradiseo.Eig.C236_sweep_defined",
    "Paradiseo.Eig.C236_two"
   ],
   "note": ""
  },
  {
   "property": "C237",
   "status": "proved",
   "theorems": [
    "Paradiseo.Eig.C237_accepted",
    "Paradiseo.Eig.C237_cut_off_accepted",
    "Paradiseo.Eig.C237_no_solver",
    "Paradiseo.Eig.C237_finished_rejected"
   ],
   "note": ""
  },
  {
   "property": "C238",
   "status": "proved",
   "theorems": [
    "Paradiseo.Edo.C238_generations",
    "Paradiseo.Edo.C238_sizes",
    "Paradiseo.Edo.C238_best",
    "Paradiseo.Edo.C238_final",
    "Paradiseo.Edo.C238_initial_estimate_unused",
    "Paradiseo.Edo.C238_one_estimator",
    "Paradiseo.Edo.C238_rejected_at_once"
   ],
   "note": ""
  },
  {
   "property": "C239",
   "status": "proved",
   "theorems": [
    "Paradiseo.Edo.C239_condition",
    "Paradiseo.Edo.C239_failed",
    "Paradiseo.Edo.C239_positive",
    "Paradiseo.Edo.C239_indefinite",
    "Paradiseo.Edo.C239_finite",
    "Paradiseo.Edo.C239_mean_ignored",
    "Paradiseo.Edo.C239_combined"
   ],
   "note": ""
  },
  {
   "property": "C240",
   "status": "proved",
   "theorems": [
    "Paradiseo.Edo.C240_transform_empties",
    "Paradiseo.Edo.C240_combined",
    "Paradiseo.Edo.C240_stateless_undefined"
   ],
   "note": ""
  },
  {
   "property": "C241",
   "status": "proved",
   "theorems": [
    "Paradiseo.Edo.C241_frequencies",
    "Paradiseo.Edo.C241_too_many_ones",
    "Paradiseo.Edo.C241_fixed_bits"
   ],
   "note": ""
  },
  {
   "property": "C242",
   "status": "proved",
   "theorems": [
    "Paradiseo.MathSym.C242_listing_determines",
    "Paradiseo.MathSym.C242_get",
    "Paradiseo.MathSym.C242_get_beyond",
    "Paradiseo.MathSym.C242_insert",
    "Paradiseo.MathSym.C242_insert_beyond",
    "Paradiseo.MathSym.C242_get_insert",
    "Paradiseo.MathSym.C242_insert_same",
    "Paradiseo.MathSym.C242_quad",
    "Paradiseo.MathSym.C242_random_selector",
    "Paradiseo.MathSym.C242_biased_inner",
    "Paradiseo.MathSym.C242_biased_leaves",
    "Paradiseo.MathSym.C242_biased_loses"
   ],
   "note": ""
  },
  {
   "property": "C243",
   "status": "proved",
   "theorems": [
    "Paradiseo.MathSym.C243_homologous_from_parents",
    "Paradiseo.MathSym.C243_homologous_common",
    "Paradiseo.MathSym.C243_homologous_report",
    "Paradiseo.MathSym.C243_mutate_report",
    "Paradiseo.MathSym.C243_mutate_shape",
    "Paradiseo.MathSym.C243_language",
    "Paradiseo.MathSym.C243_size_level",
    "Paradiseo.MathSym.C243_levels",
    "Paradiseo.MathSym.C243_size_level_exchange"
   ],
   "note": ""
  },
  {
   "property": "C244",
   "status": "proved",
   "theorems": [
    "Paradiseo.MathSym.C244_total",
    "Paradiseo.MathSym.C244_tree",
    "Paradiseo.MathSym.C244_full",
    "Paradiseo.MathSym.C244_language",
    "Paradiseo.MathSym.C244_init_depth",
    "Paradiseo.MathSym.C244_init_depth_attained",
    "Paradiseo.MathSym.C244_init_depth_small",
    "Paradiseo.MathSym.C244_subtree",
    "Paradiseo.MathSym.C244_terminal"
   ],
   "note": ""
  },
  {
   "property": "C245",
   "status": "proved",
   "theorems": [
    "Paradiseo.MathSym.C245_values",
    "Paradiseo.MathSym.C245_flat"
   ],
   "note": ""
  },
  {
   "property": "C246",
   "status": "proved",
   "theorems": [
    "Paradiseo.MathSym.C246_value",
    "Paradiseo.MathSym.C246_folded",
    "Paradiseo.MathSym.C246_total"
   ],
   "note": ""
  },
  {
   "property": "C247",
   "status": "proved",
   "theorems": [
    "Paradiseo.MathSym.C247_set_get",
    "Paradiseo.MathSym.C247_get_set",
    "Paradiseo.MathSym.C247_too_few",
    "Paradiseo.MathSym.C247_mutate"
   ],
   "note": ""
  },
  {
   "property": "C248",
   "status": "proved",
   "theorems": [
    "Paradiseo.MathSym.C248_expand",
    "Paradiseo.MathSym.C248_expand_ends",
    "Paradiseo.MathSym.C248_compress",
    "Paradiseo.MathSym.C248_compress_ends"
   ],
   "note": ""
  },
  {
   "property": "C249",
   "status": "proved",
   "theorems": [
    "Paradiseo.MathSym.C249_derivative"
   ],
   "note": ""
  },
  {
   "property": "C250",
   "status": "proved",
   "theorems": [
    "Paradiseo.MathSym.C250_sign",
    "Paradiseo.MathSym.C250_atan",
    "Paradiseo.MathSym.C250_pow",
    "Paradiseo.MathSym.C250_pow_right",
    "Paradiseo.MathSym.C250_pow_wrong",
    "Paradiseo.MathSym.C250_throws"
   ],
   "note": ""
  },
  {
   "property": "C251",
   "status": "proved",
   "theorems": [
    "Paradiseo.MathSym.C251_sound",
    "Paradiseo.MathSym.C251_parts",
    "Paradiseo.MathSym.C251_asin",
    "Paradiseo.MathSym.C251_asin_const"
   ],
   "note": ""
  },
  {
   "property": "C252",
   "status": "proved",
   "theorems": [
    "Paradiseo.MathSym.C252_errors",
    "Paradiseo.MathSym.C252_no_check"
   ],
   "note": ""
  },
  {
   "property": "C253",
   "status": "proved",
   "theorems": [
    "Paradiseo.MathSym.C253_table",
    "Paradiseo.MathSym.C253_ends",
    "Paradiseo.MathSym.C253_exit"
   ],
   "note": ""
  },
  {
   "property": "C254",
   "status": "proved",
   "theorems": [
    "Paradiseo.MathSym.C254_mean",
    "Paradiseo.MathSym.C254_variance",
    "Paradiseo.MathSym.C254_covariance",
    "Paradiseo.MathSym.C254_matrix",
    "Paradiseo.MathSym.C254_matrix_diagonal",
    "Paradiseo.MathSym.C254_matrix_diagonal_wrong"
   ],
   "note": ""
  },
  {
   "property": "C255",
   "status": "proved",
   "theorems": [
    "Paradiseo.MathSym.C255_ols",
    "Paradiseo.MathSym.C255_slope",
    "Paradiseo.MathSym.C255_wls",
    "Paradiseo.MathSym.C255_regularised"
   ],
   "note": ""
  },
  {
   "property": "C256",
   "status": "proved",
   "theorems": [
    "Paradiseo.MathSym.C256_batch",
    "Paradiseo.MathSym.C256_single",
    "Paradiseo.MathSym.C256_constant",
    "Paradiseo.MathSym.C256_constant_scaling",
    "Paradiseo.MathSym.C256_one_case",
    "Paradiseo.MathSym.C256_worst",
    "Paradiseo.MathSym.C256_worst_unscaled",
    "Paradiseo.MathSym.C256_unscaled",
    "Paradiseo.MathSym.C256_clones"
   ],
   "note": ""
  },
  {
   "property": "C257",
   "status": "proved",
   "theorems": [
    "Paradiseo.MathSym.C257_round_trip",
    "Paradiseo.MathSym.C257_injective",
    "Paradiseo.MathSym.C257_empty"
   ],
   "note": ""
  },
  {
   "property": "C258",
   "status": "proved",
   "theorems": [
    "Paradiseo.MathSym.C258_constant",
    "Paradiseo.MathSym.C258_lambda",
    "Paradiseo.MathSym.C258_outside",
    "Paradiseo.MathSym.C258_outside_reachable",
    "Paradiseo.MathSym.C258_sequence",
    "Paradiseo.MathSym.C258_no_lambdas"
   ],
   "note": ""
  },
  {
   "property": "C259",
   "status": "proved",
   "theorems": [
    "Paradiseo.Moeo.C259_weights",
    "Paradiseo.Moeo.C259_neighbours",
    "Paradiseo.Moeo.C259_not_normal",
    "Paradiseo.Moeo.C259_kept",
    "Paradiseo.Moeo.C259_ub",
    "Paradiseo.Moeo.C259_safe",
    "Paradiseo.Moeo.C259_ub_reachable"
   ],
   "note": ""
  },
  {
   "property": "C260",
   "status": "proved",
   "theorems": [
    "Paradiseo.Moeo.C260_random",
    "Paradiseo.Moeo.C260_random_zero",
    "Paradiseo.Moeo.C260_equal"
   ],
   "note": ""
  },
  {
   "property": "C261",
   "status": "proved",
   "theorems": [
    "Paradiseo.Factory.C261_selection",
    "Paradiseo.Factory.C261_legal",
    "Paradiseo.Factory.C261_own_argument",
    "Paradiseo.Factory.C261_parameter",
    "Paradiseo.Factory.C261_undefined",
    "Paradiseo.Factory.C261_examples",
    "Paradiseo.Factory.C261_size",
    "Paradiseo.Factory.C261_elitist",
    "Paradiseo.Factory.C261_negative",
    "Paradiseo.Factory.C261_sequential"
   ],
   "note": ""
  },
  {
   "property": "C262",
   "status": "proved",
   "theorems": [
    "Paradiseo.Factory.C262_throws",
    "Paradiseo.Factory.C262_stops"
   ],
   "note": ""
  },
  {
   "property": "C263",
   "status": "proved",
   "theorems": [
    "Paradiseo.Factory.C263_size",
    "Paradiseo.Factory.C263_places",
    "Paradiseo.Factory.C263_not_the_best",
    "Paradiseo.Factory.C263_restart",
    "Paradiseo.Factory.C263_fresh"
   ],
   "note": ""
  },
  {
   "property": "C264",
   "status": "proved",
   "theorems": [
    "Paradiseo.Factory.C264_ga",
    "Paradiseo.Factory.C264_ga_called",
    "Paradiseo.Factory.C264_ga_zero",
    "Paradiseo.Factory.C264_es"
   ],
   "note": ""
  },
  {
   "property": "C265",
   "status": "proved",
   "theorems": [
    "Paradiseo.Factory.C265_size",
    "Paradiseo.Factory.C265_comma",
    "Paradiseo.Factory.C265_plus",
    "Paradiseo.Factory.C265_ep",
    "Paradiseo.Factory.C265_ssga"
   ],
   "note": ""
  },
  {
   "property": "C266",
   "status": "proved",
   "theorems": [
    "Paradiseo.Factory.C266_truncated",
    "Paradiseo.Factory.C266_negative",
    "Paradiseo.Factory.C266_off"
   ],
   "note": ""
  },
  {
   "property": "C267",
   "status": "proved",
   "theorems": [
    "Paradiseo.Persist.C267_vector",
    "Paradiseo.Persist.C267_population",
    "Paradiseo.Persist.C267_saved",
    "Paradiseo.Persist.C267_words",
    "Paradiseo.Persist.C267_dual",
    "Paradiseo.Persist.C267_dual_alone"
   ],
   "note": ""
  },
  {
   "property": "C268",
   "status": "proved",
   "theorems": [
    "Paradiseo.Persist.C268_bits",
    "Paradiseo.Persist.C268_empty",
    "Paradiseo.Persist.C268_iff",
    "Paradiseo.Persist.C268_saved",
    "Paradiseo.Persist.C268_mixed"
   ],
   "note": ""
  },
  {
   "property": "C269",
   "status": "proved",
   "theorems": [
    "Paradiseo.Persist.C269_evaluated",
    "Paradiseo.Persist.C269_vector",
    "Paradiseo.Persist.C269_population",
    "Paradiseo.Persist.C269_truncated"
   ],
   "note": ""
  },
  {
   "property": "C270",
   "status": "proved",
   "theorems": [
    "Paradiseo.Persist.C270_simple",
    "Paradiseo.Persist.C270_stdev",
    "Paradiseo.Persist.C270_full",
    "Paradiseo.Persist.C270_mismatch"
   ],
   "note": ""
  },
  {
   "property": "C271",
   "status": "proved",
   "theorems": [
    "Paradiseo.Persist.C271_virus",
    "Paradiseo.Persist.C271_virus_cout",
    "Paradiseo.Persist.C271_aged_vector",
    "Paradiseo.Persist.C271_aged_bits",
    "Paradiseo.Persist.C271_string",
    "Paradiseo.Persist.C271_strings",
    "Paradiseo.Persist.C271_particle"
   ],
   "note": ""
  },
  {
   "property": "C272",
   "status": "proved",
   "theorems": [
    "Paradiseo.Persist.C272_vector",
    "Paradiseo.Persist.C272_bits",
    "Paradiseo.Persist.C272_kept",
    "Paradiseo.Persist.C272_population",
    "Paradiseo.Persist.C272_objectives"
   ],
   "note": ""
  },
  {
   "property": "C273",
   "status": "proved",
   "theorems": [
    "Paradiseo.Persist.C273_undefined",
    "Paradiseo.Persist.C273_rejected",
    "Paradiseo.Persist.C273_asserted"
   ],
   "note": ""
  },
  {
   "property": "C274",
   "status": "proved",
   "theorems": [
    "Paradiseo.Persist.C274_restored",
    "Paradiseo.Persist.C274_negative"
   ],
   "note": ""
  },
  {
   "property": "C275",
   "status": "proved",
   "theorems": [
    "Paradiseo.BoundText.C275_restored",
    "Paradiseo.BoundText.C275_extended",
    "Paradiseo.BoundText.C275_size",
    "Paradiseo.BoundText.C275_no_bracket",
    "Paradiseo.BoundText.C275_negative_count",
    "Paradiseo.BoundText.C275_count",
    "Paradiseo.BoundText.C275_infinity",
    "Paradiseo.BoundText.C275_blank",
    "Paradiseo.BoundText.C275_first_word",
    "Paradiseo.BoundText.C275_round"
   ],
   "note": ""
  },
  {
   "property": "C276",
   "status": "proved",
   "theorems": [
    "Paradiseo.BoundText.C276_restored",
    "Paradiseo.BoundText.C276_brackets",
    "Paradiseo.BoundText.C276_legal",
    "Paradiseo.BoundText.C276_thrown",
    "Paradiseo.BoundText.C276_integer",
    "Paradiseo.BoundText.C276_separators",
    "Paradiseo.BoundText.C276_unread"
   ],
   "note": ""
  },
  {
   "property": "C277",
   "status": "proved",
   "theorems": [
    "Paradiseo.RealToInt.C277_truncate",
    "Paradiseo.RealToInt.C277_folds",
    "Paradiseo.RealToInt.C277_unchanged",
    "Paradiseo.RealToInt.C277_small_moves",
    "Paradiseo.RealToInt.C277_sizes",
    "Paradiseo.RealToInt.C277_asserted",
    "Paradiseo.RealToInt.C277_quad",
    "Paradiseo.RealToInt.C277_init"
   ],
   "note": ""
  },
  {
   "property": "C278",
   "status": "proved",
   "theorems": [
    "Paradiseo.VirusOps.C278_bit_flip",
    "Paradiseo.VirusOps.C278_mutation",
    "Paradiseo.VirusOps.C278_transmission",
    "Paradiseo.VirusOps.C278_short",
    "Paradiseo.VirusOps.C278_shift",
    "Paradiseo.VirusOps.C278_second_place",
    "Paradiseo.VirusOps.C278_sweep",
    "Paradiseo.VirusOps.C278_init"
   ],
   "note": ""
  },
  {
   "property": "C279",
   "status": "proved",
   "theorems": [
    "Paradiseo.ESCommand.C279_variables",
    "Paradiseo.ESCommand.C279_none",
    "Paradiseo.ESCommand.C279_percent",
    "Paradiseo.ESCommand.C279_plain",
    "Paradiseo.ESCommand.C279_saved",
    "Paradiseo.ESCommand.C279_more_bounds",
    "Paradiseo.ESCommand.C279_only_percent",
    "Paradiseo.ESCommand.C279_unbounded"
   ],
   "note": ""
  },
  {
   "property": "C280",
   "status": "proved",
   "theorems": [
    "Paradiseo.ESCommand.C280_built",
    "Paradiseo.ESCommand.C280_unknown",
    "Paradiseo.ESCommand.C280_short_C",
    "Paradiseo.ESCommand.C280_short_C_number",
    "Paradiseo.ESCommand.C280_short_S",
    "Paradiseo.ESCommand.C280_short_B",
    "Paradiseo.ESCommand.C280_bounds"
   ],
   "note": ""
  },
  {
   "property": "C281",
   "status": "proved",
   "theorems": [
    "Paradiseo.ESCommand.C281_simple",
    "Paradiseo.ESCommand.C281_stdev",
    "Paradiseo.ESCommand.C281_order",
    "Paradiseo.ESCommand.C281_smaller"
   ],
   "note": ""
  },
  {
   "property": "C282",
   "status": "proved",
   "theorems": [
    "Paradiseo.ESCommand.C282_copy",
    "Paradiseo.ESCommand.C282_copy_reads",
    "Paradiseo.ESCommand.C282_original_reads"
   ],
   "note": ""
  },
  {
   "property": "C283",
   "status": "proved",
   "theorems": [
    "Paradiseo.FlipNbh.C283_bits",
    "Paradiseo.FlipNbh.C283_move",
    "Paradiseo.FlipNbh.C283_same",
    "Paradiseo.FlipNbh.C283_visited",
    "Paradiseo.FlipNbh.C283_best",
    "Paradiseo.FlipNbh.C283_no_neighbor",
    "Paradiseo.FlipNbh.C283_one"
   ],
   "note": ""
  },
  {
   "property": "C284",
   "status": "proved",
   "theorems": [
    "Paradiseo.Fuzzy.C284_all",
    "Paradiseo.Fuzzy.C284_both",
    "Paradiseo.Fuzzy.C284_max",
    "Paradiseo.Fuzzy.C284_only_max",
    "Paradiseo.Fuzzy.C284_maximised",
    "Paradiseo.Fuzzy.C284_equal",
    "Paradiseo.Fuzzy.C284_bert_zero",
    "Paradiseo.Fuzzy.C284_bert_symm",
    "Paradiseo.Fuzzy.C284_bert_average",
    "Paradiseo.Fuzzy.C284_expected_zero"
   ],
   "note": ""
  },
  {
   "property": "C285",
   "status": "proved",
   "theorems": [
    "Paradiseo.IvLib.C285_contains",
    "Paradiseo.IvLib.C285_div",
    "Paradiseo.IvLib.C285_div_zero",
    "Paradiseo.IvLib.C285_div_number",
    "Paradiseo.IvLib.C285_unary",
    "Paradiseo.IvLib.C285_sqrt",
    "Paradiseo.IvLib.C285_opposite",
    "Paradiseo.IvLib.C285_image",
    "Paradiseo.IvLib.C285_div_image",
    "Paradiseo.IvLib.C285_nearest",
    "Paradiseo.IvLib.C285_pow",
    "Paradiseo.IvLib.C285_pow_unsound",
    "Paradiseo.IvLib.C285_fmod",
    "Paradiseo.IvLib.C285_fmod_counter",
    "Paradiseo.IvLib.C285_sqrt_image"
   ],
   "note": ""
  },
  {
   "property": "C286",
   "status": "proved",
   "theorems": [
    "Paradiseo.IvLib.C286_in",
    "Paradiseo.IvLib.C286_empty",
    "Paradiseo.IvLib.C286_subset",
    "Paradiseo.IvLib.C286_equal",
    "Paradiseo.IvLib.C286_proper",
    "Paradiseo.IvLib.C286_intersect",
    "Paradiseo.IvLib.C286_hull",
    "Paradiseo.IvLib.C286_overlap",
    "Paradiseo.IvLib.C286_singleton",
    "Paradiseo.IvLib.C286_bisect",
    "Paradiseo.IvLib.C286_max_min",
    "Paradiseo.IvLib.C286_compare",
    "Paradiseo.IvLib.C286_compare_empty",
    "Paradiseo.IvLib.C286_explicit",
    "Paradiseo.IvLib.C286_posne_empty",
    "Paradiseo.IvLib.C286_abs",
    "Paradiseo.IvLib.C286_norm",
    "Paradiseo.IvLib.C286_width"
   ],
   "note": ""
  },
  {
   "property": "C287",
   "status": "proved",
   "theorems": [
    "Paradiseo.IvLib.C287_constants",
    "Paradiseo.IvLib.C287_mono",
    "Paradiseo.IvLib.C287_mono_list",
    "Paradiseo.IvLib.C287_log",
    "Paradiseo.IvLib.C287_cos",
    "Paradiseo.IvLib.C287_sin",
    "Paradiseo.IvLib.C287_tan",
    "Paradiseo.IvLib.C287_asin",
    "Paradiseo.IvLib.C287_acos",
    "Paradiseo.IvLib.C287_cosh",
    "Paradiseo.IvLib.C287_cosh_loose",
    "Paradiseo.IvLib.C287_acosh",
    "Paradiseo.IvLib.C287_atanh",
    "Paradiseo.IvLib.C287_encloses",
    "Paradiseo.IvLib.C287_check"
   ],
   "note": ""
  },
  {
   "property": "C288",
   "status": "proved",
   "theorems": [
    "Paradiseo.MultiStart.C288_dynamic",
    "Paradiseo.MultiStart.C288_dynamic_ends",
    "Paradiseo.MultiStart.C288_static",
    "Paradiseo.MultiStart.C288_static_ends",
    "Paradiseo.MultiStart.C288_static_same",
    "Paradiseo.MultiStart.C288_dynamic_differs",
    "Paradiseo.MultiStart.C288_same_population",
    "Paradiseo.MultiStart.C288_original_population"
   ],
   "note": ""
  },
  {
   "property": "C289",
   "status": "proved",
   "theorems": [
    "Paradiseo.MultiStart.C289_sent",
    "Paradiseo.MultiStart.C289_number",
    "Paradiseo.MultiStart.C289_multiples",
    "Paradiseo.MultiStart.C289_odd",
    "Paradiseo.MultiStart.C289_even",
    "Paradiseo.MultiStart.C289_next_job"
   ],
   "note": ""
  },
  {
   "property": "C290",
   "status": "proved",
   "theorems": [
    "Paradiseo.MultiStart.C290_texts",
    "Paradiseo.MultiStart.C290_exact",
    "Paradiseo.MultiStart.C290_buffer",
    "Paradiseo.MultiStart.C290_object",
    "Paradiseo.MultiStart.C290_object_cut",
    "Paradiseo.MultiStart.C290_table",
    "Paradiseo.MultiStart.C290_broadcast"
   ],
   "note": ""
  },
  {
   "property": "C291",
   "status": "proved",
   "theorems": [
    "Paradiseo.Monitors.C291_contents",
    "Paradiseo.Monitors.C291_table",
    "Paradiseo.Monitors.C291_empty"
   ],
   "note": ""
  },
  {
   "property": "C292",
   "status": "proved",
   "theorems": [
    "Paradiseo.Monitors.C292_output",
    "Paradiseo.Monitors.C292_columns"
   ],
   "note": ""
  },
  {
   "property": "C293",
   "status": "proved",
   "theorems": [
    "Paradiseo.Monitors.C293_columns",
    "Paradiseo.Monitors.C293_single",
    "Paradiseo.Monitors.C293_files",
    "Paradiseo.Monitors.C293_frequency"
   ],
   "note": ""
  },
  {
   "property": "C294",
   "status": "proved",
   "theorems": [
    "Paradiseo.Monitors.C294_short",
    "Paradiseo.Monitors.C294_first",
    "Paradiseo.Monitors.C294_missed",
    "Paradiseo.Monitors.C294_long",
    "Paradiseo.Monitors.C294_counter"
   ],
   "note": ""
  },
  {
   "property": "C295",
   "status": "proved",
   "theorems": [
    "Paradiseo.Monitors.C295_measure",
    "Paradiseo.Monitors.C295_total",
    "Paradiseo.Monitors.C295_right",
    "Paradiseo.Monitors.C295_wrong",
    "Paradiseo.Monitors.C295_wallclock"
   ],
   "note": ""
  },
  {
   "property": "C296",
   "status": "proved",
   "theorems": [
    "Paradiseo.Monitors.C296_written",
    "Paradiseo.Monitors.C296_quiet",
    "Paradiseo.Monitors.C296_monotone",
    "Paradiseo.Monitors.C296_names",
    "Paradiseo.Monitors.C296_lost"
   ],
   "note": ""
  },
  {
   "property": "C297",
   "status": "proved",
   "theorems": [
    "Paradiseo.Monitors.C297_checkpoint",
    "Paradiseo.Monitors.C297_endless",
    "Paradiseo.Monitors.C297_function"
   ],
   "note": ""
  },
  {
   "property": "C298",
   "status": "proved",
   "theorems": [
    "Paradiseo.Monitors.C298_monitors",
    "Paradiseo.Monitors.C298_metric",
    "Paradiseo.Monitors.C298_names",
    "Paradiseo.Monitors.C298_clash"
   ],
   "note": ""
  },
  {
   "property": "C299",
   "status": "proved",
   "theorems": [
    "Paradiseo.Monitors.C299_best",
    "Paradiseo.Monitors.C299_second",
    "Paradiseo.Monitors.C299_limit"
   ],
   "note": ""
  },
  {
   "property": "C300",
   "status": "proved",
   "theorems": [
    "Paradiseo.MW.C300_same_as_sequential",
    "Paradiseo.MW.C300_population_evaluator",
    "Paradiseo.MW.C300_no_workers"
   ],
   "note": ""
  },
  {
   "property": "C301",
   "status": "proved",
   "theorems": [
    "Paradiseo.MW.C301_sync",
    "Paradiseo.MW.C301_async_becomes_sync",
    "Paradiseo.MW.C301_differs",
    "Paradiseo.MW.C301_population_evaluator"
   ],
   "note": ""
  },
  {
   "property": "C302",
   "status": "proved",
   "theorems": [
    "Paradiseo.ExternalEval.C302_output",
    "Paradiseo.ExternalEval.C302_buffer_of_one",
    "Paradiseo.ExternalEval.C302_zero_characters",
    "Paradiseo.ExternalEval.C302_valid",
    "Paradiseo.ExternalEval.C302_line",
    "Paradiseo.ExternalEval.C302_outcome",
    "Paradiseo.ExternalEval.C302_no_number"
   ],
   "note": ""
  },
  {
   "property": "C303",
   "status": "proved",
   "theorems": [
    "Paradiseo.ExternalEval.C303_valid",
    "Paradiseo.ExternalEval.C303_dialogue",
    "Paradiseo.ExternalEval.C303_same_plain_file",
    "Paradiseo.ExternalEval.C303_two_plain_files"
   ],
   "note": ""
  },
  {
   "property": "C304",
   "status": "proved",
   "theorems": [
    "Paradiseo.ExternalEval.C304_names",
    "Paradiseo.ExternalEval.C304_files",
    "Paradiseo.ExternalEval.C304_single",
    "Paradiseo.ExternalEval.C304_closed"
   ],
   "note": ""
  },
  {
   "property": "C305",
   "status": "proved",
   "theorems": [
    "Paradiseo.ExternalEval.C305_send",
    "Paradiseo.ExternalEval.C305_percent",
    "Paradiseo.ExternalEval.C305_sendn",
    "Paradiseo.ExternalEval.C305_wait_found",
    "Paradiseo.ExternalEval.C305_wait_missing",
    "Paradiseo.ExternalEval.C305_wait_without_newline",
    "Paradiseo.ExternalEval.C305_wait_long"
   ],
   "note": ""
  },
  {
   "property": "C306",
   "status": "proved",
   "theorems": [
    "Paradiseo.FoundryEA.C306_made_iff",
    "Paradiseo.FoundryEA.C306_release",
    "Paradiseo.FoundryEA.C306_two_runs",
    "Paradiseo.FoundryEA.C306_select"
   ],
   "note": ""
  },
  {
   "property": "C307",
   "status": "proved",
   "theorems": [
    "Paradiseo.FoundryEA.C307_generations",
    "Paradiseo.FoundryEA.C307_ends"
   ],
   "note": ""
  },
  {
   "property": "C308",
   "status": "proved",
   "theorems": [
    "Paradiseo.Moeo.Ibea.C308_generation",
    "Paradiseo.Moeo.Ibea.C308_run",
    "Paradiseo.Moeo.Ibea.C308_rho_one",
    "Paradiseo.Moeo.Ibea.C308_nondominated_lost"
   ],
   "note": ""
  },
  {
   "property": "C309",
   "status": "proved",
   "theorems": [
    "Paradiseo.Moeo.Ibea.C309_replace",
    "Paradiseo.Moeo.Ibea.C309_run"
   ],
   "note": ""
  },
  {
   "property": "C310",
   "status": "proved",
   "theorems": [
    "Paradiseo.Moeo.Moga.C310_generation",
    "Paradiseo.Moeo.Moga.C310_marks_stay",
    "Paradiseo.Moeo.Moga.C310_clean",
    "Paradiseo.Moeo.Moga.C310_nondominated_lost"
   ],
   "note": ""
  },
  {
   "property": "C311",
   "status": "proved",
   "theorems": [
    "Paradiseo.MakeCheckpoint.C311_lines",
    "Paradiseo.MakeCheckpoint.C311_directory"
   ],
   "note": ""
  },
  {
   "property": "C312",
   "status": "proved",
   "theorems": [
    "Paradiseo.MakeCheckpoint.C312_signal"
   ],
   "note": ""
  },
  {
   "property": "C313",
   "status": "proved",
   "theorems": [
    "Paradiseo.MakeCheckpoint.C313_states"
   ],
   "note": ""
  },
  {
   "property": "C314",
   "status": "proved",
   "theorems": [
    "Paradiseo.MakeCheckpoint.C314_fdc_crash",
    "Paradiseo.MakeCheckpoint.C314_fdc_lines",
    "Paradiseo.MakeCheckpoint.C314_assembled"
   ],
   "note": ""
  },
  {
   "property": "C315",
   "status": "proved",
   "theorems": [
    "Paradiseo.MakeCheckpoint.C315_moeo"
   ],
   "note": ""
  },
  {
   "property": "C316",
   "status": "proved",
   "theorems": [
    "Paradiseo.MakeCheckpoint.C316_missing",
    "Paradiseo.MakeCheckpoint.C316_erase",
    "Paradiseo.MakeCheckpoint.C316_refused",
    "Paradiseo.MakeCheckpoint.C316_root",
    "Paradiseo.MakeCheckpoint.C316_blank"
   ],
   "note": ""
  },
  {
   "property": "C317",
   "status": "proved",
   "theorems": [
    "Paradiseo.Exceptions.C317_what",
    "Paradiseo.Exceptions.C317_mpi",
    "Paradiseo.Exceptions.C317_message",
    "Paradiseo.Exceptions.C317_text",
    "Paradiseo.Exceptions.C317_plain"
   ],
   "note": ""
  },
  {
   "property": "C318",
   "status": "proved",
   "theorems": [
    "Paradiseo.LS.C318_one_iteration",
    "Paradiseo.LS.C318_length",
    "Paradiseo.LS.C318_default"
   ],
   "note": ""
  },
  {
   "property": "C319",
   "status": "proved",
   "theorems": [
    "Paradiseo.LS.C319_taken",
    "Paradiseo.LS.C319_stays",
    "Paradiseo.LS.C319_size_zero"
   ],
   "note": ""
  },
  {
   "property": "C320",
   "status": "proved",
   "theorems": [
    "Paradiseo.ContinueMoeo.C320_throws",
    "Paradiseo.ContinueMoeo.C320_stops",
    "Paradiseo.ContinueMoeo.C320_default"
   ],
   "note": ""
  },
  {
   "property": "C321",
   "status": "proved",
   "theorems": [
    "Paradiseo.MetricFitness.C321_population",
    "Paradiseo.MetricFitness.C321_not_evaluated",
    "Paradiseo.MetricFitness.C321_opposite",
    "Paradiseo.MetricFitness.C321_negative"
   ],
   "note": ""
  },
  {
   "property": "C322",
   "status": "proved",
   "theorems": [
    "Paradiseo.FunctorStore.C322_deletes",
    "Paradiseo.FunctorStore.C322_undefined",
    "Paradiseo.FunctorStore.C322_warning",
    "Paradiseo.FunctorStore.C322_warning_count"
   ],
   "note": ""
  },
  {
   "property": "C323",
   "status": "proved",
   "theorems": [
    "Paradiseo.EdoMonitor.C323_call"
   ],
   "note": ""
  },
  {
   "property": "C324",
   "status": "proved",
   "theorems": [
    "Paradiseo.EdoMonitor.C324_files",
    "Paradiseo.EdoMonitor.C324_constructor",
    "Paradiseo.EdoMonitor.C324_undefined"
   ],
   "note": ""
  },
  {
   "property": "C325",
   "status": "proved",
   "theorems": [
    "Paradiseo.Moeo.C325_same",
    "Paradiseo.Moeo.C325_asserted"
   ],
   "note": ""
  },
  {
   "property": "C326",
   "status": "proved",
   "theorems": [
    "Paradiseo.Irace.C326_categorical",
    "Paradiseo.Irace.C326_ranged",
    "Paradiseo.Irace.C326_generations",
    "Paradiseo.Irace.C326_undefined",
    "Paradiseo.Irace.C326_names"
   ],
   "note": ""
  },
  {
   "property": "C327",
   "status": "proved",
   "theorems": [
    "Paradiseo.Scalar.C327_manhattan",
    "Paradiseo.Scalar.C327_euclid",
    "Paradiseo.Scalar.C327_plain",
    "Paradiseo.Scalar.C327_compare",
    "Paradiseo.Scalar.C327_units",
    "Paradiseo.Scalar.C327_units_euclid"
   ],
   "note": ""
  },
  {
   "property": "C328",
   "status": "proved",
   "theorems": [
    "Paradiseo.Scalar.C328_euclid_dangling",
    "Paradiseo.Scalar.C328_manhattan_follows",
    "Paradiseo.Scalar.C328_copy"
   ],
   "note": ""
  },
  {
   "property": "C329",
   "status": "proved",
   "theorems": [
    "Paradiseo.LS.C329_recorded",
    "Paradiseo.LS.C329_undefined",
    "Paradiseo.LS.C329_table",
    "Paradiseo.LS.C329_file"
   ],
   "note": ""
  },
  {
   "property": "C330",
   "status": "proved",
   "theorems": [
    "Paradiseo.LS.C330_rows",
    "Paradiseo.LS.C330_walk"
   ],
   "note": ""
  },
  {
   "property": "C331",
   "status": "proved",
   "theorems": [
    "Paradiseo.LS.C331_order",
    "Paradiseo.LS.C331_minimised",
    "Paradiseo.LS.C331_series"
   ],
   "note": ""
  },
  {
   "property": "C332",
   "status": "proved",
   "theorems": [
    "Paradiseo.EO.C332_nan",
    "Paradiseo.EO.C332_nan_again",
    "Paradiseo.EO.C332_time",
    "Paradiseo.EO.C332_counter"
   ],
   "note": ""
  },
  {
   "property": "C333",
   "status": "proved",
   "theorems": [
    "Paradiseo.EO.C333_round",
    "Paradiseo.EO.C333_shares",
    "Paradiseo.EO.C333_sizes",
    "Paradiseo.EO.C333_trunc",
    "Paradiseo.EO.C333_copy",
    "Paradiseo.EO.C333_best",
    "Paradiseo.EO.C333_rate",
    "Paradiseo.EO.C333_tournament"
   ],
   "note": ""
  },
  {
   "property": "C334",
   "status": "proved",
   "theorems": [
    "Paradiseo.LS.C334_default",
    "Paradiseo.LS.C334_last",
    "Paradiseo.LS.C334_step",
    "Paradiseo.LS.C334_strict",
    "Paradiseo.LS.C334_never"
   ],
   "note": ""
  },
  {
   "property": "C335",
   "status": "proved",
   "theorems": [
    "Paradiseo.LS.C335_rows",
    "Paradiseo.LS.C335_columns"
   ],
   "note": ""
  },
  {
   "property": "C336",
   "status": "proved",
   "theorems": [
    "Paradiseo.LS.C336_metropolis",
    "Paradiseo.LS.C336_random"
   ],
   "note": ""
  },
  {
   "property": "C337",
   "status": "proved",
   "theorems": [
    "Paradiseo.FlowShop.C337_schedule",
    "Paradiseo.FlowShop.C337_large_delay",
    "Paradiseo.FlowShop.C337_negative_due",
    "Paradiseo.FlowShop.C337_undefined"
   ],
   "note": ""
  },
  {
   "property": "C338",
   "status": "proved",
   "theorems": [
    "Paradiseo.FlowShop.C338_offspring",
    "Paradiseo.FlowShop.C338_never_ends",
    "Paradiseo.FlowShop.C338_ends"
   ],
   "note": ""
  },
  {
   "property": "C339",
   "status": "proved",
   "theorems": [
    "Paradiseo.FlowShop.C339_read",
    "Paradiseo.FlowShop.C339_missing_repeated",
    "Paradiseo.FlowShop.C339_missing_thrown",
    "Paradiseo.FlowShop.C339_short_line"
   ],
   "note": ""
  },
  {
   "property": "C340",
   "status": "proved",
   "theorems": [
    "Paradiseo.Mastermind.C340_score",
    "Paradiseo.Mastermind.C340_optimum",
    "Paradiseo.Mastermind.C340_at_least",
    "Paradiseo.Mastermind.C340_distinct",
    "Paradiseo.Mastermind.C340_wrong_order",
    "Paradiseo.Mastermind.C340_too_long"
   ],
   "note": ""
  },
  {
   "property": "C341",
   "status": "proved",
   "theorems": [
    "Paradiseo.Mastermind.C341_closed",
    "Paradiseo.Mastermind.C341_crossover",
    "Paradiseo.Mastermind.C341_accepted",
    "Paradiseo.Mastermind.C341_unreachable",
    "Paradiseo.Mastermind.C341_reachable",
    "Paradiseo.Mastermind.C341_ignored"
   ],
   "note": ""
  },
  {
   "property": "C342",
   "status": "proved",
   "theorems": [
    "Paradiseo.QapTutorial.C342_create",
    "Paradiseo.QapTutorial.C342_crossover",
    "Paradiseo.QapTutorial.C342_mutation"
   ],
   "note": ""
  },
  {
   "property": "C343",
   "status": "proved",
   "theorems": [
    "Paradiseo.QapTutorial.C343_copy",
    "Paradiseo.QapTutorial.C343_assign_unevaluated",
    "Paradiseo.QapTutorial.C343_stale",
    "Paradiseo.QapTutorial.C343_cost_sum",
    "Paradiseo.QapTutorial.C343_names"
   ],
   "note": ""
  },
  {
   "property": "C344",
   "status": "proved",
   "theorems": [
    "Paradiseo.Mlp.C344_returned",
    "Paradiseo.Mlp.C344_never_accepted",
    "Paradiseo.Mlp.C344_no_epochs",
    "Paradiseo.Mlp.C344_mse",
    "Paradiseo.Mlp.C344_bound"
   ],
   "note": ""
  },
  {
   "property": "C345",
   "status": "proved",
   "theorems": [
    "Paradiseo.Mlp.C345_gradient",
    "Paradiseo.Mlp.C345_step",
    "Paradiseo.Mlp.C345_sizes"
   ],
   "note": ""
  },
  {
   "property": "C346",
   "status": "proved",
   "theorems": [
    "Paradiseo.Mpi.C346_dynamic",
    "Paradiseo.Mpi.C346_static"
   ],
   "note": ""
  },
  {
   "property": "C347",
   "status": "proved",
   "theorems": [
    "Paradiseo.Mpi.C347_static_default"
   ],
   "note": ""
  },
  {
   "property": "C348",
   "status": "proved",
   "theorems": [
    "Paradiseo.Mlp.C348_accepted",
    "Paradiseo.Mlp.C348_refused",
    "Paradiseo.Mlp.C348_momentum",
    "Paradiseo.Mlp.C348_training"
   ],
   "note": ""
  },
  {
   "property": "C349",
   "status": "proved",
   "theorems": [
    "Paradiseo.Mlp.C349_shape",
    "Paradiseo.Mlp.C349_sizes",
    "Paradiseo.Mlp.C349_length",
    "Paradiseo.Mlp.C349_outputs"
   ],
   "note": ""
  },
  {
   "property": "C350",
   "status": "proved",
   "theorems": [
    "Paradiseo.Mlp.C350_net",
    "Paradiseo.Mlp.C350_net_unreadable",
    "Paradiseo.Mlp.C350_set",
    "Paradiseo.Mlp.C350_set_empty",
    "Paradiseo.Mlp.C350_set_forever"
   ],
   "note": ""
  },
  {
   "property": "C351",
   "status": "proved",
   "theorems": [
    "Paradiseo.Mlp.C351_normalize",
    "Paradiseo.Mlp.C351_norm_zero",
    "Paradiseo.Mlp.C351_correct",
    "Paradiseo.Mlp.C351_hidden",
    "Paradiseo.Mlp.C351_desaturate",
    "Paradiseo.Mlp.C351_perturb_num",
    "Paradiseo.Mlp.C351_perturb",
    "Paradiseo.Mlp.C351_perturb_neuron",
    "Paradiseo.Mlp.C351_distance",
    "Paradiseo.Mlp.C351_perturb_some",
    "Paradiseo.Mlp.C351_desaturate_net",
    "Paradiseo.Mlp.C351_xover",
    "Paradiseo.Mlp.C351_mutation"
   ],
   "note": ""
  },
  {
   "property": "C352",
   "status": "proved",
   "theorems": [
    "Paradiseo.Mlp.C352_order",
    "Paradiseo.Mlp.C352_nan",
    "Paradiseo.Mlp.C352_correct"
   ],
   "note": ""
  },
  {
   "property": "C353",
   "status": "proved",
   "theorems": [
    "Paradiseo.GpSymreg.C353_text",
    "Paradiseo.GpSymreg.C353_value",
    "Paradiseo.GpSymreg.C353_best"
   ],
   "note": ""
  },
  {
   "property": "C354",
   "status": "proved",
   "theorems": [
    "Paradiseo.GpSymreg.C354_points",
    "Paradiseo.GpSymreg.C354_error",
    "Paradiseo.GpSymreg.C354_objectives",
    "Paradiseo.GpSymreg.C354_target"
   ],
   "note": ""
  },
  {
   "property": "C355",
   "status": "proved",
   "theorems": [
    "Paradiseo.OpAdapters.C355_truth",
    "Paradiseo.OpAdapters.C355_coin",
    "Paradiseo.OpAdapters.C355_child",
    "Paradiseo.OpAdapters.C355_mon",
    "Paradiseo.OpAdapters.C355_text",
    "Paradiseo.OpAdapters.C355_eval",
    "Paradiseo.OpAdapters.C355_kept",
    "Paradiseo.OpAdapters.C355_stale"
   ],
   "note": ""
  },
  {
   "property": "C356",
   "status": "proved",
   "theorems": [
    "Paradiseo.OpAdapters.C356_runs",
    "Paradiseo.OpAdapters.C356_numbers"
   ],
   "note": ""
  },
  {
   "property": "C357",
   "status": "proved",
   "theorems": [
    "Paradiseo.Gnuplot.C357_pipe",
    "Paradiseo.Gnuplot.C357_plot",
    "Paradiseo.Gnuplot.C357_columns",
    "Paradiseo.Gnuplot.C357_monitor",
    "Paradiseo.Gnuplot.C357_few",
    "Paradiseo.Gnuplot.C357_percent"
   ],
   "note": ""
  },
  {
   "property": "C358",
   "status": "proved",
   "theorems": [
    "Paradiseo.Gnuplot.C358_commands",
    "Paradiseo.Gnuplot.C358_titles"
   ],
   "note": ""
  },
  {
   "property": "C359",
   "status": "proved",
   "theorems": [
    "Paradiseo.MathSym.C359_value",
    "Paradiseo.MathSym.C359_unique",
    "Paradiseo.MathSym.C359_no_lambda",
    "Paradiseo.MathSym.C359_inverse_of_lambda"
   ],
   "note": ""
  },
  {
   "property": "C360",
   "status": "proved",
   "theorems": [
    "Paradiseo.MathSym.C360_names",
    "Paradiseo.MathSym.C360_values",
    "Paradiseo.MathSym.C360_deterministic",
    "Paradiseo.MathSym.C360_shared"
   ],
   "note": ""
  },
  {
   "property": "C361",
   "status": "proved",
   "theorems": [
    "Paradiseo.MathSym.C361_texts",
    "Paradiseo.MathSym.C361_each",
    "Paradiseo.MathSym.C361_values"
   ],
   "note": ""
  },
  {
   "property": "C362",
   "status": "proved",
   "theorems": [
    "Paradiseo.SharedPtr.C362_safe",
    "Paradiseo.SharedPtr.C362_alive",
    "Paradiseo.SharedPtr.C362_deleted_once",
    "Paradiseo.SharedPtr.C362_refcount",
    "Paradiseo.SharedPtr.C362_assign",
    "Paradiseo.SharedPtr.C362_adopt_twice",
    "Paradiseo.SharedPtr.C362_lock_too_late"
   ],
   "note": ""
  },
  {
   "property": "C363",
   "status": "proved",
   "theorems": [
    "Paradiseo.MathSym.Dag.C363_safe",
    "Paradiseo.MathSym.Dag.C363_values",
    "Paradiseo.MathSym.Dag.C363_equal",
    "Paradiseo.MathSym.Dag.C363_shared",
    "Paradiseo.MathSym.Dag.C363_empty",
    "Paradiseo.MathSym.Dag.C363_refcount",
    "Paradiseo.MathSym.Dag.C363_tokens",
    "Paradiseo.MathSym.Dag.C363_own_argument"
   ],
   "note": ""
  },
  {
   "property": "C364",
   "status": "proved",
   "theorems": [
    "Paradiseo.MathSym.Dag.C364_size",
    "Paradiseo.MathSym.Dag.C364_depth_bounds",
    "Paradiseo.MathSym.Dag.C364_depth",
    "Paradiseo.MathSym.Dag.C364_depth_history"
   ],
   "note": ""
  },
  {
   "property": "C365",
   "status": "proved",
   "theorems": [
    "Paradiseo.MathSym.Symreg.C365_language",
    "Paradiseo.MathSym.Symreg.C365_names",
    "Paradiseo.MathSym.Symreg.C365_groups",
    "Paradiseo.MathSym.Symreg.C365_start"
   ],
   "note": ""
  },
  {
   "property": "C366",
   "status": "proved",
   "theorems": [
    "Paradiseo.MathSym.Symreg.C366_sum",
    "Paradiseo.MathSym.Symreg.C366_dag",
    "Paradiseo.MathSym.Symreg.C366_dag_population",
    "Paradiseo.MathSym.Symreg.C366_dag_le_sum",
    "Paradiseo.MathSym.Symreg.C366_offspring_counted"
   ],
   "note": ""
  },
  {
   "property": "C367",
   "status": "proved",
   "theorems": [
    "Paradiseo.Dataset.C367_file",
    "Paradiseo.Dataset.C367_table",
    "Paradiseo.Dataset.C367_last_line",
    "Paradiseo.Dataset.C367_unreadable",
    "Paradiseo.Dataset.C367_bad_input",
    "Paradiseo.Dataset.C367_no_data",
    "Paradiseo.Dataset.C367_box",
    "Paradiseo.Dataset.C367_checked"
   ],
   "note": ""
  },
  {
   "property": "C368",
   "status": "proved",
   "theorems": [
    "Paradiseo.IvLib.C368_certain",
    "Paradiseo.IvLib.C368_possible",
    "Paradiseo.IvLib.C368_tribool",
    "Paradiseo.IvLib.C368_lexicographic",
    "Paradiseo.IvLib.C368_lexicographic_eq",
    "Paradiseo.IvLib.C368_set",
    "Paradiseo.IvLib.C368_throws",
    "Paradiseo.IvLib.C368_number",
    "Paradiseo.IvLib.C368_scalar"
   ],
   "note": ""
  },
  {
   "property": "C369",
   "status": "proved",
   "theorems": [
    "Paradiseo.LS.C369_distance",
    "Paradiseo.LS.C369_degree",
    "Paradiseo.LS.C369_isolated"
   ],
   "note": ""
  },
  {
   "property": "C370",
   "status": "proved",
   "theorems": [
    "Paradiseo.Smp.C370_total",
    "Paradiseo.Smp.C370_ends",
    "Paradiseo.Smp.C370_any_share",
    "Paradiseo.Smp.C370_emigrations",
    "Paradiseo.Smp.C370_one_emigrates"
   ],
   "note": ""
  },
  {
   "property": "C371",
   "status": "proved",
   "theorems": [
    "Paradiseo.EO.C371_det",
    "Paradiseo.EO.C371_det_level",
    "Paradiseo.EO.C371_det_rank",
    "Paradiseo.EO.C371_stoch"
   ],
   "note": ""
  },
  {
   "property": "C372",
   "status": "proved",
   "theorems": [
    "Paradiseo.Nbh.C372_order",
    "Paradiseo.Nbh.C372_hypotheses"
   ],
   "note": ""
  },
  {
   "property": "C373",
   "status": "proved",
   "theorems": [
    "Paradiseo.ShuffleLaw.C373_sus",
    "Paradiseo.ShuffleLaw.C373_qap",
    "Paradiseo.ShuffleLaw.C373_detSingle_order",
    "Paradiseo.ShuffleLaw.C373_detSingle_bits"
   ],
   "note": ""
  },
  {
   "property": "C374",
   "status": "proved",
   "theorems": [
    "Paradiseo.Ops.C374_two",
    "Paradiseo.Ops.C374_points",
    "Paradiseo.Ops.C374_detBitFlip"
   ],
   "note": ""
  },
  {
   "property": "C375",
   "status": "proved",
   "theorems": [
    "Paradiseo.LS.C375_involutive",
    "Paradiseo.LS.C375_annealing",
    "Paradiseo.LS.C375_annealing_min",
    "Paradiseo.LS.C375_metropolis"
   ],
   "note": ""
  },
  {
   "property": "C376",
   "status": "proved",
   "theorems": [
    "Paradiseo.EO.C376_bound",
    "Paradiseo.EO.C376_limit",
    "Paradiseo.EO.C376_total",
    "Paradiseo.EO.C376_plus",
    "Paradiseo.EO.C376_weak"
   ],
   "note": ""
  },
  {
   "property": "C377",
   "status": "proved",
   "theorems": [
    "Paradiseo.LS.C377_random_walk",
    "Paradiseo.LS.C377_full"
   ],
   "note": ""
  },
  {
   "property": "C378",
   "status": "proved",
   "theorems": [
    "Paradiseo.Nbh.C378_swap",
    "Paradiseo.Nbh.C378_twoOpt",
    "Paradiseo.Nbh.C378_shift",
    "Paradiseo.Nbh.C378_indexed_swap",
    "Paradiseo.Nbh.C378_bits"
   ],
   "note": ""
  },
  {
   "property": "C379",
   "status": "proved",
   "theorems": [
    "Paradiseo.Ops.C379_mutation",
    "Paradiseo.Ops.C379_crossover"
   ],
   "note": ""
  },
  {
   "property": "C380",
   "status": "proved",
   "theorems": [
    "Paradiseo.LS.C380_annealing",
    "Paradiseo.LS.C380_annealing_min",
    "Paradiseo.LS.C380_metropolis",
    "Paradiseo.LS.C380_exists",
    "Paradiseo.LS.C380_needs_connection"
   ],
   "note": ""
  },
  {
   "property": "C381",
   "status": "proved",
   "theorems": [
    "Paradiseo.LS.C381_order",
    "Paradiseo.LS.C381_interval_two"
   ],
   "note": ""
  },
  {
   "property": "C382",
   "status": "proved",
   "theorems": [
    "Paradiseo.LS.C382_target",
    "Paradiseo.LS.C382_climber",
    "Paradiseo.LS.C382_start_not_tested"
   ],
   "note": ""
  },
  {
   "property": "C383",
   "status": "proved",
   "theorems": [
    "Paradiseo.LS.C383_annealing_run",
    "Paradiseo.LS.C383_metropolis_run",
    "Paradiseo.LS.C383_annealing",
    "Paradiseo.LS.C383_annealing_min",
    "Paradiseo.LS.C383_metropolis",
    "Paradiseo.LS.C383_needs_variation"
   ],
   "note": ""
  },
  {
   "property": "C384",
   "status": "proved",
   "theorems": [
    "Paradiseo.Moeo.Ea.C384_seea",
    "Paradiseo.Moeo.Ea.C384_aseea",
    "Paradiseo.Moeo.Ea.C384_limit"
   ],
   "note": ""
  },
  {
   "property": "C385",
   "status": "proved",
   "theorems": [
    "Paradiseo.LS.C385_swap",
    "Paradiseo.LS.C385_shift",
    "Paradiseo.LS.C385_twoOpt",
    "Paradiseo.LS.C385_implemented"
   ],
   "note": ""
  },
  {
   "property": "C386",
   "status": "proved",
   "theorems": [
    "Paradiseo.EO.C386_stuck",
    "Paradiseo.EO.C386_near"
   ],
   "note": ""
  },
  {
   "property": "C387",
   "status": "proved",
   "theorems": [
    "Paradiseo.LS.C387_onemax",
    "Paradiseo.LS.C387_royal_road"
   ],
   "note": ""
  },
  {
   "property": "C388",
   "status": "proved",
   "theorems": [
    "Paradiseo.LS.C388_walk",
    "Paradiseo.LS.C388_end"
   ],
   "note": ""
  },
  {
   "property": "C389",
   "status": "proved",
   "theorems": [
    "Paradiseo.LS.C389_sat",
    "Paradiseo.LS.C389_incremental"
   ],
   "note": ""
  },
  {
   "property": "C390",
   "status": "proved",
   "theorems": [
    "Paradiseo.LS.C390_climbers",
    "Paradiseo.LS.C390_tabu",
    "Paradiseo.LS.C390_not_metropolis",
    "Paradiseo.EO.C390_selection",
    "Paradiseo.EO.C390_replacement",
    "Paradiseo.EO.C390_not_roulette"
   ],
   "note": ""
  },
  {
   "property": "C391",
   "status": "proved",
   "theorems": [
    "Paradiseo.Moeo.C391_comparators",
    "Paradiseo.Moeo.C391_no_tolerance",
    "Paradiseo.Moeo.C391_sign_shift",
    "Paradiseo.Moeo.C391_not_unit",
    "Paradiseo.Moeo.C391_not_lex",
    "Paradiseo.Moeo.C391_not_eps",
    "Paradiseo.Moeo.C391_archive",
    "Paradiseo.Moeo.C391_ranks",
    "Paradiseo.Moeo.Dmls.C391_select",
    "Paradiseo.Moeo.Dmls.C391_dmls"
   ],
   "note": ""
  },
  {
   "property": "C392",
   "status": "proved",
   "theorems": [
    "Paradiseo.Run.C392_run",
    "Paradiseo.Run.C392_replacements",
    "Paradiseo.Run.C392_continuators",
    "Paradiseo.Run.C392_breeding"
   ],
   "note": ""
  },
  {
   "property": "C393",
   "status": "proved",
   "theorems": [
    "Paradiseo.Ops.C393_mutations",
    "Paradiseo.Ops.C393_crossovers",
    "Paradiseo.Ops.C393_not_inversion",
    "Paradiseo.Run.C393_run"
   ],
   "note": ""
  },
  {
   "property": "C394",
   "status": "proved",
   "theorems": [
    "Paradiseo.Pso.C394_run",
    "Paradiseo.Pso.C394_start_and_end",
    "Paradiseo.Pso.C394_free",
    "Paradiseo.Pso.C394_boxes",
    "Paradiseo.Pso.C394_integer",
    "Paradiseo.Pso.C394_integer_not_scaled",
    "Paradiseo.Pso.C394_bounded_not_turned"
   ],
   "note": ""
  },
  {
   "property": "C395",
   "status": "proved",
   "theorems": [
    "Paradiseo.Ops.C395_mutations",
    "Paradiseo.Ops.C395_crossovers",
    "Paradiseo.Ops.C395_not_from_one",
    "Paradiseo.Nbh.C395_moves",
    "Paradiseo.Run.C395_run"
   ],
   "note": ""
  },
  {
   "property": "C396",
   "status": "proved",
   "theorems": [
    "Paradiseo.LS.C396_search",
    "Paradiseo.LS.C396_climbers",
    "Paradiseo.LS.C396_annealing",
    "Paradiseo.LS.C396_tabu",
    "Paradiseo.LS.C396_problems"
   ],
   "note": ""
  },
  {
   "property": "C397",
   "status": "proved",
   "theorems": [
    "Paradiseo.ES.C397_mutations",
    "Paradiseo.ES.C397_crossovers",
    "Paradiseo.ES.C397_det_not",
    "Paradiseo.ES.C397_sbx",
    "Paradiseo.ES.C397_es_origin",
    "Paradiseo.ES.C397_es_unit",
    "Paradiseo.Run.C397_run"
   ],
   "note": ""
  },
  {
   "property": "C398",
   "status": "proved",
   "theorems": [
    "Paradiseo.Edo.C398_uniform",
    "Paradiseo.Edo.C398_normal",
    "Paradiseo.Edo.C398_cholesky",
    "Paradiseo.Edo.C398_multi",
    "Paradiseo.Edo.C398_multi_origin",
    "Paradiseo.Edo.C398_run",
    "Paradiseo.Edo.C398_box_run"
   ],
   "note": ""
  },
  {
   "property": "C399",
   "status": "proved",
   "theorems": [
    "Paradiseo.EO.C399_levels",
    "Paradiseo.EO.C399_onemax",
    "Paradiseo.EO.C399_usual_rate",
    "Paradiseo.EO.C399_expectation"
   ],
   "note": ""
  },
  {
   "property": "C400",
   "status": "proved",
   "theorems": [
    "Paradiseo.EO.C400_royal_road",
    "Paradiseo.EO.C400_usual_rate",
    "Paradiseo.EO.C400_any"
   ],
   "note": ""
  },
  {
   "property": "C401",
   "status": "proved",
   "theorems": [
    "Paradiseo.EO.C401_no_trap",
    "Paradiseo.EO.C401_long_path",
    "Paradiseo.EO.C401_usual_rate"
   ],
   "note": ""
  },
  {
   "property": "C402",
   "status": "proved",
   "theorems": [
    "Paradiseo.EO.C402_trap",
    "Paradiseo.EO.C402_trap_expectation",
    "Paradiseo.EO.C402_half",
    "Paradiseo.EO.C402_lower",
    "Paradiseo.EO.C402_deceptive"
   ],
   "note": ""
  },
  {
   "property": "C403",
   "status": "proved",
   "theorems": [
    "Paradiseo.EO.C403_onemax"
   ],
   "note": ""
  },
  {
   "property": "C404",
   "status": "proved",
   "theorems": [
    "Paradiseo.Ops.C404_mutation",
    "Paradiseo.Ops.C404_mutation_keeps",
    "Paradiseo.Ops.C404_uniform",
    "Paradiseo.Ops.C404_one_point"
   ],
   "note": ""
  },
  {
   "property": "C405",
   "status": "proved",
   "theorems": [
    "Paradiseo.Nbh.C405_visited",
    "Paradiseo.Nbh.C405_uniform",
    "Paradiseo.Nbh.C405_miss",
    "Paradiseo.Nbh.C405_never_sure",
    "Paradiseo.Nbh.C405_climber"
   ],
   "note": ""
  },
  {
   "property": "C406",
   "status": "proved",
   "theorems": [
    "Paradiseo.Nbh.C406_fair",
    "Paradiseo.Nbh.C406_count"
   ],
   "note": ""
  }
 ]
}