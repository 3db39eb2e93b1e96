{
 "claims": [
  {
   "property": "C01",
   "status": "proved",
   "theorems": [
    "Verif.C01_l0_prox_best_sparse",
    "Verif.C01_l0_value"
   ],
   "note": ""
  },
  {
   "property": "C02",
   "status": "proved",
   "theorems": [
    "Verif.C02_l0_prox_weights",
    "Verif.C02_l0_prox_none"
   ],
   "note": ""
  },
  {
   "property": "C03",
   "status": "proved",
   "theorems": [
    "Verif.C03_l1_prox_unique_min"
   ],
   "note": ""
  },
  {
   "property": "C04",
   "status": "partial",
   "theorems": [
    "Verif.C04_l1_value_partial",
    "Verif.C04_l1_value_violated",
    "Verif.C04_l1_iff",
    "Verif.C04_l1_all_iff"
   ],
   "note": "The code violates the full claim: with weights attached, value drops lam. Witness proved; holds without weights or with lam=1. C04_l1_iff and C04_l1_all_iff give exactly the inputs and the parameters for which prox minimises with that value."
  },
  {
   "property": "C05",
   "status": "partial",
   "theorems": [
    "Verif.C05_cad_exact_partial",
    "Verif.C05_cad_violated",
    "Verif.C05_cad_iff",
    "Verif.C05_cad_none_iff"
   ],
   "note": "The code violates the full claim in the band rho < |x| < rho + alpha*lam/2. Witness proved; C05_cad_iff and C05_cad_none_iff say exactly for which inputs, strengths and weights the prox is a minimiser."
  },
  {
   "property": "C06",
   "status": "partial",
   "theorems": [
    "Verif.C06_scad_exact_partial",
    "Verif.C06_scad_nan",
    "Verif.C06_scad_violated",
    "Verif.C06_scad_iff"
   ],
   "note": "Exact in the strongly convex regime; 0/0 at alpha*lam*w = rho-1 and a non-minimiser beyond it are proved. C06_scad_iff says exactly for which inputs, steps, strengths and weights the prox is a minimiser."
  },
  {
   "property": "C07",
   "status": "proved",
   "theorems": [
    "Verif.C07_l1_shape",
    "Verif.C07_cad_shape",
    "Verif.C07_scad_shape"
   ],
   "note": ""
  },
  {
   "property": "C08",
   "status": "proved",
   "theorems": [
    "Verif.C08_elastic_exact",
    "Verif.C08_ridge_exact"
   ],
   "note": ""
  },
  {
   "property": "C09",
   "status": "proved",
   "theorems": [
    "Verif.C09_positive_quadrant"
   ],
   "note": ""
  },
  {
   "property": "C10",
   "status": "proved",
   "theorems": [
    "Verif.C10_positive_quadrant_exact"
   ],
   "note": ""
  },
  {
   "property": "C11",
   "status": "proved",
   "theorems": [
    "Verif.C11_weight_zero_untouched"
   ],
   "note": ""
  },
  {
   "property": "C12",
   "status": "proved",
   "theorems": [
    "Verif.C12_prox_shrinks",
    "Verif.C12_l1_zero_iff"
   ],
   "note": ""
  },
  {
   "property": "C13",
   "status": "proved",
   "theorems": [
    "Verif.C13_l1_prox_firmly_nonexpansive"
   ],
   "note": ""
  },
  {
   "property": "C14",
   "status": "proved",
   "theorems": [
    "Verif.C14_l0lme_budget_hierarchy",
    "Verif.C14_l0lme_value"
   ],
   "note": ""
  },
  {
   "property": "C15",
   "status": "partial",
   "theorems": [
    "Verif.C15_fresh_keeps_all",
    "Verif.C15_reuse_partial",
    "Verif.C15_reuse_violated",
    "Verif.C15_reuse_iff"
   ],
   "note": "The code violates the full claim: budgets None are frozen at the first instantiate. Holds for explicit budgets or equal sizes. C15_reuse_iff: reuse is harmless exactly when each budget is explicit or the first problem of the history has the same size."
  },
  {
   "property": "C16",
   "status": "proved",
   "theorems": [
    "Verif.C16_iterations_counted",
    "Verif.C16_returns"
   ],
   "note": ""
  },
  {
   "property": "C17",
   "status": "proved",
   "theorems": [
    "Verif.C17_converged_flag"
   ],
   "note": ""
  },
  {
   "property": "C18",
   "status": "proved",
   "theorems": [
    "Verif.C18_result_is_prox_output",
    "Verif.C18_invariant_sets"
   ],
   "note": ""
  },
  {
   "property": "C19",
   "status": "proved",
   "theorems": [
    "Verif.C19_line_search"
   ],
   "note": ""
  },
  {
   "property": "C20",
   "status": "proved",
   "theorems": [
    "Verif.C20_step_descent",
    "Verif.C20_losses_nonincreasing"
   ],
   "note": ""
  },
  {
   "property": "C21",
   "status": "proved",
   "theorems": [
    "Verif.C21_fixed_point_is_min",
    "Verif.C21_min_is_fixed_point"
   ],
   "note": ""
  },
  {
   "property": "C22",
   "status": "proved",
   "theorems": [
    "Verif.C22_loss_log"
   ],
   "note": ""
  },
  {
   "property": "C23",
   "status": "proved",
   "theorems": [
    "Verif.C23_logger_refinement"
   ],
   "note": ""
  },
  {
   "property": "C24",
   "status": "partial",
   "theorems": [
    "Verif.C24_append_partial",
    "Verif.C24_append_list_partial",
    "Verif.C24_append_violated"
   ],
   "note": "The code violates the full claim: append on an absent key raises KeyError for every state. Present keys behave as documented."
  },
  {
   "property": "C25",
   "status": "partial",
   "theorems": [
    "Verif.C25_container_partial",
    "Verif.C25_container_violated",
    "Verif.C25_solver_violated"
   ],
   "note": "The code violates the full claim: list and set containers raise TypeError on new keys, and then no optimisation returns. Tuples and already requested keys work."
  },
  {
   "property": "C26",
   "status": "proved",
   "theorems": [
    "Verif.C26_instantiate_iff",
    "Verif.C26_alignment",
    "Verif.C26_lme_alignment"
   ],
   "note": ""
  },
  {
   "property": "C27",
   "status": "proved",
   "theorems": [
    "Verif.C27_prior_derivatives",
    "Verif.C27_lme_prior_derivatives"
   ],
   "note": ""
  },
  {
   "property": "C28",
   "status": "partial",
   "theorems": [
    "Verif.C28_std_partial",
    "Verif.C28_std_violated",
    "Verif.C28_std_iff"
   ],
   "note": "The code violates the full claim for every std other than 1 (it divides by std, not std squared). Holds exactly when every positive std of a column in use is 1 (C28_std_iff)."
  },
  {
   "property": "C29",
   "status": "partial",
   "theorems": [
    "Verif.C29_reuse_partial",
    "Verif.C29_forget_partial",
    "Verif.C29_reuse_violated"
   ],
   "note": "The code violates the full claim: after forget, instantiate always raises AttributeError. Histories without forget behave like a new prior."
  },
  {
   "property": "C30",
   "status": "partial",
   "theorems": [
    "Verif.C30_linear_prior_partial",
    "Verif.C30_linear_prior_violated"
   ],
   "note": "The code violates the full claim: every Gaussian prior raises TypeError in LinearOracle.instantiate. Without a prior instantiation always works."
  },
  {
   "property": "C31",
   "status": "proved",
   "theorems": [
    "Verif.C31_linear_oracle"
   ],
   "note": ""
  },
  {
   "property": "C32",
   "status": "proved",
   "theorems": [
    "Verif.C32_value_is_partial_min"
   ],
   "note": ""
  },
  {
   "property": "C33",
   "status": "proved",
   "theorems": [
    "Verif.C33_gradient_exact_smooth"
   ],
   "note": ""
  },
  {
   "property": "C34",
   "status": "proved",
   "theorems": [
    "Verif.C34_accepts_immediately",
    "Verif.C34_stepping_irrelevant",
    "Verif.C34_fit"
   ],
   "note": ""
  },
  {
   "property": "C35",
   "status": "proved",
   "theorems": [
    "Verif.C35_practical_of_pgd",
    "Verif.C35_pgd_of_practical",
    "Verif.C35_fit"
   ],
   "note": ""
  },
  {
   "property": "C36",
   "status": "proved",
   "theorems": [
    "Verif.C36_sr3_converges"
   ],
   "note": ""
  },
  {
   "property": "C37",
   "status": "proved",
   "theorems": [
    "Verif.C37_lower_bound"
   ],
   "note": ""
  },
  {
   "property": "C38",
   "status": "proved",
   "theorems": [
    "Verif.C38_information_criteria",
    "Verif.C38_logged"
   ],
   "note": ""
  },
  {
   "property": "C39",
   "status": "proved",
   "theorems": [
    "Verif.C39_l0_budget",
    "Verif.C39_predict"
   ],
   "note": ""
  },
  {
   "property": "C40",
   "status": "partial",
   "theorems": [
    "Verif.C40_must_include_partial",
    "Verif.C40_must_include_violated",
    "Verif.C40_weights_ignored"
   ],
   "note": "The code violates the full claim: fit_problem never reads problem.regularization_weights. Weights passed explicitly do work."
  },
  {
   "property": "C41",
   "status": "partial",
   "theorems": [
    "Verif.C41_custom_c_partial",
    "Verif.C41_custom_c_violated",
    "Verif.C41_zero_violated"
   ],
   "note": "The code violates the full claim: every custom matrix with two or more features raises ValueError. None gives the identity; a nonzero 1x1 matrix is stored."
  },
  {
   "property": "C42",
   "status": "proved",
   "theorems": [
    "Verif.C42_history"
   ],
   "note": ""
  },
  {
   "property": "C43",
   "status": "proved",
   "theorems": [
    "Verif.C43_partition"
   ],
   "note": ""
  },
  {
   "property": "C44",
   "status": "proved",
   "theorems": [
    "Verif.C44_round_trip"
   ],
   "note": ""
  },
  {
   "property": "C45",
   "status": "proved",
   "theorems": [
    "Verif.C45_designs"
   ],
   "note": ""
  },
  {
   "property": "C46",
   "status": "proved",
   "theorems": [
    "Verif.C46_validation",
    "Verif.C46_rejection"
   ],
   "note": ""
  },
  {
   "property": "C47",
   "status": "partial",
   "theorems": [
    "Verif.C47_weights_partial",
    "Verif.C47_weights_violated",
    "Verif.C47_random_violated",
    "Verif.C47_weights_iff"
   ],
   "note": "The code violates the full claim: without a fixed intercept the weights are one too long, and the random intercept is looked up in the list of the fixed effects. Holds for empty lists and with intercepts treated alike. C47_weights_iff: these are exactly the cases in which it holds."
  },
  {
   "property": "C48",
   "status": "partial",
   "theorems": [
    "Verif.C48_names_partial",
    "Verif.C48_names_violated",
    "Verif.C48_names_iff"
   ],
   "note": "The code violates the full claim with intercepts (one name too few). Holds without intercepts. C48_names_iff: names and coefficients agree exactly when there is no intercept."
  },
  {
   "property": "C49",
   "status": "partial",
   "theorems": [
    "Verif.C49_iteration_partial",
    "Verif.C49_nested_violated",
    "Verif.C49_break_violated"
   ],
   "note": "The code violates the full claim for overlapping traversals. Holds for uninterrupted ones."
  },
  {
   "property": "C50",
   "status": "proved",
   "theorems": [
    "Verif.C50_per_group"
   ],
   "note": ""
  },
  {
   "property": "C51",
   "status": "partial",
   "theorems": [
    "Verif.C51_truth_partial",
    "Verif.C51_truth_iff",
    "Verif.C51_truth_violated",
    "Verif.C51_intercept_violated"
   ],
   "note": "The code violates the full claim with an intercept: the coefficients are read from the position of the intercept. Holds without intercepts; C51_truth_iff gives, for every generation with or without intercepts, the exact condition under which a row is reproduced."
  },
  {
   "property": "C52",
   "status": "partial",
   "theorems": [
    "Verif.C52_variance_partial",
    "Verif.C52_slice_violated",
    "Verif.C52_equal_sizes_violated",
    "Verif.C52_variance_iff"
   ],
   "note": "The code violates the full claim for per-object variances and two or more groups. Holds otherwise. C52_variance_iff: with one variance per object, a generation that returns uses them exactly when they are constant in every group but the first."
  },
  {
   "property": "C53",
   "status": "proved",
   "theorems": [
    "Verif.C53_roles",
    "Verif.C53_order",
    "Verif.C53_unknown"
   ],
   "note": ""
  },
  {
   "property": "C54",
   "status": "proved",
   "theorems": [
    "Verif.C54_loss_is_marginal_likelihood"
   ],
   "note": "over the reals; Cholesky, log and triangular inverse by contract"
  },
  {
   "property": "C55",
   "status": "proved",
   "theorems": [
    "Verif.C55_beta_derivatives"
   ],
   "note": "over the reals"
  },
  {
   "property": "C56",
   "status": "proved",
   "theorems": [
    "Verif.C56_gradient_gamma"
   ],
   "note": "over the reals; also at the boundary and for the SR3 oracle"
  },
  {
   "property": "C57",
   "status": "proved",
   "theorems": [
    "Verif.C57_hessian_gamma",
    "Verif.C57_hessian_beta_gamma",
    "Verif.C57_sr3_hessian_gamma"
   ],
   "note": "over the reals"
  },
  {
   "property": "C58",
   "status": "partial",
   "theorems": [
    "Verif.C58_optimal_beta_partial",
    "Verif.C58_prior_iff",
    "Verif.C58_gaussian_iff",
    "Verif.C58_prior_violated"
   ],
   "note": "The code violates the full claim: it ignores the prior. Holds without a prior; with one, the returned value is optimal if and only if it already equals the prior mean in every column with a proper prior."
  },
  {
   "property": "C59",
   "status": "proved",
   "theorems": [
    "Verif.C59_random_effects"
   ],
   "note": "over the reals, exact mask (no variance in (0,1e-10])"
  },
  {
   "property": "C60",
   "status": "partial",
   "theorems": [
    "Verif.C60_cache_partial",
    "Verif.C60_reattach_violated",
    "Verif.C60_inplace_violated",
    "Verif.C60_exception_violated",
    "Verif.C60_after_exception"
   ],
   "note": "The code violates the full claim: attaching another problem without forget, in-place changes of the array passed, and evaluations after a LinAlgError use stale factors. Holds for all other histories. C60_after_exception: the exact state after an evaluation outside the domain."
  },
  {
   "property": "C61",
   "status": "proved",
   "theorems": [
    "Verif.C61_packing",
    "Verif.C61_stacked_gradient"
   ],
   "note": "over the reals"
  },
  {
   "property": "C62",
   "status": "proved",
   "theorems": [
    "Verif.C62_beta_to_gamma_map"
   ],
   "note": ""
  },
  {
   "property": "C63",
   "status": "partial",
   "theorems": [
    "Verif.C63_any_direction",
    "Verif.C63_sr3_positive",
    "Verif.C63_ip_nonneg_partial",
    "Verif.C63_ip_violated"
   ],
   "note": "proved for find_optimal_parameters_ip; optimal_gamma_ip violates strict positivity (full steps to the boundary are allowed, tiny entries are set to 0), shown by a concrete witness, and keeps nonnegativity"
  },
  {
   "property": "C64",
   "status": "proved",
   "theorems": [
    "Verif.C64_pgd_feasible",
    "Verif.C64_methods"
   ],
   "note": "line search is a parameter"
  },
  {
   "property": "C65",
   "status": "proved",
   "theorems": [
    "Verif.C65_sr3_criteria"
   ],
   "note": "All three criteria of the SR3 oracle are the plain oracle's marginal criteria, including raised exceptions."
  },
  {
   "property": "C66",
   "status": "partial",
   "theorems": [
    "Verif.C66_counts_partial",
    "Verif.C66_get_ic_violated",
    "Verif.C66_get_ic_iff"
   ],
   "note": "The code violates the claim in get_information_criterion (tolerance 0 counts all effects). With a positive tolerance it holds. C66_get_ic_iff gives the exact conditions for both criteria."
  },
  {
   "property": "C67",
   "status": "proved",
   "theorems": [
    "Verif.C67_effective_sample_size"
   ],
   "note": "Also: at gamma = 0 it equals the number of observations. Groups are nonempty."
  },
  {
   "property": "C68",
   "status": "proved",
   "theorems": [
    "Verif.C68_hat_matrix"
   ],
   "note": ""
  },
  {
   "property": "C69",
   "status": "partial",
   "theorems": [
    "Verif.C69_symmetric_partial",
    "Verif.C69_random_effects_violated",
    "Verif.C69_observations_violated"
   ],
   "note": "The full claim is false: covariance_random_effects uses the inverse Cholesky factor for the inverse covariance, covariance_y adds the noise vector to every row. The partial theorem gives the cases where symmetry holds."
  },
  {
   "property": "C70",
   "status": "proved",
   "theorems": [
    "Verif.C70_upper_bound",
    "Verif.C70_gradient",
    "Verif.C70_no_random_effects",
    "Verif.C194_value_function"
   ],
   "note": "Exactness of the inner solution is a hypothesis, as in the property; C70_no_random_effects discharges it for problems without random effects. Over the reals. C194_value_function constructs the exact value function without that hypothesis (enough relaxation), and C194_gradient_error bounds the distance of the code's gradient from its gradient."
  },
  {
   "property": "C71",
   "status": "partial",
   "theorems": [
    "Verif.C71_predictions_partial",
    "Verif.C71_sorted_partial",
    "Verif.C71_order_violated",
    "Verif.C71_order_iff"
   ],
   "note": "The code violates the full claim: predictions come back grouped by the sorted labels. C71_predictions_partial gives the exact permutation, C71_sorted_partial the cases (rows sorted by group) where the order is kept. C71_order_iff: with different predictions the order is kept exactly when the group column is nondecreasing."
  },
  {
   "property": "C72",
   "status": "partial",
   "theorems": [
    "Verif.C72_unseen_violated",
    "Verif.C72_unseen_partial",
    "Verif.C72_not_fitted",
    "Verif.C72_unseen_iff"
   ],
   "note": "The code violates the claim with at least one random effect: predict raises for an unseen group. Without random effects it holds. C72_unseen_iff: predict returns exactly when there are no random effects or all groups were seen."
  },
  {
   "property": "C73",
   "status": "partial",
   "theorems": [
    "Verif.C73_warm_start_violated",
    "Verif.C73_unfitted_violated",
    "Verif.C73_linear_violated",
    "Verif.C73_initial_parameters_partial"
   ],
   "note": "The code violates the claim: sklearn's check_is_fitted returns None, so warm_start has no influence at all. initial_parameters work."
  },
  {
   "property": "C74",
   "status": "proved",
   "theorems": [
    "Verif.C74_variances_nonneg",
    "Verif.C74_l0"
   ],
   "note": "Budgets hold up to effects with regularization weight zero, which the L0 prox keeps by design (with fit's default weights, all ones, the budgets hold as stated)."
  },
  {
   "property": "C75",
   "status": "proved",
   "theorems": [
    "Verif.C75_score",
    "Verif.C75_constant",
    "Verif.C75_exact_rows_score"
   ],
   "note": "Non-constant y; C75_constant gives the behaviour for constant y."
  },
  {
   "property": "C76",
   "status": "partial",
   "theorems": [
    "Verif.C76_best_partial",
    "Verif.C76_returns_partial",
    "Verif.C76_l0_violated"
   ],
   "note": "The code violates the full claim: with a single fixed or random effect the L0 grids are empty and the selection raises. Minimality and the reported names are proved for effects other than the intercept, totality for all eight model names (real arithmetic)."
  },
  {
   "property": "C77",
   "status": "partial",
   "theorems": [
    "Verif.C77_grid_partial",
    "Verif.C77_grid_violated"
   ],
   "note": "The code violates the claim: budgets equal to the number of effects are never tried. The exact grid is characterised."
  },
  {
   "property": "C78",
   "status": "partial",
   "theorems": [
    "Verif.C78_covs_violated",
    "Verif.C78_covs_partial",
    "Verif.C78_covs_iff"
   ],
   "note": "The code violates the claim: the pre-selected effects are merged into the caller's dictionary. C78_covs_iff: the effects listed stay the same exactly when the pre-selected ones were among them."
  },
  {
   "property": "C79",
   "status": "partial",
   "theorems": [
    "Verif.C79_generated_table_partial",
    "Verif.C79_no_random_violated"
   ],
   "note": "The code violates the full claim without random effects (ValueError). Holds with at least one random effect."
  },
  {
   "property": "C80",
   "status": "partial",
   "theorems": [
    "Verif.C80_zero_trap",
    "Verif.C80_violated",
    "Verif.C80_gap_partial",
    "Verif.C80_no_random_partial"
   ],
   "note": "The code violates the claim: if all variances are zero at the start they stay zero through all iterations (C80_zero_trap, all problems), and value_function then exceeds the relaxed loss at another point (witness). Proved: with a relaxation above the bound of C111 the value exceeds the minimum by at most |F|^2/(2m) + sqrt(q)|F| + q mu, the residual and barrier parameter of the inner solver when it stops, which are below the tolerance from positive starting variances unless the budget is exhausted or the iterates stall; without random effects the value is exactly the minimum."
  },
  {
   "property": "C81",
   "status": "proved",
   "theorems": [
    "Verif.C81_inner_solver_total"
   ],
   "note": "over the reals; Cholesky, solve and line search by contract"
  },
  {
   "property": "C82",
   "status": "proved",
   "theorems": [
    "Verif.C82_fit_consistent",
    "Verif.C82_training_predictions"
   ],
   "note": ""
  },
  {
   "property": "C83",
   "status": "proved",
   "theorems": [
    "Verif.C83_fit_problem_returns",
    "Verif.C83_fit_problem_returns_weights",
    "Verif.C83_fit_returns",
    "Verif.C83_identified_returns"
   ],
   "note": "C83_identified_returns: every initializer and every set of logger keys when the fixed columns of the table are linearly independent (and at least three more observations than fixed effects if vaida_aic is logged). The other two theorems are for all tables with: Robust: no EM initializer, vaida_aic not logged, flip probabilities logged by SR3 models only (a plain model raises when its Hessian is singular), default Hessian; C83_fit_problem_returns allows any prior that fits the problem and any 0/1 weights of the right sizes, C83_fit_problem_returns_weights any nonnegative weights (0/1 for SCAD); over the reals."
  },
  {
   "property": "C84",
   "status": "partial",
   "theorems": [
    "Verif.C84_lam_violated",
    "Verif.C84_l0_violated",
    "Verif.C76_returns_partial"
   ],
   "note": "The code violates the claim: without an effect called intercept, pre-selected effects make six of the eight models raise, and shift the weights of the other two. C76_returns_partial shows that it returns when an intercept is among the effects."
  },
  {
   "property": "C85",
   "status": "partial",
   "theorems": [
    "Verif.C85_names_violated",
    "Verif.C76_best_partial"
   ],
   "note": "The code violates the claim with an intercept: names are shifted by one coefficient. Without an intercept it holds (C76_best_partial)."
  },
  {
   "property": "C86",
   "status": "proved",
   "theorems": [
    "Verif.C86_order",
    "Verif.C86_candidates"
   ],
   "note": ""
  },
  {
   "property": "C87",
   "status": "partial",
   "theorems": [
    "Verif.C87_history_violated",
    "Verif.C87_history_partial",
    "Verif.C193_two_evaluations"
   ],
   "note": "The code violates the claim with the default warm_start=True. Proved for warm_start=False. With warm_start=True and enough relaxation the dependence on the history is bounded by the residuals of the inner solver (C193_two_evaluations, C193_tolerance)."
  },
  {
   "property": "C88",
   "status": "proved",
   "theorems": [
    "Verif.C88_zero_start"
   ],
   "note": "The behaviour of the code as it is; the estimate does not depend on the data, which is likely unintended."
  },
  {
   "property": "C89",
   "status": "proved",
   "theorems": [
    "Verif.C89_no_random_effects"
   ],
   "note": "The behaviour of the code as it is (the interior point method returns before updating when there are no random effects), likely unintended."
  },
  {
   "property": "C90",
   "status": "partial",
   "theorems": [
    "Verif.C90_always_true_violated",
    "Verif.C90_flag_violated",
    "Verif.C90_flag_partial"
   ],
   "note": "The code violates the claim: the flag is the constant True. With a large enough budget it is right."
  },
  {
   "property": "C91",
   "status": "partial",
   "theorems": [
    "Verif.C91_intercept_violated",
    "Verif.C91_intercept_partial"
   ],
   "note": "The code violates the claim: the weights attached by from_x_y are all one. Naming the intercept in must_include_fe exempts it."
  },
  {
   "property": "C92",
   "status": "partial",
   "theorems": [
    "Verif.C92_prox_violated",
    "Verif.C92_prox_iff",
    "Verif.C92_prox_partial"
   ],
   "note": "The code violates the claim: the prox is taken with step 1 instead of 1/ell. L1 penalty, fixed effects: the update is optimal if and only if ell = 1 or every coefficient is at most min(lam, lam/ell)."
  },
  {
   "property": "C93",
   "status": "partial",
   "theorems": [
    "Verif.C93_flip_partial",
    "Verif.C93_sr3_violated"
   ],
   "note": "Proved for the plain oracle; the SR3 oracle adds the relaxation to the Hessian and reports strictly smaller probabilities."
  },
  {
   "property": "C94",
   "status": "partial",
   "theorems": [
    "Verif.C94_bound_partial",
    "Verif.C94_short_group_violated",
    "Verif.C94_no_random_violated"
   ],
   "note": "The code violates the claim: it compares singular values of different groups. Finite results are upper bounds of the squared condition numbers."
  },
  {
   "property": "C95",
   "status": "partial",
   "theorems": [
    "Verif.C95_intercept_violated",
    "Verif.C95_no_intercept_partial"
   ],
   "note": "The code violates the claim: it raises for every model with a fixed intercept. Without intercepts two of the three criteria are returned."
  },
  {
   "property": "C96",
   "status": "proved",
   "theorems": [
    "Verif.C96_demarginalized"
   ],
   "note": ""
  },
  {
   "property": "C97",
   "status": "partial",
   "theorems": [
    "Verif.C97_conditional_violated",
    "Verif.C97_aic_partial",
    "Verif.C97_conditional_iff"
   ],
   "note": "The code violates the claim: the conditional version multiplies the penalty by the number of parameters. Proved for the marginal version and for one parameter. C97_conditional_iff: with enough observations the conditional version is right exactly for one fixed and no random effect."
  },
  {
   "property": "C98",
   "status": "proved",
   "theorems": [
    "Verif.C98_degrees_of_freedom"
   ],
   "note": ""
  },
  {
   "property": "C99",
   "status": "proved",
   "theorems": [
    "Verif.C99_logged"
   ],
   "note": ""
  },
  {
   "property": "C100",
   "status": "partial",
   "theorems": [
    "Verif.C100_losses_partial",
    "Verif.C100_l1_partial",
    "Verif.C100_l1_violated",
    "Verif.C100_l0_partial",
    "Verif.C100_l0_log_partial",
    "Verif.C100_l0_violated",
    "Verif.C100_cad_partial",
    "Verif.C100_cad_violated",
    "Verif.C100_cad_weights_violated"
   ],
   "note": "Violated for the L1 penalty of every strength other than 1 (value() drops lam once weights are attached) for L0 (value() only counts) and for CAD (default weights and step: prox keeps points just beyond rho). Proved: no penalty, L1 of strength 1 and SCAD with a small step, up to iterations whose step was cut to 1e-14 or less (taken without a check); for L1 of any strength the objective with the true penalty decreases; for L0 it decreases from every point within the budgets unless a fixed effect with a variance is dropped, and the logged losses decrease after the first iteration when no fixed effect has a variance of its own. For CAD with weights 0 and 1 the logged loss decreases at every iteration that leaves no penalised coefficient in a band of width t*lam/2 beyond rho."
  },
  {
   "property": "C101",
   "status": "proved",
   "theorems": [
    "Verif.C101_grid"
   ],
   "note": ""
  },
  {
   "property": "C102",
   "status": "proved",
   "theorems": [
    "Verif.C102_accuracy",
    "Verif.C102_accuracy_sr3",
    "Verif.C102_default_accuracy"
   ],
   "note": ""
  },
  {
   "property": "C103",
   "status": "proved",
   "theorems": [
    "Verif.C103_rate",
    "Verif.C103_rate_sr3"
   ],
   "note": ""
  },
  {
   "property": "C104",
   "status": "proved",
   "theorems": [
    "Verif.C104_converges",
    "Verif.C104_converges_sr3"
   ],
   "note": ""
  },
  {
   "property": "C105",
   "status": "partial",
   "theorems": [
    "Verif.C105_fixed_violated",
    "Verif.C105_fixed_partial",
    "Verif.C105_sharp"
   ],
   "note": "Violated: one feature equal to 10 makes the iterates grow by the factor 4 in every iteration for every budget. C105_sharp is the exact answer per design matrix: fits converge for every target vector (with a large enough budget) if and only if the largest eigenvalue of A^T A is below 40; otherwise some target vector is never fitted, whatever the budget."
  },
  {
   "property": "C106",
   "status": "proved",
   "theorems": [
    "Verif.C106_criterion",
    "Verif.C106_logged"
   ],
   "note": ""
  },
  {
   "property": "C107",
   "status": "partial",
   "theorems": [
    "Verif.C107_obs_std_violated",
    "Verif.C107_obs_std_partial"
   ],
   "note": "Violated: obs_std is stored and never read, fits do not depend on it, and no coefficient vector is optimal for two different vectors of noise levels. Proved: with one common noise level the unweighted and the weighted objective order all points in the same way."
  },
  {
   "property": "C108",
   "status": "proved",
   "theorems": [
    "Verif.C108_generated",
    "Verif.C108_recovery"
   ],
   "note": ""
  },
  {
   "property": "C109",
   "status": "partial",
   "theorems": [
    "Verif.C109_defaults_violated",
    "Verif.C109_defaults_partial",
    "Verif.C109_coefficients_partial"
   ],
   "note": "Violated: L0 models with nnz=None raise TypeError when the loss is logged. Proved: without the key 'loss' every class with default strength gives exactly the result of the model without penalty; L1, CAD and SCAD with lam=0 give its coefficients whatever is logged."
  },
  {
   "property": "C110",
   "status": "partial",
   "theorems": [
    "Verif.C110_returns_partial",
    "Verif.C110_strength_partial",
    "Verif.C110_scad_violated",
    "Verif.C110_strength_violated"
   ],
   "note": "Violated: the SCAD proximal operator divides zero by zero when step*lam*weight = rho-1, which happens for LinearSCADModelSR3(lam=1, practical=True) with default arguments. Proved: fits return for L0 (with a budget, or loss not logged), L1, CAD, no penalty, and for SCAD when no step hits the singular value. Gaussian priors (C30) and set-valued logger keys (C25) are violated elsewhere."
  },
  {
   "property": "C111",
   "status": "proved",
   "theorems": [
    "Verif.C111_tangent",
    "Verif.C111_convex",
    "Verif.C111_needs_relaxation"
   ],
   "note": ""
  },
  {
   "property": "C112",
   "status": "proved",
   "theorems": [
    "Verif.C112_descent",
    "Verif.C112_jacobian"
   ],
   "note": ""
  },
  {
   "property": "C113",
   "status": "partial",
   "theorems": [
    "Verif.C113_em_start_partial",
    "Verif.C113_em_start_sr3_partial",
    "Verif.C113_fit_start_partial",
    "Verif.C113_fit_start_sr3_partial",
    "Verif.C113_em_start_violated"
   ],
   "note": "the fixed effects of the EM start are optimal and its variances the mean squares of the predictions; the loss can increase because the conditional variances of the random effects are left out"
  },
  {
   "property": "C114",
   "status": "partial",
   "theorems": [
    "Verif.C114_practical_partial",
    "Verif.C114_practical_violated",
    "Verif.C114_schedule_violated"
   ],
   "note": "the result is the unchanged start or an output of the prox; without random effects (and whenever the prox is never reached) the unregularized start is returned"
  },
  {
   "property": "C115",
   "status": "proved",
   "theorems": [
    "Verif.C115_stops"
   ],
   "note": ""
  },
  {
   "property": "C116",
   "status": "proved",
   "theorems": [
    "Verif.C116_default_labels"
   ],
   "note": ""
  },
  {
   "property": "C117",
   "status": "proved",
   "theorems": [
    "Verif.C117_defaults_fit",
    "Verif.C117_l0_sr3_default"
   ],
   "note": ""
  },
  {
   "property": "C118",
   "status": "partial",
   "theorems": [
    "Verif.C118_zero_strength_partial",
    "Verif.C118_zero_strength_violated"
   ],
   "note": "SR3 models and plain models with an explicit step; with the default steps (1/(lam+1) against 5e-2) the fits of L1LmeModel() and SimpleLMEModel() differ. Logged losses are excluded"
  },
  {
   "property": "C119",
   "status": "proved",
   "theorems": [
    "Verif.C119_row_order"
   ],
   "note": ""
  },
  {
   "property": "C120",
   "status": "proved",
   "theorems": [
    "Verif.C120_group_names"
   ],
   "note": ""
  },
  {
   "property": "C121",
   "status": "proved",
   "theorems": [
    "Verif.C121_row_order_linear"
   ],
   "note": ""
  },
  {
   "property": "C122",
   "status": "proved",
   "theorems": [
    "Verif.C122_features_linear"
   ],
   "note": ""
  },
  {
   "property": "C123",
   "status": "proved",
   "theorems": [
    "Verif.C123_rotation"
   ],
   "note": ""
  },
  {
   "property": "C124",
   "status": "proved",
   "theorems": [
    "Verif.C124_stops"
   ],
   "note": ""
  },
  {
   "property": "C125",
   "status": "proved",
   "theorems": [
    "Verif.C125_stationary"
   ],
   "note": ""
  },
  {
   "property": "C126",
   "status": "proved",
   "theorems": [
    "Verif.C126_column_order"
   ],
   "note": ""
  },
  {
   "property": "C127",
   "status": "proved",
   "theorems": [
    "Verif.C127_predictions"
   ],
   "note": ""
  },
  {
   "property": "C128",
   "status": "partial",
   "theorems": [
    "Verif.C128_frame",
    "Verif.C128_repeated_roles",
    "Verif.C128_intercepts",
    "Verif.C128_round_trip_partial"
   ],
   "note": "Violated by the code: to_dataframe names columns by their roles, so with two columns of one role every reading that uses this role fails with AssertionError (C128_repeated_roles), and problems with intercepts cannot be read back (C128_intercepts). Proved for tables with at most one column of each role and without intercepts."
  },
  {
   "property": "C129",
   "status": "proved",
   "theorems": [
    "Verif.C129_fit",
    "Verif.C129_predict"
   ],
   "note": "The stored per-group rows of the second fit carry one more leading zero, the entry of the column of ones; everything else of the fitted state is equal."
  },
  {
   "property": "C130",
   "status": "partial",
   "theorems": [
    "Verif.C130_nan_converged",
    "Verif.C130_report_partial",
    "Verif.C130_exact",
    "Verif.C130_simple_fit"
   ],
   "note": "Violated by the code: SimpleLinearModel(stepping='fixed') with its default step on a feature of value 16 overflows in every format up to binary64, the NaN makes the comparison norm > tol false, and the model reports converged=True with the coefficient NaN (C130_nan_converged). Proved: everything else of the statement (C130_report_partial). C130_exact shows that the float model with exact arithmetic is the exact solver model. C130_simple_fit does the same for the model of SimpleLinearModel.fit."
  },
  {
   "property": "C131",
   "status": "proved",
   "theorems": [
    "Verif.C131_exact",
    "Verif.C131_soft",
    "Verif.C131_elastic",
    "Verif.C131_run"
   ],
   "note": "SCAD is not in the statement. A NaN coordinate counts as not below zero."
  },
  {
   "property": "C132",
   "status": "partial",
   "theorems": [
    "Verif.C132_loss",
    "Verif.C132_minimisers",
    "Verif.C132_gradient",
    "Verif.C132_optimal_beta",
    "Verif.C132_criteria",
    "Verif.C132_random_effects_partial",
    "Verif.C132_mask_violated",
    "Verif.C132_tolerance_violated"
   ],
   "note": "Violated by the code: variances are compared with the absolute threshold 1e-10, so a change of the unit of the target turns a random effect of 1/2 into 0 instead of 1/20 (C132_mask_violated), and the criteria count coefficients against an absolute tolerance (C132_tolerance_violated). Proved: likelihood, minimisers, gradients, optimal fixed effects for all data; random effects when every variance is 0 or above 1e-10 in both units; criteria when no coefficient crosses the tolerance."
  },
  {
   "property": "C133",
   "status": "partial",
   "theorems": [
    "Verif.C133_protocol_partial",
    "Verif.C133_logger_lost",
    "Verif.C133_short_start",
    "Verif.C133_sr3_prior",
    "Verif.C133_fresh"
   ],
   "note": "Violated by the code: a refit that raises has already replaced logger_ (C133_logger_lost), and an empty x0 with warm_start=True gives a fitted model with no coefficients that cannot predict its own training table (C133_short_start). Proved for absent starting points and starting points of the right length: everything except that the logger is kept. SR3 with a prior leaves the object unchanged (C133_sr3_prior)."
  },
  {
   "property": "C134",
   "status": "partial",
   "theorems": [
    "Verif.C134_start_partial",
    "Verif.C134_ignored",
    "Verif.C134_violated"
   ],
   "note": "Violated by the code: warm_start=True without x0 is a cold start for every object, previous coefficients are never used and NotFittedError is never raised; x0 without warm_start is ignored (C134_ignored, for all inputs; C134_violated, in numbers). Proved for models with the proximal gradient solver and no prior: with both warm_start and x0 the solver starts at x0, without warm_start at ones."
  },
  {
   "property": "C135",
   "status": "partial",
   "theorems": [
    "Verif.C135_parts",
    "Verif.C135_groups_partial",
    "Verif.C135_errors",
    "Verif.C135_succeeds",
    "Verif.C135_unseen_violated",
    "Verif.C135_half_violated"
   ],
   "note": "Violated by the code for large test parts: with test_size=0.75 and groups of 6 and 2 rows the training part may consist of one group only (C135_unseen_violated). Proved for all data and all random choices: number of splits, partition of the rows, sizes, proportions, errors; every group occurs in the training part if test_size is at most 1/2, and for every larger test_size there are tables on which no split has this (C135_half_violated). The algorithm of sklearn's StratifiedShuffleSplit is part of the model (exact proportions, arbitrary random choices)."
  },
  {
   "property": "C136",
   "status": "proved",
   "theorems": [
    "Verif.C136_get_params",
    "Verif.C136_unknown",
    "Verif.C136_clone",
    "Verif.C136_set_params",
    "Verif.C136_set_params_error",
    "Verif.C136_lin_instantiate",
    "Verif.C136_lme_instantiate",
    "Verif.C136_lin_defaults",
    "Verif.C136_lme_defaults",
    "Verif.C136_missing"
   ],
   "note": "The signatures, super calls and assignments of the 22 constructors are tables in Model/Ctor.lean, run by construct; scikit-learn's get_params, set_params and clone are modelled by what they do. C136_unknown: a misspelled keyword is ignored without notice (documented **kwargs). Missing attributes raise AttributeError (C136_missing)."
  },
  {
   "property": "C137",
   "status": "proved",
   "theorems": [
    "Verif.C137_likelihood"
   ],
   "note": "Stated with Mathlib's gaussianPDFReal and gaussianReal (a point mass for variance zero); C54 gives the closed form."
  },
  {
   "property": "C138",
   "status": "proved",
   "theorems": [
    "Verif.C138_posterior"
   ],
   "note": "Stated with Mathlib's gaussianReal. Entries of gamma strictly between 0 and 1e-10 are rounded to zero by the code and excluded here."
  },
  {
   "property": "C139",
   "status": "proved",
   "theorems": [
    "Verif.C139_posterior"
   ],
   "note": "Stated as Lebesgue integrals of exp(-loss) over R^p and Mathlib's gaussianReal. The plain oracle; C93 has the SR3 oracle."
  },
  {
   "property": "C140",
   "status": "partial",
   "theorems": [
    "Verif.C140_protocol_partial",
    "Verif.C140_half_updated_violated",
    "Verif.C140_fresh"
   ],
   "note": "The code violates the claim: coef_ is replaced before the criteria are logged, so with linearly dependent fixed columns and vaida_aic (or, for plain models, flip_probabilities_beta) among the logger keys fit raises LinAlgError and leaves new coefficients with the old n_features_in_ (C140_half_updated_violated, for every such table and every state). C140_protocol_partial has the whole claim, with safe logger keys for the second clause. The attribute logger_ after an exception is not modelled."
  },
  {
   "property": "C141",
   "status": "partial",
   "theorems": [
    "Verif.C141_plain",
    "Verif.C141_sr3_partial",
    "Verif.C141_stale_violated",
    "Verif.C141_ctor_violated"
   ],
   "note": "The code violates the claim twice: LinearOracleSR3.instantiate attaches the problem before np.linalg.inv may raise, so after a failed call the loss is that of the new problem and the value function that of the old one (C141_stale_violated, every oracle and every problem with singular matrix); LinearOracleSR3(problem) evaluates the loss but its value function raises AttributeError (C141_ctor_violated). C141_plain has the claim for LinearOracle; C141_sr3_partial for SR3 oracles with lam > 0 and problems with c = I, over all histories."
  },
  {
   "property": "C142",
   "status": "proved",
   "theorems": [
    "Verif.C142_truth_minimises"
   ],
   "note": ""
  },
  {
   "property": "C143",
   "status": "proved",
   "theorems": [
    "Verif.C143_generated"
   ],
   "note": "The moments of the draws (np.random.multivariate_normal, np.random.normal, numpy trusted) are hypotheses, stated on random variables that take the place of the draws; the drawn features are fixed (the statement is conditional on them)."
  },
  {
   "property": "C144",
   "status": "proved",
   "theorems": [
    "Verif.C144_law",
    "Verif.C144_generated"
   ],
   "note": "The joint normal law of the draws of a group is a hypothesis (numpy trusted); RandDraw.Gaussian.lawful shows that it implies the moments needed by C143."
  },
  {
   "property": "C145",
   "status": "partial",
   "theorems": [
    "Verif.C145_zero_violated",
    "Verif.C145_start_violated",
    "Verif.C145_practical_violated",
    "Verif.C145_negative_violated",
    "Verif.C145_positive_partial"
   ],
   "note": "The code violates the claim for el <= 0: with el = 0 the matrix f_matrix is zero, so the coefficients do not depend on the target (C145_zero_violated, any regularizer) and are the starting vector without penalty (C145_start_violated); practical models divide by el (C145_practical_violated); a negative el gives square roots of negative numbers (C145_negative_violated). C145_positive_partial has the fixed points for el > 0; convergence to them is C36, C105, C106."
  },
  {
   "property": "C146",
   "status": "proved",
   "theorems": [
    "Verif.C146_consistent",
    "Verif.C146_penalised"
   ],
   "note": ""
  },
  {
   "property": "C147",
   "status": "proved",
   "theorems": [
    "Verif.C147_mle_exists",
    "Verif.C147_penalised_exists",
    "Verif.C147_unbounded_without_constraint"
   ],
   "note": ""
  },
  {
   "property": "C148",
   "status": "proved",
   "theorems": [
    "Verif.C148_get_ic"
   ],
   "note": ""
  },
  {
   "property": "C149",
   "status": "proved",
   "theorems": [
    "Verif.C149_prediction",
    "Verif.C149_error",
    "Verif.C149_probability"
   ],
   "note": ""
  },
  {
   "property": "C150",
   "status": "proved",
   "theorems": [
    "Verif.C150_stationary"
   ],
   "note": ""
  },
  {
   "property": "C151",
   "status": "proved",
   "theorems": [
    "Verif.C151_support",
    "Verif.C151_probability"
   ],
   "note": ""
  },
  {
   "property": "C152",
   "status": "proved",
   "theorems": [
    "Verif.C152_stationary",
    "Verif.C152_error",
    "Verif.C152_support"
   ],
   "note": ""
  },
  {
   "property": "C153",
   "status": "proved",
   "theorems": [
    "Verif.C153_stationary",
    "Verif.C153_support"
   ],
   "note": ""
  },
  {
   "property": "C154",
   "status": "proved",
   "theorems": [
    "Verif.C154_converges",
    "Verif.C154_converges_sr3",
    "Verif.C154_classes"
   ],
   "note": ""
  },
  {
   "property": "C155",
   "status": "proved",
   "theorems": [
    "Verif.C155_gradient",
    "Verif.C155_stationary",
    "Verif.C155_error"
   ],
   "note": ""
  },
  {
   "property": "C156",
   "status": "partial",
   "theorems": [
    "Verif.C156_prox_partial",
    "Verif.C156_violated",
    "Verif.C156_value_violated"
   ],
   "note": "The code violates the full claim: fixed effects are selected first and the variances of dropped ones are lost whatever their size, so the result can be any factor farther than another admissible point; and value() only counts the non-zeros of both kinds together. Proved: the result is admissible, optimal in the fixed effects, optimal among points keeping none of the dropped fixed effects with a variance, optimal when fixed and random effects are independent, and at most the sum of squares of the lost variances away from optimal."
  },
  {
   "property": "C157",
   "status": "proved",
   "theorems": [
    "Verif.C157_linear_rate",
    "Verif.C157_linear_rate_sr3",
    "Verif.C157_budget"
   ],
   "note": ""
  },
  {
   "property": "C158",
   "status": "proved",
   "theorems": [
    "Verif.C158_units",
    "Verif.C158_predict"
   ],
   "note": "Logged aic and bic are left out of the comparison of logs: they add a loss in squared units to a count of coefficients."
  },
  {
   "property": "C159",
   "status": "proved",
   "theorems": [
    "Verif.C159_any_penalty",
    "Verif.C159_converged",
    "Verif.C159_rate",
    "Verif.C159_distance",
    "Verif.C159_limit"
   ],
   "note": ""
  },
  {
   "property": "C160",
   "status": "proved",
   "theorems": [
    "Verif.C160_optimality",
    "Verif.C160_dropped"
   ],
   "note": ""
  },
  {
   "property": "C161",
   "status": "proved",
   "theorems": [
    "Verif.C161_scad",
    "Verif.C161_cad",
    "Verif.C161_scad_support",
    "Verif.C161_cad_support"
   ],
   "note": ""
  },
  {
   "property": "C162",
   "status": "proved",
   "theorems": [
    "Verif.C162_l1",
    "Verif.C162_l0",
    "Verif.C162_scad",
    "Verif.C162_cad",
    "Verif.C162_scad_eventually"
   ],
   "note": ""
  },
  {
   "property": "C163",
   "status": "proved",
   "theorems": [
    "Verif.C163_dataframe",
    "Verif.C163_errors",
    "Verif.C163_arrays",
    "Verif.C163_fit"
   ],
   "note": ""
  },
  {
   "property": "C164",
   "status": "proved",
   "theorems": [
    "Verif.C164_direction",
    "Verif.C164_pgd",
    "Verif.C164_lineSearch_exists"
   ],
   "note": "the line search (scipy) is a parameter with the stated property; the point set to zero below 1e-18 after a line search is not covered by the decrease"
  },
  {
   "property": "C165",
   "status": "partial",
   "theorems": [
    "Verif.C165_ip_partial",
    "Verif.C165_ip_violated"
   ],
   "note": "proved for runs with at least one iteration; violated without: with equal variances and a gradient of one at the start the loop is not entered and the start is returned"
  },
  {
   "property": "C166",
   "status": "proved",
   "theorems": [
    "Verif.C166_optimality",
    "Verif.C166_gap"
   ],
   "note": ""
  },
  {
   "property": "C167",
   "status": "proved",
   "theorems": [
    "Verif.C167_l0",
    "Verif.C167_cad"
   ],
   "note": ""
  },
  {
   "property": "C168",
   "status": "proved",
   "theorems": [
    "Verif.C168_stops"
   ],
   "note": ""
  },
  {
   "property": "C169",
   "status": "proved",
   "theorems": [
    "Verif.C169_l1"
   ],
   "note": ""
  },
  {
   "property": "C170",
   "status": "partial",
   "theorems": [
    "Verif.C170_generated_partial",
    "Verif.C170_no_random_violated"
   ],
   "note": "C170_generated_partial is the claim for problems with at least one random effect or a random intercept. Missing part is false in the code: C170_no_random_violated, a problem generated without random effects cannot be fitted by any model."
  },
  {
   "property": "C171",
   "status": "proved",
   "theorems": [
    "Verif.C171_cad",
    "Verif.C171_scad",
    "Verif.C171_l0"
   ],
   "note": ""
  },
  {
   "property": "C172",
   "status": "proved",
   "theorems": [
    "Verif.C172_names",
    "Verif.C172_prior",
    "Verif.C172_prior_ok"
   ],
   "note": ""
  },
  {
   "property": "C173",
   "status": "partial",
   "theorems": [
    "Verif.C173_prior_partial",
    "Verif.C173_intercept_violated",
    "Verif.C173_raises_violated",
    "Verif.C173_gradient_added",
    "Verif.C173_gradient_violated"
   ],
   "note": "C173_prior_partial is the claim for problems without the intercept concerned. Missing part is false in the code: C173_intercept_violated (one further effect: broadcast onto the intercept and onto all entries of the Hessian) and C173_raises_violated (two or more: ValueError)."
  },
  {
   "property": "C174",
   "status": "partial",
   "theorems": [
    "Verif.C174_clean_partial",
    "Verif.C174_same",
    "Verif.C174_outliers_violated"
   ],
   "note": "C174_clean_partial is the claim when missing values and outliers have probability zero. The rest is false in the code: C174_same (for all inputs the call is one without outliers for the changed features), C174_outliers_violated (for every feature, coefficient and multiplier other than one)."
  },
  {
   "property": "C175",
   "status": "partial",
   "theorems": [
    "Verif.C175_residuals_partial",
    "Verif.C175_rmse_iff",
    "Verif.C175_violated"
   ],
   "note": "The code violates the claim: true_rmse is the sum of squared residuals (C175_residuals_partial, all inputs); C175_rmse_iff says exactly when this is the root mean square."
  },
  {
   "property": "C176",
   "status": "partial",
   "theorems": [
    "Verif.C176_pairs_partial",
    "Verif.C176_again",
    "Verif.C176_array_raises_violated",
    "Verif.C176_array_ignored_violated"
   ],
   "note": "The code violates the claim for the documented array: every call raises unless there are two groups, where the array is ignored. Pairs are used."
  },
  {
   "property": "C177",
   "status": "partial",
   "theorems": [
    "Verif.C177_sizes_partial",
    "Verif.C177_second_violated"
   ],
   "note": "The code violates the claim for lists with None. C177_sizes_partial is an equivalence: unchanged if and only if no entry is None. C177_second_violated: the sizes of a second call are those of the first."
  },
  {
   "property": "C178",
   "status": "partial",
   "theorems": [
    "Verif.C178_returns_partial",
    "Verif.C178_default_violated",
    "Verif.C178_covariance"
   ],
   "note": "C178_returns_partial is the exact condition. The default arguments violate it with all labels random (C178_default_violated)."
  },
  {
   "property": "C179",
   "status": "partial",
   "theorems": [
    "Verif.C179_log_partial",
    "Verif.C179_same",
    "Verif.C179_returns",
    "Verif.C179_no_random_violated",
    "Verif.C179_list_violated",
    "Verif.C179_failed"
   ],
   "note": "C179_same and C179_returns: the same fit with and without the inner log. C179_log_partial: the entries, with a reason for the end of the passes. The code violates the rest: without random effects none of the entries is written, keys in a list or set make the fit raise. Cases in Props/LmeIpEx.lean."
  },
  {
   "property": "C180",
   "status": "proved",
   "theorems": [
    "Verif.C180_l1"
   ],
   "note": "The case is an explicit fit (obsModel, one observation, one pass) in Props/LmeIpEx.lean."
  },
  {
   "property": "C181",
   "status": "proved",
   "theorems": [
    "Verif.C181_trajectory"
   ],
   "note": "The local z of the line search is not modelled: nothing is said about the key z. The entry loss is C22."
  },
  {
   "property": "C182",
   "status": "proved",
   "theorems": [
    "Verif.C182_round_trip",
    "Verif.C182_fit"
   ],
   "note": "Problems without random effects are C79 (to_x_y raises)."
  },
  {
   "property": "C183",
   "status": "proved",
   "theorems": [
    "Verif.C183_cad",
    "Verif.C183_scad",
    "Verif.C183_l0"
   ],
   "note": "The cases are explicit fits (obsFold) of one observation with one pass."
  },
  {
   "property": "C184",
   "status": "partial",
   "theorems": [
    "Verif.C184_linear",
    "Verif.C184_mixed_partial",
    "Verif.C184_mixed_violated"
   ],
   "note": "Proved in full for linear models and, for the plain mixed-effects model, with elastic_eps = 0. With the default elastic_eps = 1e-4 the simple mixed-effects model is a ridge regression and the claim fails (C184_mixed_violated: explicit fits of one observation). SR3 mixed models are left out: their inner method starts at twice the outer parameters."
  },
  {
   "property": "C185",
   "status": "proved",
   "theorems": [
    "Verif.C185_solver",
    "Verif.C185_linear",
    "Verif.C185_mixed",
    "Verif.C185_table"
   ],
   "note": "For the mixed-effects models the coefficients are passed as initial_parameters, since warm_start is broken (C73). Practical SR3 models do not count iterations; SR3 mixed-effects models keep inner parameters in the oracle (C87), which a new fit resets."
  },
  {
   "property": "C186",
   "status": "proved",
   "theorems": [
    "Verif.C186_cross_products",
    "Verif.C186_coefficients"
   ],
   "note": "Without the third equality the losses differ by a constant, which neither the line search nor the stopping rule sees in exact arithmetic."
  },
  {
   "property": "C187",
   "status": "proved",
   "theorems": [
    "Verif.C187_oracle",
    "Verif.C187_fits",
    "Verif.C187_replicates"
   ],
   "note": "All models, also the SR3 ones; the interior point method is followed step by step."
  },
  {
   "property": "C188",
   "status": "partial",
   "theorems": [
    "Verif.C188_linear",
    "Verif.C188_linear_two",
    "Verif.C188_mixed_partial",
    "Verif.C188_practical",
    "Verif.C188_violated"
   ],
   "note": "Violated by SR3 mixed-effects models with warm_start_oracle=True (the default): logging the loss evaluates value_function, which moves the warm start of the next inner solve. Proved for linear models, plain and practical mixed-effects models, and SR3 models with warm_start_oracle=False."
  },
  {
   "property": "C189",
   "status": "proved",
   "theorems": [
    "Verif.C189_solver",
    "Verif.C189_linear",
    "Verif.C189_lasso",
    "Verif.C189_lasso_sr3",
    "Verif.C189_mixed"
   ],
   "note": "For mixed-effects models: if both fits return their logs. Fits of practical SR3 mixed-effects models do not depend on the two parameters (also in C189_mixed)."
  },
  {
   "property": "C190",
   "status": "partial",
   "theorems": [
    "Verif.C190_simple_violated",
    "Verif.C190_cad_violated",
    "Verif.C190_l0_violated",
    "Verif.C190_l1_partial",
    "Verif.C190_cad_partial",
    "Verif.C190_scad_partial"
   ],
   "note": "Violated by the code: without penalty the coefficient keeps its starting value one, with CAD and rho<1 too, and L0 may keep the empty feature instead of the one that explains the observations. Proved for converged fits with the L1 penalty above the stopping error, and for CAD and SCAD as: zero or above the threshold."
  },
  {
   "property": "C191",
   "status": "partial",
   "theorems": [
    "Verif.C191_linear_partial",
    "Verif.C191_mixed_partial",
    "Verif.C191_sign_violated",
    "Verif.C191_l0_violated"
   ],
   "note": "Violated by the code: L0 keeps one of two equal features and drops the other, and with the default start of ones SimpleLinearModel gives two opposite features the same coefficient. Proved for all other penalties: equal features, and opposite features if the start is opposite (linear) or if they are random effects (mixed)."
  },
  {
   "property": "C192",
   "status": "partial",
   "theorems": [
    "Verif.C192_effects",
    "Verif.C192_plain_violated",
    "Verif.C192_l1_partial",
    "Verif.C192_em_violated",
    "Verif.C192_em_table"
   ],
   "note": "Violated by the code: plain models without penalty report nonzero fixed effects and positive variances for features without data, and with initializer EM fit raises an exception if the fixed features are linearly dependent. Proved: predicted random effects without data are zero for all models, and converged plain L1 fits drop the effects without data."
  },
  {
   "property": "C193",
   "status": "proved",
   "theorems": [
    "Verif.C193_unique_minimiser",
    "Verif.C193_two_evaluations",
    "Verif.C193_tolerance"
   ],
   "note": "Over the reals. The relaxation bound is that of C111; C87_history_violated and C80_zero_trap show what happens to histories that end with zero variances: their residuals stay large."
  },
  {
   "property": "C194",
   "status": "proved",
   "theorems": [
    "Verif.C194_value_function",
    "Verif.C194_gradient_error"
   ],
   "note": "Over the reals; the relaxation bound is that of C111. C70_gradient took the exactness of the inner solver as a hypothesis; here the exact value function is constructed and the error of the code is bounded."
  },
  {
   "property": "C195",
   "status": "proved",
   "theorems": [
    "Verif.C195_stops"
   ],
   "note": "Over the reals, without prior and EM initializer, at least one random effect. C124 is the statement for plain models."
  },
  {
   "property": "C196",
   "status": "proved",
   "theorems": [
    "Verif.C196_bounds",
    "Verif.C196_value",
    "Verif.C196_near_optimal"
   ],
   "note": "Over the reals; the statement about value_function needs at least one random effect and nonnegative starting variances. C37 is the bound for the linear models."
  },
  {
   "property": "C197",
   "status": "proved",
   "theorems": [
    "Verif.C197_stationary"
   ],
   "note": "Over the reals, without prior and EM initializer. C125 is the statement for plain models, C169 and C171 give the conditions coordinate by coordinate."
  },
  {
   "property": "C198",
   "status": "proved",
   "theorems": [
    "Verif.C198_stacked"
   ],
   "note": "Over the reals, for the oracle without prior (a prior would be counted twice). The random effects are compared as lists of pairs of group label and effects, up to the order of the groups."
  },
  {
   "property": "C199",
   "status": "partial",
   "theorems": [
    "Verif.C199_more_effects_partial",
    "Verif.C199_marginal_violated",
    "Verif.C199_conditional_violated"
   ],
   "note": "Violated by both versions of the AIC when there are few observations. Proved: muller_hui_2016ic, jones2010bic for given variances, the marginal AIC on either side of the boundary, the conditional AIC for given variances with more than two observations more than selected fixed effects."
  },
  {
   "property": "C200",
   "status": "partial",
   "theorems": [
    "Verif.C200_simple_violated",
    "Verif.C200_cad_violated",
    "Verif.C200_l1_partial",
    "Verif.C200_l1_practical_partial"
   ],
   "note": "Violated by the code: the models without penalty and CAD with rho<1 report the starting value one in both modes, since neither the gradient nor the relaxed coefficients ever move the coefficient. Proved for the L1 penalty: converged exact fits with a penalty above the stopping error, and practical fits with a shrinkage above the tolerance and enough iterations, converged or not. C190 is the statement without relaxation."
  },
  {
   "property": "C201",
   "status": "proved",
   "theorems": [
    "Verif.C201_plain",
    "Verif.C201_sr3"
   ],
   "note": ""
  },
  {
   "property": "C202",
   "status": "proved",
   "theorems": [
    "Verif.C202_plain",
    "Verif.C202_sr3"
   ],
   "note": ""
  },
  {
   "property": "C203",
   "status": "partial",
   "theorems": [
    "Verif.C203_violated",
    "Verif.C203_warm_partial",
    "Verif.C203_budgets_partial"
   ],
   "note": "Violated by the code: from the default start nnz=2 keeps two features and fits worse than nnz=1, both converged (hard thresholding finds local solutions). Proved: a fit with fixed steps up to the inverse curvature that is started (warm_start=True, x0) from the result for a smaller budget is at least as good, converged or not."
  },
  {
   "property": "C204",
   "status": "proved",
   "theorems": [
    "Verif.C204_effects",
    "Verif.C204_fit"
   ],
   "note": "The nonnegativity of the fitted variances is proved in C74_variances_nonneg (PGD models) and C83_fit_returns (all robust models)."
  },
  {
   "property": "C205",
   "status": "proved",
   "theorems": [
    "Verif.C205_scale"
   ],
   "note": "Entries between 0 and 1e-10 are excluded: the code treats them as zero, so scaling can switch effects on."
  },
  {
   "property": "C206",
   "status": "proved",
   "theorems": [
    "Verif.C206_henderson",
    "Verif.C206_intercept"
   ],
   "note": ""
  },
  {
   "property": "C207",
   "status": "proved",
   "theorems": [
    "Verif.C207_trade",
    "Verif.C207_explained"
   ],
   "note": ""
  },
  {
   "property": "C208",
   "status": "proved",
   "theorems": [
    "Verif.C208_precision"
   ],
   "note": ""
  },
  {
   "property": "C209",
   "status": "proved",
   "theorems": [
    "Verif.C209_pull",
    "Verif.C209_nonexpansive",
    "Verif.C209_linear"
   ],
   "note": ""
  },
  {
   "property": "C210",
   "status": "proved",
   "theorems": [
    "Verif.C210_sr3",
    "Verif.C210_plain"
   ],
   "note": ""
  },
  {
   "property": "C211",
   "status": "proved",
   "theorems": [
    "Verif.C211_strength",
    "Verif.C211_budget"
   ],
   "note": ""
  },
  {
   "property": "C212",
   "status": "proved",
   "theorems": [
    "Verif.C212_order",
    "Verif.C212_step",
    "Verif.C212_elastic"
   ],
   "note": ""
  },
  {
   "property": "C213",
   "status": "proved",
   "theorems": [
    "Verif.C213_fitted",
    "Verif.C213_coefficients",
    "Verif.C213_sr3"
   ],
   "note": ""
  },
  {
   "property": "C214",
   "status": "proved",
   "theorems": [
    "Verif.C214_zero"
   ],
   "note": ""
  },
  {
   "property": "C215",
   "status": "proved",
   "theorems": [
    "Verif.C215_copies"
   ],
   "note": ""
  },
  {
   "property": "C216",
   "status": "proved",
   "theorems": [
    "Verif.C216_free",
    "Verif.C216_intercept",
    "Verif.C216_penalty"
   ],
   "note": ""
  },
  {
   "property": "C217",
   "status": "proved",
   "theorems": [
    "Verif.C217_order"
   ],
   "note": ""
  },
  {
   "property": "C218",
   "status": "proved",
   "theorems": [
    "Verif.C218_shared",
    "Verif.C218_sr3"
   ],
   "note": ""
  }
 ]
}