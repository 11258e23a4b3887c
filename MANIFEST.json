{
 "claims": [
  {
   "property": "C01",
   "status": "proved",
   "theorems": [
    "Acc.C01_count"
   ],
   "note": ""
  },
  {
   "property": "C02",
   "status": "proved",
   "theorems": [
    "Acc.C02_sum",
    "Acc.C02_weighted_sum"
   ],
   "note": ""
  },
  {
   "property": "C03",
   "status": "proved",
   "theorems": [
    "Acc.C03_kahan",
    "Acc.C03_weighted_kahan"
   ],
   "note": ""
  },
  {
   "property": "C04",
   "status": "partial",
   "theorems": [
    "Acc.C04_lazy_mean",
    "Acc.C04_immediate_mean",
    "Acc.C04_agree",
    "Acc.C04_lazy_mean_empty",
    "Acc.C04_immediate_mean_empty_finite",
    "Acc.C04_lazy_mean_initial"
   ],
   "note": "Both variants are proved for every non-empty stream. The clause about the empty stream is false for immediate_mean, which returns the finite initial value: C04_immediate_mean_empty_finite."
  },
  {
   "property": "C05",
   "status": "proved",
   "theorems": [
    "Acc.C05_pow",
    "Acc.C05_moment",
    "Acc.C05_moment_empty"
   ],
   "note": ""
  },
  {
   "property": "C06",
   "status": "proved",
   "theorems": [
    "Acc.C06_lazy_variance",
    "Acc.C06_variance",
    "Acc.C06_agree",
    "Acc.C06_variance_initial",
    "Acc.C06_affine",
    "Acc.C06_nonneg",
    "Acc.C06_zero_iff"
   ],
   "note": ""
  },
  {
   "property": "C07",
   "status": "proved",
   "theorems": [
    "Acc.C07_kurtosis",
    "Acc.C07_kurtosis_degenerate",
    "Acc.C07_kurtosis_affine",
    "Acc.C07_skewness",
    "Acc.C07_skewness_degenerate",
    "Acc.C07_skewness_affine",
    "Acc.C07_skewness_odd",
    "Acc.C07_pearson"
   ],
   "note": ""
  },
  {
   "property": "C08",
   "status": "partial",
   "theorems": [
    "Acc.C08_covariance",
    "Acc.C08_symmetric",
    "Acc.C08_self",
    "Acc.C08_vector",
    "Acc.C08_matrix_partial",
    "Acc.C08_matrix_fails"
   ],
   "note": "Proved for scalar/scalar and vector/scalar. For two vectors the code is wrong or undefined unless dimensions match: C08_matrix_fails; C08_matrix_partial gives what remains."
  },
  {
   "property": "C09",
   "status": "proved",
   "theorems": [
    "Acc.C09_max",
    "Acc.C09_min",
    "Acc.C09_empty",
    "Acc.C09_max_general",
    "Acc.C09_min_general",
    "Acc.C09_nan_ignored",
    "Acc.C09_user_defined_float_fails",
    "Acc.C09_limits"
   ],
   "note": "Limits of user-defined floating types are outside the hypotheses (C09_user_defined_float_fails shows what happens there)."
  },
  {
   "property": "C10",
   "status": "proved",
   "theorems": [
    "Acc.C10_perm",
    "Acc.C10_covariance_perm",
    "Acc.C10_skewness_perm",
    "Acc.C10_minmax_perm",
    "Acc.C10_density_perm",
    "Acc.C10_weighted_lazy",
    "Acc.C10_weighted",
    "Acc.C10_weighted_covariance",
    "Acc.C10_weighted_zero_prefix",
    "Acc.C10_covariance_any",
    "Acc.C10_skewness_any",
    "Acc.C10_wdensity_perm",
    "Acc.C10_pot_perm",
    "Acc.C10_pot_prob_perm",
    "Acc.C10_wtail_mean_ties",
    "Acc.C10_tail_perm"
   ],
   "note": "Weighted tail quantiles: C28_wtail_quantile. C10_weighted_zero_prefix and C10_wtail_mean_ties prove where the order does matter."
  },
  {
   "property": "C11",
   "status": "partial",
   "theorems": [
    "Acc.C11_error_of_mean",
    "Acc.C11_one_sample",
    "Acc.C11_no_samples_lazy",
    "Acc.C11_no_samples_immediate_finite"
   ],
   "note": "Proved for n >= 2 and for n = 1. With no samples at all immediate_mean gives a finite result: C11_no_samples_immediate_finite."
  },
  {
   "property": "C12",
   "status": "proved",
   "theorems": [
    "Acc.C12_window",
    "Acc.C12_count"
   ],
   "note": ""
  },
  {
   "property": "C13",
   "status": "proved",
   "theorems": [
    "Acc.C13_sum",
    "Acc.C13_mean",
    "Acc.C13_mean_agree",
    "Acc.C13_moment",
    "Acc.C13_mean_empty"
   ],
   "note": ""
  },
  {
   "property": "C14",
   "status": "proved",
   "theorems": [
    "Acc.C14_immediate",
    "Acc.C14_lazy",
    "Acc.C14_nonneg",
    "Acc.C14_clamp_idle"
   ],
   "note": ""
  },
  {
   "property": "C15",
   "status": "proved",
   "theorems": [
    "Acc.C15_tail",
    "Acc.C15_extremes",
    "Acc.C15_cache_size_zero_ub"
   ],
   "note": ""
  },
  {
   "property": "C16",
   "status": "partial",
   "theorems": [
    "Acc.C16_tail_transparent",
    "Acc.C16_variate_transparent_partial",
    "Acc.C16_variate_ties_order_dependent"
   ],
   "note": "tail: full. tail_variate: under distinct samples; with ties the pairing of equal samples may depend on earlier extractions: C16_variate_ties_order_dependent."
  },
  {
   "property": "C17",
   "status": "proved",
   "theorems": [
    "Acc.C17_aligned",
    "Acc.C17_distinct"
   ],
   "note": ""
  },
  {
   "property": "C18",
   "status": "partial",
   "theorems": [
    "Acc.C18_quantile",
    "Acc.C18_order_statistic",
    "Acc.C18_too_few",
    "Acc.C18_zero_ub",
    "Acc.C18_boundary_rejected"
   ],
   "note": "Proved whenever 1 <= n < cached. The clause 'otherwise NaN or exception' is false for n = 0, which is undefined behaviour (C18_zero_ub); and n = cached is rejected although the sample is there (C18_boundary_rejected)."
  },
  {
   "property": "C19",
   "status": "proved",
   "theorems": [
    "Acc.C19_mean",
    "Acc.C19_too_few",
    "Acc.C19_zero",
    "Acc.C19_beyond_quantile"
   ],
   "note": ""
  },
  {
   "property": "C20",
   "status": "partial",
   "theorems": [
    "Acc.C20_right_partial",
    "Acc.C20_right_integer",
    "Acc.C20_left_actual",
    "Acc.C20_left_wrong"
   ],
   "note": "Right tail as documented (C20_right_partial). Left tail: the code computes something else because of operator precedence (C20_left_actual, C20_left_wrong)."
  },
  {
   "property": "C21",
   "status": "partial",
   "theorems": [
    "Acc.C21_absolute",
    "Acc.C21_relative",
    "Acc.C21_ragged_ub",
    "Acc.C21_too_few",
    "Acc.C21_empty_ub"
   ],
   "note": "Proved; only an empty set of variates is undefined (C21_empty_ub): the first cached variate is read to size the result."
  },
  {
   "property": "C22",
   "status": "proved",
   "theorems": [
    "Acc.C22_algorithm",
    "Acc.C22_invariants",
    "Acc.C22_within",
    "Acc.C22_before_five",
    "Acc.C22_five"
   ],
   "note": ""
  },
  {
   "property": "C23",
   "status": "proved",
   "theorems": [
    "Acc.C23_algorithm",
    "Acc.C23_distribution"
   ],
   "note": ""
  },
  {
   "property": "C24",
   "status": "proved",
   "theorems": [
    "Acc.C24_algorithm",
    "Acc.C24_ordered"
   ],
   "note": ""
  },
  {
   "property": "C25",
   "status": "partial",
   "theorems": [
    "Acc.C25_out_of_range",
    "Acc.C25_exact",
    "Acc.C25_linear",
    "Acc.C25_linear_between",
    "Acc.C25_quadratic",
    "Acc.C25_parabola_nodes",
    "Acc.C25_quadratic_two_ub",
    "Acc.C25_empty_ub",
    "Acc.C25_defined",
    "Acc.C25_set",
    "Acc.C25_linear_within",
    "Acc.C25_quadratic_not_within"
   ],
   "note": "Linear variant: full. Quadratic variant: exact interpolation for one or at least three probabilities; with exactly two it reads out of range (C25_quadratic_two_ub)."
  },
  {
   "property": "C26",
   "status": "proved",
   "theorems": [
    "Acc.C26_partition",
    "Acc.C26_edges",
    "Acc.C26_density",
    "Acc.C26_total",
    "Acc.C26_before_full"
   ],
   "note": ""
  },
  {
   "property": "C27",
   "status": "proved",
   "theorems": [
    "Acc.C27_density",
    "Acc.C27_total",
    "Acc.C27_nonneg",
    "Acc.C27_zero_weight"
   ],
   "note": ""
  },
  {
   "property": "C28",
   "status": "partial",
   "theorems": [
    "Acc.C28_cumul_median_transparent",
    "Acc.C28_wdensity_transparent",
    "Acc.C28_density_transparent",
    "Acc.C28_density_median_second_ub",
    "Acc.C28_density_median_not_transparent",
    "Acc.C28_density_median_repeat_partial",
    "Acc.C28_psq_transparent",
    "Acc.C28_psq_cumul_transparent",
    "Acc.C28_epsq_transparent",
    "Acc.C28_tail_transparent",
    "Acc.C28_wpsq_transparent",
    "Acc.C28_wpsq_cumul_transparent",
    "Acc.C28_wepsq_transparent",
    "Acc.C28_wtail_quantile"
   ],
   "note": "Proved per accumulator. Fails for with_density_median (C28_density_median_second_ub, _not_transparent) and for peaks over threshold (see C30)."
  },
  {
   "property": "C29",
   "status": "partial",
   "theorems": [
    "Acc.C29_cumul_median_partial",
    "Acc.C29_cumul_median_wrong",
    "Acc.C29_cumul_median_ub",
    "Acc.C29_cumul_median_last_ub",
    "Acc.C29_cumul_median_empty_ub",
    "Acc.C29_wcumul_median_partial",
    "Acc.C29_density_median_partial",
    "Acc.C29_density_median_between",
    "Acc.C29_cumCount",
    "Acc.C29_density_median_exists",
    "Acc.C29_density_median_overflow_ub",
    "Acc.C29_density_median_before_full_ub",
    "Acc.C29_wdensity_median_partial",
    "Acc.C29_wdensity_median_overflow_ub",
    "Acc.C29_median",
    "Acc.C29_weighted_median"
   ],
   "note": "median (P-square): full. The density and cumulative-distribution medians only under the stated conditions; outside them the code is wrong or undefined (the *_wrong, *_ub theorems)."
  },
  {
   "property": "C30",
   "status": "partial",
   "theorems": [
    "Acc.C30_fit_partial",
    "Acc.C30_poisoned",
    "Acc.C30_not_transparent",
    "Acc.C30_weighted_fit_partial",
    "Acc.C30_weighted_not_transparent",
    "Acc.C30_prob_fit_partial",
    "Acc.C30_prob_too_few",
    "Acc.C30_prob_nan_then_zero",
    "Acc.C30_prob_not_transparent",
    "Acc.C30_prob_left_flips",
    "Acc.C30_weighted_prob_fit_partial",
    "Acc.C30_weighted_prob_too_few"
   ],
   "note": "Proved for the first extraction. Later extractions are affected by earlier ones: C30_not_transparent, C30_poisoned, C30_prob_*."
  },
  {
   "property": "C31",
   "status": "proved",
   "theorems": [
    "Acc.C31_pot",
    "C31_end",
    "C31_weighted_pot",
    "C31_pot_prob",
    "C31_weighted_pot_prob"
   ],
   "note": ""
  },
  {
   "property": "C32",
   "status": "proved",
   "theorems": [
    "Acc.C32_lazy",
    "Acc.C32_lazy_zero",
    "Acc.C32_immediate",
    "Acc.C32_agree",
    "Acc.C32_zero_prefix_differs",
    "Acc.C32_bounds"
   ],
   "note": ""
  },
  {
   "property": "C33",
   "status": "proved",
   "theorems": [
    "Acc.C33_lazy",
    "Acc.C33_immediate",
    "Acc.C33_agree",
    "Acc.C33_nonneg"
   ],
   "note": ""
  },
  {
   "property": "C34",
   "status": "proved",
   "theorems": [
    "Acc.C34_moment",
    "Acc.C34_kurtosis",
    "Acc.C34_kurtosis_degenerate",
    "Acc.C34_covariance",
    "Acc.C34_skewness",
    "Acc.C34_skewness_degenerate"
   ],
   "note": ""
  },
  {
   "property": "C35",
   "status": "partial",
   "theorems": [
    "Acc.C35_density",
    "Acc.C35_density_median",
    "Acc.C35_psq",
    "Acc.C35_epsq",
    "Acc.C35_cumul_fails",
    "Acc.C35_tail",
    "Acc.C35_tail_edge",
    "Acc.C35_sum_mean",
    "Acc.C35_moment",
    "Acc.C35_variance",
    "Acc.C35_covariance",
    "Acc.C35_skewness"
   ],
   "note": "Proved for every statistic listed in the statement. C35_cumul_fails: the weighted cumulative distribution (not listed) differs. C35_tail: within the range where the unweighted estimator answers; at its edge the two differ, C35_tail_edge."
  },
  {
   "property": "C36",
   "status": "proved",
   "theorems": [
    "Acc.C36_density_scale",
    "Acc.C36_wtail_scale",
    "Acc.C36_multiplicity",
    "Acc.C36_covariance",
    "Acc.C36_scale",
    "Acc.C36_covariance_scale",
    "Acc.C36_skewness",
    "Acc.C36_skewness_scale"
   ],
   "note": ""
  },
  {
   "property": "C37",
   "status": "partial",
   "theorems": [
    "Acc.C37_quantile",
    "Acc.C37_insufficient",
    "Acc.C37_cache_large",
    "Acc.C37_zero_ub",
    "Acc.C37_mean"
   ],
   "note": "Proved for a positive threshold. A threshold of 0 is undefined behaviour (C37_zero_ub)."
  },
  {
   "property": "C38",
   "status": "partial",
   "theorems": [
    "Acc.C38_partial",
    "Acc.C38_never_returns",
    "Acc.C38_diverges"
   ],
   "note": "Absolute/relative means are right when the loop ends (C38_partial); when the cached weight does not suffice the loop never ends (C38_never_returns, C38_diverges)."
  },
  {
   "property": "C39",
   "status": "proved",
   "theorems": [
    "Acc.C39_algorithm",
    "Acc.C39_invariants",
    "Acc.C39_within"
   ],
   "note": ""
  },
  {
   "property": "C40",
   "status": "partial",
   "theorems": [
    "Acc.C40_aim_fails",
    "Acc.C40_second_point",
    "Acc.C40_partial",
    "Acc.C40_last_below_one",
    "Acc.C40_fails"
   ],
   "note": "Heights and monotonicity: C40_partial. The last value is below 1: C40_last_below_one, C40_fails. The inner markers aim one cell too low: C40_aim_fails, C40_second_point."
  },
  {
   "property": "C41",
   "status": "proved",
   "theorems": [
    "Acc.C41_algorithm",
    "Acc.C41_ordered",
    "Acc.C41_quantile"
   ],
   "note": ""
  },
  {
   "property": "C42",
   "status": "partial",
   "theorems": [
    "Acc.C42_unique",
    "Acc.C42_closure",
    "Acc.C42_nothing_else",
    "Acc.C42_covariates_collide",
    "Acc.C42_tails_collide",
    "Acc.C42_lazy_variance",
    "Acc.C42_weights_respected"
   ],
   "note": "Proved for every library, features being identified by their abstract feature (feature_of), as the code does. In the statistics library different covariates (and the two tails) share one abstract feature, so requesting both installs only one provider: C42_covariates_collide, C42_tails_collide; hence 'exactly one accumulator for every requested feature' holds only in this reading."
  },
  {
   "property": "C43",
   "status": "proved",
   "theorems": [
    "Acc.C43_first_wins",
    "Acc.C43_others_lose"
   ],
   "note": ""
  },
  {
   "property": "C44",
   "status": "partial",
   "theorems": [
    "Acc.C44_pair_partial",
    "Acc.C44_order_partial",
    "Acc.C44_std",
    "Acc.C44_fails"
   ],
   "note": "C44_std: full for every request list made of the features in `nice` (see Proofs/StdSets). C44_pair_partial, C44_order_partial: for any library under a compatibility condition. C44_fails: a request list for which an accumulator is updated before one it depends on."
  },
  {
   "property": "C45",
   "status": "partial",
   "theorems": [
    "Acc.C45_independent_partial",
    "Acc.C45_fails"
   ],
   "note": "Where the update order is right (C45_independent_partial). C45_fails: adding a feature changes another result."
  },
  {
   "property": "C46",
   "status": "proved",
   "theorems": [
    "Acc.C46_finds",
    "Acc.C46_extracts"
   ],
   "note": ""
  },
  {
   "property": "C47",
   "status": "proved",
   "theorems": [
    "Acc.C47_frozen",
    "Acc.C47_alive"
   ],
   "note": ""
  },
  {
   "property": "C48",
   "status": "partial",
   "theorems": [
    "Acc.C48_kept_partial",
    "Acc.C48_released_partial",
    "Acc.C48_fails",
    "Acc.C48_fails_assertion",
    "Acc.C48_never_released"
   ],
   "note": "Where the installed provider is the feature itself. drop<F> follows the dependencies of the abstract feature: C48_fails, C48_fails_assertion, C48_never_released."
  },
  {
   "property": "C49",
   "status": "proved",
   "theorems": [
    "Acc.C49_none_accessible",
    "Acc.C49_each_once",
    "Acc.C49_order_reversed"
   ],
   "note": "The documented behaviour is false; the statement is what the code does instead."
  },
  {
   "property": "C50",
   "status": "partial",
   "theorems": [
    "Acc.Cached.C50_cached_partial",
    "Acc.Cached.C50_live",
    "Acc.Cached.C50_construct_ub"
   ],
   "note": "C50_cached_partial: with an initialised cache. C50_construct_ub: constructing the wrapper copies an uninitialised cache."
  },
  {
   "property": "C51",
   "status": "proved",
   "theorems": [
    "Acc.RefWorld.C51_external",
    "Acc.RefWorld.C51_own_push"
   ],
   "note": ""
  },
  {
   "property": "C52",
   "status": "partial",
   "theorems": [
    "Acc.C52_number",
    "Acc.C52_kahan",
    "Acc.C52_mean",
    "Acc.C52_moment",
    "Acc.C52_variance",
    "Acc.C52_covariance",
    "Acc.C52_density",
    "Acc.C52_psquare",
    "Acc.C52_cumulative",
    "Acc.C52_pot",
    "Acc.C52_rolling",
    "Acc.C52_tail",
    "Acc.C52_pot_prob",
    "Acc.C52_fails",
    "Acc.C52_set_partial",
    "Acc.C52_drop_fails"
   ],
   "note": "Per accumulator proved; weighted_peaks_over_threshold forgets a member (C52_fails) and reference counts of droppable accumulators are not saved (C52_drop_fails)."
  },
  {
   "property": "C53",
   "status": "proved",
   "theorems": [
    "Acc.C53_weighted_sum",
    "Acc.C53_weighted_moment",
    "Acc.C53_weighted_variance",
    "Acc.C53_covariance_sample",
    "Acc.C53_covariance_variate",
    "Acc.C53_covariance_matrix",
    "Acc.C53_covariance_shape_fails",
    "Acc.C53_mean_value",
    "Acc.C53_variance_value",
    "Acc.C53_default_fails",
    "Acc.C53_default_immediate_mean_fails",
    "Acc.C53_size_ub",
    "Acc.C53_size_immediate_ub",
    "Acc.C53_size_immediate_fails",
    "Acc.C53_sum",
    "Acc.C53_min_max",
    "Acc.C53_moment",
    "Acc.C53_mean",
    "Acc.C53_weighted_mean",
    "Acc.C53_variance"
   ],
   "note": ""
  },
  {
   "property": "C54",
   "status": "proved",
   "theorems": [
    "Acc.C54_wpsq_cumul",
    "Acc.C54_wepsq",
    "Acc.C54_wpsq_any",
    "Acc.C54_median",
    "Acc.C54_epsq_quantile",
    "Acc.C54_wepsq_quantile",
    "Acc.C54_density",
    "Acc.C54_wdensity",
    "Acc.C54_density_median",
    "Acc.C54_cumul_median",
    "Acc.C54_wcumul_median",
    "Acc.C54_wtail_affine",
    "Acc.C54_coherent_fails",
    "Acc.C54_psq",
    "Acc.C54_psq_cumul",
    "Acc.C54_epsq",
    "Acc.C54_tail_affine",
    "Acc.C54_wpsq"
   ],
   "note": "Coherent tail means are not among the estimators of the statement: they are not equivariant (C54_coherent_fails)."
  },
  {
   "property": "C55",
   "status": "partial",
   "theorems": [
    "Acc.C55_pot_mirror",
    "Acc.C55_pot_fails",
    "Acc.C55_pot_quantile_mirror",
    "Acc.C55_wpot_mirror",
    "Acc.C55_pot_prob_mirror",
    "Acc.C55_wpot_prob_mirror",
    "Acc.C55_tail_mirror",
    "Acc.C55_wtail_mirror"
   ],
   "note": "Tail and weighted tail estimators: full. Peaks over threshold, weighted or not, threshold or threshold probability, fit, quantile and tail mean: for pushes followed by one extraction (C55_pot_mirror, C55_pot_quantile_mirror, C55_wpot_mirror, C55_pot_prob_mirror, C55_wpot_prob_mirror); with interleaved extractions the two sides disagree (C55_pot_fails, a consequence of C30)."
  },
  {
   "property": "C56",
   "status": "partial",
   "theorems": [
    "Acc.C56_density",
    "Acc.C56_psq",
    "Acc.C56_psq_cumul",
    "Acc.C56_epsq",
    "Acc.C56_pot_prob_ub",
    "Acc.C56_weighted_pot_prob_ub",
    "Acc.C56_tail",
    "Acc.C56_wepsq_empty_ub"
   ],
   "note": "Density, P-square family, tail cache: proved. False for several others: C56_pot_prob_ub, C56_weighted_pot_prob_ub, C56_wepsq_empty_ub, C18_zero_ub, C25_quadratic_two_ub, C38_diverges."
  },
  {
   "property": "C57",
   "status": "proved",
   "theorems": [
    "Acc.C57_kahan_rounding",
    "Acc.C57_weighted_kahan_rounding"
   ],
   "note": "The correction arithmetic is assumed exact (true for IEEE binary arithmetic only under conditions on magnitudes)."
  },
  {
   "property": "C58",
   "status": "proved",
   "theorems": [
    "Acc.C58_sum",
    "Acc.C58_weighted_sum"
   ],
   "note": "Overflow and underflow are excluded by the hypothesis RelErr."
  },
  {
   "property": "C59",
   "status": "proved",
   "theorems": [
    "Acc.C59_kahan",
    "Acc.C59_better_than_plain"
   ],
   "note": "Overflow and underflow are excluded by the hypothesis RelErr; the number of samples times u^2 must not exceed 1/32."
  },
  {
   "property": "C60",
   "status": "proved",
   "theorems": [
    "Acc.C60_lazy_mean",
    "Acc.C60_immediate_mean",
    "Acc.C60_moment",
    "Acc.C60_constant_fails"
   ],
   "note": ""
  },
  {
   "property": "C61",
   "status": "proved",
   "theorems": [
    "Acc.C61_variance",
    "Acc.C61_weighted_variance",
    "Acc.C61_rolling_full",
    "Acc.C61_rolling",
    "Acc.C61_lazy_fails"
   ],
   "note": "The lazy variance is excluded by the statement; C61_lazy_fails is its counterexample."
  },
  {
   "property": "C62",
   "status": "proved",
   "theorems": [
    "Acc.C62_rolling_sum",
    "Acc.C62_drift"
   ],
   "note": ""
  },
  {
   "property": "C63",
   "status": "proved",
   "theorems": [
    "Acc.C63_quantile_invariants",
    "Acc.C63_quantile_within",
    "Acc.C63_extended",
    "Acc.C63_cumul"
   ],
   "note": ""
  },
  {
   "property": "C64",
   "status": "proved",
   "theorems": [
    "Acc.C64_density",
    "Acc.C64_total",
    "Acc.C64_fractions",
    "Acc.C64_max_not_in_overflow"
   ],
   "note": ""
  },
  {
   "property": "C65",
   "status": "proved",
   "theorems": [
    "Acc.C65_statistics",
    "Acc.C65_dependencies",
    "Acc.C65_agree",
    "Acc.C65_real",
    "Acc.C65_unused_is_stale"
   ],
   "note": "error_of<immediate_mean>, the rolling statistics and the order statistics are not part of the sets considered; at most one covariate is summed (see C42_covariates_collide). In C65_statistics the two statistics with roots are parameters; C65_real has them over the reals."
  },
  {
   "property": "C66",
   "status": "proved",
   "theorems": [
    "Acc.C66_sum_exact",
    "Acc.C66_sum_overflow",
    "Acc.C66_sum_wraps",
    "Acc.C66_sum_order",
    "Acc.C66_lazy_mean",
    "Acc.C66_immediate_mean",
    "Acc.C66_means_differ",
    "Acc.C66_moment",
    "Acc.C66_moment_fails",
    "Acc.C66_rolling_sum",
    "Acc.C66_rolling_sum_wraps",
    "Acc.C66_rolling_mean",
    "Acc.C66_rolling_mean_all",
    "Acc.C66_rolling_mean_fails",
    "Acc.C66_weighted_sum",
    "Acc.C66_weighted_sum_wraps",
    "Acc.C66_weighted_mean",
    "Acc.C66_mixed_weights_fails"
   ],
   "note": "The exceptions in the statement are proved as counterexamples. double is taken as exact here; rounding is the subject of C58 to C62."
  },
  {
   "property": "C67",
   "status": "proved",
   "theorems": [
    "Acc.C67_rank",
    "Acc.C67_rank_whole",
    "Acc.C67_rank_exact",
    "Acc.C67_quantile",
    "Acc.C67_tail_mean",
    "Acc.C67_weighted_quantile",
    "Acc.C67_off_by_one"
   ],
   "note": "Overflow and underflow are excluded by the hypothesis RelErr. The off-by-one is proved to occur: C67_off_by_one."
  },
  {
   "property": "C68",
   "status": "partial",
   "theorems": [
    "Acc.C68_aligned_partial",
    "Acc.C68_droppable_weights",
    "Acc.C68_fails"
   ],
   "note": "Proved for tail variates and tail weights that are not droppable; for droppable ones it is false, proved as C68_droppable_weights and C68_fails."
  },
  {
   "property": "C69",
   "status": "proved",
   "theorems": [
    "Acc.C69_estimators",
    "Acc.C69_estimators_plain",
    "Acc.C69_dependencies",
    "Acc.C69_statistics",
    "Acc.C69_agree"
   ],
   "note": "Compatible: not lazy_rolling_mean (C44_fails), one family of quantiles, one side of the tail, one summed covariate and one covariate in the tail (others are not installed, C42_covariates_collide), tail variates and weights not droppable (C68). After pushes, extracted once: repeated extraction is the subject of C16, C28 and C30."
  },
  {
   "property": "C70",
   "status": "proved",
   "theorems": [
    "Acc.C70_uses",
    "Acc.C70_requested",
    "Acc.C70_density_median_ub",
    "Acc.C70_quadratic_ub",
    "Acc.C70_variate_means_diverge"
   ],
   "note": "Proved for compatible features as in C69; the three exceptions are proved to fail in sets a user may construct (C70_density_median_ub, C70_quadratic_ub, C70_variate_means_diverge). In exact arithmetic; std::pow and the functions with a square root are parameters assumed to return something, which the real functions do."
  },
  {
   "property": "C71",
   "status": "proved",
   "theorems": [
    "Acc.C71_transparent",
    "Acc.C71_same_pushes",
    "Acc.C71_repeat",
    "Acc.C71_defined",
    "Acc.C71_alone",
    "Acc.C71_sensible",
    "Acc.C71_pot_differs",
    "Acc.C71_density_median_differs",
    "Acc.C71_ties_differ"
   ],
   "note": "Proved for any set without droppable features (C71_transparent), no compatibility of the features assumed; C71_sensible (definedness) and C71_alone use the compatible features of C69. The exceptions are proved to fail in sets (C71_pot_differs, C71_density_median_differs, C71_ties_differ). What a result() extracts on some paths only is extracted on all of them in the model. Exact arithmetic."
  },
  {
   "property": "C72",
   "status": "proved",
   "theorems": [
    "Acc.C72_sum",
    "Acc.C72_mean",
    "Acc.C72_moment",
    "Acc.C72_variance",
    "Acc.C72_variance_fails",
    "Acc.C72_covariance",
    "Acc.C72_weighted_sum",
    "Acc.C72_weighted_mean",
    "Acc.C72_weighted_variance",
    "Acc.C72_complex_weights",
    "Acc.C72_one_fails"
   ],
   "note": "Proved over exact reals for the parts, by simulation of the model on pairs by the same accumulators over the complex numbers. C72_variance_fails and C72_one_fails prove what does not hold."
  },
  {
   "property": "C73",
   "status": "proved",
   "theorems": [
    "Acc.C73_mean_within",
    "Acc.C73_variance_bounds",
    "Acc.C73_identities",
    "Acc.C73_cauchy_schwarz",
    "Acc.C73_kurtosis_bound",
    "Acc.C73_pearson",
    "Acc.C73_rolling",
    "Acc.C73_tail_mean"
   ],
   "note": "Proved in exact arithmetic for every set of elementary statistics (through C65), for the rolling window and for non-coherent tail means. Rounding can violate the inequalities; the bounds under rounding are in C61 to C64."
  },
  {
   "property": "C74",
   "status": "proved",
   "theorems": [
    "Acc.C74_tail_rank",
    "Acc.C74_tail_quantile",
    "Acc.C74_tail_sides",
    "Acc.C74_tail_mean",
    "Acc.C74_coherent_fails",
    "Acc.C74_wtail_rank",
    "Acc.C74_wtail_quantile",
    "Acc.C74_wtail_mean",
    "Acc.C74_linear",
    "Acc.C74_wlinear",
    "Acc.C74_quadratic_fails",
    "Acc.C74_psq_crossing"
   ],
   "note": "Proved in exact arithmetic. The three exceptions named in the statement are proved as C74_coherent_fails, C74_quadratic_fails and C74_psq_crossing; peaks-over-threshold quantiles are in C31."
  },
  {
   "property": "C75",
   "status": "proved",
   "theorems": [
    "Acc.C75_lazy",
    "Acc.C75_immediate",
    "Acc.C75_first_fails",
    "Acc.C75_covariance",
    "Acc.C75_density",
    "Acc.C75_density_cache",
    "Acc.C75_tail_quantile",
    "Acc.C75_tail_cache_fails",
    "Acc.C75_psq_fails"
   ],
   "note": "Proved in exact arithmetic; the exceptions named in the statement are proved as C75_first_fails, C75_density_cache, C75_tail_cache_fails and C75_psq_fails."
  },
  {
   "property": "C76",
   "status": "proved",
   "theorems": [
    "Acc.C76_finite",
    "Acc.C76_finite_second",
    "Acc.C76_nan",
    "Acc.C76_kahan",
    "Acc.C76_mean",
    "Acc.C76_conservative",
    "Acc.C76_lazy_variance",
    "Acc.C76_variance",
    "Acc.C76_rolling",
    "Acc.C76_rolling_mean",
    "Acc.C76_rolling_skip",
    "Acc.C76_rolling_immediate_fails",
    "Acc.C76_order_fails",
    "Acc.C76_min",
    "Acc.C76_max",
    "Acc.C76_overflow_mean_fails",
    "Acc.C76_rolling_constant",
    "Acc.C76_overflow_variance_fails",
    "Acc.C76_finite_skewness",
    "Acc.C76_finite_error",
    "Acc.C76_nan_root",
    "Acc.C76_nan_second"
   ],
   "note": "Proved on the extended numbers of Model/Ext.lean (zero without sign). The failures named in the statement are C76_order_fails, C76_rolling_immediate_fails, C76_overflow_mean_fails and C76_overflow_variance_fails. Skewness is not covered; weighted statistics, tails, histograms and P-square estimates are the subject of C87 to C90."
  },
  {
   "property": "C77",
   "status": "proved",
   "theorems": [
    "Acc.C77_bounded",
    "Acc.C77_total"
   ],
   "note": "Counts the elements of the containers that are state of the model; arrays of constant size that the model passes as parameters (probabilities, position increments) are named at Cell.stored."
  },
  {
   "property": "C78",
   "status": "proved",
   "theorems": [
    "Acc.C78_lazy_mean",
    "Acc.C78_moment",
    "Acc.C78_kahan",
    "Acc.C78_immediate_mean",
    "Acc.C78_immediate_relative_fails"
   ],
   "note": "C78_immediate_relative_fails is the exception named in the statement. Accumulators constructed without an initial sample."
  },
  {
   "property": "C79",
   "status": "proved",
   "theorems": [
    "Acc.C79_lazy",
    "Acc.C79_lazy_immediate",
    "Acc.C79_lazy_weighted",
    "Acc.C79_immediate_over",
    "Acc.C79_immediate",
    "Acc.C79_immediate_lazy",
    "Acc.C79_cancellation_fails"
   ],
   "note": "C79_cancellation_fails is the exception named in the statement. weighted_variance (recursive) is not covered."
  },
  {
   "property": "C80",
   "status": "proved",
   "theorems": [
    "Acc.C80_shows",
    "Acc.C80_kept",
    "Acc.C80_tail_now",
    "Acc.C80_tail_later",
    "Acc.C80_extended",
    "Acc.C80_overwritten",
    "Acc.C80_tail_changes",
    "Acc.C80_extended_changes"
   ],
   "note": "A range is modelled by the positions it covers, reading it by a function of the members at that time; that the iterators stay valid rests on C77 (no container is resized) and on the reserve calls of tail.hpp:167, 175. Ranges over the circular buffer and the vector of tail_variate_means are not covered."
  },
  {
   "property": "C81",
   "status": "proved",
   "theorems": [
    "Acc.C81_tail_quantile",
    "Acc.C81_tail_mean",
    "Acc.C81_density",
    "Acc.C81_pot",
    "Acc.C81_tail_mean_overshoots",
    "Acc.C81_full_level",
    "Acc.C81_p_square",
    "Acc.C81_p_square_scale"
   ],
   "note": "The exceptions named in the statement are the theorems C81_tail_mean_overshoots, C81_full_level, C81_p_square, C81_p_square_scale. Exact arithmetic."
  },
  {
   "property": "C82",
   "status": "proved",
   "theorems": [
    "Acc.C82_same_feature",
    "Acc.C82_tail_variate_means",
    "Acc.C82_weighted",
    "Acc.C82_alternatives",
    "Acc.C82_error_of",
    "Acc.C82_every_variant",
    "Acc.C82_distinct",
    "Acc.C82_installed",
    "Acc.C82_extracts",
    "Acc.C82_agree",
    "Acc.C82_later_is_ignored",
    "Acc.C82_no_alias"
   ],
   "note": "Results: elementary statistics, exact arithmetic (C82_agree); the variants of the estimators are different algorithms. droppable<droppable<F>> is not modelled."
  },
  {
   "property": "C83",
   "status": "proved",
   "theorems": [
    "Acc.C83_external",
    "Acc.C83_weights_first",
    "Acc.C83_any_order",
    "Acc.C83_weights_alone",
    "Acc.C83_wrong_order"
   ],
   "note": "Elementary statistics, exact arithmetic. The other set is passed at every push; without it the features that look at the sum of the weights do not compile. Skewness and error_of<mean> are excluded from the statement (they use square roots)."
  },
  {
   "property": "C84",
   "status": "proved",
   "theorems": [
    "Acc.C84_sample_components",
    "Acc.C84_variate_components",
    "Acc.C84_matrix_components",
    "Acc.C84_vector",
    "Acc.C84_matrix",
    "Acc.C84_shape"
   ],
   "note": "Exact arithmetic, both container instances. The undefined case and the transposition are part of the statement."
  },
  {
   "property": "C85",
   "status": "proved",
   "theorems": [
    "Acc.C85_weighted_heights",
    "Acc.C85_quantile_within",
    "Acc.C85_extended",
    "Acc.C85_weighted_cumul",
    "Acc.C85_positions_coincide"
   ],
   "note": "Finite values: no overflow and no underflow to zero in a quotient by an integer distance (hypothesis Shrinks, proved for rounding to nearest with at least two bits and unbounded exponents)."
  },
  {
   "property": "C86",
   "status": "proved",
   "theorems": [
    "Acc.C86_density",
    "Acc.C86_fractions",
    "Acc.C86_weight_lost"
   ],
   "note": "Finite values, no overflow. C86_weight_lost shows that the bound cannot be replaced by exactness."
  },
  {
   "property": "C87",
   "status": "proved",
   "theorems": [
    "Acc.C87_density",
    "Acc.C87_weighted_density",
    "Acc.C87_infinite_range",
    "Acc.C87_pos_inf",
    "Acc.C87_neg_inf"
   ],
   "note": "The format must represent the number of bins plus one and, for the unweighted frequencies, the number of samples."
  },
  {
   "property": "C88",
   "status": "proved",
   "theorems": [
    "Acc.C88_quantile",
    "Acc.C88_extended",
    "Acc.C88_weighted_quantile",
    "Acc.C88_weighted_extended",
    "Acc.C88_nan_drift",
    "Acc.C88_inf_fails",
    "Acc.C88_inf_undefined",
    "Acc.C88_overflow_fails"
   ],
   "note": "The failures named in the statement are C88_nan_drift, C88_inf_fails, C88_inf_undefined and C88_overflow_fails. NaN among the samples that fill the markers makes std::sort undefined and is excluded."
  },
  {
   "property": "C89",
   "status": "proved",
   "theorems": [
    "Acc.C89_tail",
    "Acc.C89_variates",
    "Acc.C89_quantile",
    "Acc.C89_tail_mean",
    "Acc.C89_nan_frozen",
    "Acc.C89_nan_undefined",
    "Acc.C89_sides_disagree"
   ],
   "note": "The failures named in the statement are C89_sides_disagree, C89_nan_frozen and C89_nan_undefined. Weighted tail estimators are covered as far as C89_variates goes."
  },
  {
   "property": "C90",
   "status": "proved",
   "theorems": [
    "Acc.C90_finite_skewness",
    "Acc.C90_finite",
    "Acc.C90_finite_second",
    "Acc.C90_nan",
    "Acc.C90_infinite_weight",
    "Acc.C90_mean",
    "Acc.C90_moment",
    "Acc.C90_lazy_variance",
    "Acc.C90_zero_weight_fails",
    "Acc.C90_overflow_fails"
   ],
   "note": "The failures named in the statement are C90_zero_weight_fails and C90_overflow_fails. When the weights add up to 0 the result is a division by zero (IsNaN allows both outcomes). Weighted skewness is not covered."
  },
  {
   "property": "C91",
   "status": "proved",
   "theorems": [
    "Acc.C91_variance",
    "Acc.C91_lazy_variance",
    "Acc.C91_variances_differ",
    "Acc.C91_rolling_moment",
    "Acc.C91_rolling_moment_better",
    "Acc.C91_lazy_rolling_variance",
    "Acc.C91_immediate_rolling_variance",
    "Acc.C91_rolling_variances_differ",
    "Acc.C91_tail_quantile",
    "Acc.C91_tail_mean",
    "Acc.C91_tail_mean_overflow",
    "Acc.C91_tail_mean_fails",
    "Acc.C91_weighted_tail_quantile",
    "Acc.C91_weighted_tail_mean",
    "Acc.C91_weighted_tail_fails",
    "Acc.C91_weighted_tail_mixed"
   ],
   "note": "The failures named in the statement are C91_variances_differ, C91_rolling_variances_differ, C91_tail_mean_overflow, C91_tail_mean_fails, C91_weighted_tail_fails and C91_weighted_tail_mixed. Conversions of integers to double are exact (the model computes in an ordered field)."
  },
  {
   "property": "C92",
   "status": "proved",
   "theorems": [
    "Acc.C92_lazy_mean",
    "Acc.C92_moment",
    "Acc.C92_immediate_mean",
    "Acc.C92_drift"
   ],
   "note": "C92_drift is the failure named in the statement. Overflow and subnormal results are outside the rounding model, as in C60 to C62."
  },
  {
   "property": "C93",
   "status": "proved",
   "theorems": [
    "Acc.C93_over",
    "Acc.C93_immediate",
    "Acc.C93_lazy",
    "Acc.C93_symmetric",
    "Acc.C93_self",
    "Acc.C93_cancellation_fails"
   ],
   "note": "C93_cancellation_fails is the failure named in the statement. Overflow and subnormal results are outside the rounding model."
  },
  {
   "property": "C94",
   "status": "proved",
   "theorems": [
    "Acc.C94_covariance_over",
    "Acc.C94_variance_over",
    "Acc.C94_variance",
    "Acc.C94_covariance",
    "Acc.C94_integer_weights",
    "Acc.C94_dominant_weight_fails"
   ],
   "note": "C94_dominant_weight_fails is the failure named in the statement. Nothing is claimed for weights whose partial sums are rounded."
  },
  {
   "property": "C95",
   "status": "proved",
   "theorems": [
    "Acc.C95_immediate_over",
    "Acc.C95_immediate",
    "Acc.C95_immediate_lazy_mean",
    "Acc.C95_lazy",
    "Acc.C95_lazy_drift",
    "Acc.C95_immediate_for_ever"
   ],
   "note": "C95_lazy_drift and C95_immediate_for_ever are the failures named in the statement. Overflow and subnormal results are outside the rounding model."
  },
  {
   "property": "C96",
   "status": "proved",
   "theorems": [
    "Acc.C96_over",
    "Acc.C96_lazy",
    "Acc.C96_immediate",
    "Acc.C96_weighted_over",
    "Acc.C96_weighted_lazy",
    "Acc.C96_weighted_immediate",
    "Acc.C96_offset_fails"
   ],
   "note": "C96_offset_fails is the failure named in the statement. Overflow and subnormal results are outside the rounding model."
  },
  {
   "property": "C97",
   "status": "proved",
   "theorems": [
    "Acc.C97_skewness_over",
    "Acc.C97_skewness_lazy",
    "Acc.C97_skewness_immediate",
    "Acc.C97_weighted_over",
    "Acc.C97_weighted_lazy",
    "Acc.C97_weighted_immediate",
    "Acc.C97_error_lazy",
    "Acc.C97_error_lazy_immediate",
    "Acc.C97_error_immediate",
    "Acc.C97_error_immediate_lazy",
    "Acc.C97_negative_variance",
    "Acc.C97_offset_fails"
   ],
   "note": "C97_negative_variance and C97_offset_fails are the failures named in the statement. The square root is any operation of relative error u (IsRoot); isRoot_real shows the correctly rounded one is of this kind. Overflow and subnormal results are outside the rounding model."
  },
  {
   "property": "C98",
   "status": "proved",
   "theorems": [
    "Acc.C98_weighted_mean",
    "Acc.C98_coherent",
    "Acc.C98_variate",
    "Acc.C98_variate_relative",
    "Acc.C98_weighted_variate",
    "Acc.C98_selection_differs"
   ],
   "note": "C98_selection_differs is the failure named in the statement. Overflow and subnormal results are outside the rounding model; the relative weighted tail variate means are not covered."
  },
  {
   "property": "C99",
   "status": "proved",
   "theorems": [
    "Acc.C99_factors",
    "Acc.C99_scale_exact",
    "Acc.C99_sum",
    "Acc.C99_mean",
    "Acc.C99_moment",
    "Acc.C99_variance",
    "Acc.C99_covariance",
    "Acc.C99_kurtosis",
    "Acc.C99_root",
    "Acc.C99_mirror",
    "Acc.C99_weighted_sum",
    "Acc.C99_weighted",
    "Acc.C99_weighted_skewness",
    "Acc.C99_weighted_covariance",
    "Acc.C99_rolling",
    "Acc.C99_psquare",
    "Acc.C99_interpolated",
    "Acc.C99_weighted_psquare",
    "Acc.C99_weighted_interpolated",
    "Acc.C99_density",
    "Acc.C99_weighted_density",
    "Acc.C99_ten_fails"
   ],
   "note": "C99_ten_fails is the failure named in the statement. Overflow and subnormal results are outside the rounding model; the tail statistics are in C100. That std::sqrt follows powers of two is a hypothesis (RootScales), met by the correctly rounded and the truncated root."
  },
  {
   "property": "C100",
   "status": "proved",
   "theorems": [
    "Acc.C100_extremes",
    "Acc.C100_tail",
    "Acc.C100_tail_quantile",
    "Acc.C100_coherent",
    "Acc.C100_variate_means",
    "Acc.C100_weighted_tail",
    "Acc.C100_weighted_variate_means",
    "Acc.C100_weighted_medians",
    "Acc.C100_coherent_mirror_fails"
   ],
   "note": "C100_coherent_mirror_fails is the exception named in the statement. The factors are those of C99_factors."
  },
  {
   "property": "C101",
   "status": "proved",
   "theorems": [
    "Acc.C101_sum",
    "Acc.C101_sum_kahan",
    "Acc.C101_mean",
    "Acc.C101_mean_whole",
    "Acc.C101_moment",
    "Acc.C101_lazy_variance",
    "Acc.C101_order",
    "Acc.C101_weighted_sum",
    "Acc.C101_weighted_mean",
    "Acc.C101_rolling_sum",
    "Acc.C101_rolling_mean",
    "Acc.C101_rolling_moment",
    "Acc.C101_immediate_mean_fails"
   ],
   "note": "C101_immediate_mean_fails is the exception named in the statement."
  },
  {
   "property": "C102",
   "status": "proved",
   "theorems": [
    "Acc.C102_variance",
    "Acc.C102_lazy_mean_whole",
    "Acc.C102_imm_mean_whole",
    "Acc.C102_means_whole",
    "Acc.C102_variances_whole",
    "Acc.C102_rolling_immediate",
    "Acc.C102_quantiles",
    "Acc.C102_extended",
    "Acc.C102_tenth_fails"
   ],
   "note": "C102_tenth_fails is the exception named in the statement; the means of three times 0.1 are in C60_constant_fails."
  },
  {
   "property": "C103",
   "status": "proved",
   "theorems": [
    "Acc.C103_sum",
    "Acc.C103_mean",
    "Acc.C103_immediate_mean",
    "Acc.C103_moment",
    "Acc.C103_extremes",
    "Acc.C103_weighted",
    "Acc.C103_tail",
    "Acc.C103_tail_estimates",
    "Acc.C103_rolling",
    "Acc.C103_weighted_tail_quantile",
    "Acc.C103_rolling_fails",
    "Acc.C103_kahan_fails",
    "Acc.C103_p_square_fails"
   ],
   "note": "The three _fails theorems are the exceptions named in the statement."
  },
  {
   "property": "C104",
   "status": "proved",
   "theorems": [
    "Acc.C104_sum",
    "Acc.C104_mean",
    "Acc.C104_variance",
    "Acc.C104_tail",
    "Acc.C104_mean_fails",
    "Acc.C104_p_square_fails"
   ],
   "note": "The two _fails theorems are the exceptions named in the statement."
  }
 ]
}