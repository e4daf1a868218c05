{
 "claims": [
  {
   "property": "C01",
   "status": "proved",
   "theorems": [
    "Gpcm.c01_expression_evaluates_faithfully"
   ],
   "note": "for every set iteration order; building may fail, see C84"
  },
  {
   "property": "C02",
   "status": "proved",
   "theorems": [
    "Gpcm.c02_hash_seed_independence"
   ],
   "note": "both processes must succeed in building the expression, see C84"
  },
  {
   "property": "C03",
   "status": "proved",
   "theorems": [
    "Gpcm.c03_substitute",
    "Gpcm.c03_substitute_poly",
    "Gpcm.c03_substitute_empty"
   ],
   "note": "ExpPoly level: see C13/C15 theorems"
  },
  {
   "property": "C04",
   "status": "proved",
   "theorems": [
    "Gpcm.c04_eq_sound",
    "Gpcm.c04_eq_equivalence",
    "Gpcm.c04_eq_order"
   ],
   "note": ""
  },
  {
   "property": "C05",
   "status": "partial",
   "theorems": [
    "Gpcm.c05_eq_complete_false",
    "Gpcm.c05_eq_complete_partial"
   ],
   "note": "false in general: (x+1)-1 != x; true when no zero term is stored"
  },
  {
   "property": "C06",
   "status": "partial",
   "theorems": [
    "Gpcm.c06_one_term_per_monomial_false",
    "Gpcm.c06_one_term_per_monomial_partial"
   ],
   "note": "false for terms without factors (left-over zero terms); proved for terms with factors"
  },
  {
   "property": "C07",
   "status": "proved",
   "theorems": [
    "Gpcm.c07_not_function_of",
    "Gpcm.c07_constant",
    "Gpcm.c07_highest_power",
    "Gpcm.c07_highest_power_zero"
   ],
   "note": ""
  },
  {
   "property": "C08",
   "status": "proved",
   "theorems": [
    "Gpcm.c08_eval_ok_iff",
    "Gpcm.c08_eval_error"
   ],
   "note": ""
  },
  {
   "property": "C09",
   "status": "proved",
   "theorems": [
    "Gpcm.c09_quadratic_decomposition"
   ],
   "note": ""
  },
  {
   "property": "C10",
   "status": "proved",
   "theorems": [
    "Gpcm.c10_integrate",
    "Gpcm.c10_integrate_total"
   ],
   "note": "value and termination; convergence and the clamp bound are hypotheses, as in the statement"
  },
  {
   "property": "C100",
   "status": "proved",
   "theorems": [
    "Gpcm.c100_kernel_mean",
    "Gpcm.c100_conditional",
    "Gpcm.c100_marginal",
    "Gpcm.c100_kernel_mean_rgpcm",
    "Gpcm.c100_conditional_rgpcm",
    "Gpcm.c100_marginal_rgpcm"
   ],
   "note": "gamma > 0 is assumed"
  },
  {
   "property": "C101",
   "status": "partial",
   "theorems": [
    "Gpcm.Ess.c101_fresh",
    "Gpcm.Ess.c101_reversible_partial",
    "Gpcm.Ess.c101_pass_invariant_partial",
    "Gpcm.Ess.c101_weighted_invariant_partial",
    "Gpcm.Ess.c101_nearly_invariant_partial",
    "Gpcm.Ess.c101_false"
   ],
   "note": "false: `_sample` repeats a pass that exceeded its attempts, so a concrete target is not invariant; proved: detailed balance of successful passes, invariance under a pass that counts failures, the distribution that is invariant instead (target times probability of success), and a two-sided bound by the smallest probability of success"
  },
  {
   "property": "C102",
   "status": "partial",
   "theorems": [
    "Gpcm.c102_moments_partial",
    "Gpcm.c102_variance_false",
    "Gpcm.c102_false",
    "Gpcm.c102_causal_singular_false",
    "Gpcm.c102_causal_blind_false",
    "Gpcm.c102_causal_false",
    "Gpcm.c102_rough_false"
   ],
   "note": "false: the GPCM's samples lack the factor alpha_t ** 2 in the part of the variance that the inducing variables do not determine; the CGPCM ignores inducing points at negative times, and without jitter it cannot condition at all; the RGPCM conditions the filter on its inducing variables as if they were values of the filter; proved: the mean is right for the GPCM that is not causal, and the exact covariance of its samples"
  },
  {
   "property": "C103",
   "status": "proved",
   "theorems": [
    "Gpcm.c103_causal",
    "Gpcm.c103_rough",
    "Gpcm.c103_plain",
    "Gpcm.c103_shifted",
    "Gpcm.c103_min_phase"
   ],
   "note": "exact arithmetic: the factor squares to the covariance"
  },
  {
   "property": "C104",
   "status": "proved",
   "theorems": [
    "Gpcm.c104_gpcm",
    "Gpcm.c104_rgpcm",
    "Gpcm.c104_prior",
    "Gpcm.c104_prior_rgpcm"
   ],
   "note": ""
  },
  {
   "property": "C105",
   "status": "partial",
   "theorems": [
    "Gpcm.c105_fresh",
    "Gpcm.c105_start_partial",
    "Gpcm.c105_again",
    "Gpcm.c105_false",
    "Gpcm.c105_fresh_rgpcm",
    "Gpcm.c105_start_rgpcm_partial",
    "Gpcm.c105_again_rgpcm"
   ],
   "note": "false: the variable of t_u is bounded by 1.5 min(t_u) and 1.5 max(t_u), which excludes t_u itself when no inducing point is negative (or none positive), so the first instantiation is NaN; proved: whenever it is not NaN, and an exact criterion for that"
  },
  {
   "property": "C106",
   "status": "partial",
   "theorems": [
    "Gpcm.c106_gpcm_partial",
    "Gpcm.c106_causal_false",
    "Gpcm.c106_rgpcm"
   ],
   "note": "false for the CGPCM: the covariance is strictly smaller than requested at every non-zero lag; proved for the GPCM and the RGPCM"
  },
  {
   "property": "C107",
   "status": "partial",
   "theorems": [
    "Gpcm.c107_rgpcm",
    "Gpcm.c107_gpcm_partial",
    "Gpcm.c107_window_false",
    "Gpcm.c107_false"
   ],
   "note": "false for the GPCM: fix_scale fixes gamma, but the length scale depends on gamma + alpha / 2 and alpha is learned; proved for the RGPCM, and for the GPCM and the CGPCM when the window is fixed too"
  },
  {
   "property": "C108",
   "status": "proved",
   "theorems": [
    "Gpcm.c108_mean_field",
    "Gpcm.c108_prior",
    "Gpcm.c108_structured",
    "Gpcm.c108_rgpcm_mean_field",
    "Gpcm.c108_rgpcm_prior",
    "Gpcm.c108_rgpcm_structured"
   ],
   "note": "GPCM and CGPCM with 0 < gamma and distinct inducing points; RGPCM under the conditions of C109"
  },
  {
   "property": "C109",
   "status": "proved",
   "theorems": [
    "Gpcm.c109_valid",
    "Gpcm.c109_constructed"
   ],
   "note": "at times outside the interval the integrals are wrong, see C95; where alpha - gamma = lam they are undefined, see C94"
  },
  {
   "property": "C11",
   "status": "proved",
   "theorems": [
    "Gpcm.c11_integrate_half",
    "Gpcm.c11_integrate_half_total"
   ],
   "note": ""
  },
  {
   "property": "C110",
   "status": "proved",
   "theorems": [
    "Gpcm.c110_default",
    "Gpcm.c110_mean_field",
    "Gpcm.c110_mean_field_rgpcm",
    "Gpcm.c110_prior",
    "Gpcm.c110_prior_rgpcm",
    "Gpcm.c110_structured",
    "Gpcm.c110_structured_rgpcm"
   ],
   "note": "GPCM and CGPCM with 0 < gamma and distinct inducing points; RGPCM under the conditions of C109; structured samples: every stored sample gives the kernel conditional on it"
  },
  {
   "property": "C111",
   "status": "partial",
   "theorems": [
    "Gpcm.c111_unchanged_partial",
    "Gpcm.c111_false"
   ],
   "note": "false: the mean variance is only printed; the samples of the approximation are returned unchanged"
  },
  {
   "property": "C112",
   "status": "partial",
   "theorems": [
    "Gpcm.c112_mean_field_partial",
    "Gpcm.c112_structured_partial",
    "Gpcm.c112_none",
    "Gpcm.c112_false"
   ],
   "note": "false for conditioned models under the structured scheme, which use at most the stored samples; proved for the mean-field scheme and before conditioning"
  },
  {
   "property": "C113",
   "status": "partial",
   "theorems": [
    "Gpcm.c113_plain_partial",
    "Gpcm.c113_kernel",
    "Gpcm.c113_mean",
    "Gpcm.c113_false"
   ],
   "note": "false in decibels: the variance is the square of the standard deviation converted to decibels; proved without decibels"
  },
  {
   "property": "C114",
   "status": "proved",
   "theorems": [
    "Gpcm.c114_default",
    "Gpcm.c114_densities",
    "Gpcm.c114_mean_field",
    "Gpcm.c114_mean_field_rgpcm",
    "Gpcm.c114_rejects"
   ],
   "note": ""
  },
  {
   "property": "C115",
   "status": "proved",
   "theorems": [
    "Gpcm.c115_differences",
    "Gpcm.c115_stops",
    "Gpcm.c115_elbo",
    "Gpcm.c115_limit_points",
    "Gpcm.c115_limit_exists"
   ],
   "note": "no rate is claimed: how many iterations are needed depends on the data, so the default limit of 5000 need not suffice"
  },
  {
   "property": "C116",
   "status": "proved",
   "theorems": [
    "Gpcm.c116_converges",
    "Gpcm.c116_events",
    "Gpcm.c116_averages"
   ],
   "note": "no rate is claimed here; see C199"
  },
  {
   "property": "C117",
   "status": "partial",
   "theorems": [
    "Gpcm.c117_kernel_partial",
    "Gpcm.c117_psd_partial",
    "Gpcm.c117_kernel_refuted",
    "Gpcm.c117_psd_refuted",
    "Gpcm.c117_covariance",
    "Gpcm.c117_density",
    "Gpcm.c117_function",
    "Gpcm.c117_normaliser"
   ],
   "note": "false: the kernel is multiplied by the scale instead of its square, and the density in decibels is shifted by 20 times the natural logarithm; proved what is reported instead, and that predictions of the function are right"
  },
  {
   "property": "C118",
   "status": "proved",
   "theorems": [
    "Gpcm.c118_sets",
    "Gpcm.c118_no_leakage",
    "Gpcm.c118_times",
    "Gpcm.c118_cover",
    "Gpcm.c118_error",
    "Gpcm.c118_train"
   ],
   "note": ""
  },
  {
   "property": "C119",
   "status": "partial",
   "theorems": [
    "Gpcm.c119_partial",
    "Gpcm.c119_structured_partial",
    "Gpcm.c119_refuted"
   ],
   "note": "false for every model and time: the noise is added to a variance that already contains it; proved what the lines are"
  },
  {
   "property": "C12",
   "status": "proved",
   "theorems": [
    "Gpcm.c12_integrate_half",
    "Gpcm.c12_integrate_half_total"
   ],
   "note": "clamp conditions of safe_sqrt are hypotheses"
  },
  {
   "property": "C120",
   "status": "partial",
   "theorems": [
    "Gpcm.c120_spaced_partial",
    "Gpcm.c120_unit_partial",
    "Gpcm.c120_error_partial",
    "Gpcm.c120_refuted",
    "Gpcm.c120_shift"
   ],
   "note": "false for the origin: unequally spaced times pass when far enough from zero; proved for the unit, and that equally spaced times pass"
  },
  {
   "property": "C121",
   "status": "proved",
   "theorems": [
    "Gpcm.c121_matern",
    "Gpcm.c121_excitation",
    "Gpcm.c121_components"
   ],
   "note": ""
  },
  {
   "property": "C122",
   "status": "proved",
   "theorems": [
    "Gpcm.c122_swap",
    "Gpcm.c122_half",
    "Gpcm.c122_tail"
   ],
   "note": ""
  },
  {
   "property": "C123",
   "status": "partial",
   "theorems": [
    "Gpcm.c123_structured_forgets",
    "Gpcm.c123_ca_forgets",
    "Gpcm.c123_refuted",
    "Gpcm.c123_ca_refuted",
    "Gpcm.c123_bound_partial"
   ],
   "note": "false: predictions depend on the last data set only, for the structured scheme and for coordinate ascent; proved that the bound does use the earlier posterior"
  },
  {
   "property": "C124",
   "status": "partial",
   "theorems": [
    "Gpcm.c124_predicts",
    "Gpcm.c124_readme_partial",
    "Gpcm.c124_refuted",
    "Gpcm.c124_ca"
   ],
   "note": "false for structured models that are conditioned without a fit, or fitted only after conditioning (KeyError); characterised for all histories"
  },
  {
   "property": "C125",
   "status": "proved",
   "theorems": [
    "Gpcm.c125_coefficients",
    "Gpcm.c125_predicted_noise"
   ],
   "note": "for the structured scheme; with the mean-field scheme the features are wrong because of C37"
  },
  {
   "property": "C126",
   "status": "partial",
   "theorems": [
    "Gpcm.Plots.c126_partial",
    "Gpcm.Plots.c126_points",
    "Gpcm.Plots.c126_refuted"
   ],
   "note": "false for the constant feature, which is in the panel of cosines twice and also in that of sines; proved for all others"
  },
  {
   "property": "C127",
   "status": "partial",
   "theorems": [
    "Gpcm.Plots.c127_partial",
    "Gpcm.Plots.c127_refuted",
    "Gpcm.Plots.c127_refuted_range"
   ],
   "note": "false: the predicted frequencies are used as lags, so that the frequencies of the true density scale like times; proved which frequencies are used"
  },
  {
   "property": "C128",
   "status": "proved",
   "theorems": [
    "Gpcm.Compare.c128_times",
    "Gpcm.Compare.c128_pause",
    "Gpcm.Compare.c128_curve"
   ],
   "note": ""
  },
  {
   "property": "C129",
   "status": "proved",
   "theorems": [
    "Gpcm.Compare.c129_callback",
    "Gpcm.Compare.c129_calls",
    "Gpcm.Compare.c129_tracked",
    "Gpcm.Compare.c129_curve",
    "Gpcm.Compare.c129_best"
   ],
   "note": ""
  },
  {
   "property": "C13",
   "status": "partial",
   "theorems": [
    "Gpcm.c13_integrate_box_zero",
    "Gpcm.c13_integrate_box_zero_total",
    "Gpcm.c13_integrate_box_one_partial",
    "Gpcm.c13_integrate_box_two_partial",
    "Gpcm.c13_integrate_box_one_total",
    "Gpcm.c13_integrate_box_two_total",
    "Gpcm.c13_integrate_box_three",
    "Gpcm.c13_integrate_box_false"
   ],
   "note": "false for a finite lower and an infinite upper limit (refuted); proved for all finite upper limits, one or two finite sides; more than two sides raise NotImplementedError"
  },
  {
   "property": "C130",
   "status": "partial",
   "theorems": [
    "Gpcm.Compare.c130_partial",
    "Gpcm.Compare.c130_refuted",
    "Gpcm.Compare.c130_aligned"
   ],
   "note": "false for the curves of coordinate ascent and of the structured scheme, whose times do not enter the limit; proved for the others"
  },
  {
   "property": "C131",
   "status": "proved",
   "theorems": [
    "Gpcm.Scripts.c131_stationary",
    "Gpcm.Scripts.c131_posDef",
    "Gpcm.Scripts.c131_row"
   ],
   "note": "assumes that a function times a kernel is f(x) f(y) k(x, y), as in mlkernels"
  },
  {
   "property": "C132",
   "status": "partial",
   "theorems": [
    "Gpcm.Scripts.c132_first",
    "Gpcm.Scripts.c132_samples",
    "Gpcm.Scripts.c132_partial",
    "Gpcm.Scripts.c132_origin",
    "Gpcm.Scripts.c132_blind",
    "Gpcm.Scripts.c132_refuted"
   ],
   "note": "false for the filter: it ignores the inducing variables at negative times; everything else proved"
  },
  {
   "property": "C133",
   "status": "partial",
   "theorems": [
    "Gpcm.Scripts.c133_removal",
    "Gpcm.Scripts.c133_refuted_eq",
    "Gpcm.Scripts.c133_partial"
   ],
   "note": "false: in eq.py all inputs of the truth equal 44, and smk.py covers the non-negative half of the region only; removal proved"
  },
  {
   "property": "C134",
   "status": "proved",
   "theorems": [
    "Gpcm.c134_structured",
    "Gpcm.c134_ca",
    "Gpcm.c134_bounds",
    "Gpcm.c134_inputs"
   ],
   "note": "in exact arithmetic; floating-point sums depend on the order"
  },
  {
   "property": "C135",
   "status": "proved",
   "theorems": [
    "Gpcm.c135_structured",
    "Gpcm.c135_ca",
    "Gpcm.c135_bounds"
   ],
   "note": ""
  },
  {
   "property": "C136",
   "status": "proved",
   "theorems": [
    "Gpcm.c136_gpcm_new",
    "Gpcm.c136_gpcm_integrals",
    "Gpcm.c136_gpcm",
    "Gpcm.c136_rgpcm_new",
    "Gpcm.c136_rgpcm_integrals",
    "Gpcm.c136_rgpcm"
   ],
   "note": "Exact arithmetic. Times enter the GPCM's integrals through the specification of C65, hence the hypothesis of moderate parameters."
  },
  {
   "property": "C137",
   "status": "proved",
   "theorems": [
    "Gpcm.c137_gpcm_new",
    "Gpcm.c137_gpcm_integrals",
    "Gpcm.c137_gpcm",
    "Gpcm.c137_rgpcm_new",
    "Gpcm.c137_rgpcm_integrals",
    "Gpcm.c137_rgpcm"
   ],
   "note": "Exact arithmetic; jitter is absolute and not modelled. For the GPCM the predictions after coordinate ascent are compared at equal numbers of iterations, as its stopping rule has an absolute tolerance."
  },
  {
   "property": "C138",
   "status": "proved",
   "theorems": [
    "Gpcm.c138_gpcm_new",
    "Gpcm.c138_gpcm_integrals",
    "Gpcm.c138_gpcm",
    "Gpcm.c138_rgpcm_new",
    "Gpcm.c138_rgpcm_integrals",
    "Gpcm.c138_rgpcm"
   ],
   "note": "Exact arithmetic; jitter is absolute and not modelled."
  },
  {
   "property": "C139",
   "status": "partial",
   "theorems": [
    "Gpcm.c139_mean_field_partial",
    "Gpcm.c139_structured_partial",
    "Gpcm.c139_rgpcm_repeats",
    "Gpcm.c139_rgpcm_false",
    "Gpcm.c139_refuted"
   ],
   "note": "Proved for the GPCM and the CGPCM. False for the RGPCM: the predicted mean has period b - a, with a concrete posterior for which it is a non-zero constant."
  },
  {
   "property": "C14",
   "status": "partial",
   "theorems": [
    "Gpcm.c14_integrate_rejects",
    "Gpcm.c14_integrate_accepts",
    "Gpcm.c14_half_rejects",
    "Gpcm.c14_half2_rejects",
    "Gpcm.c14_half_accepts",
    "Gpcm.c14_no_other_exception_false"
   ],
   "note": "RuntimeError proved whenever the polynomial has a term; the polynomial without terms raises ValueError instead (refutation)"
  },
  {
   "property": "C140",
   "status": "proved",
   "theorems": [
    "Gpcm.c140_gpcm",
    "Gpcm.c140_rgpcm"
   ],
   "note": ""
  },
  {
   "property": "C141",
   "status": "proved",
   "theorems": [
    "Gpcm.c141_sample",
    "Gpcm.c141_law",
    "Gpcm.c141_predict",
    "Gpcm.c141_predict_structured",
    "Gpcm.c141_elbo",
    "Gpcm.c141_collapsed",
    "Gpcm.c141_fit",
    "Gpcm.c141_proper"
   ],
   "note": ""
  },
  {
   "property": "C142",
   "status": "proved",
   "theorems": [
    "Gpcm.c142_mean_field",
    "Gpcm.c142_structured",
    "Gpcm.c142_kernel",
    "Gpcm.c142_rgpcm"
   ],
   "note": "The structured scheme is compared for corresponding factors; C141 says what other factors do."
  },
  {
   "property": "C143",
   "status": "proved",
   "theorems": [
    "Gpcm.c143_predict",
    "Gpcm.c143_one",
    "Gpcm.c143_bounds",
    "Gpcm.c143_likelihood",
    "Gpcm.c143_fit",
    "Gpcm.c143_stuck",
    "Gpcm.c143_structured",
    "Gpcm.c143_kernel"
   ],
   "note": ""
  },
  {
   "property": "C144",
   "status": "proved",
   "theorems": [
    "Gpcm.c144_new",
    "Gpcm.c144_mean_field",
    "Gpcm.c142_structured",
    "Gpcm.c142_kernel",
    "Gpcm.c144_single"
   ],
   "note": "c142_structured and c142_kernel for direction minus one. With a single automatic inducing input the reflected model is another one (c144_single)."
  },
  {
   "property": "C145",
   "status": "partial",
   "theorems": [
    "Gpcm.Session.c145_restored_partial",
    "Gpcm.Session.c145_structured_partial",
    "Gpcm.Session.c145_ca_partial",
    "Gpcm.Session.c145_structured_false",
    "Gpcm.Session.c145_ca_false",
    "Gpcm.Session.c145_refuted"
   ],
   "note": "Refuted for loading alone: the file does not contain the conditioning, so that the structured scheme raises AttributeError and mean-field schemes silently predict from the prior. Proved: after loading and conditioning again on the same data sets in the same order, the state and the predictions are those from before."
  },
  {
   "property": "C146",
   "status": "proved",
   "theorems": [
    "Gpcm.c146_prior",
    "Gpcm.c146_empty",
    "Gpcm.c146_gpcm",
    "Gpcm.Rgpcm.c146_rgpcm",
    "Gpcm.c146_structured"
   ],
   "note": "The GPCM and CGPCM at all times, the RGPCM at the times that its interval covers."
  },
  {
   "property": "C147",
   "status": "proved",
   "theorems": [
    "Gpcm.c147_mean_field",
    "Gpcm.c147_structured"
   ],
   "note": "Every value of the collapsed argument; the structured bound for every list of samples."
  },
  {
   "property": "C148",
   "status": "proved",
   "theorems": [
    "Gpcm.c148_excitation",
    "Gpcm.c148_filter",
    "Gpcm.c148_updates",
    "Gpcm.c148_signal"
   ],
   "note": "Loewner order; c148_signal is the witness that the predicted variance of the signal can increase."
  },
  {
   "property": "C149",
   "status": "proved",
   "theorems": [
    "Gpcm.c149_fit",
    "Gpcm.c149_predict"
   ],
   "note": "States after the fit are equal; predictions are equal apart from the noise that is added."
  },
  {
   "property": "C15",
   "status": "proved",
   "theorems": [
    "Gpcm.c15_mul",
    "Gpcm.c15_scalar"
   ],
   "note": ""
  },
  {
   "property": "C150",
   "status": "proved",
   "theorems": [
    "Gpcm.c150_linear",
    "Gpcm.c150_covariance"
   ],
   "note": "For given samples of the filter."
  },
  {
   "property": "C151",
   "status": "proved",
   "theorems": [
    "Gpcm.c151_gpcm",
    "Gpcm.c151_gpcm_kernel",
    "Gpcm.Rgpcm.c151_rgpcm",
    "Gpcm.Rgpcm.c151_rgpcm_kernel"
   ],
   "note": "The kernel of the RGPCM for parameters for which the code does not divide by zero."
  },
  {
   "property": "C152",
   "status": "proved",
   "theorems": [
    "Gpcm.c152_mean_field",
    "Gpcm.c152_bound",
    "Gpcm.c152_structured",
    "Gpcm.c152_gpcm",
    "Gpcm.Rgpcm.c152_rgpcm"
   ],
   "note": "The RGPCM for data in the times that the larger model covers. The structured bound for more inducing points of the excitation and the same samples of the filter."
  },
  {
   "property": "C153",
   "status": "proved",
   "theorems": [
    "Gpcm.c153_structured",
    "Gpcm.c153_stable",
    "Gpcm.c153_mean_field"
   ],
   "note": ""
  },
  {
   "property": "C154",
   "status": "proved",
   "theorems": [
    "Gpcm.c154_mean_field",
    "Gpcm.c154_structured"
   ],
   "note": ""
  },
  {
   "property": "C155",
   "status": "proved",
   "theorems": [
    "Gpcm.c155_mean_field",
    "Gpcm.c155_structured"
   ],
   "note": ""
  },
  {
   "property": "C156",
   "status": "proved",
   "theorems": [
    "Gpcm.Experiments.c156_repeat",
    "Gpcm.Experiments.c156_missing",
    "Gpcm.Experiments.c156_unknown",
    "Gpcm.Experiments.c156_others",
    "Gpcm.Experiments.c156_succeeds",
    "Gpcm.Session.c156_structured",
    "Gpcm.Session.c156_ca"
   ],
   "note": "Sessions with fixed hyper-parameters; all models of one run have inducing variables of the same types. The general theorem takes as hypothesis that saving and loading restores what is analysed."
  },
  {
   "property": "C157",
   "status": "partial",
   "theorems": [
    "Gpcm.Scripts.c157_refuted",
    "Gpcm.Scripts.c157_understated_false",
    "Gpcm.Scripts.c157_partial",
    "Gpcm.Scripts.c157_one",
    "Gpcm.Scripts.c157_difference",
    "Gpcm.Scripts.c157_paired"
   ],
   "note": "False: the expected square is the fraction (n - 1) / n of the variance of the mean, so it is too small for every n, and the number of standard errors in `compare` is larger than the statistic of the paired t-test by the factor sqrt(n / (n - 1)). Proved: these exact relations, that the mean is unbiased, and the claim about differences."
  },
  {
   "property": "C158",
   "status": "proved",
   "theorems": [
    "Gpcm.Scripts.c158_gpcm",
    "Gpcm.Scripts.c158_rgpcm"
   ],
   "note": "`B.chol` lower triangular with a positive diagonal."
  },
  {
   "property": "C159",
   "status": "proved",
   "theorems": [
    "Gpcm.Scripts.c159_mauna_loa",
    "Gpcm.Scripts.c159_empty",
    "Gpcm.Scripts.c159_range",
    "Gpcm.Scripts.c159_points",
    "Gpcm.Scripts.c159_metric"
   ],
   "note": "The metrics of `wbml` are arbitrary functions."
  },
  {
   "property": "C16",
   "status": "proved",
   "theorems": [
    "Gpcm.c16_moments",
    "Gpcm.c16_density",
    "Gpcm.c16_to_from",
    "Gpcm.c16_from_to"
   ],
   "note": "mean, var, m2 equal the algebraic moments and the moments of the density exp(logpdf), for every factorisation oracle; both round trips"
  },
  {
   "property": "C160",
   "status": "proved",
   "theorems": [
    "Gpcm.c160_independent",
    "Gpcm.c160_events"
   ],
   "note": "The random numbers are independent standard normal vectors; hyper-parameters fixed (`optimise_hypers=False`)."
  },
  {
   "property": "C161",
   "status": "proved",
   "theorems": [
    "Gpcm.c161_consistent",
    "Gpcm.c161_probability",
    "Gpcm.c161_polynomial"
   ],
   "note": "In mean square, hence in probability. A fit stores a thousand samples, however long it is; see C160 for those."
  },
  {
   "property": "C162",
   "status": "proved",
   "theorems": [
    "Gpcm.c162_average",
    "Gpcm.c162_predict",
    "Gpcm.c162_remains"
   ],
   "note": "The limit of the mean squared error, with a positive lower bound whenever some filter yields a prediction other than zero."
  },
  {
   "property": "C163",
   "status": "proved",
   "theorems": [
    "Gpcm.c163_gradient",
    "Gpcm.c163_consistent"
   ],
   "note": "Automatic differentiation is exact differentiation; the prior of the filter is the original one, that is, the model has not been conditioned on earlier data."
  },
  {
   "property": "C164",
   "status": "proved",
   "theorems": [
    "Gpcm.c164_best",
    "Gpcm.c164_fixed",
    "Gpcm.c164_stuck"
   ],
   "note": "For fixed hyper-parameters and before conditioning."
  },
  {
   "property": "C165",
   "status": "partial",
   "theorems": [
    "Gpcm.c165_ca_partial",
    "Gpcm.c165_ca_bound_partial",
    "Gpcm.c165_structured_forgets",
    "Gpcm.c165_structured_repeats",
    "Gpcm.c165_structured_false"
   ],
   "note": "Holds for the scheme mean-field-ca. False for the structured scheme without learning of hyper-parameters: a second fit starts from the same seed and the same posteriors, so it repeats the same samples."
  },
  {
   "property": "C166",
   "status": "partial",
   "theorems": [
    "Gpcm.Ess.c166_returns",
    "Gpcm.Ess.c166_limit_partial",
    "Gpcm.Ess.c166_average_partial",
    "Gpcm.Ess.c166_near_partial",
    "Gpcm.Ess.c166_exact_partial",
    "Gpcm.Ess.c166_false"
   ],
   "note": "False as stated: the limit is the target weighted by the probability that a pass succeeds, which differs from the target for a concrete likelihood. Proved: sampling returns with probability one, convergence to the weighted target from every start, consistency of averages, a two-sided bound between the two distributions, and convergence to the target if passes never fail."
  },
  {
   "property": "C167",
   "status": "partial",
   "theorems": [
    "Gpcm.c167_lags",
    "Gpcm.c167_bias_partial",
    "Gpcm.c167_limit_partial",
    "Gpcm.c167_false_bias",
    "Gpcm.c167_false_noise"
   ],
   "note": "The expected curve approaches kernel plus noise at lag zero and the kernel at other lags if the kernel vanishes at long lags, with an explicit bound on the bias. False at lag zero with noise, and for every finite length: white noise gives a negative curve at all positive lags."
  },
  {
   "property": "C168",
   "status": "proved",
   "theorems": [
    "Gpcm.c168_best",
    "Gpcm.c168_mean_field",
    "Gpcm.c168_collapsed_z",
    "Gpcm.c168_collapsed_u",
    "Gpcm.c168_structured",
    "Gpcm.c168_residual",
    "Gpcm.c168_degenerate",
    "Gpcm.c168_evidence",
    "Gpcm.c168_evidence_exists",
    "Gpcm.c168_consistent"
   ],
   "note": "For locally best values of the noise. If predictions fit the data exactly and without uncertainty, no best noise exists: the bound grows without limit. Also for the noise that maximises the exact evidence, which exists unless some signal fits perfectly; the predictions of the sampler converge to the expectation in question."
  },
  {
   "property": "C169",
   "status": "proved",
   "theorems": [
    "Gpcm.c169_collapsed_z",
    "Gpcm.c169_collapsed_u",
    "Gpcm.c169_uncollapsed"
   ],
   "note": "For models that have not been conditioned, as training uses them; global optima over any family of valid hyper-parameters."
  },
  {
   "property": "C17",
   "status": "proved",
   "theorems": [
    "Gpcm.c17_caches",
    "Gpcm.c17_params"
   ],
   "note": "cache coherence as an invariant over every sequence of reads"
  },
  {
   "property": "C170",
   "status": "partial",
   "theorems": [
    "Gpcm.c170_interpolates_partial",
    "Gpcm.c170_gpcm_interpolates_partial",
    "Gpcm.c170_spread",
    "Gpcm.c170_gpcm",
    "Gpcm.c170_rgpcm",
    "Gpcm.c170_causal_false"
   ],
   "note": "Exact at the inducing inputs of the GPCM (without jitter), and bounds on the variance near inducing inputs for all models. False for the CGPCM at its negative inducing inputs, where sampled filters are zero."
  },
  {
   "property": "C171",
   "status": "partial",
   "theorems": [
    "Gpcm.Compare.c171_ca",
    "Gpcm.Compare.c171_gradient_partial",
    "Gpcm.Compare.c171_structured",
    "Gpcm.Compare.c171_gradient_false"
   ],
   "note": "Holds for coordinate ascent and, in expectation, for the structured curve. The gradient methods get no list of variables and also train the hyper-parameters, so their curves can end above the evidence of the model that the other curves are about; they stay below the best bound if the hyper-parameters are kept."
  },
  {
   "property": "C172",
   "status": "partial",
   "theorems": [
    "Gpcm.c172_shown",
    "Gpcm.c172_windowed_partial",
    "Gpcm.c172_zero",
    "Gpcm.c172_false"
   ],
   "note": "With window=True the curve is the periodogram and never negative, but zero at frequency zero. The code uses no window: for the observations 1, -2, 1 the transform is negative and all values to be converted to decibels are negative or zero."
  },
  {
   "property": "C173",
   "status": "partial",
   "theorems": [
    "Gpcm.Plots.c173_gpcm_partial",
    "Gpcm.Plots.c173_rgpcm_partial",
    "Gpcm.Plots.c173_figure_partial",
    "Gpcm.Plots.c173_learned_partial",
    "Gpcm.Plots.c173_false",
    "Gpcm.Plots.c173_rgpcm_false",
    "Gpcm.Plots.c173_loaded_false",
    "Gpcm.Plots.c173_four",
    "Gpcm.Plots.c173_two"
   ],
   "note": "Holds for up to three models that learn their noise and at least three observations, and exactly characterised. With a fixed noise drawing raises KeyError, or uses the noise of a loaded file instead of the model's; four models or two observations raise ValueError."
  },
  {
   "property": "C174",
   "status": "partial",
   "theorems": [
    "Gpcm.c174_mean_field_partial",
    "Gpcm.c174_keeps",
    "Gpcm.c174_ignores_fit",
    "Gpcm.c174_false",
    "Gpcm.c174_filter_false"
   ],
   "note": "Holds for coordinate ascent. False for the structured scheme: the bound is that of a mean-field posterior fitted on the spot, so that it does not depend on the samples of the fit, and reporting it changes the predicted filter. Proved: predictions from the samples are unchanged."
  },
  {
   "property": "C175",
   "status": "partial",
   "theorems": [
    "Gpcm.c175_never_worse_partial",
    "Gpcm.c175_sequence_partial",
    "Gpcm.c175_reached_partial",
    "Gpcm.c175_reached_default_partial",
    "Gpcm.c175_ca_false",
    "Gpcm.c175_collapsed_false"
   ],
   "note": "Holds for models that have not been conditioned. False after condition, for all data and all numbers of iterations, as soon as the previous posterior is not the original prior: the updates start from the original prior, the bound does not."
  },
  {
   "property": "C176",
   "status": "proved",
   "theorems": [
    "Gpcm.c176_mean_field",
    "Gpcm.c176_structured",
    "Gpcm.c168_consistent"
   ],
   "note": "Mean-field: for best approximations, which exist for every noise (C164). Structured: for the posterior itself, to which the predictions of the sampler converge."
  },
  {
   "property": "C177",
   "status": "proved",
   "theorems": [
    "Gpcm.Fit.c177_ca",
    "Gpcm.Fit.c177_structured",
    "Gpcm.Fit.c177_other",
    "Gpcm.Fit.c177_learns"
   ],
   "note": "Optimisers are arbitrary functions that change only what they are asked to train. Hyper-parameters that do not exist yet are created."
  },
  {
   "property": "C178",
   "status": "partial",
   "theorems": [
    "Gpcm.Fit.c178_accepted_partial",
    "Gpcm.Fit.c178_false"
   ],
   "note": "False for every mean-field scheme: a TypeError, whatever the state and the other options."
  },
  {
   "property": "C179",
   "status": "proved",
   "theorems": [
    "Gpcm.c179_structured",
    "Gpcm.c179_mean_field",
    "Gpcm.c179_prior",
    "Gpcm.c179_noise",
    "Gpcm.c168_consistent"
   ],
   "note": "Mean-field: for best approximations, which exist (C164). Structured: for the posterior, to which the predictions of the sampler converge (also at times other than those observed)."
  },
  {
   "property": "C18",
   "status": "proved",
   "theorems": [
    "Gpcm.c18_nonneg",
    "Gpcm.c18_zero_iff",
    "Gpcm.c18_formula",
    "Gpcm.c18_expectation",
    "Gpcm.c18_oracle"
   ],
   "note": "non-negativity via eigenvalues, zero iff equal natural parameters, equality with the expected log-density ratio as a Lebesgue integral, and independence of the factorisation"
  },
  {
   "property": "C180",
   "status": "partial",
   "theorems": [
    "Gpcm.Rounding.c180_bound_partial",
    "Gpcm.Rounding.c180_positive_partial",
    "Gpcm.Rounding.c180_double_partial",
    "Gpcm.Rounding.c180_predict_partial",
    "Gpcm.Rounding.c180_summary_partial",
    "Gpcm.Rounding.c180_false"
   ],
   "note": "False in double precision for predict and predict_fourier, which subtract the square of the mean from the mean square; true if the standard deviation is at least a millionth of the root mean square (up to a thousand samples), and always for summaries. Over- and underflow are not modelled."
  },
  {
   "property": "C181",
   "status": "proved",
   "theorems": [
    "Gpcm.c181_exact",
    "Gpcm.c181_normal",
    "Gpcm.c181_mean_field_predict",
    "Gpcm.c181_mean_field_bound",
    "Gpcm.c181_structured_bound",
    "Gpcm.c181_structured_predict",
    "Gpcm.c181_fit"
   ],
   "note": "What the libraries do with `B.epsilon` is from their documentation."
  },
  {
   "property": "C182",
   "status": "proved",
   "theorems": [
    "Gpcm.c182_mean_field",
    "Gpcm.c182_structured"
   ],
   "note": ""
  },
  {
   "property": "C183",
   "status": "partial",
   "theorems": [
    "Gpcm.c183_partial",
    "Gpcm.c183_partial_exact",
    "Gpcm.c183_false",
    "Gpcm.c183_bound_false"
   ],
   "note": "False with any regularisation: the divergence of a distribution from itself is reported as -(n/2) log(1 + epsilon), and a bound on the evidence of no observations as positive. The error is at most epsilon n/2."
  },
  {
   "property": "C184",
   "status": "proved",
   "theorems": [
    "Gpcm.c184_fixed",
    "Gpcm.c184_collapsed_z",
    "Gpcm.c184_collapsed_u",
    "Gpcm.c184_scheme",
    "Gpcm.c184_hypers_z",
    "Gpcm.c184_hypers_u"
   ],
   "note": "Models that have not been conditioned; afterwards the updates use another prior than the bound (C36)."
  },
  {
   "property": "C185",
   "status": "partial",
   "theorems": [
    "Gpcm.c185_gpcm_partial",
    "Gpcm.c185_false",
    "Gpcm.c185_alternatives",
    "Gpcm.Rgpcm.c185_rgpcm_partial",
    "Gpcm.Rgpcm.c185_rgpcm_false"
   ],
   "note": "False for the number of inducing points of the filter (GPCM: even numbers, CGPCM: all), and for the decay of the filter of an RGPCM above two thirds of the window's. All other parameters are used as given; inducing points of the noise unless they are to be extended."
  },
  {
   "property": "C186",
   "status": "partial",
   "theorems": [
    "Gpcm.c186_bias_partial",
    "Gpcm.c186_noise_partial",
    "Gpcm.c186_false",
    "Gpcm.c186_prior_false"
   ],
   "note": "False: the part of the gradient that comes from the prior of the filter is missing. Exactly that part is missing, so that hyper-parameters without effect on the prior of the filter, such as the noise, are learnt with the gradient of the evidence under the original priors, but not under the posterior that conditioning makes the prior."
  },
  {
   "property": "C187",
   "status": "proved",
   "theorems": [
    "Gpcm.c187_structured",
    "Gpcm.c187_predict",
    "Gpcm.c187_mean_field"
   ],
   "note": ""
  },
  {
   "property": "C188",
   "status": "proved",
   "theorems": [
    "Gpcm.c188_elbo",
    "Gpcm.c188_kernel",
    "Gpcm.c188_kernel_rgpcm",
    "Gpcm.c188_structured"
   ],
   "note": ""
  },
  {
   "property": "C189",
   "status": "proved",
   "theorems": [
    "Gpcm.c189_gpcm",
    "Gpcm.c189_cgpcm",
    "Gpcm.c189_factor",
    "Gpcm.c189_rgpcm",
    "Gpcm.c189_exists",
    "Gpcm.c189_exists_rgpcm"
   ],
   "note": ""
  },
  {
   "property": "C19",
   "status": "proved",
   "theorems": [
    "Gpcm.c19_normalised",
    "Gpcm.c19_max"
   ],
   "note": "Lebesgue integral over R^d equals one; strict maximum at the mean"
  },
  {
   "property": "C190",
   "status": "partial",
   "theorems": [
    "Gpcm.c190_fill",
    "Gpcm.c190_constructor",
    "Gpcm.c190_default_false",
    "Gpcm.c190_witness",
    "Gpcm.c190_rgpcm_false",
    "Gpcm.c190_rgpcm_default_false"
   ],
   "note": "Proved for the GPCM and the CGPCM when omega is given. Refuted for the default omega, which follows the spacing of the inducing points, and for the RGPCM, whose inducing variables do not see the filter after the last inducing point."
  },
  {
   "property": "C191",
   "status": "proved",
   "theorems": [
    "Gpcm.c191_positive",
    "Gpcm.c191_positive_rgpcm",
    "Gpcm.c191_mean_field",
    "Gpcm.c191_structured",
    "Gpcm.c191_gibbs",
    "Gpcm.c191_vanish",
    "Gpcm.c191_large",
    "Gpcm.c191_learned",
    "Gpcm.c191_learned_collapsed",
    "Gpcm.c191_learned_structured",
    "Gpcm.c191_best"
   ],
   "note": "Positivity for the GPCM and CGPCM needs distinct inducing points and parameters in the range where `log_erf` does not underflow (Moderate); for the RGPCM, a nonzero alpha_t."
  },
  {
   "property": "C192",
   "status": "partial",
   "theorems": [
    "Gpcm.c192_mean_field_bound",
    "Gpcm.c192_structured_bound",
    "Gpcm.c192_mean_field_predict",
    "Gpcm.c192_structured_predict",
    "Gpcm.c192_cholesky",
    "Gpcm.c192_gibbs",
    "Gpcm.c192_structured_fit",
    "Gpcm.c192_fit_partial",
    "Gpcm.c192_gpcm",
    "Gpcm.c192_rgpcm",
    "Gpcm.c192_noise",
    "Gpcm.c192_fit_false"
   ],
   "note": "Refuted for fits by coordinate ascent (c192_fit_false): where a step changes the variables by exactly the threshold of the stopping rule, the number of steps jumps and with it the result. Everything else is proved. Continuity in the parameters of the kernels is C193."
  },
  {
   "property": "C193",
   "status": "partial",
   "theorems": [
    "Gpcm.c193_gpcm",
    "Gpcm.c193_rgpcm",
    "Gpcm.c193_objectives",
    "Gpcm.c193_predictions",
    "Gpcm.c193_constructor_partial",
    "Gpcm.c193_constructor_false"
   ],
   "note": "Refuted for the constructor with an automatic number of inducing points (c193_constructor_false): this number jumps where four windows are a whole number of scales. With given numbers of inducing points the constructor of GPCM and CGPCM is continuous in noise, window and scale. What the models give to the approximation, the objectives and the predictions are continuous in all parameters and inducing points."
  },
  {
   "property": "C194",
   "status": "proved",
   "theorems": [
    "Gpcm.Ess.c194_same",
    "Gpcm.Ess.c194_reports"
   ],
   "note": "Tensors are not empty; the time per attempt is not modelled."
  },
  {
   "property": "C195",
   "status": "partial",
   "theorems": [
    "Gpcm.Ess.c195_shown_partial",
    "Gpcm.Ess.c195_short_partial",
    "Gpcm.Ess.c195_third_partial",
    "Gpcm.Ess.c195_false",
    "Gpcm.Ess.c195_negative_false"
   ],
   "note": "Refuted: the autocorrelation at lag zero is added too, so a run of 27 uncorrelated samples shows 9 (c195_false), and there is a run of 46 samples that shows -2024 (c195_negative_false). What is shown is the number of samples over three plus twice the autocorrelations at lags one to five."
  },
  {
   "property": "C196",
   "status": "proved",
   "theorems": [
    "Gpcm.c196_all",
    "Gpcm.c196_shown",
    "Gpcm.c196_mean"
   ],
   "note": "For matrices of samples, which is what all callers pass."
  },
  {
   "property": "C197",
   "status": "proved",
   "theorems": [
    "Gpcm.c197_gap",
    "Gpcm.c197_tight",
    "Gpcm.c197_certified",
    "Gpcm.c197_collapsed",
    "Gpcm.c197_structured",
    "Gpcm.c197_estimate",
    "Gpcm.c197_no_data"
   ],
   "note": "Models that have not been conditioned. Expectations of unbounded functions are not covered."
  },
  {
   "property": "C198",
   "status": "proved",
   "theorems": [
    "Gpcm.c198_excitation",
    "Gpcm.c198_filter",
    "Gpcm.c198_schemes",
    "Gpcm.c198_exact"
   ],
   "note": "Models that have not been conditioned. Nothing is claimed about the variance of the signal."
  },
  {
   "property": "C199",
   "status": "proved",
   "theorems": [
    "Gpcm.c199_geometric",
    "Gpcm.c199_events",
    "Gpcm.c199_starts",
    "Gpcm.c199_fit",
    "Gpcm.c199_mse",
    "Gpcm.c199_probability"
   ],
   "note": "Independent standard normal random numbers. The rate exists for every model and data set, but no numerical value is given. Strengthens C116 and C161, which say that the limit exists."
  },
  {
   "property": "C20",
   "status": "proved",
   "theorems": [
    "Gpcm.c20_affine",
    "Gpcm.c20_law"
   ],
   "note": "affine image of the noise; all expectations of samples agree with the density"
  },
  {
   "property": "C200",
   "status": "proved",
   "theorems": [
    "Gpcm.c200_functions",
    "Gpcm.c200_events",
    "Gpcm.c200_average"
   ],
   "note": "Fits without optimisation of the hyperparameters; independent standard normal random numbers. For fewer than two thousand iterations the bound says nothing. Strengthens C160 by a rate and from products to all functions."
  },
  {
   "property": "C201",
   "status": "proved",
   "theorems": [
    "Gpcm.c201_mass",
    "Gpcm.c201_mean_field",
    "Gpcm.c201_structured",
    "Gpcm.c201_chance",
    "Gpcm.c201_chance_structured",
    "Gpcm.c201_curve",
    "Gpcm.c201_average",
    "Gpcm.c201_average_structured",
    "Gpcm.c201_learned"
   ],
   "note": "Unconditioned models. The bound of the structured scheme is the expectation of its estimates. c201_learned shows that the parameters must be fixed beforehand."
  },
  {
   "property": "C202",
   "status": "partial",
   "theorems": [
    "Gpcm.c202_total_partial",
    "Gpcm.c202_coverage_partial",
    "Gpcm.c202_interval_partial",
    "Gpcm.c202_near_partial",
    "Gpcm.c202_explained_partial",
    "Gpcm.c202_false"
   ],
   "note": "Refuted: if the inducing variables leave some of the signal unexplained, the structured posterior is too narrow whatever is observed, as in c202_false. Proved if they determine the signal at the times of the data (c202_coverage_partial), and in general up to a factor that says how much they leave unexplained (c202_total_partial, c202_near_partial)."
  },
  {
   "property": "C203",
   "status": "proved",
   "theorems": [
    "Gpcm.c203_psd",
    "Gpcm.c203_nested",
    "Gpcm.c203_fraction",
    "Gpcm.c203_line",
    "Gpcm.c203_symmetric",
    "Gpcm.c203_inputs",
    "Gpcm.c203_outside"
   ],
   "note": "The fractions hold up to one sample, as in C55. c203_outside shows that the line can lie above all intervals."
  },
  {
   "property": "C204",
   "status": "partial",
   "theorems": [
    "Gpcm.c204_best_partial",
    "Gpcm.c204_more_partial",
    "Gpcm.c204_false"
   ],
   "note": "Refuted: if the inducing variables leave some of the signal unexplained, a constant can be a better prediction than the posterior mean. Proved if they determine the signal at the times of the data."
  },
  {
   "property": "C205",
   "status": "proved",
   "theorems": [
    "Gpcm.c205_chain",
    "Gpcm.c205_evidence",
    "Gpcm.c205_mean_field",
    "Gpcm.c205_structured",
    "Gpcm.c205_exact",
    "Gpcm.c205_law"
   ],
   "note": "Models that have not been conditioned. The distribution of the signal given the inducing variables is any with the moments of C108; c205_law shows that there is one."
  },
  {
   "property": "C206",
   "status": "proved",
   "theorems": [
    "Gpcm.c206_explained",
    "Gpcm.c206_region",
    "Gpcm.c206_density",
    "Gpcm.c206_fill",
    "Gpcm.c206_constructor",
    "Gpcm.c206_law"
   ],
   "note": "Models that have not been conditioned. `omega` has to be given because C190 fails for the default. The distribution of the signal given the inducing variables is any with the moments of C108; c206_law shows that there is one."
  },
  {
   "property": "C207",
   "status": "partial",
   "theorems": [
    "Gpcm.c207_gpcm_partial",
    "Gpcm.c207_rgpcm_partial",
    "Gpcm.c207_missing",
    "Gpcm.c207_sizes",
    "Gpcm.c207_false"
   ],
   "note": "False: the acausal and causal models cannot be built if all times are within half the scale, the RGPCM not if the scale is at least four windows (and the causal model has no usable inducing points then, C59). Exactly then: otherwise all models can be built. The exceptions and the sizes are as claimed."
  },
  {
   "property": "C208",
   "status": "partial",
   "theorems": [
    "Gpcm.Figures.c208_kernel",
    "Gpcm.Figures.c208_inputs",
    "Gpcm.Figures.c208_comparison",
    "Gpcm.Figures.c208_inputs_refuted",
    "Gpcm.Figures.c208_psd",
    "Gpcm.Figures.c208_psd_again",
    "Gpcm.Figures.c208_psd_predicted",
    "Gpcm.Figures.c208_oil",
    "Gpcm.Figures.c208_oil_units",
    "Gpcm.Figures.c208_oil_visible_partial",
    "Gpcm.Figures.c208_oil_refuted",
    "Gpcm.Figures.c208_region_iff"
   ],
   "note": "False: an observation on day 150 can lie left of the axis, which starts at the first prediction that is drawn; everything after that is visible. The structured prediction of a kernel is drawn at the inputs of the mean-field prediction: right exactly if the files have the same inputs, as with comparison.py. Training data are in their units unless all are equal. The rest is proved as claimed."
  },
  {
   "property": "C209",
   "status": "partial",
   "theorems": [
    "Gpcm.Elbos.c209_sample",
    "Gpcm.Elbos.c209_law",
    "Gpcm.Elbos.c209_mean_field",
    "Gpcm.Elbos.c209_structured",
    "Gpcm.Elbos.c209_gp",
    "Gpcm.Elbos.c209_printed",
    "Gpcm.Elbos.c209_state",
    "Gpcm.Elbos.c209_eq",
    "Gpcm.Elbos.c209_smk_refuted"
   ],
   "note": "The probabilities and averages are proved as claimed, for bounds of models with hyper-parameters that do not depend on the data. The optimised likelihood is at least the true one in eq.py. False for smk.py: the family of kernels lacks the truth, and there are data for which every process of the family is less likely. For the structured scheme the bound itself is meant; what is printed is an unbiased estimate of it (C97)."
  },
  {
   "property": "C21",
   "status": "proved",
   "theorems": [
    "Gpcm.c21_z",
    "Gpcm.c21_u"
   ],
   "note": "the gap to the optimum is exactly the divergence, for every valid instance, data set and normal; generic over the integrals"
  },
  {
   "property": "C210",
   "status": "proved",
   "theorems": [
    "Gpcm.c210_gpcm",
    "Gpcm.c210_rgpcm",
    "Gpcm.c210_gpcm_all",
    "Gpcm.c210_rgpcm_all",
    "Gpcm.c210_values",
    "Gpcm.c210_coincide"
   ],
   "note": "The model must be instantiated before it is trained, as fit does; after load into a fresh model the constraints are lost (C90). c210_coincide shows the limit of the claim: inducing points may coincide."
  },
  {
   "property": "C211",
   "status": "proved",
   "theorems": [
    "Gpcm.Paper.c211_forecasts",
    "Gpcm.Paper.c211_metrics",
    "Gpcm.Paper.c211_compare",
    "Gpcm.Paper.c211_vix",
    "Gpcm.Paper.c211_vix_metrics",
    "Gpcm.Paper.c211_blind",
    "Gpcm.Paper.c211_data",
    "Gpcm.Paper.c211_scores",
    "Gpcm.Paper.mll_mean",
    "Gpcm.Paper.c211_proper"
   ],
   "note": "A model is an arbitrary function of the data it is fitted to, the data it is conditioned on, and the times. rmse and mll are the definitions of the library wbml, which is not part of the repository."
  },
  {
   "property": "C212",
   "status": "partial",
   "theorems": [
    "Gpcm.Paper.c212_half",
    "Gpcm.Paper.c212_false",
    "Gpcm.Paper.c212_normal_partial",
    "Gpcm.Paper.c212_statistic_partial"
   ],
   "note": "False: the values of vix_forecast_process.py are never above one half. If the difference in standard errors is standard normal, then a value of at most alpha is reported with probability exactly 2 alpha, so twice the value is a p-value of a two-sided test. The difference in standard errors is the statistic of the paired t-test of crude_oil_aggregate.py times sqrt(n / (n - 1)). The distribution function of the t-test is not modelled, nor is the approach to normality for many weeks."
  },
  {
   "property": "C213",
   "status": "partial",
   "theorems": [
    "Gpcm.Objects.c213_collect_iff",
    "Gpcm.Objects.c213_getattr",
    "Gpcm.Objects.c213_not_saved",
    "Gpcm.Objects.c213_saved_partial",
    "Gpcm.Objects.c213_summary",
    "Gpcm.Objects.c213_method",
    "Gpcm.Objects.c213_method_other",
    "Gpcm.Objects.c213_models"
   ],
   "note": "Attributes and methods are proved as claimed. False for saving summaries: they are instances of a class that no module knows, so they can never be pickled. Plain tuples of their attributes, which is what all scripts save, can be if the attributes can."
  },
  {
   "property": "C214",
   "status": "partial",
   "theorems": [
    "Gpcm.Window.c214_length_gpcm",
    "Gpcm.Window.c214_window_gpcm",
    "Gpcm.Window.c214_length_rgpcm",
    "Gpcm.Window.c214_window_rgpcm",
    "Gpcm.Window.c214_fixed",
    "Gpcm.Window.c214_covers_gpcm_partial",
    "Gpcm.Window.c214_covers_rgpcm_partial",
    "Gpcm.Window.c214_false"
   ],
   "note": "The length of the filter is proved as claimed. The default inputs cover the filter without training or with a fixed window. False for learned windows: the extent is computed by the constructor and not updated, so a share of exp(-8 alpha' / alpha) of the power of the filter of an RGPCM is outside, with the learned alpha' and the initial alpha, which training can bring as close to one as it likes."
  },
  {
   "property": "C215",
   "status": "partial",
   "theorems": [
    "Gpcm.Global.c215_existing_partial",
    "Gpcm.Global.c215_read_existing",
    "Gpcm.Global.c215_ca",
    "Gpcm.Global.c215_structured",
    "Gpcm.Global.c215_filter_unused",
    "Gpcm.Global.c215_ca_false",
    "Gpcm.Global.c215_structured_false"
   ],
   "note": "True once the posteriors of the model exist, for coordinate ascent and for the structured scheme with fixed hyper-parameters. False for new models: the means of the initial posteriors come from the global random state, and fits after different random numbers can find filters of opposite sign, however many iterations they make. It is proved that nothing else of the global random state enters, and that the structured scheme uses only the numbers for the excitation. Every access of a posterior draws random numbers, also if they are not used. The gradient-based schemes are not covered."
  },
  {
   "property": "C216",
   "status": "partial",
   "theorems": [
    "Gpcm.Seeded.c216_order",
    "Gpcm.Seeded.c216_later_partial",
    "Gpcm.Seeded.c216_stateless_partial",
    "Gpcm.Seeded.c216_false"
   ],
   "note": "The order makes no difference, and neither do the models that are trained after the model. False for those before it: their posteriors are initialised from the same global random state, so that the CGPCM starts from other random numbers if the GPCM is trained too, and can find a filter of opposite sign. True if training does not use the global random state, which holds if the posteriors exist already (C215)."
  },
  {
   "property": "C217",
   "status": "proved",
   "theorems": [
    "Gpcm.Compare.c217_start",
    "Gpcm.Compare.c217_proper",
    "Gpcm.Compare.c217_stored",
    "Gpcm.Compare.c217_during",
    "Gpcm.Compare.c217_curves"
   ],
   "note": ""
  },
  {
   "property": "C218",
   "status": "proved",
   "theorems": [
    "Gpcm.Jit.c218_minimise",
    "Gpcm.Jit.c218_alike",
    "Gpcm.Jit.c218_first_needed",
    "Gpcm.Jit.c218_invisible"
   ],
   "note": ""
  },
  {
   "property": "C219",
   "status": "partial",
   "theorems": [
    "Gpcm.Reproduce.c219_fresh_partial",
    "Gpcm.Reproduce.c219_isolated_partial",
    "Gpcm.Reproduce.c219_rerun",
    "Gpcm.Reproduce.c219_false",
    "Gpcm.Reproduce.c219_names"
   ],
   "note": "True if no command raises; a summary is right if the experiment that it summarises did not raise, wherever others do; and vix_analyse.py succeeds if only its first prediction raises. Otherwise false: reproduce.sh carries on, so that crude_oil_aggregate.py reports from old predictions if training for a year raises."
  },
  {
   "property": "C22",
   "status": "proved",
   "theorems": [
    "Gpcm.c22_monotone",
    "Gpcm.c22_improves"
   ],
   "note": "one more iteration, and the whole fit against its starting point"
  },
  {
   "property": "C220",
   "status": "partial",
   "theorems": [
    "Gpcm.Reproduce.c220_oil",
    "Gpcm.Reproduce.c220_others",
    "Gpcm.Reproduce.c220_nothing",
    "Gpcm.Reproduce.c220_predict",
    "Gpcm.Reproduce.c220_false"
   ],
   "note": "All but the last sentence. With --train and without --predict, crude_oil.py and vix_analyse.py save new models and draw the predictions of the old ones."
  },
  {
   "property": "C23",
   "status": "proved",
   "theorems": [
    "Gpcm.c23_loop",
    "Gpcm.c23_runs",
    "Gpcm.c23_change"
   ],
   "note": "iteration count, callback trace, stored iterate, stopping rule and untouched other depths"
  },
  {
   "property": "C24",
   "status": "proved",
   "theorems": [
    "Gpcm.c24_z",
    "Gpcm.c24_u",
    "Gpcm.c24_invalid"
   ],
   "note": "with the equality case"
  },
  {
   "property": "C25",
   "status": "proved",
   "theorems": [
    "Gpcm.c25_integral",
    "Gpcm.c25_maximum"
   ],
   "note": "as a Lebesgue integral over all z, and as a maximum with a unique maximiser"
  },
  {
   "property": "C26",
   "status": "proved",
   "theorems": [
    "Gpcm.c26_dominates",
    "Gpcm.c26_empty"
   ],
   "note": "every non-empty list of samples; without samples the estimate divides by zero"
  },
  {
   "property": "C27",
   "status": "proved",
   "theorems": [
    "Gpcm.c27_paths",
    "Gpcm.c27_sums_u",
    "Gpcm.c27_sums_z",
    "Gpcm.c27_perm"
   ],
   "note": "branch equality for every tensor; updates as sums over points; invariance under reordering"
  },
  {
   "property": "C28",
   "status": "proved",
   "theorems": [
    "Gpcm.c28_mean_field",
    "Gpcm.c28_prior",
    "Gpcm.c28_structured",
    "Gpcm.c28_unconditioned"
   ],
   "note": "both approximations; an unconditioned structured model raises AttributeError instead of predicting"
  },
  {
   "property": "C29",
   "status": "proved",
   "theorems": [
    "Gpcm.c29_bound",
    "Gpcm.c29_append",
    "Gpcm.c29_points"
   ],
   "note": "bound as a sum of pointwise expected log-likelihoods of the predictive moments; additivity over concatenation"
  },
  {
   "property": "C30",
   "status": "proved",
   "theorems": [
    "Gpcm.Fit.c30_schemes"
   ],
   "note": "every string; str.lower is any map that is the usual one on ASCII"
  },
  {
   "property": "C31",
   "status": "partial",
   "theorems": [
    "Gpcm.Fit.c31_false",
    "Gpcm.Fit.c31_completes_partial"
   ],
   "note": "false: mean-field-gradient raises TypeError and mean-field-ca-gradient ValueError, always; the other schemes complete in every state (structured: with at least two iterations)"
  },
  {
   "property": "C32",
   "status": "partial",
   "theorems": [
    "Gpcm.Fit.c32_false",
    "Gpcm.Fit.c32_partial"
   ],
   "note": "false: current=False raises ValueError; all other values proved"
  },
  {
   "property": "C33",
   "status": "proved",
   "theorems": [
    "Gpcm.Fit.c33_stored",
    "Gpcm.Fit.c33_hypers",
    "Gpcm.Fit.c33_few",
    "Gpcm.Fit.c33_thousand"
   ],
   "note": "every iters, options, backend and state"
  },
  {
   "property": "C34",
   "status": "proved",
   "theorems": [
    "Gpcm.Fit.c34_gibbs_sample",
    "Gpcm.Fit.c34_elbo_gibbs",
    "Gpcm.Fit.c34_resume"
   ],
   "note": "chains of every length for arbitrary conditional samplers"
  },
  {
   "property": "C35",
   "status": "proved",
   "theorems": [
    "Gpcm.Fit.c35_fit",
    "Gpcm.Fit.c35_history",
    "Gpcm.Fit.c35_prior"
   ],
   "note": "every scheme, options, backend and sequence of operations; variables that exist when the model is conditioned"
  },
  {
   "property": "C36",
   "status": "partial",
   "theorems": [
    "Gpcm.c36_false",
    "Gpcm.c36_optimum",
    "Gpcm.c36_optimal_iff_partial"
   ],
   "note": "false after conditioning: the update ignores the current prior; proved to be optimal exactly when the current prior equals the original one"
  },
  {
   "property": "C37",
   "status": "partial",
   "theorems": [
    "Gpcm.Fit.c37_false",
    "Gpcm.Fit.c37_structured_partial"
   ],
   "note": "false under every mean-field scheme: predict_z does not accept num_samples; proved for the structured scheme"
  },
  {
   "property": "C38",
   "status": "proved",
   "theorems": [
    "Gpcm.c38_round_trip",
    "Gpcm.c38_same_class",
    "Gpcm.c38_instantiation",
    "Gpcm.c38_constraint_needed"
   ],
   "note": "every container and constraint; any codec with loads(dumps(d)) = d"
  },
  {
   "property": "C39",
   "status": "partial",
   "theorems": [
    "Gpcm.c39_false",
    "Gpcm.c39_prefix_partial"
   ],
   "note": "false: the file is truncated before writing; proved that a broken file is detected and otherwise the content is old or new"
  },
  {
   "property": "C40",
   "status": "proved",
   "theorems": [
    "Gpcm.c40_atomic"
   ],
   "note": "every file content"
  },
  {
   "property": "C41",
   "status": "proved",
   "theorems": [
    "Gpcm.c41_formula",
    "Gpcm.c41_matrix",
    "Gpcm.c41_symmetric_part",
    "Gpcm.c41_whitened"
   ],
   "note": "every Cholesky factor; entries, matrices and the whitened call of the approximations"
  },
  {
   "property": "C42",
   "status": "proved",
   "theorems": [
    "Gpcm.c42_unit",
    "Gpcm.c42_off"
   ],
   "note": "and multiplying back by the corner gives the original matrix"
  },
  {
   "property": "C43",
   "status": "proved",
   "theorems": [
    "Gpcm.Ess.c43_in_step",
    "Gpcm.Ess.c43_sample"
   ],
   "note": ""
  },
  {
   "property": "C44",
   "status": "proved",
   "theorems": [
    "Gpcm.Ess.c44_accepts_on_slice"
   ],
   "note": ""
  },
  {
   "property": "C45",
   "status": "proved",
   "theorems": [
    "Gpcm.Ess.c45_bracket"
   ],
   "note": ""
  },
  {
   "property": "C46",
   "status": "proved",
   "theorems": [
    "Gpcm.Ess.c46_bounded"
   ],
   "note": ""
  },
  {
   "property": "C47",
   "status": "partial",
   "theorems": [
    "Gpcm.Ess.c47_reported_partial",
    "Gpcm.Ess.c47_reported_false"
   ],
   "note": "the reported number is one more than the number of proposals (refutation); proved with the extra one"
  },
  {
   "property": "C48",
   "status": "proved",
   "theorems": [
    "Gpcm.Util.c48_inverse",
    "Gpcm.Util.c48_rejects"
   ],
   "note": ""
  },
  {
   "property": "C49",
   "status": "proved",
   "theorems": [
    "Gpcm.Util.c49_unchanged",
    "Gpcm.Util.c49_inverse"
   ],
   "note": ""
  },
  {
   "property": "C50",
   "status": "partial",
   "theorems": [
    "Gpcm.Util.c50_false",
    "Gpcm.Util.c50_closest_partial"
   ],
   "note": "false when a number and its negative are both eigenvalues (refutation with a valid SVD of diag(1,-1)); proved otherwise"
  },
  {
   "property": "C51",
   "status": "proved",
   "theorems": [
    "Gpcm.Util.c51_first",
    "Gpcm.Util.c51_affine",
    "Gpcm.Util.c51_bounded",
    "Gpcm.Util.c51_empty",
    "Gpcm.Util.c51_window_needed"
   ],
   "note": ""
  },
  {
   "property": "C52",
   "status": "partial",
   "theorems": [
    "Gpcm.Util.c52_white_false",
    "Gpcm.Util.c52_nonneg_partial",
    "Gpcm.Util.c52_trapezoid",
    "Gpcm.Util.c52_rejects"
   ],
   "note": "false: np.trapz integrates over unsorted frequencies, so white noise gets a negative density; proved when that sum is positive"
  },
  {
   "property": "C53",
   "status": "proved",
   "theorems": [
    "Gpcm.Util.c53_real",
    "Gpcm.Util.c53_total",
    "Gpcm.Util.c53_output",
    "Gpcm.Util.c53_frequencies"
   ],
   "note": ""
  },
  {
   "property": "C54",
   "status": "proved",
   "theorems": [
    "Gpcm.Util.c54_nested",
    "Gpcm.Util.c54_range"
   ],
   "note": ""
  },
  {
   "property": "C55",
   "status": "partial",
   "theorems": [
    "Gpcm.Util.c55_band68_false",
    "Gpcm.Util.c55_bands_partial"
   ],
   "note": "false: the 68% band holds 36% of distinct samples; proved for the 95% and 99% bands"
  },
  {
   "property": "C56",
   "status": "proved",
   "theorems": [
    "Gpcm.Util.c56_magnitude",
    "Gpcm.Util.c56_autocorrelation",
    "Gpcm.Util.c56_idempotent",
    "Gpcm.Util.c56_minimum_phase"
   ],
   "note": ""
  },
  {
   "property": "C57",
   "status": "proved",
   "theorems": [
    "Gpcm.Util.c57_rejects",
    "Gpcm.Util.c57_symmetric",
    "Gpcm.Util.c57_exact"
   ],
   "note": ""
  },
  {
   "property": "C58",
   "status": "proved",
   "theorems": [
    "Gpcm.c58_inverse",
    "Gpcm.c58_decreasing",
    "Gpcm.c58_decay"
   ],
   "note": ""
  },
  {
   "property": "C59",
   "status": "partial",
   "theorems": [
    "Gpcm.c59_acausal_partial",
    "Gpcm.c59_causal_partial",
    "Gpcm.c59_single_false",
    "Gpcm.c59_causal_false"
   ],
   "note": "false when n_u is one, which is the default when scale >= 4 window: the single acausal point is at the left end, the causal spacing is a division by zero; proved for n_u >= 2"
  },
  {
   "property": "C60",
   "status": "partial",
   "theorems": [
    "Gpcm.c60_filter_false",
    "Gpcm.c60_caps_partial",
    "Gpcm.c60_density",
    "Gpcm.Rgpcm.c60_caps_rgpcm"
   ],
   "note": "false: a cap of 300 gives 301 or 302 inducing points; proved that the excess is at most one or two, and none for n_z without extend_t_z; the caps of the RGPCM hold"
  },
  {
   "property": "C61",
   "status": "proved",
   "theorems": [
    "Gpcm.c61_extension"
   ],
   "note": "for the default t_z; an explicitly given t_z is replaced"
  },
  {
   "property": "C62",
   "status": "partial",
   "theorems": [
    "Gpcm.c62_false",
    "Gpcm.c62_positive_iff_partial"
   ],
   "note": "false for scale >= sqrt(2) window; proved to be positive exactly otherwise"
  },
  {
   "property": "C63",
   "status": "proved",
   "theorems": [
    "Gpcm.c63_unit_power",
    "Gpcm.Rgpcm.c63_unit_power_rgpcm",
    "Gpcm.Rgpcm.c63_covariance_rgpcm"
   ],
   "note": "all three models"
  },
  {
   "property": "C64",
   "status": "partial",
   "theorems": [
    "Gpcm.c64_unit_variance_partial",
    "Gpcm.c64_learned_false",
    "Gpcm.Rgpcm.c64_rgpcm_false"
   ],
   "note": "holds for constructed GPCM and CGPCM models; false after learning because omega_t is not recomputed, and for the RGPCM with more than five inducing points because gamma is clipped after gamma_t was computed"
  },
  {
   "property": "C65",
   "status": "proved",
   "theorems": [
    "Gpcm.c65_K_u",
    "Gpcm.c65_K_z",
    "Gpcm.c65_i_hx",
    "Gpcm.c65_I_ux",
    "Gpcm.c65_I_ux_default",
    "Gpcm.c65_I_hz",
    "Gpcm.c65_I_uz",
    "Gpcm.c65_default_moderate"
   ],
   "note": "under the stated bounds on the parameters"
  },
  {
   "property": "C66",
   "status": "partial",
   "theorems": [
    "Gpcm.c66_K_z",
    "Gpcm.c66_K_u_partial",
    "Gpcm.c66_K_u_false"
   ],
   "note": "K_z always; K_u is indefinite for the negative default gamma (refutation), proved for gamma >= 0"
  },
  {
   "property": "C67",
   "status": "proved",
   "theorems": [
    "Gpcm.c67_shift",
    "Gpcm.c67_symmetric",
    "Gpcm.c67_stationary",
    "Gpcm.Rgpcm.c67_shift_rgpcm",
    "Gpcm.Rgpcm.c67_stationary_rgpcm"
   ],
   "note": "the kernel matrix is an even function of the lag in all models"
  },
  {
   "property": "C68",
   "status": "proved",
   "theorems": [
    "Gpcm.Rgpcm.c68_box",
    "Gpcm.Rgpcm.c68_box_lu"
   ],
   "note": ""
  },
  {
   "property": "C69",
   "status": "partial",
   "theorems": [
    "Gpcm.Rgpcm.c69_false",
    "Gpcm.Rgpcm.c69_transposed_partial",
    "Gpcm.Rgpcm.c69_equal_times"
   ],
   "note": "false: for different times the inducing indices are swapped; the transpose is the integral, and at equal times the claim holds"
  },
  {
   "property": "C70",
   "status": "proved",
   "theorems": [
    "Gpcm.Rgpcm.c70_ihz",
    "Gpcm.Rgpcm.c70_entry"
   ],
   "note": ""
  },
  {
   "property": "C71",
   "status": "proved",
   "theorems": [
    "Gpcm.Rgpcm.c71_iuz",
    "Gpcm.Rgpcm.c71_entry"
   ],
   "note": ""
  },
  {
   "property": "C72",
   "status": "proved",
   "theorems": [
    "Gpcm.Rgpcm.c72_ihz",
    "Gpcm.Rgpcm.c72_iuz",
    "Gpcm.Rgpcm.c72_kz"
   ],
   "note": ""
  },
  {
   "property": "C73",
   "status": "proved",
   "theorems": [
    "Gpcm.Rgpcm.c73_gram",
    "Gpcm.Rgpcm.c73_posDef",
    "Gpcm.Rgpcm.c73_reproducing",
    "Gpcm.Rgpcm.c73_features"
   ],
   "note": "the inner product of the specification is validated by its reproducing property"
  },
  {
   "property": "C74",
   "status": "proved",
   "theorems": [
    "Gpcm.Rgpcm.c74_covariance",
    "Gpcm.Rgpcm.c74_posSemidef",
    "Gpcm.Rgpcm.c74_posDef"
   ],
   "note": ""
  },
  {
   "property": "C75",
   "status": "proved",
   "theorems": [
    "Gpcm.Rgpcm.c75_constructed",
    "Gpcm.Rgpcm.c75_learned"
   ],
   "note": ""
  },
  {
   "property": "C76",
   "status": "proved",
   "theorems": [
    "Gpcm.Rgpcm.c76_features"
   ],
   "note": ""
  },
  {
   "property": "C77",
   "status": "partial",
   "theorems": [
    "Gpcm.Rgpcm.c77_learned_false",
    "Gpcm.Rgpcm.c77_constructed_partial"
   ],
   "note": "true at construction; false after learning, as inducing points may move to 1.5 times the largest"
  },
  {
   "property": "C78",
   "status": "proved",
   "theorems": [
    "Gpcm.Experiments.c78_builds",
    "Gpcm.Experiments.c78_kinds",
    "Gpcm.Experiments.c78_rejects",
    "Gpcm.Experiments.c78_arguments"
   ],
   "note": "constructor exceptions are outside"
  },
  {
   "property": "C79",
   "status": "partial",
   "theorems": [
    "Gpcm.Fit.c79_false",
    "Gpcm.Fit.c79_config_partial",
    "Gpcm.Fit.c79_structured_partial"
   ],
   "note": "false: mean-field fits reject optimise_hypers, and --iters 0 is ignored; proved for the structured scheme and non-zero iters"
  },
  {
   "property": "C80",
   "status": "proved",
   "theorems": [
    "Gpcm.Experiments.c80_first_monday",
    "Gpcm.Experiments.c80_calendar",
    "Gpcm.Experiments.c80_weekday"
   ],
   "note": ""
  },
  {
   "property": "C81",
   "status": "proved",
   "theorems": [
    "Gpcm.Experiments.c81_tracker",
    "Gpcm.Experiments.c81_next",
    "Gpcm.Experiments.c81_nested_false"
   ],
   "note": "the nested case, excluded by the property, is shown to be wrong"
  },
  {
   "property": "C82",
   "status": "proved",
   "theorems": [
    "Gpcm.Experiments.c82_split",
    "Gpcm.Experiments.c82_partition"
   ],
   "note": ""
  },
  {
   "property": "C83",
   "status": "proved",
   "theorems": [
    "Gpcm.Experiments.c83_mirror"
   ],
   "note": ""
  },
  {
   "property": "C84",
   "status": "partial",
   "theorems": [
    "Gpcm.c84_building_never_raises_false",
    "Gpcm.c84_simple_expressions_build_partial",
    "Gpcm.c84_tensor_expressions_build_partial",
    "Gpcm.c84_linear_operations_partial"
   ],
   "note": "false: (1+x+x^2)(1-x+x^2) raises RuntimeError for some hash seeds; proved for the expressions gpcm builds"
  },
  {
   "property": "C85",
   "status": "proved",
   "theorems": [
    "Gpcm.Ess.c85_never_nan"
   ],
   "note": ""
  },
  {
   "property": "C86",
   "status": "partial",
   "theorems": [
    "Gpcm.Ess.c86_stuck_false",
    "Gpcm.Ess.c86_returns_iff_partial",
    "Gpcm.Ess.c86_returns_at_once"
   ],
   "note": "false when the log-likelihood of the state is NaN or plus infinity, or when no point has positive likelihood; proved that these are the only ways to get stuck"
  },
  {
   "property": "C87",
   "status": "proved",
   "theorems": [
    "Gpcm.Experiments.c87_raises",
    "Gpcm.Experiments.c87_get_xy"
   ],
   "note": ""
  },
  {
   "property": "C88",
   "status": "proved",
   "theorems": [
    "Gpcm.Util.c88_laplace",
    "Gpcm.Util.c88_negative"
   ],
   "note": ""
  },
  {
   "property": "C89",
   "status": "partial",
   "theorems": [
    "Gpcm.c89_false",
    "Gpcm.c89_ratio_partial"
   ],
   "note": "false: k_h() lacks the factor alpha_t**2 (and has the causality constraint that K_u lacks); the exact ratio is proved"
  },
  {
   "property": "C90",
   "status": "partial",
   "theorems": [
    "Gpcm.c90_false",
    "Gpcm.c90_trainable",
    "Gpcm.c90_existing_partial"
   ],
   "note": "false: variables that do not exist yet become invisible and unbounded; existing ones keep constraint and visibility"
  },
  {
   "property": "C91",
   "status": "partial",
   "theorems": [
    "Gpcm.Fit.c91_false",
    "Gpcm.Fit.c91_mean_field_partial"
   ],
   "note": "false for the structured scheme: the parameters are never fitted; proved for coordinate ascent"
  },
  {
   "property": "C92",
   "status": "partial",
   "theorems": [
    "Gpcm.Fit.c92_false",
    "Gpcm.Fit.c92_mean_field_partial",
    "Gpcm.Fit.c92_structured_partial"
   ],
   "note": "false for the structured scheme, whose elbo runs coordinate ascent and stores the result"
  },
  {
   "property": "C93",
   "status": "partial",
   "theorems": [
    "Gpcm.Rgpcm.c93_false"
   ],
   "note": "false for every n: there are one or two features more"
  },
  {
   "property": "C94",
   "status": "partial",
   "theorems": [
    "Gpcm.Rgpcm.c94_false",
    "Gpcm.Rgpcm.c94_defined_partial"
   ],
   "note": "false where alpha - gamma = lam; defined everywhere else"
  },
  {
   "property": "C95",
   "status": "partial",
   "theorems": [
    "Gpcm.Rgpcm.c95_false"
   ],
   "note": "false for I_uz beyond b; inside the interval see C70 and C71"
  },
  {
   "property": "C96",
   "status": "proved",
   "theorems": [
    "Gpcm.c96_samples",
    "Gpcm.c96_conditional_z",
    "Gpcm.c96_conditional_u",
    "Gpcm.c96_proper",
    "Gpcm.c96_markov",
    "Gpcm.c96_invariant",
    "Gpcm.c96_unique"
   ],
   "note": ""
  },
  {
   "property": "C97",
   "status": "proved",
   "theorems": [
    "Gpcm.c97_structured",
    "Gpcm.c97_mean_field",
    "Gpcm.c97_unbiased",
    "Gpcm.c97_gibbs"
   ],
   "note": ""
  },
  {
   "property": "C98",
   "status": "proved",
   "theorems": [
    "Gpcm.c98_instance",
    "Gpcm.c98_valid_iff",
    "Gpcm.c98_distinct_u",
    "Gpcm.c98_distinct_z",
    "Gpcm.c98_constructed",
    "Gpcm.c98_predict"
   ],
   "note": "gamma > 0 is assumed; a default gamma may be negative, see C62 and C66"
  },
  {
   "property": "C99",
   "status": "proved",
   "theorems": [
    "Gpcm.c99_posDef",
    "Gpcm.c99_projection",
    "Gpcm.c99_correlation",
    "Gpcm.c99_posDef_rgpcm",
    "Gpcm.c99_projection_rgpcm",
    "Gpcm.c99_correlation_rgpcm"
   ],
   "note": "for the RGPCM alpha_t must not be zero; gamma > 0 is assumed; a default gamma may be negative, see C62 and C66"
  }
 ]
}