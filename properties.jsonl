{"id": "C01", "title": "Polynomial expressions evaluate faithfully", "statement": "Any expression built from var(x), const(c), Python numbers, +, -, unary -, * and ** (non-negative exponent) that can be built evaluates, at an assignment of the variables, to the value obtained by doing the same arithmetic on the assigned values (whether building can fail is C84).", "quantifier": "every expression tree of any depth, every coefficient ring, every variable assignment, every iteration order of Python sets", "why_tests_cant": "Expression trees and assignments are unbounded and the merge order of terms depends on the string hash seed of the process.", "anchors": ["gpcm/exppoly.py: Poly.__add__, __radd__, __neg__, __sub__, __rsub__, __mul__, __rmul__, __pow__, Poly.eval, Term.eval, Factor.eval, _merge_common_factors, _merge_common_terms, const, var"]}
{"id": "C02", "title": "Hash-seed independence of polynomial results", "statement": "Two processes whose sets iterate in different orders and that both manage to build the same expression get polynomials that are ==, that evaluate to the same value everywhere and that have the same highest_power, is_function_of and is_constant answers.", "quantifier": "every expression, every pair of set iteration orders", "why_tests_cant": "The iteration order is drawn once per interpreter run; a test sees a few seeds only.", "anchors": ["gpcm/exppoly.py: _merge_common_factors, _merge_common_terms, Term.__init__, Poly.__init__"]}
{"id": "C03", "title": "Substitution commutes with evaluation", "statement": "p.substitute(x, q) evaluated at v equals p evaluated at v with x replaced by the value of q at v; in particular ExpPoly.substitute and ExpPoly.translate_var denote substitution and translation of the variable.", "quantifier": "every polynomial p with at least one term, every polynomial q (q may itself mention x), every variable name, every assignment", "why_tests_cant": "Requires all degrees and all term collisions.", "anchors": ["gpcm/exppoly.py: Term.substitute, Poly.substitute, ExpPoly.substitute, ExpPoly.translate_var"]}
{"id": "C04", "title": "Polynomial equality is sound", "statement": "If p == q holds then p and q evaluate to the same value at every assignment; == is reflexive, symmetric and transitive, and does not depend on the order in which terms or factors are stored.", "quantifier": "every pair/triple of polynomials and every assignment", "why_tests_cant": "Ranges over all polynomials.", "anchors": ["gpcm/exppoly.py: Factor.__eq__, Term.__eq__, Poly.__eq__"]}
{"id": "C05", "title": "Polynomial equality is complete", "statement": "Two polynomials that are built from the same arithmetic identity (equal as formal polynomials) compare equal with ==, e.g. (p + q) - q == p.", "quantifier": "every pair of polynomials", "why_tests_cant": "Ranges over all polynomials; the repository only tests four identities.", "anchors": ["gpcm/exppoly.py: Poly.__eq__, _merge_common_terms, Term.__init__"]}
{"id": "C06", "title": "A polynomial stores at most one term per monomial", "statement": "After construction no two stored terms of a Poly have the same set of factors (so that coefficients read off with collect_for are complete).", "quantifier": "every list of terms given to Poly", "why_tests_cant": "Cancellation patterns are unbounded.", "anchors": ["gpcm/exppoly.py: Poly.__init__, _merge_common_terms, Term.__add__"]}
{"id": "C07", "title": "Dependence queries are truthful", "statement": "If p.is_function_of(x) is False then the value of p does not change with x and evaluation does not need x; if p.is_constant() then p evaluates without any variable and is constant; p.highest_power(x) bounds the degree of p in x.", "quantifier": "every polynomial, variable and assignment", "why_tests_cant": "Ranges over all polynomials and assignments.", "anchors": ["gpcm/exppoly.py: Poly.is_function_of, Poly.is_constant, Poly.highest_power, Term.is_function_of, Term.is_constant, Term.highest_power"]}
{"id": "C08", "title": "Evaluation raises KeyError exactly when a needed variable is missing", "statement": "p.eval(**var_map) succeeds iff every variable for which p.is_function_of is True is in var_map; otherwise it raises KeyError.", "quantifier": "every polynomial and every partial assignment", "why_tests_cant": "Ranges over all subsets of variables.", "anchors": ["gpcm/exppoly.py: Factor.eval, Term.eval, Poly.eval"]}
{"id": "C09", "title": "Quadratic decomposition", "statement": "If p.highest_power(x) <= 2 then p = a*x^2 + b*x + c where a = p.collect_for(x^2), b = p.collect_for(x^1), c = p.reject(x), and none of a, b, c depends on x.", "quantifier": "every polynomial of degree at most two in x with any other variables, every assignment", "why_tests_cant": "Ranges over all polynomials.", "anchors": ["gpcm/exppoly.py: Poly.collect_for, Term.collect_for, Poly.reject, Poly.highest_power"]}
{"id": "C10", "title": "integrate() is the integral over the real line", "statement": "ExpPoly.integrate(x1,...,xk, **v) returns the iterated integral over R of const*exp(poly) whenever the integrals converge (quadratic coefficient magnitude at most 1e30).", "quantifier": "every exponentiated polynomial, every list of variables, every assignment of the remaining variables", "why_tests_cant": "Real-valued parameters; the repository compares against three reference numbers.", "anchors": ["gpcm/exppoly.py: ExpPoly.integrate, ExpPoly._integrate, safe_sqrt"]}
{"id": "C11", "title": "integrate_half() over one variable is the integral over (-inf, 0]", "statement": "ExpPoly.integrate_half(x, **v) returns the integral of const*exp(poly) over x in (-inf, 0] whenever the quadratic coefficient is negative (and within the square-root clamp).", "quantifier": "every exponentiated polynomial quadratic in x, every assignment", "why_tests_cant": "Real-valued parameters.", "anchors": ["gpcm/exppoly.py: ExpPoly.integrate_half, ExpPoly._integrate_half1"]}
{"id": "C12", "title": "integrate_half() over two variables is the integral over the negative quadrant", "statement": "ExpPoly.integrate_half(x, y, **v) returns the double integral of const*exp(poly) over (-inf,0]^2 when the quadratic form is negative definite, with bvn_cdf the standard bivariate normal CDF.", "quantifier": "every exponentiated polynomial jointly quadratic in x and y, every assignment", "why_tests_cant": "Real-valued parameters; one reference number is tested.", "anchors": ["gpcm/exppoly.py: ExpPoly._integrate_half2"]}
{"id": "C13", "title": "integrate_box() is the integral over the box", "statement": "ExpPoly.integrate_box with limits from {-inf, number, polynomial} below and {number, polynomial, +inf} above returns the integral over that box, with any infinite upper limit meaning +infinity and any infinite lower limit meaning -infinity.", "quantifier": "every exponentiated polynomial, all limits including infinite ones, every assignment", "why_tests_cant": "Real-valued limits and parameters; only three boxes are tested, none with a finite lower and infinite upper limit.", "anchors": ["gpcm/exppoly.py: ExpPoly.integrate_box, ExpPoly.translate_var, is_inf, _as_poly"]}
{"id": "C14", "title": "Integration never silently accepts a non-quadratic integrand", "statement": "integrate and integrate_half raise RuntimeError whenever the exponent is not exactly quadratic (by highest_power) in an integration variable, or, for integrate, when the quadratic coefficient depends on another variable; no other exception is raised for such an input.", "quantifier": "every exponentiated polynomial and variable", "why_tests_cant": "Ranges over all polynomials.", "anchors": ["gpcm/exppoly.py: ExpPoly._integrate, ExpPoly._integrate_half1, ExpPoly._integrate_half2, Poly.highest_power"]}
{"id": "C15", "title": "ExpPoly algebra is multiplicative", "statement": "Products, scalar products and negations of ExpPoly objects evaluate to the product, scalar multiple and negation of the evaluations.", "quantifier": "every pair of exponentiated polynomials, every number and assignment", "why_tests_cant": "Ranges over all objects.", "anchors": ["gpcm/exppoly.py: ExpPoly.__mul__, __rmul__, __neg__, ExpPoly.eval"]}
{"id": "C16", "title": "NaturalNormal moments", "statement": "For a positive-definite precision P and any lam, mean = P^-1 lam, var = P^-1, m2 = var + mean mean^T, from_normal(to_normal(d)) has the natural parameters of d and to_normal(from_normal(n)) has the mean and variance of n.", "quantifier": "every dimension, every positive-definite matrix and vector, every Cholesky factor", "why_tests_cant": "Unbounded dimension and real entries.", "anchors": ["gpcm/normal.py: NaturalNormal.mean, var, m2, from_normal, to_normal"]}
{"id": "C17", "title": "Lazy caches of NaturalNormal are transparent", "statement": "Reading mean, var, m2 in any order and any number of times always returns the value computed from lam and prec.", "quantifier": "every sequence of property reads", "why_tests_cant": "Access histories are unbounded.", "anchors": ["gpcm/normal.py: NaturalNormal.mean, var, m2"]}
{"id": "C18", "title": "KL divergence is a divergence", "statement": "q.kl(p) is non-negative, is zero exactly when q and p have the same natural parameters, and equals the expectation formula of the Gaussian KL divergence, whatever Cholesky factors are used.", "quantifier": "every dimension and pair of natural-parameter normals with positive-definite precision", "why_tests_cant": "Unbounded dimension and real entries.", "anchors": ["gpcm/normal.py: NaturalNormal.kl"]}
{"id": "C19", "title": "logpdf is a normalised log-density", "statement": "The exponential of n.logpdf(x) integrates to one over R^d and is maximal at the mean.", "quantifier": "every dimension and every positive-definite precision", "why_tests_cant": "An integral over R^d cannot be unit-tested exactly.", "anchors": ["gpcm/normal.py: NaturalNormal.logpdf"]}
{"id": "C20", "title": "NaturalNormal.sample has the right first two moments", "statement": "sample is an affine image of the standard normal noise with offset equal to the mean and linear part S with S S^T = var.", "quantifier": "every dimension, precision, lam and factor of the precision", "why_tests_cant": "Tests compare a Monte Carlo estimate with 5% tolerance in dimension two.", "anchors": ["gpcm/normal.py: NaturalNormal.sample"]}
{"id": "C21", "title": "Mean-field coordinate updates are optimal", "statement": "For an unconditioned model, replacing q(z) by q_z_optimal_mean_field(q(u)) maximises the mean-field ELBO over all Gaussians q(z), and likewise for q(u); the loss against the optimum is exactly a KL divergence.", "quantifier": "every data set, every kernel matrices, every q(u), q(z)", "why_tests_cant": "Optimality quantifies over all Gaussians of unbounded dimension.", "anchors": ["gpcm/approx.py: q_u_optimal_mean_field, q_z_optimal_mean_field, _q_optimal, MeanField.elbo"]}
{"id": "C22", "title": "Coordinate ascent never decreases the ELBO", "statement": "For an unconditioned model, the mean-field ELBO after k+1 fixed-point iterations is at least the ELBO after k iterations.", "quantifier": "every initial q(u), q(z), every number of iterations", "why_tests_cant": "Monotonicity over unbounded iteration counts and all inputs.", "anchors": ["gpcm/approx.py: _fit_mean_field_ca, MeanField.elbo"]}
{"id": "C23", "title": "Coordinate ascent loop bookkeeping", "statement": "_fit_mean_field_ca performs at most iters iterations, stops right after the first iteration whose change is below 1e-6, calls the callback once per iteration with the current iterate, and stores exactly the last iterate; if at least one iteration ran, the stored q(z) is the optimum for the stored q(u).", "quantifier": "every iters, every update functions and starting point", "why_tests_cant": "Loop counts are unbounded.", "anchors": ["gpcm/approx.py: _fit_mean_field_ca"]}
{"id": "C24", "title": "The collapsed ELBO dominates the uncollapsed one", "statement": "For an unconditioned model, MeanField.elbo(collapsed='z') >= MeanField.elbo() for every q(z), and collapsed='u' likewise; equality holds iff the collapsed factor is already optimal.", "quantifier": "every q(u), q(z) and data set", "why_tests_cant": "Quantifies over all Gaussians.", "anchors": ["gpcm/approx.py: MeanField.elbo"]}
{"id": "C25", "title": "log_Z_u is the evidence bound collapsed over q(z|u)", "statement": "log_Z_u(ts,u) equals the logarithm of the integral over z of the prior density times the exponentiated expected log-likelihood, hence is the maximum over q(z) of the bound for fixed u, attained at q_z_optimal(ts,u).", "quantifier": "every u, data set and kernel matrices", "why_tests_cant": "Integrals over R^d for all parameters.", "anchors": ["gpcm/approx.py: Structured.log_Z_u, q_z_optimal"]}
{"id": "C26", "title": "The structured ELBO estimate dominates the mean-field bound", "statement": "For any list of samples of u, the average of log_Z_u over the samples is at least the mean-field expected log-likelihood minus KL(q(z)||p(z)) computed with the sample moments of u, for every q(z).", "quantifier": "every finite list of samples, every q(z)", "why_tests_cant": "Quantifies over all sample lists and Gaussians.", "anchors": ["gpcm/approx.py: Structured.elbo_collapsed_z, log_Z_u, MeanField.elbo"]}
{"id": "C27", "title": "Sample path and moment path of the optimal update agree", "statement": "The efficient branch used when only a sample x is given returns the same natural parameters as the moment branch with second moment x x^T; the update depends on the data only through y-weighted and unweighted sums.", "quantifier": "every tensor of integrals, every x", "why_tests_cant": "Unbounded dimensions.", "anchors": ["gpcm/approx.py: _q_optimal, q_u_optimal, q_z_optimal"]}
{"id": "C28", "title": "Predictive variance is at least the noise", "statement": "predict returns a variance that is at least the observation noise at every input, for both approximations, whenever the terms are the second-moment terms of an actual convolution (A, B positive semi-definite, c non-negative).", "quantifier": "every input, every posterior, every list of samples", "why_tests_cant": "Quantifies over all posteriors and inputs.", "anchors": ["gpcm/approx.py: _predict_moments, Structured.predict, MeanField.predict"]}
{"id": "C29", "title": "Summed terms are consistent with per-point terms", "statement": "The aggregate terms (A_sum, B_sum, c_sum, I_uz_sum) used by the ELBO are the sums over data points of the per-point terms used in prediction, so terms of a concatenated data set are the sums of the terms of the parts.", "quantifier": "every split of every data set", "why_tests_cant": "Ranges over all data sets and splits.", "anchors": ["gpcm/approx.py: construct_terms, _predict_moments"]}
{"id": "C30", "title": "Scheme selection", "statement": "Instantiation accepts exactly the schemes structured, mean-field, mean-field-ca, mean-field-gradient, mean-field-collapsed-gradient, mean-field-ca-gradient, mean-field-ca-collapsed-gradient, case-insensitively, and raises ValueError for every other string.", "quantifier": "every string", "why_tests_cant": "All strings.", "anchors": ["gpcm/model.py: AbstractGPCM.__init__, AbstractGPCM.__prior__"]}
{"id": "C31", "title": "Every documented scheme can be fitted", "statement": "For every scheme accepted by the constructor, model.fit(t, y) runs to completion.", "quantifier": "every documented scheme, every iteration count", "why_tests_cant": "No test fits a model at all.", "anchors": ["gpcm/approx.py: fit (MeanField), ignore_qs", "gpcm/model.py: __prior__, fit"]}
{"id": "C32", "title": "ignore_qs selects the documented variables", "statement": "ignore_qs(previous, current) returns exclusion patterns for exactly the requested posteriors for every documented value of current (True, False, 'u', 'z') and rejects anything else with ValueError.", "quantifier": "every conditioning depth and every argument", "why_tests_cant": "Unbounded conditioning depth.", "anchors": ["gpcm/approx.py: Approximation.ignore_qs"]}
{"id": "C33", "title": "Structured fit stores exactly one thousand samples", "statement": "After a successful structured fit the stored sample matrices have exactly 1000 columns, taken from the Gibbs chain at regular spacing, for every iters; fits with iters < 2 raise IndexError before anything is stored.", "quantifier": "every iters, num_samples", "why_tests_cant": "iters is unbounded.", "anchors": ["gpcm/approx.py: fit (Structured), gibbs_sample, q_u_samples setter"]}
{"id": "C34", "title": "Gibbs chain alternation and random-state threading", "statement": "gibbs_sample draws u from its conditional given the latest z and then z given that u, each draw with the random state returned by the previous one; the returned states and samples are a function of the initial state only.", "quantifier": "every number of iterations, start and subsampling", "why_tests_cant": "Chain lengths are unbounded.", "anchors": ["gpcm/approx.py: gibbs_sample, elbo_gibbs"]}
{"id": "C35", "title": "Fitting after conditioning never changes earlier posteriors", "statement": "At conditioning depth i a fit only modifies hyper-parameters and variables of posterior i; the variables of posteriors j < i keep their values, and the prior used at depth i is posterior i-1.", "quantifier": "every sequence of condition and fit calls", "why_tests_cant": "Histories of calls are unbounded.", "anchors": ["gpcm/approx.py: p_u, q_u, p_z, q_z, condition, ignore_qs, fit"]}
{"id": "C36", "title": "Optimal updates use the current prior", "statement": "After condition, q_z_optimal_mean_field is still the maximiser of the ELBO, whose KL terms are taken against the current prior (the previous posterior).", "quantifier": "every conditioning depth and prior", "why_tests_cant": "Quantifies over all priors.", "anchors": ["gpcm/approx.py: _q_optimal, p_z, MeanField.elbo"]}
{"id": "C37", "title": "predict_fourier works under every scheme", "statement": "model.predict_fourier() returns marginals for every instantiated model.", "quantifier": "every scheme", "why_tests_cant": "Not exercised by any test.", "anchors": ["gpcm/model.py: predict_fourier", "gpcm/approx.py: Structured.predict_z, MeanField.predict_z"]}
{"id": "C38", "title": "Saving and loading restores every variable", "statement": "After save(path) and load(path) on any model of the same class, every variable saved has its saved value, whether or not the variable existed before, variables not in the file keep their value, and a later instantiation uses the loaded values.", "quantifier": "every variable container, every file content", "why_tests_cant": "Ranges over all variable sets.", "anchors": ["gpcm/model.py: save, load"]}
{"id": "C39", "title": "A failed save does not lose the previous checkpoint", "statement": "If save(path) is interrupted at any point, path still holds either the old or the new complete content.", "quantifier": "every crash point", "why_tests_cant": "Crash points cannot be enumerated in unit tests.", "anchors": ["gpcm/model.py: save"]}
{"id": "C40", "title": "A failed load leaves the model unchanged", "statement": "If reading or unpickling the file fails, no variable of the model has changed.", "quantifier": "every file content", "why_tests_cant": "All byte strings.", "anchors": ["gpcm/model.py: load"]}
{"id": "C41", "title": "kernel_approx is the conditional expected kernel", "statement": "kernel_approx(t1,t2,u) equals i_hx - tr(K_u^-1 I_ux) + u^T K_u^-1 I_ux K_u^-1 u whatever Cholesky factor of K_u is used, and depends on I_ux only through its symmetric part.", "quantifier": "every t1, t2, u and kernel matrices", "why_tests_cant": "Real-valued inputs of unbounded dimension.", "anchors": ["gpcm/model.py: kernel_approx"]}
{"id": "C42", "title": "Normalised samples have unit variance at the origin", "statement": "sample(t, normalise=True) returns a kernel matrix whose (0,0) entry is one.", "quantifier": "every kernel matrix with non-zero first entry", "why_tests_cant": "Real-valued.", "anchors": ["gpcm/model.py: sample"]}
{"id": "C43", "title": "ESS keeps position and likelihood in step", "statement": "At every point of every run, the cached log-likelihood is the log-likelihood of the current state, the state is always a previously proposed (or initial) point, sample(num) returns exactly num states and the last one is the current state.", "quantifier": "every random tape, likelihood function, prior sampler and number of samples", "why_tests_cant": "Random tapes are unbounded.", "anchors": ["gpcm/sample.py: ESS.__init__, move, sample, _sample, _draw"]}
{"id": "C44", "title": "ESS only accepts points on the slice", "statement": "Every accepted move has a log-likelihood strictly above the slice height drawn for that move and lies on the ellipse through the current state and the drawn prior sample.", "quantifier": "every random tape and likelihood", "why_tests_cant": "Random tapes are unbounded.", "anchors": ["gpcm/sample.py: ESS._draw, _draw_proposal, _sample"]}
{"id": "C45", "title": "ESS bracket always contains the current state and shrinks", "statement": "The bracket for theta always contains 0, every bracket is contained in the previous one and has width at most 2*pi, and theta is always drawn inside the bracket.", "quantifier": "every random tape", "why_tests_cant": "Random tapes are unbounded.", "anchors": ["gpcm/sample.py: ESS._draw, _draw_bracket"]}
{"id": "C46", "title": "ESS attempts are bounded and a failed attempt leaves the chain unchanged", "statement": "One draw evaluates the likelihood at most 100 times; when it fails the state and its log-likelihood are unchanged and a fresh slice, ellipse and bracket are drawn.", "quantifier": "every random tape and likelihood", "why_tests_cant": "Random tapes are unbounded.", "anchors": ["gpcm/sample.py: ESS._draw, _sample"]}
{"id": "C47", "title": "ESS reports the number of proposals", "statement": "The number of attempts reported by _sample is the number of proposals evaluated in the successful draw.", "quantifier": "every random tape", "why_tests_cant": "Random tapes are unbounded.", "anchors": ["gpcm/sample.py: ESS._draw"]}
{"id": "C48", "title": "invert_perm inverts permutations", "statement": "invert_perm(p)[p[i]] = i and p[invert_perm(p)[j]] = j for every permutation p.", "quantifier": "every permutation of every length", "why_tests_cant": "Unbounded length.", "anchors": ["gpcm/util.py: invert_perm"]}
{"id": "C49", "title": "closest_psd leaves PSD matrices unchanged and inverts PD ones", "statement": "For a positive semi-definite matrix closest_psd(a) = a whatever singular value decomposition the backend returns; with inv=True it returns the inverse of a positive-definite matrix.", "quantifier": "every dimension, every PSD matrix, every valid SVD", "why_tests_cant": "SVDs are not unique; tests see one backend.", "anchors": ["gpcm/util.py: closest_psd"]}
{"id": "C50", "title": "closest_psd returns the nearest PSD matrix", "statement": "closest_psd(a) is positive semi-definite and minimises the Frobenius distance to (a+a^T)/2 among all PSD matrices.", "quantifier": "every dimension, every matrix, every valid SVD", "why_tests_cant": "SVDs are not unique.", "anchors": ["gpcm/util.py: closest_psd"]}
{"id": "C51", "title": "autocorr is a normalised autocorrelation", "statement": "autocorr(x) starts with one, has min(lags+1, n) entries, is invariant to shifting and scaling x, and with window=True all values lie in [-1,1].", "quantifier": "every non-constant time series, every lags", "why_tests_cant": "Unbounded length and real entries.", "anchors": ["gpcm/util.py: autocorr"]}
{"id": "C52", "title": "estimate_psd returns a non-negative spectral density", "statement": "estimate_psd(t,k) returns non-negative values whose total power is k[0], for a kernel with k[0] > 0.", "quantifier": "every kernel vector and time grid", "why_tests_cant": "Real-valued inputs.", "anchors": ["gpcm/util.py: estimate_psd"]}
{"id": "C53", "title": "estimate_psd discards no imaginary part", "statement": "The Fourier transform of the symmetrised kernel is real, so taking the real part loses nothing, and the returned frequencies are the non-negative ones in increasing order, paired with their densities.", "quantifier": "every kernel vector, padding and length", "why_tests_cant": "Unbounded length.", "anchors": ["gpcm/util.py: estimate_psd"]}
{"id": "C54", "title": "Summary error bands are nested", "statement": "In the output of summarise_samples, err_99_lower <= err_95_lower <= err_68_lower <= err_68_upper <= err_95_upper <= err_99_upper at every input, also in decibels for positive samples.", "quantifier": "every sample matrix", "why_tests_cant": "Unbounded numbers of samples.", "anchors": ["gpcm/util.py: summarise_samples"]}
{"id": "C55", "title": "The 68% band contains 68% of the samples", "statement": "Between err_68_lower and err_68_upper lie about 68% of the samples.", "quantifier": "every number of samples", "why_tests_cant": "Unbounded numbers of samples.", "anchors": ["gpcm/util.py: summarise_samples"]}
{"id": "C56", "title": "min_phase preserves the magnitude spectrum", "statement": "The discrete Fourier transform of min_phase(h) has the same absolute values as that of h, so the filter autocorrelation (the kernel) is unchanged; the result has minimum phase, that is, a causal cepstrum.", "quantifier": "every real filter of every length whose spectrum has no zero", "why_tests_cant": "Unbounded length, real entries.", "anchors": ["gpcm/util.py: min_phase"]}
{"id": "C57", "title": "hessian returns a symmetric matrix and validates its input", "statement": "hessian(f,x) raises ValueError unless x is a column vector and otherwise returns a symmetric matrix, equal to the Hessian when automatic differentiation is exact.", "quantifier": "every function, every shape", "why_tests_cant": "All shapes and functions.", "anchors": ["gpcm/util.py: hessian, laplace_approximation"]}
{"id": "C58", "title": "Length scale and factor conversions are inverse", "statement": "scale_to_factor and factor_to_scale are inverse bijections of the positive reals, decreasing, and exp(-factor*(2*scale)^2) = exp(-pi).", "quantifier": "every positive scale/factor", "why_tests_cant": "Real-valued.", "anchors": ["gpcm/gpcm.py: scale_to_factor, factor_to_scale"]}
{"id": "C59", "title": "Default filter inducing points", "statement": "GPCM: the default inducing points are an odd number of equally spaced points, symmetric about zero, containing zero, and ending where the window has decayed to exp(-pi). CGPCM: two extra points left of zero, the third is zero, same right end.", "quantifier": "every window, scale and n_u", "why_tests_cant": "Real-valued parameters and unbounded n_u.", "anchors": ["gpcm/gpcm.py: GPCM.__init__"]}
{"id": "C60", "title": "Inducing point caps are respected", "statement": "When n_u is determined automatically, the model never uses more than n_u_cap inducing points (and likewise n_z_cap, m_max_cap). Below the cap there are two inducing points per length scale over the span that they cover.", "quantifier": "every window, scale and cap", "why_tests_cant": "Real-valued parameters.", "anchors": ["gpcm/gpcm.py: GPCM.__init__", "gpcm/rgpcm.py: RGPCM.__init__"]}
{"id": "C61", "title": "extend_t_z keeps the grid aligned", "statement": "With extend_t_z the new grid has the same spacing, contains the original grid points, covers at least two window lengths before the data (and after it in the acausal model), and n_z is its length.", "quantifier": "every data range, n_z >= 2, window", "why_tests_cant": "Real-valued parameters.", "anchors": ["gpcm/gpcm.py: GPCM.__init__"]}
{"id": "C62", "title": "Default filter prior is valid only for scale < sqrt(2) window", "statement": "The default gamma is positive, as required by the model, for every positive window and scale.", "quantifier": "every positive window and scale", "why_tests_cant": "Real-valued parameters.", "anchors": ["gpcm/gpcm.py: GPCM.__init__"]}
{"id": "C63", "title": "Unit prior power", "statement": "With default alpha_t, compute_i_hx(t,t) = 1 for every t in all three models, i.e. the prior variance of the signal is one.", "quantifier": "every t and all parameters in the range where the clamp of safe_sqrt (at 1e-30) is inactive, e.g. factors between 1e-10 and 1e10", "why_tests_cant": "Tests use one Monte Carlo estimate with 5% tolerance.", "anchors": ["gpcm/gpcm.py: GPCM.__init__, compute_i_hx", "gpcm/rgpcm.py: RGPCM.__init__, compute_i_hx"]}
{"id": "C64", "title": "Inter-domain processes have unit variance", "statement": "The prior variance of the inducing variables is one: the diagonal of compute_K_z (GPCM) and of compute_K_u (RGPCM) is one with default scale parameters.", "quantifier": "every parameter setting, including after learning", "why_tests_cant": "Real-valued parameters.", "anchors": ["gpcm/gpcm.py: GPCM.__init__, __prior__, compute_K_z", "gpcm/rgpcm.py: RGPCM.__init__, compute_K_u"]}
{"id": "C65", "title": "GPCM kernel integrals are correct", "statement": "compute_K_u, compute_K_z, compute_i_hx, compute_I_ux, compute_I_hz and compute_I_uz of GPCM and CGPCM return the defining integrals of the filter kernel against the (inter-domain) white noise.", "quantifier": "every inputs, inducing points and every parameter setting for which the clamp of safe_sqrt (at 1e-30) is inactive, e.g. alpha, alpha + 2 gamma and omega between 1e-10 and 1e10", "why_tests_cant": "Not covered by any test for the GPCM/CGPCM.", "anchors": ["gpcm/gpcm.py: compute_K_u, compute_K_z, compute_i_hx, compute_I_ux, compute_I_hz, compute_I_uz, k_h, k_xs"]}
{"id": "C66", "title": "GPCM covariance matrices are positive semi-definite", "statement": "compute_K_u and compute_K_z of GPCM/CGPCM are symmetric positive semi-definite for every set of inducing points.", "quantifier": "every inducing points and parameters", "why_tests_cant": "Unbounded dimension.", "anchors": ["gpcm/gpcm.py: compute_K_u, compute_K_z"]}
{"id": "C67", "title": "Sampled kernels are stationary", "statement": "kernel_approx(t1+s, t2+s, u) = kernel_approx(t1, t2, u) and kernel_approx(t1,t2,u) is the transpose of kernel_approx(t2,t1,u) in all models.", "quantifier": "every shift, inputs and inducing values, and parameters for which no clamp (GPCM) or division by zero (RGPCM) occurs", "why_tests_cant": "Real-valued inputs.", "anchors": ["gpcm/model.py: kernel_approx", "gpcm/gpcm.py: compute_i_hx, compute_I_ux", "gpcm/rgpcm.py: compute_i_hx, compute_I_ux"]}
{"id": "C68", "title": "integral_abcd is the double integral", "statement": "integral_abcd(a,b,c,d) equals the (signed) integral over [0,a]x[0,b] of exp(c*(x+y) - d*|x-y|), and integral_abcd_lu the one over [a_lb,a_ub]x[b_lb,b_ub].", "quantifier": "all real bounds (any signs, including zero), all c != 0, c^2 != d^2", "why_tests_cant": "Tests sample random sign patterns; zero bounds and boundaries are missed.", "anchors": ["gpcm/rgpcm.py: integral_abcd, integral_abcd_lu"]}
{"id": "C69", "title": "RGPCM I_ux is the defining integral", "statement": "compute_I_ux(t1,t2)[i,j] equals the double integral of the window, transform and OU kernels, in the same index convention as the GPCM (t1 paired with inducing point i).", "quantifier": "every t1, t2, inducing points and parameters", "why_tests_cant": "The quadrature test integrates with swapped arguments and cannot see the convention.", "anchors": ["gpcm/rgpcm.py: compute_I_ux", "gpcm/gpcm.py: compute_I_ux"]}
{"id": "C70", "title": "RGPCM I_hz is the defining integral", "statement": "compute_I_hz(t)[i,m,n] equals the integral over tau <= t_i of the squared window times the two Fourier features, for data inside [a,b].", "quantifier": "every frequency list ms in any order, every t in [a,b]", "why_tests_cant": "Unbounded ms and real inputs.", "anchors": ["gpcm/rgpcm.py: compute_I_hz, _I_hx_0_cos, _I_hx_0_sin"]}
{"id": "C71", "title": "RGPCM I_uz is the defining integral", "statement": "compute_I_uz(t)[i,j,m] equals the integral over [0,t_u_j] of window, transform and Fourier feature, when a <= t_i - t_u_j and t_i <= b.", "quantifier": "every frequency list ms in any order, every t and t_u", "why_tests_cant": "Unbounded ms and real inputs.", "anchors": ["gpcm/rgpcm.py: compute_I_uz, _integral_lu0, _integral_luk_leq_M, _integral_luk_g_M"]}
{"id": "C72", "title": "Frequency order does not matter", "statement": "Permuting ms permutes the corresponding axes of compute_I_hz, compute_I_uz and compute_K_z and changes nothing else.", "quantifier": "every list of frequencies in any order, with or without repetitions", "why_tests_cant": "All orders of unbounded lists.", "anchors": ["gpcm/rgpcm.py: compute_I_hz, compute_I_uz, compute_K_z", "gpcm/util.py: invert_perm"]}
{"id": "C73", "title": "RGPCM K_z is the feature Gram matrix", "statement": "compute_K_z is the Gram matrix of the Fourier features in the RKHS of the Matern-1/2 kernel on [a,b] and is positive definite.", "quantifier": "every a < b, lam > 0, distinct frequencies", "why_tests_cant": "Real-valued parameters and unbounded size.", "anchors": ["gpcm/rgpcm.py: compute_K_z, psd_matern_12"]}
{"id": "C74", "title": "RGPCM K_u is positive definite", "statement": "compute_K_u is the covariance matrix of the smoothed white noise: positive semi-definite for all inducing points and positive definite for distinct ones.", "quantifier": "every inducing points", "why_tests_cant": "Unbounded dimension.", "anchors": ["gpcm/rgpcm.py: compute_K_u"]}
{"id": "C75", "title": "RGPCM decay ordering", "statement": "gamma is strictly smaller than alpha at construction and at every value of the learnable parameters, so every denominator alpha - gamma is positive.", "quantifier": "every constructor argument that gives a positive alpha and every learnable parameter value", "why_tests_cant": "Real-valued parameters.", "anchors": ["gpcm/rgpcm.py: RGPCM.__init__, __prior__"]}
{"id": "C76", "title": "RGPCM feature bookkeeping", "statement": "n_z equals the number of frequencies and, by default, 2*m_max+1; m_max is taken from m_max, else from n_z, else from scale, capped.", "quantifier": "every combination of arguments", "why_tests_cant": "All argument combinations.", "anchors": ["gpcm/rgpcm.py: RGPCM.__init__"]}
{"id": "C77", "title": "RGPCM covers the data", "statement": "The basis interval [a,b] chosen by default contains t - t_u for all data points t and default inducing points t_u, as I_uz requires, also after the inducing points are learned.", "quantifier": "every data set and admissible inducing points", "why_tests_cant": "Real-valued.", "anchors": ["gpcm/rgpcm.py: RGPCM.__init__, __prior__, compute_I_uz"]}
{"id": "C78", "title": "build_models builds exactly the requested models in a fixed order", "statement": "build_models returns GPCM, CGPCM, RGPCM in that order for exactly the requested names and raises ValueError iff an unknown name was given.", "quantifier": "every list of names, with repetitions", "why_tests_cant": "All name lists.", "anchors": ["experiments/experiment.py: build_models"]}
{"id": "C79", "title": "run forwards the training options", "statement": "iters and fix_hypers given on the command line reach fit as iters and optimise_hypers=False, and fit accepts them under every scheme.", "quantifier": "every argument combination and scheme", "why_tests_cant": "All combinations.", "anchors": ["experiments/experiment.py: run, train_models", "gpcm/approx.py: fit"]}
{"id": "C80", "title": "first_monday terminates with the first Monday", "statement": "first_monday(year) terminates and returns the first Monday on or after January 1, within the first seven days.", "quantifier": "every year", "why_tests_cant": "All years.", "anchors": ["experiments/paper/vix_forecast.py: first_monday"]}
{"id": "C81", "title": "Runtime tracker excludes paused time", "statement": "Every tracked time equals the elapsed clock time since construction minus the total time spent inside pause contexts, for non-overlapping pauses.", "quantifier": "every sequence of track and pause events and clock readings", "why_tests_cant": "Event histories are unbounded.", "anchors": ["experiments/paper/compare_inference.py: Tracker"]}
{"id": "C82", "title": "Train/test split is a partition", "statement": "In the crude-oil experiment every observation is in exactly one of the training and test sets and in order; test observations are exactly those in odd weeks from week 27.", "quantifier": "every data set", "why_tests_cant": "All data sets.", "anchors": ["experiments/paper/crude_oil.py: split"]}
{"id": "C83", "title": "Mirrored samples are symmetric", "statement": "_extract_samples mirrors the samples so that inputs are odd-symmetric and values even-symmetric about the first input when it is zero, with 2n-1 points.", "quantifier": "every sample matrix", "why_tests_cant": "Unbounded size.", "anchors": ["experiments/paper/priors.py: _extract_samples"]}
{"id": "C84", "title": "Building an expression never raises", "statement": "Building an expression from var(x), const(c), numbers, +, -, * and ** with non-negative exponents never raises, in any process.", "quantifier": "every expression tree, every iteration order of Python sets", "why_tests_cant": "Whether a product raises depends on which coefficients cancel and on the hash seed of the process.", "anchors": ["gpcm/exppoly.py: _merge_common_terms, Term.__add__, Poly.__mul__, Poly.__pow__"]}
{"id": "C85", "title": "ESS never moves to a point without likelihood", "statement": "ESS never moves to a point whose log-likelihood is NaN or minus infinity, so that a chain started at a point with a proper log-likelihood always stays at such points.", "quantifier": "every random tape and likelihood function, including ones that return NaN or infinities", "why_tests_cant": "The likelihood function is arbitrary and chains are unbounded.", "anchors": ["gpcm/sample.py: ESS._draw, _sample"]}
{"id": "C86", "title": "ESS sampling cannot get stuck", "statement": "From every state of a chain some outcome of the random draws lets ESS.sample return; it cannot loop forever whatever is drawn.", "quantifier": "every state and likelihood function, including ones that return NaN or infinities", "why_tests_cant": "Non-termination cannot be observed by a test.", "anchors": ["gpcm/sample.py: ESS._sample"]}
{"id": "C87", "title": "Tracked curves start at time zero", "statement": "Tracker.get_xy(start) returns equally many times and values, drops the first start of both, begins at time zero, and raises IndexError iff at most start values were tracked.", "quantifier": "every event history and start", "why_tests_cant": "Event histories are unbounded.", "anchors": ["experiments/paper/compare_inference.py: Tracker.get_xy"]}
{"id": "C88", "title": "Laplace approximation has the inverse negative Hessian as variance", "statement": "laplace_approximation is centred at the point the optimiser returns and, when differentiation is exact and the negative Hessian is positive definite there, has its inverse as variance; when the Hessian is positive semi-definite the variance is zero rather than negative.", "quantifier": "every twice continuously differentiable log-density, every optimiser result, every valid SVD", "why_tests_cant": "All log-densities and SVD backends.", "anchors": ["gpcm/util.py: laplace_approximation, maximum_a_posteriori, hessian, closest_psd"]}
{"id": "C89", "title": "The filter kernel is the prior covariance of the filter", "statement": "The kernel that k_h() returns, which predict_filter conditions on the inducing points, agrees with the covariance k_h(t1, t2) from which the inducing points' own covariance and the integrals are computed.", "quantifier": "every constructed GPCM and all pairs of non-negative times", "why_tests_cant": "Tests only check the shapes of predictions of the filter.", "anchors": ["gpcm/gpcm.py: k_h, compute_K_u", "gpcm/model.py: predict_filter"]}
{"id": "C90", "title": "Loaded variables stay constrained and trainable", "statement": "After load(path) every hyper-parameter is subject to the same constraints as before saving and can be trained by a later fit.", "quantifier": "every variable container and every state of the loading model", "why_tests_cant": "Ranges over all variable sets and the order of loading and instantiation.", "anchors": ["gpcm/model.py: load"]}
{"id": "C91", "title": "Filter predictions use the fitted posterior", "statement": "After fit(t, y) and condition(t, y), predict_filter samples the inducing variables of the filter from the posterior that fit found, under every scheme.", "quantifier": "every scheme, data, options and initial state", "why_tests_cant": "Depends on which variables a fit of arbitrary length writes.", "anchors": ["gpcm/model.py: predict_filter", "gpcm/approx.py: p_u, fit (Structured)"]}
{"id": "C92", "title": "Evaluating the ELBO does not change the model", "statement": "elbo(t, y) changes no existing variable of the model.", "quantifier": "every scheme, data and state", "why_tests_cant": "Ranges over all states of the variable container.", "anchors": ["gpcm/approx.py: Structured.elbo, MeanField.elbo, _fit_mean_field_ca"]}
{"id": "C93", "title": "RGPCM honours the requested number of features", "statement": "Constructing an RGPCM with n_z=n (and neither m_max nor ms) gives a model with n inducing features.", "quantifier": "every n and every other argument", "why_tests_cant": "Unbounded n and all argument combinations.", "anchors": ["gpcm/rgpcm.py: RGPCM.__init__"]}
{"id": "C94", "title": "RGPCM I_ux is defined for every admissible parameter", "statement": "compute_I_ux returns finite numbers whenever 0 < gamma < alpha and lam > 0.", "quantifier": "every parameter value the constructor or the learner can produce", "why_tests_cant": "The singular parameters form a surface that random tests never hit.", "anchors": ["gpcm/rgpcm.py: compute_I_ux, integral_abcd"]}
{"id": "C95", "title": "RGPCM integrals are right at prediction times outside the basis interval", "statement": "compute_I_hz(t) and compute_I_uz(t) are the defining integrals for every t, including prediction times after b.", "quantifier": "every prediction time", "why_tests_cant": "Real-valued times; the tests only use times inside the interval.", "anchors": ["gpcm/rgpcm.py: compute_I_uz, _integral_lu0, _integral_luk_leq_M, _integral_luk_g_M", "gpcm/approx.py: predict"]}
{"id": "C96", "title": "The Gibbs sampler samples the structured posterior", "statement": "One pass of the Gibbs sampler that is used for fitting a structured approximation draws each inducing variable from its exact conditional given the other, so that the density proportional to prior times likelihood is preserved by any number of passes, is a proper distribution, and is the only distribution preserved.", "quantifier": "every valid instance, data set, starting point, number of sweeps and measurable test function", "why_tests_cant": "A distributional statement over continuous state; tests see finitely many samples.", "anchors": ["gpcm/approx.py: q_u_optimal, q_z_optimal, elbo_gibbs, gibbs_sample", "gpcm/normal.py: NaturalNormal.sample"]}
{"id": "C97", "title": "The bounds are ordered and below the log-evidence", "statement": "For every choice of normal variational distributions, the mean-field ELBO (collapsed or not) is at most the log of the evidence, i.e. of the integral of prior times likelihood over both inducing variables; the mean-field ELBO is at most the structured ELBO with the same q(u); the structured ELBO with any positive number of samples is an unbiased estimate of a quantity at most the log-evidence; elbo_gibbs is the log of the likelihood times prior with z integrated out.", "quantifier": "every valid instance, data set, pair of normals, number of samples", "why_tests_cant": "The evidence is an intractable integral; tests can only compare the bounds at random points.", "anchors": ["gpcm/approx.py: MeanField.elbo, Structured.elbo, elbo_collapsed_z, elbo_gibbs, log_Z_u"]}
{"id": "C98", "title": "The GPCM and the CGPCM meet the assumptions of their approximation", "statement": "For a GPCM or a CGPCM with positive parameters, all integrals that the approximation asks for are computed without error; the kernel matrices are positive definite and the residual second moments (A, B and c) are positive semi-definite for every time, exactly when no inducing point is repeated. Inducing points that the constructor places are never repeated. In particular predictions have at least the noise variance.", "quantifier": "every parameter value in the moderate range, list of inducing points, set of constructor arguments, data set and prediction time", "why_tests_cant": "Positive semi-definiteness for all times and all sets of inducing points; the tests check a few random models.", "anchors": ["gpcm/model.py: AbstractGPCM.__prior__", "gpcm/approx.py: construct_terms, predict", "gpcm/gpcm.py: GPCM.__init__, compute_K_u, compute_K_z, compute_i_hx, compute_I_ux, compute_I_hz, compute_I_uz"]}
{"id": "C99", "title": "Sampled kernels are valid covariances", "statement": "kernel_approx(t, t, u) of a GPCM, a CGPCM or an RGPCM is a positive definite matrix for every u and all distinct times, so the projection by closest_psd in sample does nothing; the normalised kernel of sample is a correlation matrix with ones on the whole diagonal, and normalising never divides by zero.", "quantifier": "every model with distinct inducing points, vector of distinct times and value of u", "why_tests_cant": "Definiteness for all u and all numbers of times.", "anchors": ["gpcm/model.py: AbstractGPCM.kernel_approx, AbstractGPCM.sample", "gpcm/util.py: closest_psd"]}
{"id": "C100", "title": "sample draws from the process", "statement": "For distinct times sample returns a kernel matrix and observations such that, over the random numbers drawn, the observations have mean zero and, given the kernel, covariance equal to the returned kernel matrix plus the noise on the diagonal. Averaged over the inducing variables the kernel is the prior covariance of the process, and the covariance of the observations is that plus the noise.", "quantifier": "every model with distinct inducing points, vector of distinct times, Cholesky and singular value routine", "why_tests_cant": "Distributional claim; tests only see finitely many samples.", "anchors": ["gpcm/model.py: AbstractGPCM.sample, AbstractGPCM.kernel_approx", "gpcm/gpcm.py: compute_i_hx, compute_I_ux, compute_K_u"]}
{"id": "C101", "title": "Elliptical slice sampling leaves the target distribution invariant", "statement": "`ESS.sample` documents that it generates samples from the target distribution, the prior times the likelihood. For a Gaussian prior with mean zero and any measurable log-likelihood that is never plus infinity: if the state is distributed according to the target, then the next sample that `ESS` returns is distributed according to the target as well.", "quantifier": "all centred Gaussian priors on separable Banach spaces, all measurable log-likelihoods with values in the extended reals or NaN, all test functions; independent exponential, uniform and prior draws", "why_tests_cant": "invariance is a statement about the law of a random process; a test sees finitely many samples, and the deviation caused by repeating failed passes is far below what a test can resolve", "anchors": ["gpcm/sample.py: ESS.sample, ESS._sample, ESS._draw, ESS._draw_bracket"]}
{"id": "C102", "title": "Filter predictions follow the approximate posterior", "statement": "Without `min_phase`, the samples that `predict_filter` summarises have the mean and the covariance of the filter under the approximate posterior: the inducing variables have the distribution of the approximation, and given them the filter has its conditional prior distribution.", "quantifier": "all models with distinct inducing points, all approximate posteriors of the inducing variables, all times", "why_tests_cant": "the moments of random samples for arbitrary posteriors; tests only check shapes of predictions", "anchors": ["gpcm/model.py: AbstractGPCM.predict_filter", "gpcm/gpcm.py: k_h, compute_K_u", "gpcm/rgpcm.py: k_h, compute_K_u"]}
{"id": "C103", "title": "Predicted filters of causal models are causal", "statement": "For the CGPCM and the RGPCM every sample of the filter is zero at negative times. Without `min_phase` the inputs are returned as given, with one untransformed sample per draw; with `min_phase` they are shifted to start at zero and keep their spacing.", "quantifier": "all causal models, posteriors, inputs, numbers of samples and random numbers", "why_tests_cant": "ranges over all random numbers and inputs", "anchors": ["gpcm/model.py: AbstractGPCM.predict_filter", "gpcm/gpcm.py: k_h", "gpcm/rgpcm.py: k_h"]}
{"id": "C104", "title": "Fixed parameters are not learned", "statement": "With fix_noise, fix_window or fix_scale every instantiation of a model uses the constructor's value of the noise, of alpha, or of gamma (GPCM, CGPCM) or lam (RGPCM), whatever variables the model's container holds, and never creates the corresponding variable. Every other parameter has the value of its variable. Instantiating changes no existing variable.", "quantifier": "every model, combination of the three flags and state of the variable container", "why_tests_cant": "All states of the container and all parameter values; tests construct a few models.", "anchors": ["gpcm/gpcm.py: GPCM.__prior__", "gpcm/rgpcm.py: RGPCM.__prior__", "gpcm/model.py: Model.__call__"]}
{"id": "C105", "title": "A new model starts at the constructor's parameters", "statement": "The first instantiation of a model that was constructed without error has exactly the parameters that the constructor computed, and creates one variable for each parameter that is learned; a second instantiation gives the same model and leaves the container unchanged.", "quantifier": "every model the constructor can produce, every combination of flags", "why_tests_cant": "Inducing points and parameters range over the reals; the failing inputs (no inducing point at a negative time) are not tested.", "anchors": ["gpcm/gpcm.py: GPCM.__init__, GPCM.__prior__", "gpcm/rgpcm.py: RGPCM.__init__, RGPCM.__prior__"]}
{"id": "C106", "title": "The scale argument is the length scale of the signal", "statement": "With the default alpha_t and with gamma (GPCM, CGPCM) or lam (RGPCM) determined from scale, the prior covariance of the signal has unit variance and length scale equal to scale: exp(-pi/4 (d/scale)^2) at lag d for the GPCM and the CGPCM, and exp(-|d|/scale) for the RGPCM.", "quantifier": "every scale, window and pair of times", "why_tests_cant": "An identity of functions of two real times for all parameters.", "anchors": ["gpcm/gpcm.py: GPCM.__init__, scale_to_factor, compute_i_hx", "gpcm/rgpcm.py: RGPCM.__init__, compute_i_hx"]}
{"id": "C107", "title": "fix_scale keeps the length scale of the signal", "statement": "With fix_scale the correlations of the signal under the prior are the same for all values of the learned parameters.", "quantifier": "every model, state of the variable container and pair of times", "why_tests_cant": "All parameter values and times; a test would have to train the model and look at its prior.", "anchors": ["gpcm/gpcm.py: GPCM.__prior__, compute_i_hx", "gpcm/rgpcm.py: RGPCM.__prior__, compute_i_hx"]}
{"id": "C108", "title": "Predictions are the moments of the signal under the approximate posterior", "statement": "predict returns the mean and the variance of noisy observations of the signal, the convolution of filter and noise, when the inducing variables follow the approximate posterior. For the mean-field scheme the inducing variables are independent and normal with the fitted parameters, and before conditioning they follow the prior; for the structured scheme the moments are averaged over the stored samples of the filter's inducing variables, with the noise's inducing variables following their exact conditional given the sample and the data.", "quantifier": "every GPCM, CGPCM and RGPCM, posterior, list of samples, data set and list of times (for the RGPCM, times that its interval covers)", "why_tests_cant": "An identity between closed-form matrix expressions and integrals over stochastic processes for all parameters.", "anchors": ["gpcm/model.py: AbstractGPCM.predict", "gpcm/approx.py: MeanField.predict, Structured.predict, _predict_moments, _construct_terms, q_z_optimal", "gpcm/gpcm.py: compute_i_hx, compute_I_ux, compute_I_hz, compute_I_uz", "gpcm/rgpcm.py: compute_i_hx, compute_I_ux, compute_I_hz, compute_I_uz"]}
{"id": "C109", "title": "The RGPCM meets the assumptions of its approximation", "statement": "At the times that its interval covers, all integrals of the RGPCM are computed without error, and what they give to the approximation satisfies its assumptions: the kernel matrices are positive definite and the residual second moments positive semi-definite. So the bounds, updates and predictions that rest on these assumptions hold for the RGPCM. Models constructed with default inducing points, interval and features qualify, and their data lie in the interval.", "quantifier": "every model with positive parameters, distinct inducing points and features, and alpha - gamma different from lam", "why_tests_cant": "Positive semi-definiteness of matrices of integrals for all parameters and times.", "anchors": ["gpcm/approx.py: Approximation.construct_terms", "gpcm/rgpcm.py: compute_K_u, compute_K_z, compute_i_hx, compute_I_ux, compute_I_hz, compute_I_uz, RGPCM.__init__"]}
{"id": "C110", "title": "Predicted kernels are valid and average to the expected kernel", "statement": "Every kernel that predict_kernel samples is a valid covariance function: even in the lag, and positive definite at all distinct times. The samples average to the expected covariance of the signal given the approximate posterior of the filter's inducing variables; before conditioning, to the prior covariance of the signal.", "quantifier": "every GPCM, CGPCM and RGPCM, mean-field posterior or list of stored samples, list of lags and random numbers", "why_tests_cant": "Positive definiteness at all finite sets of times and an average over all random numbers.", "anchors": ["gpcm/model.py: AbstractGPCM.sample_kernel, AbstractGPCM.kernel_approx", "gpcm/approx.py: Approximation._sample_kernel, MeanField.sample_kernel, Structured.sample_kernel"]}
{"id": "C111", "title": "The kernel prediction is normalised", "statement": "As documented, predict_kernel and sample_kernel normalise the prediction: the mean of the sampled kernels at lag zero is one.", "quantifier": "every model and random numbers", "why_tests_cant": "All parameters and random numbers; a normalised prior hides the difference on average.", "anchors": ["gpcm/model.py: AbstractGPCM.predict_kernel, AbstractGPCM.sample_kernel"]}
{"id": "C112", "title": "As many kernels are sampled as requested", "statement": "sample_kernel with num_samples = n returns n kernels for n > 0.", "quantifier": "every model, scheme, state of conditioning and number of samples", "why_tests_cant": "Depends on how many samples an earlier conditioning stored.", "anchors": ["gpcm/approx.py: _columns, MeanField.sample_kernel, Structured.sample_kernel, Structured._sample_p_u"]}
{"id": "C113", "title": "Summaries of samples have the samples' mean and variance", "statement": "The mean and variance of a prediction that summarises samples are the mean and variance of these samples at each input, in decibels for predictions in decibels.", "quantifier": "all lists of samples", "why_tests_cant": "All real samples; the decibel case is only ever plotted.", "anchors": ["gpcm/util.py: summarise_samples", "gpcm/model.py: AbstractGPCM.predict_psd, AbstractGPCM.predict_kernel"]}
{"id": "C114", "title": "The spectral density can be predicted with default inputs", "statement": "predict_psd without inputs succeeds whenever at least one sample is requested, and gives the densities at 2999 equally spaced frequencies from zero, one density per sampled kernel. Inputs that do not start at zero raise ValueError.", "quantifier": "every model with positive extent, posterior and random numbers", "why_tests_cant": "All kernels that could be sampled.", "anchors": ["gpcm/model.py: AbstractGPCM.predict_psd", "gpcm/util.py: estimate_psd, summarise_samples"]}
{"id": "C115", "title": "Coordinate ascent converges", "statement": "Fitting a mean-field approximation by coordinate ascent always reaches its tolerance: from some number of iterations on, a larger limit on the iterations changes nothing, because the fit stopped by itself. The change per iteration goes to zero, the ELBO converges to a limit that is at most the log-evidence, the posteriors have limit points, and every limit point is a pair of proper posteriors that a further iteration leaves unchanged.", "quantifier": "every valid model, data set and proper starting posterior", "why_tests_cant": "Statement about infinitely many iterations.", "anchors": ["gpcm/approx.py: _fit_mean_field_ca, Approximation.q_u_optimal_mean_field, Approximation.q_z_optimal_mean_field, MeanField.elbo"]}
{"id": "C116", "title": "The Gibbs sampler converges", "statement": "From every starting point, the distribution of the state of the Gibbs sampler after k sweeps converges to the structured posterior as k grows: the probability of every event, and the expectation of every bounded function, converge to those under the structured posterior. Hence averages over the samples are asymptotically unbiased.", "quantifier": "every valid model, data set, starting point and bounded function", "why_tests_cant": "Statement about infinitely many sweeps and all random numbers.", "anchors": ["gpcm/approx.py: Structured.gibbs_sample, Approximation.q_u_optimal, Approximation.q_z_optimal"]}
{"id": "C117", "title": "Predictions for the crude oil data are in the units of the data", "statement": "After undoing the normalisation, the saved predictions of the function, the kernel and the spectral density are those of the original data: covariances and densities of the data are the square of the scale times those of the normalised data, which in decibels adds 20 log10(scale).", "quantifier": "every data set with positive scale, and all samples", "why_tests_cant": "All scales; the script has no tests, and with a scale close to one the difference is invisible.", "anchors": ["experiments/paper/crude_oil.py: args.predict", "gpcm/util.py: summarise_samples, estimate_psd"]}
{"id": "C118", "title": "The VIX forecasts do not use the future", "statement": "Each of the hundred test sets conditions on four weeks of data and predicts the following week, both with times since the first observation conditioned on. Everything conditioned on precedes everything predicted. Over all test sets, every observation of the hundred weeks is predicted exactly once and in order. The training data precede all test data. The script fails only if some four weeks have no data.", "quantifier": "every table of time stamps and prices, in order of time where order matters", "why_tests_cant": "All tables; leakage would make the results look better, not break anything.", "anchors": ["experiments/paper/vix_forecast.py: get_data, tests"]}
{"id": "C119", "title": "Dashed lines are two standard deviations of an observation", "statement": "The dashed lines around the predictions that analyse_plots draws, described as model and noise error, are two standard deviations of an observation away from the mean.", "quantifier": "every valid model, posterior and time", "why_tests_cant": "Only visible as slightly too wide lines in a plot.", "anchors": ["experiments/experiment.py: analyse_plots", "gpcm/approx.py: MeanField.predict, Structured.predict"]}
{"id": "C120", "title": "The check for equal spacing does not depend on the origin of time", "statement": "analyse_plots adds empirical estimates to the plots if the times are roughly equally spaced; whether they count as such does not depend on the unit and the origin of time. Equally spaced times count as equally spaced.", "quantifier": "all lists of times, units and origins", "why_tests_cant": "All real times.", "anchors": ["experiments/experiment.py: analyse_plots"]}
{"id": "C121", "title": "The spectrum of the excitation is the Fourier transform of its covariance", "statement": "psd_matern_12 is the Fourier transform of the Matern-1/2 kernel, and the spectrum of the excitation that vix_analyse plots is the Fourier transform of the prior covariance of the RGPCM. The two plotted components multiply to the predicted density.", "quantifier": "all positive rates, scales and all frequencies", "why_tests_cant": "An integral over all lags at all frequencies.", "anchors": ["gpcm/rgpcm.py: psd_matern_12, compute_i_hx", "experiments/paper/vix_analyse.py: spec_x"]}
{"id": "C122", "title": "Comparing models does not depend on the order", "statement": "The comparison of two models reports the mean difference, its standard error and a p-value. Exchanging the models changes the sign of the mean difference only. The p-value is the tail probability of a normal distribution, at most one half, and the smaller the more standard errors the difference is away from zero.", "quantifier": "all lists of metrics", "why_tests_cant": "All real metrics.", "anchors": ["experiments/paper/vix_forecast_process.py: compare"]}
{"id": "C123", "title": "Conditioning on data in stages accounts for all data", "statement": "A model with fixed hyper-parameters that is fitted to and conditioned on a first data set, and then fitted to and conditioned on a second one, predicts with regard to both data sets, as condition promises to make the current approximation the prior for further observations.", "quantifier": "every model, pair of data sets, number of iterations and random numbers", "why_tests_cant": "Depends on the result of an iterative fit, for all data and all random numbers; the signatures and shapes are right either way.", "anchors": ["gpcm/approx.py: Approximation.condition, _q_optimal, fit, Structured.predict, MeanField.predict", "gpcm/model.py: AbstractGPCM.__condition__"]}
{"id": "C124", "title": "A conditioned model can predict", "statement": "predict of a conditioned model returns one mean and one variance per input, with variances at least the noise, regardless of what was done with the model before: any sequence of fits, evaluations of the bound and conditionings.", "quantifier": "every sequence of operations of any length, every data set, number of iterations and input", "why_tests_cant": "Sequences of operations are unbounded.", "anchors": ["gpcm/approx.py: Structured.predict, _sample_p_u, p_u_samples, fit, MeanField.predict", "gpcm/model.py: AbstractGPCM.predict", "README.md: Basic usage"]}
{"id": "C125", "title": "Predicted Fourier features are Fourier coefficients", "statement": "For the RGPCM with the structured scheme, predict_fourier returns the mean and the variance over the samples of the Fourier coefficients, on the interval [a, b], of the noise given its inducing variables; the means are the Fourier coefficients of the predicted noise.", "quantifier": "every RGPCM with distinct frequencies, every number of samples and all samples", "why_tests_cant": "Integrals over an interval, for all samples and frequencies.", "anchors": ["gpcm/model.py: AbstractGPCM.predict_fourier", "gpcm/approx.py: Structured.predict_z", "gpcm/rgpcm.py: compute_K_z, psd_matern_05"]}
{"id": "C126", "title": "The panels of Fourier features show every feature once", "statement": "The two panels of analyse_plots show every predicted Fourier feature exactly once, at its frequency in cycles per unit of time, with a bar of 1.96 standard deviations: the cosines in one and the sines in the other.", "quantifier": "every RGPCM, every prediction", "why_tests_cant": "Any number of frequencies.", "anchors": ["experiments/experiment.py: analyse_plots"]}
{"id": "C127", "title": "The true spectral density is comparable to the predicted one", "statement": "When a true kernel is given, analyse_plots plots its spectral density at frequencies in the unit of the predicted ones, over their range.", "quantifier": "every extent, every true kernel", "why_tests_cant": "Depends on units, which no shape or value check sees.", "anchors": ["experiments/experiment.py: analyse_plots", "gpcm/util.py: estimate_psd", "gpcm/model.py: AbstractGPCM.predict_psd"]}
{"id": "C128", "title": "Tracked times do not count pauses", "statement": "In the comparison of inference schemes, the time recorded with a value of the bound is the time since the start without the pauses for evaluating the bound. The times of a curve start at zero and never decrease.", "quantifier": "every sequence of pauses and recordings", "why_tests_cant": "Sequences of events are unbounded.", "anchors": ["experiments/paper/compare_inference.py: Tracker"]}
{"id": "C129", "title": "Recording the bound does not change the comparison", "statement": "Evaluating the bound in a callback leaves the result of coordinate ascent unchanged, and the callback is given every iterate in order. The recorded curve of coordinate ascent never decreases, and those of the gradient methods show the best value so far.", "quantifier": "every model, data set, number of iterations and list of values", "why_tests_cant": "All data and all numbers of iterations.", "anchors": ["experiments/paper/compare_inference.py: Tracker, callback", "gpcm/approx.py: fit"]}
{"id": "C130", "title": "The time axis of the comparison shows all curves", "statement": "The limit of the time axis of the comparison of inference schemes is a multiple of five seconds, and no curve is cut off.", "quantifier": "all lists of times", "why_tests_cant": "All measured times.", "anchors": ["experiments/paper/compare_inference.py: x_max"]}
{"id": "C131", "title": "The kernels of the toy experiments are stationary kernels", "statement": "The kernel of the spectral mixture experiments, a sum of products of functions with exponentiated quadratic kernels, is the cosine of the lag times the exponentiated quadratic: it depends on the lag only and gives positive definite matrices. The kernel that predictions are compared with is that function of the lag, one at zero.", "quantifier": "all sets of distinct times", "why_tests_cant": "All sets of times.", "anchors": ["experiments/smk.py: kernel", "experiments/paper/smk.py: kernel, k"]}
{"id": "C132", "title": "Interpolated filters, kernels and functions belong together", "statement": "The figure of interpolated samples starts from the first sample of the inducing variables that is nearly zero at time zero and the first that is at least one half there. For every weight the kernel, the function and the filter are those of the interpolated inducing variables: the kernel is a correlation function, the function has it as its covariance, and the filter is the mean of the filter given these inducing variables.", "quantifier": "every CGPCM with distinct inducing points, all samples and weights", "why_tests_cant": "Random samples; loops without bound.", "anchors": ["experiments/paper/sample_interpolation.py: sample"]}
{"id": "C133", "title": "The toy experiments show the truth where the data were removed", "statement": "The toy experiments remove exactly the observations in [-8.8, 8.8] and plot the truth over that region, at distinct inputs.", "quantifier": "all observations and all points of the region", "why_tests_cant": "All points of a continuous region.", "anchors": ["experiments/eq.py: t_plot, inds", "experiments/smk.py: t_plot, inds"]}
{"id": "C134", "title": "The order of the observations does not matter", "statement": "If the observations of a fit, of a conditioning or of an evaluation of the bound are given in another order, then the bounds, the fitted distributions, the samples and all predictions are exactly the same. Predictions are made for every input by itself: the prediction at an input does not depend on which other inputs are asked for, nor on their order.", "quantifier": "all permutations of all data sets, all histories of a model, all lists of inputs", "why_tests_cant": "All permutations of all data sets.", "anchors": ["gpcm/approx.py: _construct_terms, Structured.fit, Structured.predict, MeanField.fit, MeanField.predict, elbo", "gpcm/model.py: condition, fit, elbo, predict"]}
{"id": "C135", "title": "The sign of the observations does not matter", "statement": "With all observations negated, the bounds stay the same, and predictions have the opposite mean and the same variance, for the structured scheme and for coordinate ascent. The random numbers of the noise are negated too, which does not change their distribution; so do the initial distributions of the noise.", "quantifier": "all data sets, all histories of a model, all random numbers and all inputs", "why_tests_cant": "All data sets and random numbers.", "anchors": ["gpcm/approx.py: _construct_terms, Structured.fit, Structured.predict, MeanField.fit, MeanField.predict, elbo", "gpcm/model.py: condition, fit, elbo, predict"]}
{"id": "C136", "title": "The origin of time does not matter", "statement": "Adding a constant to every time (the observations' times, the inducing inputs of the noise, the interval of the frequencies and the times of prediction) changes nothing else. Constructing a model from the shifted arguments raises the same error or gives the same model with the shifted inputs, and the bounds, the fits and the predictions are the same numbers.", "quantifier": "for every shift, every constructor call of the GPCM, CGPCM and RGPCM (including those that raise), every model with parameters of moderate size, every data set, every sequence of fits, conditionings and bounds, every seed and every list of times of prediction", "why_tests_cant": "A test compares one shift on one data set, and would have to rerun a whole fit with a fixed seed; that no step compares a time with an absolute origin is a statement about all shifts and all steps.", "anchors": ["gpcm/gpcm.py: GPCM.__init__", "gpcm/rgpcm.py: RGPCM.__init__", "gpcm/approx.py: Structured.predict", "gpcm/approx.py: MeanField.predict", "gpcm/gpcm.py: compute_I_hz"]}
{"id": "C137", "title": "The unit of time does not matter", "statement": "Expressing all times in another unit, and the decay rates, lengthscales, window and amplitudes accordingly, changes nothing else. Constructing a model from the converted arguments gives the converted model, automatic choices included. Predictions of the structured scheme, the bounds of both schemes, and the predictions of the mean-field scheme after equally many iterations of coordinate ascent are the same numbers. For the GPCM and CGPCM the inducing variables of the filter have another scale; for the RGPCM nothing else changes. Coordinate ascent stops at an absolute tolerance, so how many iterations it does can depend on the unit for the GPCM.", "quantifier": "for every positive factor, every constructor call (including those that raise), every model whose parameters are of moderate size in both units, every data set, every sequence of fits and conditionings, every seed and every list of times of prediction", "why_tests_cant": "A wrong power of the unit in one of the closed-form integrals is invisible to tests that fix one unit, because expected values are computed with the same formulas; dimensional consistency is a statement about all factors.", "anchors": ["gpcm/gpcm.py: GPCM.__init__", "gpcm/gpcm.py: scale_to_factor", "gpcm/gpcm.py: compute_I_uz", "gpcm/rgpcm.py: RGPCM.__init__", "gpcm/rgpcm.py: compute_I_ux", "gpcm/rgpcm.py: compute_K_z", "gpcm/approx.py: Structured.predict"]}
{"id": "C138", "title": "The unit of the observations does not matter", "statement": "Expressing the observations in another unit, with the amplitude of the filter and the standard deviation of the noise converted, gives the same posterior. Predicted means are multiplied by the unit and predicted variances by its square, after any fits and conditionings. The bounds change by exactly the logarithm of the unit for every observation, so comparisons between models are not affected. For the GPCM and CGPCM, whose inducing variables are values of the filter, coordinate ascent is compared after equally many iterations.", "quantifier": "for every non-zero factor, every model with parameters of moderate size and non-zero noise, every data set, every sequence of fits and conditionings, every seed and every list of times of prediction", "why_tests_cant": "A wrong power of the noise or of the amplitude cancels in tests with unit scale; the claim is about all scales and about every step from the observations to the predictions.", "anchors": ["gpcm/approx.py: Approximation.construct_terms", "gpcm/approx.py: Structured.predict", "gpcm/approx.py: MeanField.elbo", "gpcm/approx.py: Structured.elbo_collapsed_z", "gpcm/gpcm.py: GPCM.__init__", "gpcm/rgpcm.py: RGPCM.__init__"]}
{"id": "C139", "title": "Far from the data predictions return to the prior", "statement": "At times far from all inducing points, before or after, the predicted mean goes to zero and the predicted variance goes to the mean of the sampled kernels at lag zero plus the variance of the noise: the model says that it does not know, and says by how much. This should hold for the GPCM, the CGPCM and the RGPCM, for every posterior the user may have, with either inference scheme.", "quantifier": "for every model with parameters of moderate size, every posterior with a positive definite precision, every non-empty set of samples, and in the limit of times going to plus or minus infinity", "why_tests_cant": "A limit at infinity is not the outcome of any number of predictions at finite times, and a prediction that repeats with a long period looks fine on the times a test uses.", "anchors": ["gpcm/approx.py: MeanField.predict", "gpcm/approx.py: Structured.predict", "gpcm/gpcm.py: compute_I_uz", "gpcm/gpcm.py: compute_I_hz", "gpcm/rgpcm.py: compute_I_uz", "gpcm/rgpcm.py: RGPCM.__init__"]}
{"id": "C140", "title": "Sampled kernels vanish at long lags", "statement": "Whatever the values of the filter at the inducing points, the corresponding kernel goes to zero as the lag goes to plus or minus infinity, for all three models. For the RGPCM, beyond the largest distance between inducing points the kernel decays exactly exponentially at the decay rate of the noise, whatever was learned.", "quantifier": "for every model (GPCM and CGPCM: of moderate parameters; RGPCM: outside its singular parameter values), every vector of values of the filter, all lags", "why_tests_cant": "Limits and exact decay laws quantify over infinitely many lags and all filters; tests evaluate kernels on a short grid of lags.", "anchors": ["gpcm/gpcm.py: GPCM.kernel_approx", "gpcm/gpcm.py: compute_i_hx", "gpcm/gpcm.py: compute_I_ux", "gpcm/rgpcm.py: RGPCM.kernel_approx", "gpcm/rgpcm.py: compute_I_ux"]}
{"id": "C141", "title": "Which factor of a matrix the linear algebra library returns does not matter", "statement": "The code inverts covariances and precisions through factors L with L L^T equal to the matrix, of which there are many. The bounds, the fits by coordinate ascent and all predictions are the same whichever the library returns. A sample is the one that any other factor gives from rotated random numbers, so that its distribution is the same.", "quantifier": "every two choices of factors, every valid model, every data set and all positive definite initial distributions", "why_tests_cant": "A test runs with one library and one convention for the factor.", "anchors": ["gpcm/approx.py: Structured, MeanField", "gpcm/normal.py: NaturalNormal"]}
{"id": "C142", "title": "The order of the inducing inputs does not matter", "statement": "Listing the inducing inputs of the filter or of the excitation (for the RGPCM the indices of the frequencies) in another order changes nothing: if the initial distributions and the random numbers are listed in the new order, then the fitted distributions are those with the components in the new order, and the bounds, the kernels and the predictions are the same numbers.", "quantifier": "every permutation of the inducing inputs, every model with parameters of moderate size, every data set, every sequence of fits and conditionings, all random numbers and all times of prediction", "why_tests_cant": "All permutations; an index that is used for the wrong axis shows only if the order is not the usual one.", "anchors": ["gpcm/gpcm.py: GPCM.__init__, compute_K_u, compute_K_z, compute_I_ux, compute_I_hz, compute_I_uz", "gpcm/rgpcm.py: compute_K_z, compute_I_hz, compute_I_uz", "gpcm/approx.py: Structured, MeanField"]}
{"id": "C143", "title": "The sign of the filter is not determined", "statement": "Changing the sign of the filter and of the excitation together changes neither the bounds, nor the marginal likelihood given the filter, nor the kernel, nor any prediction. Fits from distributions with the opposite sign give the fit with the opposite sign. If only one of them changes sign, then the predicted means change sign and the variances do not. Coordinate ascent that starts from zero means never leaves them and predicts zero everywhere, whatever the data.", "quantifier": "every model, every data set, every number of iterations, every sequence of operations, all random numbers and all times", "why_tests_cant": "A symmetry of all models, data sets and random numbers; a test would have to know which of the two signs a run finds.", "anchors": ["gpcm/approx.py: Structured, MeanField, fit, predict, elbo", "gpcm/gpcm.py: GPCM.kernel_approx"]}
{"id": "C144", "title": "The GPCM has no arrow of time", "statement": "If the arguments of the acausal GPCM are reflected in time, then its constructor raises the same exception or returns the reflected model, automatic inducing inputs included, as long as there is more than one inducing input of each kind. The reflected model fitted to the reflected data predicts at the reflected times what the model predicts at the times.", "quantifier": "every constructor call of the GPCM (including those that raise), every model with parameters of moderate size, every data set and all times of prediction", "why_tests_cant": "A symmetry of all data sets; asymmetries in the placement of inducing inputs or in a limit of integration show only for particular data.", "anchors": ["gpcm/gpcm.py: GPCM.__init__, compute_I_hz, compute_I_uz, compute_I_ux", "gpcm/approx.py: MeanField.predict, MeanField.fit"]}
{"id": "C145", "title": "Saving and loading does not change what a model predicts", "statement": "A model that has been fitted and conditioned, saved to a file and loaded into a newly constructed model predicts what it predicted before it was saved.", "quantifier": "every history of fits, evaluations of the bound and conditionings, every data set, all random numbers and all times of prediction, for the structured scheme and coordinate ascent", "why_tests_cant": "Histories are arbitrary sequences of operations, and the part of the state that is not written to the file only shows after a particular kind of history.", "anchors": ["gpcm/model.py: AbstractGPCM.save, AbstractGPCM.load", "gpcm/approx.py: Approximation.condition, p_u, p_z", "gpcm/approx.py: Structured.predict, MeanField.predict"]}
{"id": "C146", "title": "A model without observations predicts its prior", "statement": "A model that has not been conditioned, or has been fitted to and conditioned on an empty data set, predicts a zero mean and, as variance, the power of the prior plus the noise: with the default scale of the filter, one plus the noise. The structured scheme conditioned on an empty data set predicts a zero mean and, as variance, the average over the samples of the power of the signal given the filter, plus the noise.", "quantifier": "all valid models, all times of prediction, all initial values, every number of iterations and all samples of the filter", "why_tests_cant": "The cancellation of the approximate and exact terms has to hold for every configuration of inducing inputs and every time.", "anchors": ["gpcm/approx.py: MeanField.predict, Structured.predict, Approximation.condition", "gpcm/model.py: AbstractGPCM.predict"]}
{"id": "C147", "title": "No bound exceeds the density of a perfect fit", "statement": "No bound, whatever the scheme, the collapsing and the samples, exceeds -n/2 log(2 pi noise) for n observations: the log-density of observations that the signal explains without error.", "quantifier": "all valid models, all data sets, all approximate posteriors and all samples", "why_tests_cant": "A bound over all posteriors and data sets cannot be sampled; a wrong sign of a trace term only shows for particular posteriors.", "anchors": ["gpcm/approx.py: MeanField.elbo, Structured.elbo"]}
{"id": "C148", "title": "More observations never make the excitation or the filter less certain", "statement": "Adding observations never increases the variance of the excitation given the filter, nor that of the filter given the excitation, in any direction; the same holds for every update of coordinate ascent. The predicted variance of the signal, however, can increase.", "quantifier": "all valid models, all pairs of data sets of which one is contained in the other, all values of the filter, of the excitation and of the approximate posteriors", "why_tests_cant": "An order between matrices for every data set and every further observation.", "anchors": ["gpcm/approx.py: Structured.q_z_optimal, Structured.q_u_optimal, _q_z_optimal_mean_field, _q_u_optimal_mean_field", "gpcm/model.py: AbstractGPCM.fit, predict"]}
{"id": "C149", "title": "Repeated measurements act like their averages with less noise", "statement": "Fitting to a data set in which every time has been measured n times is the same as fitting to the averages of the measurements with the noise divided by n, for coordinate ascent and for Gibbs sampling; and so are the predictions of the signal.", "quantifier": "all models, all data sets with any common number of measurements per time, every number of iterations and all random numbers", "why_tests_cant": "An identity between states of two models for all data and for iterated algorithms.", "anchors": ["gpcm/approx.py: Approximation.construct_terms, MeanField.fit, Structured.fit, predict"]}
{"id": "C150", "title": "Given the filter, predictions are linear in the observations", "statement": "For the samples of the filter that a fit has stored, the predicted means are linear in the values of the observations that the model is conditioned on; and the covariance of the excitation given the filter depends on the times of the observations only.", "quantifier": "all valid models, all pairs of data sets at common times, all coefficients, all samples of the filter and all times of prediction", "why_tests_cant": "Superposition over all data sets and coefficients is a universal identity.", "anchors": ["gpcm/approx.py: Structured.predict, Structured.q_z_optimal, Approximation.condition"]}
{"id": "C151", "title": "Predictions and sampled kernels are continuous in time", "statement": "For all three models, predicted means and variances are continuous functions of time, and every sampled kernel is a continuous function of the lag.", "quantifier": "all valid parameters and inducing inputs, all posteriors and samples of the filter, every time and lag, also where branches of the formulas meet", "why_tests_cant": "Continuity at every point, in particular where piecewise formulas meet and where a causal filter starts, is a statement about infinitely many points.", "anchors": ["gpcm/gpcm.py: GPCM.compute_i_hz, compute_i_uz, compute_i_hx, compute_i_ux", "gpcm/rgpcm.py: RGPCM.compute_i_hz, compute_i_uz, compute_i_ux, _integral_abcd", "gpcm/approx.py: Structured.predict, MeanField.predict", "gpcm/model.py: AbstractGPCM.kernel_approx"]}
{"id": "C152", "title": "More inducing variables never make the best bound worse", "statement": "For every approximate posterior of a model there is one of the same model with more inducing points (of the filter, of the excitation or of both; for the RGPCM also more features in the same interval) with the same bound for every data set and the same predictions at all times. So the best bound never decreases when inducing points are added. For the structured scheme, the bound for given samples of the filter never decreases when inducing points of the excitation are added.", "quantifier": "all valid models, all supersets of the inducing points and features, all positive definite posteriors, all data sets, every value of the collapsed argument and all samples of the filter", "why_tests_cant": "A statement about the supremum of the bound over all posteriors and about all pairs of nested models.", "anchors": ["gpcm/approx.py: MeanField.elbo, MeanField.predict, Structured.elbo", "gpcm/gpcm.py: GPCM.__prior__, compute_K_u, compute_K_z, compute_i_hz, compute_i_uz", "gpcm/rgpcm.py: RGPCM.compute_K_u, compute_K_z, compute_I_hz, compute_I_uz"]}
{"id": "C153", "title": "Fitted values shrink the observations", "statement": "The means predicted at the times of the observations are, as a vector, no larger than the observations, explain part of them (the residual is no larger than the observations, and their inner product with the observations is at least their squared norm); for the structured scheme with any samples of the filter, and for the mean-field scheme after any positive number of iterations of coordinate ascent. Given the samples of the filter, two sets of observations at the same times give fitted values that differ no more than the observations.", "quantifier": "all valid models, all data sets (also with repeated times), all samples of the filter, all initial values and every positive number of iterations", "why_tests_cant": "A norm inequality for every data set and every posterior; tests with particular data would also pass for predictions that overshoot elsewhere.", "anchors": ["gpcm/approx.py: MeanField.fit, MeanField.predict, Structured.predict, Approximation.condition", "gpcm/model.py: AbstractGPCM.fit, condition, predict"]}
{"id": "C154", "title": "With ever more noise, predictions return to the prior", "statement": "As the variance of the noise grows, whatever the observations, the mean predicted after fitting and conditioning tends to zero and the predicted variance of the signal (the predicted variance minus the noise) tends to the power of the prior; for the structured scheme, to the average over the samples of the power given the filter.", "quantifier": "all valid models, all data sets, all initial values, every positive number of iterations of coordinate ascent (also when the loop stops early), all samples of the filter and all times", "why_tests_cant": "A limit, and one in which the number of iterations that are run may change with the noise.", "anchors": ["gpcm/approx.py: MeanField.fit, MeanField.predict, Structured.predict, Approximation.condition"]}
{"id": "C155", "title": "A prediction does not depend on the other times asked for", "statement": "In any state, predictions are a function of time that is evaluated at each of the times asked for: asking for more times, fewer times, repeated times or times in another order does not change the prediction at a time. Whether predict raises does not depend on the times either.", "quantifier": "all models, all states of the model after any fits and conditionings, all lists of times (also the empty one) and all random numbers", "why_tests_cant": "A statement about all pairs of lists of times.", "anchors": ["gpcm/approx.py: MeanField.predict, Structured.predict, Approximation.construct_terms", "gpcm/model.py: AbstractGPCM.predict"]}
{"id": "C156", "title": "An experiment can be repeated from its files", "statement": "After an experiment has run, running it again with --load, for all or some of its models and with any other training options and initial values, trains nothing, writes nothing and analyses every model exactly as before, in the same order: in particular it makes the same predictions. If a model was not trained in this directory, --load raises and writes nothing. An unknown model raises before anything is trained or written. Files of models that the experiment is not run for are never changed, also if training raises.", "quantifier": "all non-empty and empty lists of models, all contents of the working directory, all training options, every analysis that is restored by saving and loading; predictions with the schemes structured and mean-field-ca, for all models, data, times and random numbers", "why_tests_cant": "About two runs of a script with files in between, for all combinations of models and all earlier contents of the directory.", "anchors": ["experiments/experiment.py: run, train_models, build_models", "gpcm/model.py: AbstractGPCM.save, AbstractGPCM.load, AbstractGPCM.condition"]}
{"id": "C157", "title": "The reported standard errors are standard errors", "statement": "The 'std' that is printed next to the mean of a metric over years or weeks estimates the standard deviation of that mean without bias in its square: for independent values with equal means and variances its expected square is the variance of the reported mean. The printed difference between two models is the mean of the differences that the significance test looks at, and the two scripts that test the significance of a difference use the same number of standard errors.", "quantifier": "all distributions of the values with finite variance, all numbers of values, all pairs of lists of values", "why_tests_cant": "An expectation over all possible results, not over the results of one run.", "anchors": ["experiments/paper/crude_oil_aggregate.py", "experiments/paper/vix_forecast_process.py: compute_metrics, compare"]}
{"id": "C158", "title": "Sampled functions in the figure can be compared", "statement": "Every kernel in the figure of samples starts at one and stays between minus one and one. The function next to it has the correlation matrix of which the kernel is the first row, and all functions of all three models start at the same value, the first random number, so that they can be compared. Sampling never fails.", "quantifier": "all parameters and inducing inputs of the GPCM, the CGPCM and the RGPCM for which their integrals are defined, all non-empty lists of distinct times, all random numbers", "why_tests_cant": "A statement about every sampled kernel matrix; a plot shows five.", "anchors": ["experiments/paper/sample.py: sample", "gpcm/model.py: AbstractGPCM.kernel_approx", "gpcm/util.py: closest_psd"]}
{"id": "C159", "title": "Scripts model and compare the data they say", "statement": "The Mauna Loa experiment models the last two hundred observations, or all if there are fewer, with times that start at zero, and, unless they are all equal, with mean zero and variance one. The kernel comparison uses the same points of the prediction and of the truth for both metrics: those in the range that is asked for, and all of them by default. An unknown metric raises an exception.", "quantifier": "all data sets, all predictions and true kernels, all ranges and all names of metrics", "why_tests_cant": "The claim is about the alignment of all entries for all lengths and all data.", "anchors": ["experiments/mauna_loa.py", "experiments/paper/comparison.py", "experiments/paper/comparison_process.py: kernel_analysis"]}
{"id": "C160", "title": "Samples of long fits are independent draws from the posterior", "statement": "As the number of iterations of a structured fit with fixed hyper-parameters grows, the thousand samples that it stores become independent draws from the posterior over both sets of inducing variables: for every choice of bounded functions of the samples, the expectation of the product converges to the product of the expectations under the posterior, and joint probabilities of events converge to products.", "quantifier": "all valid models, all data sets, all starting points of the fit, all measurable bounded functions and all measurable events", "why_tests_cant": "A limit over fits of unbounded length of expectations over the random numbers.", "anchors": ["gpcm/approx.py: fit, Structured.q_u_samples, Structured.q_z_samples", "gpcm/model.py: GPCMModel.fit"]}
{"id": "C161", "title": "Averages over the samples of the sampler are consistent", "statement": "The average of a bounded function, and in mean square also of every function of polynomial growth, over the first n samples of the Gibbs sampler converges to its expectation under the structured posterior as n grows: the mean squared error vanishes, and so does the probability of any given error, from every starting point.", "quantifier": "all valid models, all data sets, all starting points, all measurable functions that are bounded or of polynomial growth, all positive errors", "why_tests_cant": "A limit of expectations over the random numbers; one run cannot show it.", "anchors": ["gpcm/approx.py: fit, gibbs_sample"]}
{"id": "C162", "title": "A Monte Carlo error remains however long the fit", "statement": "A structured model predicts with the thousand samples that a fit stores, however long the fit. As fits get longer, the mean squared error of the predicted mean at any time, relative to its expectation under the structured posterior, converges to a thousandth of the posterior variance of what is predicted given the filter; it therefore does not vanish, unless zero is predicted whatever the filter. The same limit holds for the average over the samples of every quantity of polynomial growth.", "quantifier": "all valid models, all data sets, all starting points of the fit, all times, all measurable functions of polynomial growth", "why_tests_cant": "The exact limit over fits of unbounded length of an expectation over the random numbers.", "anchors": ["gpcm/approx.py: fit, Structured.predict, Structured.p_u", "gpcm/model.py: GPCMModel.fit, GPCMModel.predict"]}
{"id": "C163", "title": "Structured training follows the gradient of the evidence", "statement": "The derivative with respect to a hyper-parameter that a structured model hands to the optimiser depends on the random numbers only through the last sample of the filter. Its expectation under the structured posterior exists and is the derivative of the logarithm of the evidence, although the samples are treated as constants and the value of the objective is not the evidence. The average of these derivatives over the sweeps of the sampler, at fixed hyper-parameters, converges in mean square to the derivative of the logarithm of the evidence.", "quantifier": "all models that are valid near the current hyper-parameter and depend on it in a continuously differentiable way, all data sets, all numbers of sweeps, all starting points", "why_tests_cant": "An identity between an integral over all samples and the derivative of another integral; single gradients are random and differ from it.", "anchors": ["gpcm/approx.py: Structured.elbo_gibbs, Structured.log_Z_u, fit"]}
{"id": "C164", "title": "A best mean-field approximation exists", "statement": "For every data set there is a pair of approximate posteriors whose bound no other pair exceeds. The uncollapsed bound and both collapsed bounds agree there, and none of them is larger anywhere else, so all mean-field schemes search for the same value, which is at most the logarithm of the evidence. Coordinate ascent that starts there stays there. It need not get there: from zero means, and with an observation far enough from zero, it stays below the bound of other approximations however long it runs.", "quantifier": "all valid models, all data sets, all proper posteriors, all numbers of iterations", "why_tests_cant": "A supremum over all normal distributions that has to be attained, and a comparison with all of them.", "anchors": ["gpcm/approx.py: MeanField.elbo, _fit_mean_field_ca"]}
{"id": "C165", "title": "Fitting again continues the earlier fit", "statement": "Calling fit a second time with the same data continues where the first call ended: the result is that of one call with all the iterations, and what was learned by the first call is not lost.", "quantifier": "all models, all data sets, all random numbers, all numbers of iterations of both calls", "why_tests_cant": "A test compares two particular runs; that a second call restarts the random numbers and the chain shows only in a comparison with a longer run.", "anchors": ["gpcm/approx.py: fit, _fit_mean_field_ca, Structured.q_u_samples, Structured.q_z_samples"]}
{"id": "C166", "title": "Long runs of elliptical slice sampling sample the target", "statement": "Sampling with elliptical slice sampling returns with probability one, the distribution of the last of many samples approaches prior times likelihood (normalised) wherever the sampler started, and averages over the samples are consistent.", "quantifier": "all dimensions, all zero-mean Gaussian priors with a positive density, all measurable log-likelihoods, all starting points of positive likelihood, all bounded functions", "why_tests_cant": "A statistical test of a finite run cannot tell slow convergence from convergence to another distribution, and it checks one target at a time.", "anchors": ["gpcm/sample.py: ESS.sample, ESS._sample, ESS._draw"]}
{"id": "C167", "title": "The autocovariance shown beside a predicted kernel estimates that kernel", "statement": "The plots of the experiments show the autocovariance of the data beside the predicted kernel and the true kernel. At every lag the expected value of that curve is the true kernel, at least for long series.", "quantifier": "all stationary series with equally spaced observations, all lengths, lags, means and amounts of noise", "why_tests_cant": "A test compares one estimate with one kernel within a tolerance; the expected value over all series and its limit are outside what a finite number of runs shows.", "anchors": ["experiments/experiment.py: analyse_plots", "gpcm/util.py: autocorr"]}
{"id": "C168", "title": "The learned noise is what the predictions leave unexplained", "statement": "When the noise is learned, at an optimum of the bound it equals the average over the observations of the squared residual plus the variance of the predicted signal, for every bound that the schemes use. In particular the average squared residual at the observations is at most the learned noise.", "quantifier": "all models, data sets, posteriors, samples; every locally best value of the noise for the bound, the collapsed bounds and the structured bound", "why_tests_cant": "A test runs one optimiser for a while on one data set; a relation that holds at all optima, for posteriors that themselves depend on the noise, needs a proof.", "anchors": ["gpcm/approx.py: MeanField.elbo, MeanField.predict, Structured.elbo_collapsed_z, Structured.log_Z_u, Structured.predict", "gpcm/gpcm.py: GPCM", "gpcm/rgpcm.py: RGPCM"]}
{"id": "C169", "title": "Collapsing the bound does not change what is best", "statement": "The schemes that optimise the bound, the bound collapsed over the posterior of the excitation, and the bound collapsed over the posterior of the filter have the same optima: hyper-parameters and posteriors are best for one if and only if they are for another, with the remaining posterior replaced by its optimal value.", "quantifier": "all models with any hyper-parameters, all data sets, all normal posteriors", "why_tests_cant": "Optimisers on different objectives reach different points in finite time; that the sets of optima coincide is about all points at once.", "anchors": ["gpcm/approx.py: MeanField.elbo, fit"]}
{"id": "C170", "title": "Sampled filters pass through their inducing variables", "statement": "At the inducing inputs, a sampled filter takes the values of the sampled inducing variables, and near an inducing input it stays close to what the inducing variables predict, so that inducing inputs that are dense enough determine the filter.", "quantifier": "all models, posteriors, inducing inputs, prediction times, random numbers and factors of the covariance", "why_tests_cant": "A test looks at a few sampled curves with some tolerance; exact interpolation for all random numbers and a bound for all distances are universal statements.", "anchors": ["gpcm/model.py: AbstractGPCM.predict_filter", "gpcm/gpcm.py: GPCM.k_h, GPCM", "gpcm/rgpcm.py: RGPCM.k_h"]}
{"id": "C171", "title": "The compared schemes bound the same quantity", "statement": "In the comparison of inference schemes, all schemes are compared at the hyper-parameters the script sets: no curve exceeds the logarithm of the evidence of that model, the mean-field curves do not exceed the best mean-field bound of that model, and the structured curve is expected to lie above coordinate ascent.", "quantifier": "every model, data set, number of iterations, and every sequence of points that the minimisers visit", "why_tests_cant": "What the minimisers visit depends on data and random initialisation, and the best bound is not computable by a test.", "anchors": ["experiments/paper/compare_inference.py: objective_raw, objective, callback", "gpcm/approx.py: MeanField.elbo", "gpcm/gpcm.py: GPCM"]}
{"id": "C172", "title": "The spectral density shown for the data is that of the data", "statement": "When the observations are equally spaced, the plots of the experiments show a spectral density of the data beside the predicted one: the Fourier transform of the autocovariance of the data in decibels. It is never negative, so taking its absolute value changes nothing and the decibels are defined.", "quantifier": "all equally spaced observations and all numbers of them", "why_tests_cant": "Whether a transform is negative somewhere depends on all values of the data, and the absolute value hides it.", "anchors": ["experiments/experiment.py: analyse_plots", "gpcm/util.py: autocorr, estimate_psd"]}
{"id": "C173", "title": "The figure of predicted functions shows every model with its noise", "statement": "analyse_plots draws the predictions of every model it is given, and the dashed lines use the observation noise that the model itself predicts with.", "quantifier": "all lists of models the constructors accept, with learned or fixed noise, fresh or loaded, and all observations", "why_tests_cant": "The paper's scripts never fix the noise and build at most three models, so tests through them never meet the exceptions; whether the noise drawn is that of the model depends on the whole history of the variables.", "anchors": ["experiments/experiment.py: analyse_plots", "gpcm/gpcm.py: GPCM.__prior__", "gpcm/rgpcm.py: RGPCM.__prior__", "gpcm/model.py: load"]}
{"id": "C174", "title": "The reported bound is that of the posterior that predicts", "statement": "The bound that elbo reports after fit is that of the posterior which fit found and which predictions use after conditioning, and reporting it does not change what the model predicts.", "quantifier": "all valid models, data sets, numbers of iterations, random numbers, and all schemes without learning of hyper-parameters", "why_tests_cant": "A number is printed either way; that it does not depend on the fit at all can only be seen by quantifying over fits.", "anchors": ["gpcm/approx.py: Structured.elbo, Structured.elbo_collapsed_z, MeanField.elbo, _fit_mean_field_ca", "gpcm/model.py: AbstractGPCM.elbo, AbstractGPCM.predict_filter", "experiments/experiment.py: analyse_elbos, analyse_models"]}
{"id": "C175", "title": "A mean-field fit never makes the bound worse", "statement": "A mean-field fit that finishes leaves the model with a bound that is at least the bound it had before, whatever the scheme, the start and the number of iterations, provided that the minimiser never returns something worse than its start; so does every sequence of fits. After a collapsed scheme the bound is the collapsed bound that the minimiser reached.", "quantifier": "all families of valid models, data sets, starting values, numbers of iterations, schemes and minimisers that never return something worse than their start", "why_tests_cant": "A test compares two numbers for one model; an update that is wrong for some posteriors only lowers the bound there.", "anchors": ["gpcm/approx.py: fit, _fit_mean_field_ca, MeanField.elbo, ignore_qs, q_z_optimal_mean_field"]}
{"id": "C176", "title": "With less noise a model follows the data more closely", "statement": "The less noise a model assumes, the smaller the sum over the observations of squared residual and variance of the predicted signal: for the best mean-field approximations, and in expectation for the posterior from which the structured scheme samples.", "quantifier": "all valid models, data sets and pairs of noise variances", "why_tests_cant": "A test compares two values of the noise for one data set.", "anchors": ["gpcm/approx.py: MeanField.elbo, MeanField.predict, Structured.predict, fit"]}
{"id": "C177", "title": "The scheme \"mean-field-ca\" does not learn hyper-parameters", "statement": "As the README says, under the scheme \"mean-field-ca\" no sequence of fits, conditionings, bounds and predictions changes the value of a hyper-parameter; nor under the structured scheme if every fit is told `optimise_hypers=False`; nor does anything but `fit` under any scheme. The other fits give every hyper-parameter to the optimiser and keep its result.", "quantifier": "all sequences of operations, data, options, states, optimisers", "why_tests_cant": "A test runs some fits with some optimiser.", "anchors": ["README.md", "gpcm/approx.py: MeanField.fit, Structured.fit, ignore_qs", "gpcm/model.py: AbstractGPCM.fit"]}
{"id": "C178", "title": "fit takes the learning rate", "statement": "As the README says, `fit` takes the keyword argument `rate`, whatever the scheme.", "quantifier": "all schemes, states, data, rates", "why_tests_cant": "The README is not tested.", "anchors": ["README.md", "gpcm/approx.py: MeanField.fit, Structured.fit", "gpcm/model.py: AbstractGPCM.fit"]}
{"id": "C179", "title": "Observing data brings the model closer to them", "statement": "When further data are observed, the expected sum over them of squared differences to the signal does not increase, whatever was observed before: under the posterior from which the structured scheme samples, and for the predictions of best mean-field approximations. In particular a trained model leaves at most as much of its data unexplained as an untrained one.", "quantifier": "all valid models, earlier and new data sets", "why_tests_cant": "A test trains on one data set.", "anchors": ["gpcm/approx.py: MeanField.elbo, MeanField.predict, Structured.predict, Structured.fit"]}
{"id": "C180", "title": "Rounding does not make reported variances negative", "statement": "In floating-point arithmetic, the variances that `predict`, `predict_fourier` and the summaries of samples report are not negative.", "quantifier": "all samples and moments, all orders of summation, double precision and every arithmetic with bounded relative errors", "why_tests_cant": "Whether a variance comes out negative depends on cancellation for particular samples.", "anchors": ["gpcm/approx.py: Structured.predict, Structured.predict_z", "gpcm/util.py: summarise_samples", "gpcm/model.py: AbstractGPCM.predict_fourier"]}
{"id": "C181", "title": "As regularisation vanishes, results become those of exact linear algebra", "statement": "The less is added to the diagonals of matrices before they are factorised (`B.epsilon`), the closer fits, bounds and predictions of both approximations come to those computed without regularisation.", "quantifier": "all instances, data, times, samples and states, all ways to regularise by at most a given amount; for fits, unless the exact iterates change by exactly the tolerance", "why_tests_cant": "Tests run with one value of the setting; the limit involves every value and every library.", "anchors": ["gpcm/normal.py: NaturalNormal.mean, NaturalNormal.m2, NaturalNormal.kl", "gpcm/approx.py: MeanField.predict, MeanField.elbo, Structured.predict, Structured.elbo_collapsed_z"]}
{"id": "C182", "title": "Regularisation never makes predicted variances smaller than the noise", "statement": "However much is added to the diagonals of matrices before they are factorised, every predicted variance is at least the variance of the noise.", "quantifier": "all amounts of regularisation, instances, proper priors, data, times and samples", "why_tests_cant": "The code recombines matrices inverted with regularisation and matrices without; whether the excess stays non-negative depends on the instance.", "anchors": ["gpcm/normal.py: NaturalNormal.m2", "gpcm/approx.py: MeanField.predict, Structured.predict"]}
{"id": "C183", "title": "Reported divergences are not negative", "statement": "`kl` of two normal distributions is not negative, also if matrices are regularised before they are factorised, so that no bound exceeds the evidence because of it.", "quantifier": "all pairs of proper normal distributions, all amounts of regularisation", "why_tests_cant": "The error is of the order of the regularisation and hides below the tolerances of tests.", "anchors": ["gpcm/normal.py: NaturalNormal.kl", "gpcm/approx.py: MeanField.elbo"]}
{"id": "C184", "title": "All mean-field schemes look for the same posteriors", "statement": "Where gradient training of the bound or of a collapsed bound has converged, coordinate ascent changes nothing, and conversely: the derivatives of the bound vanish exactly at the posteriors that coordinate ascent keeps, and, with the optimal update of the other posterior, exactly where the derivatives of the collapsed bounds vanish, also with respect to hyper-parameters.", "quantifier": "all instances, data and proper posteriors of models that have not been conditioned, all differentiable curves of posteriors (hence all parametrisations) and of hyper-parameters", "why_tests_cant": "Tests compare the results of schemes for some data up to a tolerance and cannot tell different local optima from different objectives.", "anchors": ["gpcm/approx.py: MeanField.elbo, fit, Approximation.q_z_optimal_mean_field, Approximation.q_u_optimal_mean_field"]}
{"id": "C185", "title": "Parameters that are given are used", "statement": "Every parameter that is given to the constructor of a model is the parameter that the model has; the window, the scale and the caps only matter for parameters that are not given.", "quantifier": "all arguments of the constructors of the GPCM, CGPCM and RGPCM for which they return", "why_tests_cant": "There are dozens of combinations of optional arguments, with infinitely many values, and defaults that depend on one another.", "anchors": ["gpcm/gpcm.py: GPCM.__init__", "gpcm/rgpcm.py: RGPCM.__init__"]}
{"id": "C186", "title": "Structured training follows the gradient of the evidence also after conditioning", "statement": "After conditioning, the gradient with which a further structured fit learns hyper-parameters is, up to the Monte Carlo error in the sample, the gradient of the evidence of the new data.", "quantifier": "all instances, smooth hyper-parameters, data, states after conditioning and random numbers", "why_tests_cant": "Gradients are noisy, so that tests cannot tell a biased gradient from an unbiased one.", "anchors": ["gpcm/approx.py: Structured.elbo_gibbs, Structured.log_Z_u, Approximation.p_u, Approximation.condition"]}
{"id": "C187", "title": "With vanishing noise a model follows the data as closely as it can", "statement": "As the variance of the noise tends to zero, the sum over the observations of squared residual and variance of the predicted signal tends to the smallest value that any filter and excitation achieve: for best mean-field approximations, and in expectation for the posterior from which the structured scheme samples. For given samples of the filter it tends to the smallest value that any excitation achieves, on average over the samples.", "quantifier": "all valid models, all data sets, all families of best approximations, all samples of the filter", "why_tests_cant": "A limit, in which matrices become singular and tests fail numerically.", "anchors": ["gpcm/approx.py: MeanField.elbo, MeanField.predict, Structured.predict, Approximation.q_z_optimal"]}
{"id": "C188", "title": "More samples make Monte Carlo estimates more accurate, at the usual rate", "statement": "The mean square error of the structured ELBO around the bound that it estimates is the variance of an estimate from one sample divided by the number of samples, and an error of at least a given size has at most a probability proportional to one over the number of samples. The mean square error of the mean of predict_kernel around the expected kernel is likewise at every lag the variance of one sampled kernel divided by the number of samples, and the variance that it reports is on average that variance times one minus one over the number of samples; under mean-field posteriors, and before conditioning under the structured scheme.", "quantifier": "all valid models, data sets, posteriors and lags; all positive numbers of samples", "why_tests_cant": "Statements about expectations over all random numbers and about all numbers of samples; a run shows one estimate.", "anchors": ["gpcm/approx.py: Structured.elbo_collapsed_z, MeanField.sample_kernel, Structured.sample_kernel", "gpcm/model.py: AbstractGPCM.predict_kernel", "gpcm/util.py: summarise_samples"]}
{"id": "C189", "title": "The GPCM models smooth signals, the CGPCM and the RGPCM rough ones", "statement": "Given a sample of the filter's inducing variables, the covariance of the signal under a GPCM is an infinitely differentiable function of the lag, and expected squared increments of the signal are smaller than the time they take. Under a CGPCM they are proportional to that time, with the second moment of the filter at lag zero as the factor: positive, unless the sample makes the filter zero there. Under an RGPCM they are proportional to it with a factor that no sample changes: twice the decay of the noise times the prior power of the signal.", "quantifier": "all models with valid parameters, all samples of the filter", "why_tests_cant": "A limit for short lags, where differences of kernel values drown in rounding errors.", "anchors": ["gpcm/model.py: AbstractGPCM.kernel_approx", "gpcm/gpcm.py: compute_i_hx, compute_I_ux", "gpcm/rgpcm.py: compute_i_hx, compute_I_ux"]}
{"id": "C190", "title": "With ever more inducing points the inducing variables determine the signal", "statement": "The inducing variables explain a share of the prior power of the signal at every time. When the numbers of inducing points of the filter and of the excitation grow, by way of the arguments of the constructor or otherwise, what they leave unexplained tends to zero, at every time and however short the intervals are that the points fill, and the correction of the bound for it tends to zero as well.", "quantifier": "all sequences of models whose inducing points fill intervals, all times", "why_tests_cant": "A limit of ever larger models. Kernel matrices of many inducing points are numerically singular long before the limit shows.", "anchors": ["gpcm/gpcm.py: GPCM.__init__, compute_K_u, compute_K_z, compute_I_uz", "gpcm/rgpcm.py: RGPCM.__init__", "gpcm/approx.py: Approximation.construct_terms"]}
{"id": "C191", "title": "Training cannot drive the noise to zero", "statement": "When the noise is learned, the bounds of all schemes fall below any value as the noise vanishes, uniformly over all approximate posteriors and samples, because the inducing variables never determine the signal at a time exactly. So there is a best noise together with a best mean-field approximation, and a noise that is locally optimal for any of the bounds is at least the average over the observations of the part of the signal that the inducing variables cannot express. This part is positive for every model, whatever the inducing points.", "quantifier": "all models with distinct inducing points, all observations, all approximate posteriors and samples", "why_tests_cant": "A limit, and a maximum over unboundedly many posteriors. A failing model would show up as noise that decreases for as long as one trains.", "anchors": ["gpcm/approx.py: Approximation.construct_terms, MeanField.elbo, Structured.elbo_collapsed_z, Structured.elbo_gibbs", "gpcm/gpcm.py: compute_i_hx", "gpcm/rgpcm.py: compute_i_hx"]}
{"id": "C192", "title": "Nearly equal data give nearly equal results", "statement": "When the times and values of the observations, the times of the predictions, the noise and the stored posteriors change little, so do the bounds, the predictions, the Gibbs samples for given random numbers, and the fits. For GPCM and CGPCM all times are allowed, for the RGPCM those in the interval of the harmonics.", "quantifier": "all models with proper kernel matrices, all observations, posteriors, samples and random numbers, all ways in which these approach a limit", "why_tests_cant": "Continuity is a statement about all small changes. Discontinuities, such as those of the stopping rule, sit at single points that tests do not hit.", "anchors": ["gpcm/approx.py: Approximation.construct_terms, MeanField.elbo, MeanField.predict, Structured.log_Z_u, Structured.predict, _fit_mean_field_ca, Structured.elbo_gibbs", "gpcm/normal.py: NaturalNormal.sample", "gpcm/gpcm.py: compute_I_hz, compute_I_uz", "gpcm/rgpcm.py: compute_I_hz, compute_I_uz"]}
{"id": "C193", "title": "Nearly equal parameters give nearly equal results", "statement": "When the noise, the window, the scale, the other parameters of the kernels and the inducing points change little, so do the integrals, the objectives of training and the predictions. A model that is constructed with a slightly different noise, window or scale is a slightly different model.", "quantifier": "all models with proper parameters, all observations, posteriors and samples, all ways in which the parameters approach a limit", "why_tests_cant": "Continuity is a statement about all small changes of all parameters. The automatic number of inducing points jumps at isolated values that tests do not hit.", "anchors": ["gpcm/gpcm.py: GPCM.__init__, GPCM.__prior__, compute_K_u, compute_K_z, compute_i_hx, compute_I_ux, compute_I_hz, compute_I_uz", "gpcm/rgpcm.py: RGPCM.__prior__, compute_K_u, compute_K_z, compute_i_hx, compute_I_ux, compute_I_hz, compute_I_uz", "gpcm/approx.py: MeanField.elbo, MeanField.predict, Structured.predict"]}
{"id": "C194", "title": "Showing progress does not change the samples", "statement": "ESS.sample with trace=True returns the samples that it returns without, makes the same calls to the likelihood, the prior and the random number generator, and leaves the sampler in the same state. There is one report per sample, with the log-likelihood of that sample and the number of attempts of the call that produced it; no effective sample size is shown for the first 21 samples.", "quantifier": "every random tape, likelihood, number of samples and state of the sampler", "why_tests_cant": "The computation of the effective sample size in the loop could fail or consume random numbers for some chain; chains are unbounded.", "anchors": ["gpcm/sample.py: ESS.sample, ESS._sample", "gpcm/util.py: autocorr"]}
{"id": "C195", "title": "The effective sample size shown is that of the chain", "statement": "The effective sample size that ESS.sample shows is the number of samples divided by one plus twice the sum of the autocorrelations at lags one to five of the samples after the first twenty. It is the number of samples if the chain is uncorrelated, and it is not negative.", "quantifier": "all chains", "why_tests_cant": "A test compares the number with one chain; the formula is about all chains, and a number of the right magnitude looks plausible.", "anchors": ["gpcm/sample.py: ESS.sample", "gpcm/util.py: autocorr"]}
{"id": "C196", "title": "The curves in a summary are samples", "statement": "In the result of summarise_samples, all_samples holds the value of every sample at every input, and samples holds three different samples, or all if there are fewer, the same ones at all inputs, whatever the random permutation. Without decibels the mean is the average of all curves; in decibels it lies on or above that average.", "quantifier": "all matrices of samples, all random permutations", "why_tests_cant": "The permutation is random and the number of samples arbitrary; a repeated or mixed curve looks like a sample.", "anchors": ["gpcm/util.py: summarise_samples"]}
{"id": "C197", "title": "The gap between the bound and the log-evidence measures how wrong the approximation is", "statement": "The logarithm of the evidence minus the value of elbo is the divergence of the approximate posterior from the exact one: of the pair of posteriors for the mean-field scheme (with the replaced posterior for the collapsed bounds), of the posterior of the filter for the average of the structured estimate. The bound is the log-evidence exactly if the approximation is exact. Every probability, and every expectation of a function with values between lo and hi, is wrong by at most (hi - lo) times the square root of half of the gap.", "quantifier": "all models with positive-definite prior covariances and positive noise, data sets, approximate posteriors and measurable bounded functions", "why_tests_cant": "The evidence and the exact posterior are integrals over all inducing variables that the code never computes; the claim is about all events.", "anchors": ["gpcm/approx.py: MeanField.elbo, Structured.elbo, Structured.elbo_collapsed_z"]}
{"id": "C198", "title": "The mean-field scheme is at least as certain as the structured one", "statement": "With the same posterior of the filter, the mean-field update gives every linear combination of the inducing variables of the excitation at most the variance that it has when the filter is drawn and then the excitation given the filter, as the structured scheme does; the same with filter and excitation exchanged. With the exact second moments of the filter the variance is at most that of the exact posterior.", "quantifier": "all models with positive-definite prior covariances and positive noise, data sets, posteriors and linear combinations", "why_tests_cant": "The variance of the structured scheme is an average over all filters; a test would compare two Monte Carlo estimates for one data set.", "anchors": ["gpcm/approx.py: Approximation.q_z_optimal_mean_field, Approximation.q_z_optimal, Approximation.q_u_optimal_mean_field, Approximation.q_u_optimal"]}
{"id": "C199", "title": "The Gibbs sampler forgets its start at a geometric rate", "statement": "For every data set there is a rate below one such that the distribution of the state after k sweeps is within that rate to the power of half of k of the structured posterior, whatever state the sampler starts from; two samplers started from different states agree up to the same bound; every one of the thousand samples that a fit of the structured scheme stores has a distribution within the rate to the power of a quarter of the iterations of the structured posterior, whatever the session did before; and an average of a bounded function over n samples has a mean squared error of at most a constant divided by n, from every starting point.", "quantifier": "all models with positive-definite prior covariances and positive noise, data sets, starting states, sessions, numbers of iterations, bounded functions and events", "why_tests_cant": "How fast a sampler converges, from the worst starting point, is a statement about distributions at all times; a test sees one run from one starting point.", "anchors": ["gpcm/approx.py: fit, gibbs_sample, Approximation.q_u_optimal, Approximation.q_z_optimal"]}
{"id": "C200", "title": "The stored samples are nearly independent draws from the structured posterior, at a geometric rate", "statement": "For every data set there is a rate below one such that, after a fit of the structured scheme, the joint distribution of the thousand stored samples is within a thousand times the rate to the power of the iterations divided by two thousand of that of a thousand independent draws from the structured posterior, whatever the session did before: this bounds the probability of every event about the samples and the expectation of every bounded function of them. In particular, averages over the stored samples have the mean squared error of a thousand independent draws up to a term of that size.", "quantifier": "all models with positive-definite prior covariances and positive noise, data sets, sessions, numbers of iterations from two, bounded measurable functions of the thousand samples, and events about them", "why_tests_cant": "A statement about the joint distribution of all the samples over all random numbers, for every number of iterations; a test sees samples of one run.", "anchors": ["gpcm/approx.py: fit, gibbs_sample, Approximation.q_u_optimal, Approximation.q_z_optimal"]}
{"id": "C201", "title": "No model beats the truth by more than chance", "statement": "If the parameters of a model are fixed before the data are seen, then its bounds, exponentiated, have mass at most one as functions of the observations, however the approximate posteriors are fitted to the observations. So if the observations have a density p, the probability that elbo exceeds log p by k is at most exp(-k), and on average elbo is at most log p. In the comparison of inference schemes, the curve of coordinate ascent lies anywhere k above the line of the true log-density with probability at most exp(-k). If the noise is learned this fails, for every model.", "quantifier": "all models with positive-definite prior covariances and positive noise, times, densities of the observations, choices of posteriors given the observations (also collapsed and structured bounds), and k", "why_tests_cant": "A statement about the distribution of the bound over all data sets and true densities; a test computes the bound of a few data sets.", "anchors": ["gpcm/approx.py: MeanField.elbo, Structured.elbo_collapsed_z, _fit_mean_field_ca", "experiments/paper/compare_inference.py: gp_logpdf, callback"]}
{"id": "C202", "title": "Credible regions contain the truth as often as they say", "statement": "If the inducing variables are drawn from the prior and the observations given them, then a region, or an interval for a quantity computed from the inducing variables, that contains a fraction a of the structured posterior contains the true inducing variables with probability a.", "quantifier": "all models with positive-definite prior covariances and positive noise, times, regions that depend measurably on the observations, and fractions", "why_tests_cant": "Coverage is a probability over all parameters and data; simulation-based checks estimate it with an error for some regions.", "anchors": ["gpcm/approx.py: Structured, gibbs_sample, Approximation.q_u_optimal, Approximation.q_z_optimal, Approximation.construct_terms"]}
{"id": "C203", "title": "The figure of the priors shows what it says", "statement": "In the figure of the priors, the shaded intervals of a panel are nested and contain the fractions of the samples that belong to their percentages. Converting the spectral densities from decibels and back loses nothing, so intervals and line are the quantiles and the mean of the densities. The line is never below the mean of the curves in decibels, and equals it only if all curves agree. A panel is symmetric about zero. The line need not lie in the intervals.", "quantifier": "all numbers of samples and inputs, and all samples, positive ones for spectral densities", "why_tests_cant": "Figures are not tested, and the claim concerns all samples.", "anchors": ["experiments/paper/priors.py: _extract_samples, apply_to_psd", "gpcm/util.py: summarise_samples"]}
{"id": "C204", "title": "No prediction is better than the posterior mean", "statement": "If the inducing variables are drawn from the prior and the observations given them, then no prediction, by whatever method, of a quantity that depends on the inducing variables has a smaller mean squared error than the mean of the structured posterior, and further observations do not increase its error.", "quantifier": "all models with positive-definite prior covariances and positive noise, times, quantities, measurable predictions, and further observations", "why_tests_cant": "Optimality among all methods, on average over all parameters and data; a test compares with a few methods on some data.", "anchors": ["gpcm/approx.py: Structured, Structured.predict, gibbs_sample, Approximation.q_u_optimal, Approximation.q_z_optimal"]}
{"id": "C205", "title": "The bounds are below the score of predicting the observations one after another", "statement": "Every bound that the schemes compute is at most the sum of the log-densities with which the structured scheme predicts the observations one after another, each from those before it, in whatever order. If the inducing variables determine the signal, the log-evidence is that sum. So a large bound guarantees good predictions.", "quantifier": "all models with positive-definite prior covariances and positive noise, data, approximate posteriors, orders of the observations, and distributions of the signal given the inducing variables that have the moments of the model", "why_tests_cant": "Concerns the predictive densities under the exact posterior of every initial part of the data, in every order; a test cannot compute them.", "anchors": ["gpcm/approx.py: MeanField.elbo, Structured.elbo_collapsed_z, Structured.predict, Approximation.construct_terms"]}
{"id": "C206", "title": "With ever more inducing points credible regions become calibrated and the evidence the density of the data", "statement": "If the frequency `omega` of the transform of the excitation is given, then asking the acausal or causal model for ever more inducing points makes it right about data drawn from it: regions of inducing variables contain them as often as the structured posterior says, up to an error that vanishes uniformly over all regions, and the evidence, which is never above the density of the data, converges to it in total variation. At every number of inducing points the error is bounded by what the model can compute from its power and the integrals.", "quantifier": "all causal and acausal models with moderate parameters and positive noise, times of the data, sequences of numbers of inducing points that grow without bound (or grids that fill intervals), regions, and distributions of the signal given the inducing variables that have the moments of the model", "why_tests_cant": "Concerns probabilities under the exact posterior, the density of the data, and a limit of ever larger models.", "anchors": ["gpcm/gpcm.py: GPCM.__init__, CGPCM.__init__", "gpcm/approx.py: Structured.elbo_collapsed_z, Structured.p_u, Approximation.construct_terms"]}
{"id": "C207", "title": "A model can be built from a window, a scale and the times of the data", "statement": "Each of the three models can be built from a positive window, a positive scale and times of which at least two differ, leaving everything else at its default; a missing window, scale or list of times raises a TypeError and an empty list of times a ValueError. Whatever the data, the model then has at most 302 inducing points of the filter and 300 of the excitation (RGPCM: 300 and 301 features).", "quantifier": "all positive windows and scales and all lists of times", "why_tests_cant": "The constructor succeeds or fails depending on how window, scale and times compare; a test sees some combinations.", "anchors": ["gpcm/gpcm.py: GPCM.__init__, CGPCM.__init__", "gpcm/rgpcm.py: RGPCM.__init__"]}
{"id": "C208", "title": "The figures of the comparisons show predictions where they were made, and data in their units", "statement": "In the comparison of kernels, both predictions are drawn at the inputs at which they were made, with regions of 1.96 standard deviations. In the figure of the price of oil, every predicted frequency up to 0.2 is drawn with its own values, drawing a panel again shows the same, all predictions from day 150 on are drawn at their own inputs, the observations from day 150 on are shown in their own units, and lie within the limits of the axis.", "quantifier": "all stored predictions, all data sets, and all normalisers", "why_tests_cant": "A figure is looked at, not tested; a prediction at wrong inputs or a point outside of the axis is not noticed.", "anchors": ["experiments/paper/comparison_process.py: plot_kernel_predictions", "experiments/paper/crude_oil.py: plot_psd, plot_compare", "experiments/paper/comparison.py: t_k"]}
{"id": "C209", "title": "The likelihoods printed beside the bounds are benchmarks", "statement": "For data from a Gaussian process, the bound of any model, in any scheme and with approximate posteriors chosen in any way from the data, exceeds the printed likelihood under the true process by c nats or more with probability at most exp(-c), and does not exceed it on average; the same holds for the likelihood under any other process. The likelihood under the optimised process is at least that under the truth in both toy experiments.", "quantifier": "all models, all approximate posteriors as functions of the data, all true processes, and all minimisers that do not end above their start", "why_tests_cant": "This is about probabilities over all data sets; a test sees one data set and one trained model.", "anchors": ["experiments/experiment.py: analyse_elbos", "experiments/eq.py: comparative_kernel", "experiments/smk.py: comparative_kernel", "gpcm/approx.py: elbo"]}
{"id": "C210", "title": "Training reaches exactly the parameters that the constraints allow", "statement": "After any number of trainings, whatever the minimisers find, the model can be instantiated again, and its parameters obey the constraints: what is learned is positive, the inducing points of the filter stay within 1.5 times the range of the initial ones (for the RGPCM up to 0.0001 before the present), the decay of the filter of the RGPCM is between one and ten thousand times that of its prior, and the numbers of inducing points do not change. Conversely, training can reach all parameters that obey them, also coinciding inducing points.", "quantifier": "all models that can be instantiated, flags of fixed parameters, sequences of trainings, names of trained variables and results of the minimisers", "why_tests_cant": "Quantifies over everything an optimiser may find, in sequences of any length, and says which parameters can be reached.", "anchors": ["gpcm/gpcm.py: GPCM.__prior__", "gpcm/rgpcm.py: RGPCM.__prior__", "gpcm/approx.py: fit"]}
{"id": "C211", "title": "Comparisons of forecasts do not depend on the unit of the prices, and reward being right", "statement": "Whatever the model predicts, forecasts of normalised data that are transformed back do not depend on unit and origin: for data in another unit they are the converted forecasts. Root-mean-square errors are multiplied by the unit, log-likelihoods change by its logarithm, and comparisons of two models report the same differences of log-likelihoods and the same p-values. For the volatility index, whose logarithm is forecast, the unit changes no metric at all. What happens in the weeks that are predicted changes no forecast. In expectation no forecast has a better log-likelihood than the mean and variance of the outcome, nor a smaller squared error than its mean.", "quantifier": "all predictors, training data with variance, test sets, units and origins, and outcomes with finite positive variance", "why_tests_cant": "Quantifies over all data, units and predictors, and over the distribution of outcomes.", "anchors": ["experiments/paper/vix_forecast.py: get_data", "experiments/paper/vix_forecast_process.py: compute_metrics, compare", "experiments/paper/crude_oil.py: pred_f_test"]}
{"id": "C212", "title": "The reported p-values are p-values", "statement": "If two models do equally well, so that exchanging their scores does not change the distribution of the experiment, then a p-value of at most alpha is reported with probability at most alpha.", "quantifier": "all distributions of the scores of the two models, and all alpha", "why_tests_cant": "This is about probabilities over all experiments; a test sees one set of scores.", "anchors": ["experiments/paper/vix_forecast_process.py: compare", "experiments/paper/crude_oil_aggregate.py: ttest_rel"]}
{"id": "C213", "title": "Predictions have the attributes they were given and can be saved, and every model has its own integrals", "statement": "Every attribute of a summary is the statistic computed for it, there are no others, and the summary can be saved to a file and so can plain tuples of its attributes. After importing the package, every model finds all six integrals: the GPCM and the RGPCM those of their own modules, and the CGPCM those of the GPCM.", "quantifier": "all keywords and values, all orders, and all classes", "why_tests_cant": "A test looks at the attributes of one summary of one model; it does not see which names, values and classes would fail.", "anchors": ["gpcm/util.py: collect", "gpcm/util.py: method", "gpcm/util.py: summarise_samples", "gpcm/gpcm.py: compute_K_u", "gpcm/rgpcm.py: compute_K_u"]}
{"id": "C214", "title": "The window is the length of the filter, and default inputs of predictions cover the filter", "statement": "With alpha determined from window, the area under the prior standard deviation of the filter after time zero, relative to that at time zero, is the window, for all three models. With a fixed window training does not change it. The interval of the default inputs of predict_filter and predict_kernel contains all but exp(-8) of the expected power of the filter.", "quantifier": "all windows, all other arguments, and all learned parameters", "why_tests_cant": "This is about integrals over all times, for all parameters that training can reach; a test looks at some times of one model.", "anchors": ["gpcm/gpcm.py: GPCM.__init__, k_h, scale_to_factor", "gpcm/rgpcm.py: RGPCM.__init__, k_h", "gpcm/model.py: predict_filter, predict_kernel"]}
{"id": "C215", "title": "Fits do not depend on random numbers drawn elsewhere", "statement": "fit draws its random numbers from a random state that it creates from a fixed seed, so the result for given data and a given model is the same whatever random numbers the process has drawn before and whatever the global random state is. Looking at an approximate posterior changes nothing.", "quantifier": "all models, data, numbers of iterations, global random states, and all sequences of fits with anything that draws random numbers before or between them", "why_tests_cant": "A test runs in one process with one history of random numbers; that no history matters is a statement about all of them.", "anchors": ["gpcm/approx.py: _parametrise_natural, q_u, q_z, fit, _fit_mean_field_ca"]}
{"id": "C216", "title": "What an experiment finds for a model does not depend on the other models", "statement": "With the same --seed, data and training options, an experiment finds the same for a model whichever other models --model asks for, and in whichever order they are listed.", "quantifier": "all seeds, data, training options and selections of models", "why_tests_cant": "The selections and the random numbers are unbounded in number; a test compares two runs of one experiment.", "anchors": ["experiments/experiment.py: setup, run, build_models, train_models", "gpcm/approx.py: _parametrise_natural, fit"]}
{"id": "C217", "title": "The compared schemes start from the same point", "statement": "In the comparison of inference schemes, all four models start from the same distributions, whatever random numbers are drawn in between. Coordinate ascent and the structured scheme visit the same iterates and record them at the same counts, so their curves have equally many points and can be compared point by point: at every point, coordinate ascent is at most the bound that the structured scheme estimates. Both end with the same posteriors.", "quantifier": "all global random states, models, data and numbers of iterations", "why_tests_cant": "Random numbers differ between runs, and the order of values is a statement about expectations; a test sees one run with sampling noise.", "anchors": ["experiments/paper/compare_inference.py: callback, init_q_u, init_q_z", "gpcm/approx.py: q_u, q_z, _fit_mean_field_ca, elbo_collapsed_z"]}
{"id": "C218", "title": "Compiling an objective does not change its values", "statement": "In the comparison of inference schemes, the compiled objective returns at every point that the minimiser tries what the objective itself would return, whatever was written into the variables of the model in between. This relies on the run before compilation, which creates all variables, and on variables that the minimiser cannot see staying as they are: if such a variable changes, the compiled objective keeps using its old value.", "quantifier": "every objective, container of variables, and sequence of calls with arbitrary values of the variables", "why_tests_cant": "The values depend on all earlier calls, because the compiled function keeps what it read when it was traced; a test tries a few sequences.", "anchors": ["experiments/paper/compare_inference.py: jit, objective_raw, objective"]}
{"id": "C219", "title": "Reported results come from the run that reports them", "statement": "When the script that reproduces the paper is run, every file that an experiment reads exists and was written in the same run, so that what is reported does not depend on what earlier runs left behind. This also holds when commands raise on the way, for example because memory runs out: in particular, the analysis of volatility succeeds when its prediction is repeated.", "quantifier": "all files that exist before, whatever the scripts write, and wherever commands raise", "why_tests_cant": "Running everything takes hours on a GPU, and stale files and failures at every point cannot be enumerated by running it.", "anchors": ["experiments/paper/reproduce.sh: for year in 2012 2013 2014 2015 2016 2017", "experiments/paper/crude_oil.py: models", "experiments/paper/crude_oil_aggregate.py: names", "experiments/paper/comparison_process.py: kernel_analysis", "experiments/paper/vix_forecast_process.py: compute_metrics"]}
{"id": "C220", "title": "A figure can be drawn again without training, and belongs to the saved model", "statement": "After an experiment of the paper was run with training and prediction, running its script without these options reads exactly what was computed and does not change it; if nothing was computed, it raises. With --predict alone, what is drawn is predicted from the saved model. Whatever the options are, what is drawn was predicted by the model that is saved.", "quantifier": "all files that exist before, whatever the scripts compute, every year", "why_tests_cant": "Training takes hours, and which files are read depends on the options of all earlier runs.", "anchors": ["experiments/paper/crude_oil.py: args, models", "experiments/paper/vix_analyse.py: args, model", "experiments/paper/smk.py: args", "experiments/paper/priors.py: args", "experiments/paper/sample.py: args"]}
