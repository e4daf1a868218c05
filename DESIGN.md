# Formal model of `gpcm` — design

The code under study is `/repo` (wesselb/gpcm, pinned commit), a Python library for
Gaussian Process Convolution Models. The model is written in Lean 4 with Mathlib, in
`lean/Verif`. `properties.jsonl` lists the properties in terms of the public API,
`MANIFEST.json` maps each one to the theorems that settle it, `seeded/LOG.jsonl` records
mutation tests of the theorems. There, `theorems_failed` lists the theorems whose proofs no longer compile after the edit. This is
evidence that the theorem depends on what was edited, not a proof that its statement became false: a proof that follows a definition can
fail although the statement still holds.

## Layout

* `Verif/Model/*.lean`  – the code, function by function; each definition cites file and lines.
* `Verif/Spec/*.lean`   – small definitions the properties are stated with (integrals, error
  function, Gaussian densities, abstract expression trees, ...), independent of the model.
* `Verif/Lemmas/*.lean` – helper lemmas.
* `Verif/Props/*.lean`  – the property theorems (named `cNN_...`) with `example`s that exhibit a
  concrete non-trivial instance of the hypotheses. Refuted properties have a theorem
  `cNN_..._false` / `..._counterexample` and, where something weaker is true, `..._partial`.

## Trusted base

* The Lean 4.33.0 kernel, and the axioms `propext`, `Classical.choice`, `Quot.sound` only
  (`#print axioms` is checked for every property theorem). No own axioms, no `sorry`,
  no `native_decide`/`bv_decide`.
* The hand translation of the Python source into the Lean definitions (cited lines).
* Third-party semantics that are not in `/repo` and are modelled from documentation:
  - *Arithmetic.* Floating point is idealised to exact real arithmetic, except in `Rounding` (C180),
    where every operation rounds to a limited precision. Otherwise round-off, and everywhere overflow
    are not modelled. The diagonal jitter (`B.epsilon`, `1e-12` by default) which factorisations add is modelled
    in `Regularised` (C181 to C183) only; C181 justifies leaving it out elsewhere. The explicit
    clamp `safe_sqrt` *is* modelled. Tensors are treated elementwise: `Poly` coefficients are
    an arbitrary commutative ring (e.g. functions on an index set with pointwise operations).
  - *Linear algebra.* `B.chol`/`B.cholesky` of a positive-definite matrix is *any* `L` with
    `L Lᵀ = A` (lower-triangularity is not needed); `cholsolve`, `pd_inv`, `solve`, `trisolve`
    and `logdet` are exact; `B.svd` is *any* valid singular value decomposition.
  - *Python sets.* The iteration order of a `set` is an arbitrary permutation of its distinct
    elements, given by an oracle that may depend on the insertion history (this covers hash
    randomisation).
  - *`erf`, `bvn_cdf`, FFT, quantile, correlate* are their mathematical definitions.
  - *`np.argsort`* is any permutation that sorts; ties are arbitrary.
  - *Random numbers* are arbitrary tapes in the documented range.
  - *`varz.Vars`, `probmods.Model`, `pickle`* are modelled as a name-indexed store, a list of
    conditionings, and an exact round trip, respectively.
* Not modelled: plotting, logging/progress output, JIT compilation, automatic
  differentiation, the numerical behaviour of L-BFGS-B/Adam (treated as arbitrary updates of the
  selected variables), dtype casting other than where it changes a branch.

## Exceptions

Python exceptions are values of an error type (`Except PyErr _`), so the error branches
are covered by theorems and not totalised away.


## Coverage

What of `/repo` is modelled, and where (all under `Verif/Model`). Every definition cites its lines.

| file | modelled | not modelled |
|---|---|---|
| `gpcm/exppoly.py` | all of `Factor`, `Term`, `Poly` (`ExpPoly`, `ExprRun`, `Built`), `ExpPoly`, `safe_sqrt`, `is_inf` (`ExpPolyInt`) | `__str__`, `__repr__`, hashing beyond equality |
| `gpcm/sample.py` | all of `ESS` (`ESS`), the reports of `trace=True` (`EssTrace`) | timing and printing |
| `gpcm/normal.py` | all of `NaturalNormal`, with its caches (`Normal`; with regularisation: `Regularised`) | caching of the Cholesky factor by `matrix`, `dtype` |
| `gpcm/util.py` | `summarise_samples` (also `KernelPred`, `SummaryCurves`), `estimate_psd`, `autocorr`, `invert_perm`, `min_phase` (`Util`), `collect`, `method` (`Objects`), `closest_psd`, `hessian`, `laplace_approximation` (`ClosestPsd`) | printing; automatic differentiation is exact and `maximum_a_posteriori` an arbitrary point |
| `gpcm/gpcm.py` | all: constructor, `k_h`, `k_xs`, `__prior__`, the six `compute_*` (`GPCM`, `Prior`, `Kernel`, `Instance`) | `dtype` casts |
| `gpcm/rgpcm.py` | all: constructor, `k_h`, `__prior__`, the `compute_*` and their helpers (`RGPCM`, `Prior`, `Filter`, `RgpcmInstance`, `RgpcmSample`) | `dtype` casts |
| `gpcm/model.py` | all of `AbstractGPCM` and `fit` (`Fit`, `Kernel`, `KernelPred`, `Filter`, `Sample`, `Vars`, `SaveSession`) | – |
| `gpcm/approx.py` | `Approximation`, `Structured`, `MeanField`, the `fit` overloads (`Approx`, `Gibbs`, `GibbsGrad`, `Fit`, `FitBound`, `Optimise`, `KernelPred`, `Session`, `GlobalState`, `SaveSession`; with rounding: `Rounding`; with regularisation: `Regularised`) | printing; gradients other than that of `elbo_gibbs` |
| `experiments/experiment.py` | `setup` (arguments that affect training), `build_models`, `run`, `train_models` (`RunExp`, `SeededRun`), `analyse_elbos` (`AnalyseElbos`), the checks, bands, noise and exceptions of the first figure, Fourier panels, true density, and autocovariance and spectral density of the data of `analyse_plots` (`Experiments`, `RunExp`, `Fit`, `Paper`, `Plots`, `FunctionPanel`) | the minimiser in `analyse_elbos`, plots |
| `experiments/paper/crude_oil.py` | data split, untransforming, figures (`Experiments`, `Paper`, `CompareFigures`) | file access |
| `experiments/paper/vix_forecast.py`, `vix_forecast_process.py`, `vix_analyse.py` | data sets, forecasts, metrics, model comparison, decomposition (`Experiments`, `Paper`, `Forecast`, `Significance`) | file access, plots |
| `experiments/paper/compare_inference.py`, `priors.py` | `Tracker`, the initialisation (`CompareStart`), the compilation of objectives (`JitObjective`), the callbacks and their effect on coordinate ascent, the curves and the axis, `_extract_samples`, the panels of the priors (`Experiments`, `CompareInference`, `PriorFigure`) | gradient training loops, other plots |
| `experiments/eq.py`, `smk.py`, `paper/smk.py`, `paper/sample_interpolation.py` | kernels, inputs, removal of data, sampling and interpolation (`Scripts`) | training and plots |
| `experiments/mauna_loa.py`, `paper/comparison*.py`, `paper/crude_oil_aggregate.py`, `paper/sample.py` | data, sampling, aggregation, `kernel_analysis`, figure of the comparison (`OtherScripts`, `CompareFigures`) | training, the distribution function of `ttest_rel`, other plots |
| `experiments/paper/reproduce.sh` | the commands, and the files that the scripts exchange (`Reproduce`) | logs and figures |


## Findings

Places where the code does not do what the property list says. Each is a theorem with a concrete
witness (`..._false`), not an opinion.

* C84: `_merge_common_terms` adds terms of one monomial left to right. When a partial sum cancels,
  `Term.__init__` drops the factors, and the next `Term.__add__` raises `RuntimeError("Can only add
  terms with equal factors.")`. So `(1 + x + x**2) * (1 - x + x**2)` raises or not, depending on the
  hash seed. The exponents that `gpcm.py` builds cannot trigger it (`c84_simple_...`).
* C05, C06: a cancelled term stays in the polynomial as `Term(0)`. So `(x + 1) - 1 == x` is `False`
  and two terms without factors can coexist.

* C13: `integrate_box` has no branch for a finite lower and an infinite upper limit. It then returns
  *minus* the integral over `(-inf, lower]`: the integral of `exp(-x**2)` over `[0, inf)` comes out
  negative. None of the callers in `gpcm.py` uses such limits.
* C14: an exponent without terms (e.g. after integrating out its only variable) raises `ValueError`
  from `max([])`, not the documented `RuntimeError`.
* C47: `_draw` starts counting at one and counts before proposing, so that the reported number of
  attempts is one more than the number of proposals evaluated. Also, `max_attempts` is not forwarded
  in the recursive call, so that only the default of 100 is ever effective.
* C86: when the log-likelihood of the initial state is NaN, every slice height is NaN, no proposal
  is ever accepted, and `sample` loops forever.
* C101: `_sample` repeats a pass that used up its attempts, with a new slice height, ellipse and bracket, until one
  succeeds. The chain then leaves invariant not the target but the target weighted by the probability that a pass
  succeeds. Counting the failed pass as a sample (returning the old state) would be exact. The probability of 100
  rejections is tiny for a likelihood that is not extremely concentrated, so the effect is of theoretical interest;
  `c101_nearly_invariant_partial` bounds it.
* C50: `closest_psd` reads the sign of an eigenvalue off `diag(uᵀv)`. When a number and its negative
  are both eigenvalues the singular vectors are not unique and need not be parallel; then the result
  can be zero or not even symmetric. `diag(1, -1)` with a valid decomposition is a witness.
* C52: `np.trapz` is applied to the frequencies in the order of `np.fft.fftfreq`, in which the
  negative ones come last. The jump back from the largest to the smallest frequency is subtracted.
  For white noise the "total power" is negative and so are all returned densities.
* C55: the quantiles 0.32 and 0.68 enclose 36% of the samples, not 68%.
* C59: with one inducing point for the filter (the default when the length scale is at least four
  windows) the acausal grid is the single point `-2 * window`, and the causal grid is a division by
  zero.
* C60: the cap is applied before the grid is made odd or extended to the left, so that a cap of 300
  gives 301 (GPCM) or 302 (CGPCM) inducing points.
* C62, C66: the default `gamma` is negative when the length scale is at least `sqrt(2)` windows.
  `compute_K_u` is then indefinite and `ps.positive` receives a negative initial value.
* C64: `omega` is learned but `omega_t` stays at its initial value, so that the inter-domain process
  has unit variance only before learning.
* C61: `extend_t_z` discards an explicitly given `t_z` and rebuilds the grid from the data.
* C36: `_q_optimal` always uses the original kernel matrix as the prior, also after `condition`, when the
  bound uses the previous posterior. The update is then optimal only if the previous posterior happens
  to equal the original prior; so coordinate ascent on a conditioned model need not increase the bound.
* C28: `Structured.predict` on an unconditioned model raises `AttributeError`, because `self.ts` is only
  set by `condition`.
* C89: `k_h()` lacks the factor `alpha_t**2` of `k_h(t1, t2)`, so `predict_filter` conditions samples drawn
  with covariance `K_u` on a prior of a different scale: conditional means are unaffected (the factor cancels)
  but conditional variances are too small or too large by `alpha_t**2`. For the causal model `k_h()` moreover
  vanishes at the inducing points left of zero, where `K_u` does not.
* C31, C32: `fit` under `mean-field-gradient` calls `ignore_qs(previous=True)`, which lacks the required
  argument `current` (`TypeError`); passing `current=False`, as documented, would raise `ValueError`. Under
  `mean-field-ca-gradient` the branch `elif approximation.fit == "bfgs"` does not match `"ca-bfgs"`, so that
  `fit` raises `ValueError`.
* C37: `predict_fourier` passes `num_samples`, which `MeanField.predict_z` does not accept.
* C39: `save` opens the file for writing, which truncates it, before pickling; a crash loses the old file.
* C79: `--fix-hypers` with a mean-field scheme raises `TypeError`; `--iters 0` is silently ignored.
* C90: `load` into a model that has not been instantiated makes all variables unbounded and invisible, so that
  a later `fit` trains none of them (a comment in the code acknowledges the loss of constraints).
* C91: `predict_filter` samples `u` from `approximation.p_u`, which for a conditioned structured model are the
  parameters of `q_u`. The structured `fit` never fits those: it stores samples. The filter predictions are
  thus those of a random initialisation, independent of the data (unless `elbo` was called, see C92).
* C92: `Structured.elbo` runs coordinate ascent and overwrites `q_u` and `q_z`.
* C64 (RGPCM): `gamma_t` is computed from `gamma` before `gamma` is clipped to `alpha / 1.5`. With default
  inducing points the variance of the inducing variables is one only if there are at most five of them.
* C69: RGPCM's `compute_I_ux` pairs `t1` with the second inducing index, GPCM's with the first. Nothing
  breaks, because the kernel only uses the symmetric part (C41) and inference only `t1 = t2`.
* C77: the basis interval is fixed at construction, but the inducing points may be learned to lie 1.5 times as
  far; `compute_I_uz` then uses formulas outside the interval in which they are valid. Inducing points may also
  be learned down to `-1e-4`, although they are lags of a causal filter.
* C93: `n_z` gives `2 ceil(n_z / 2) + 1` features, so one or two more than asked for.
* C94: `integral_abcd` divides by `c**2 - d**2`, which is zero when `alpha - gamma = lam`, for instance when the
  scale is three windows and `gamma` is clipped.
* C95: the formulas of `compute_I_uz` and `compute_I_hz` assume `t <= b`, but `predict` uses them at any time.
* C102: `predict_filter` conditions `GP(k_h())` on `K_u û`. `k_h()` lacks `alpha_t ** 2` (C89), so for the GPCM the mean
  is right but the variance is not. For the CGPCM the kernel is also zero at the negative inducing points, so its
  matrix is singular and, with jitter, what those points say about positive times is lost. For the RGPCM the inducing
  variables are smoothed white noise, not values of the filter, so even the mean is wrong.
* C105: `__prior__` bounds `t_u` by `1.5 * min(t_u)` and `1.5 * max(t_u)`. If all given inducing points are at zero or
  later, as is natural for the CGPCM, the lower bound excludes the smallest one, and the model starts at NaN.
* C106: `scale` is converted to `gamma` by a formula for the GPCM that the CGPCM uses too. The causal model's covariance
  integrates over half a line that ends before the midpoint of the two times, so its length scale is shorter.
* C107: `fix_scale` fixes `gamma`, but the length scale of the signal also depends on `alpha`, which is still learned.
* C111: the docstrings of `predict_kernel` and `sample_kernel` promise a normalised prediction, but the mean variance is only printed.
* C112: after conditioning a structured model, `sample_kernel` silently returns fewer samples than requested when more are requested than are stored.
* C113: in decibels, `summarise_samples` reports `(10 log10 std)^2` as the variance, which is not a variance of anything; the samples 1 and 100 (0 and 20 dB, variance 100) are given a variance above 280.
* C117: `crude_oil.py` multiplies the mean of the kernel by the scale and its variance by the square of the scale; the
  kernel of the data is the *square* of the scale times the normalised one. It shifts spectral densities in decibels by
  `20 * B.log(scale)`, with the natural logarithm, instead of `20 * log10(scale)`.
* C119: `analyse_plots` adds the noise to the predicted variance to get "model and noise error", but `predict` already
  includes the noise.
* C120: the check for equal spacing in `analyse_plots` divides by the largest absolute time instead of the range or the
  spacing, so any times pass when far enough from zero. It raises `ValueError` for fewer than three times.
* C123: conditioning in stages forgets. The fits use the original prior instead of the current one (C36), and `predict` of the
  structured scheme uses `self.ts`, the terms of the last `condition` only. A model fitted to and conditioned on two data sets
  one after the other predicts as if it had only seen the second one.
* C124: `predict` of a conditioned structured model raises `KeyError` unless the model was fitted (with at least two
  iterations) between the last two conditionings.
* C126: the constant Fourier feature is plotted twice in the panel of cosines (`ms == 0` and `ms <= m_max` both hold) and
  again in the panel of sines.
* C127: for the true spectral density, `analyse_plots` evaluates the true kernel at `pred.x`, which are frequencies, as if they
  were lags.
* C130: the limit of the time axis ignores the times of coordinate ascent. The comment says "nearest five", but the code
  rounds up to the next multiple of five.
* C132: `sample_interpolation.py` conditions `k_h()`, which is zero at negative times, so the plotted filter does not depend on
  the inducing variables at negative times, though the kernel and the function do.
* C133: `eq.py` sets `t_plot = B.linspace(44, 44, 500)`: five hundred times the same input, outside the region of interest.
  `smk.py` plots on `[0, 10]`, which is half of the region.
* C139: the harmonics of the RGPCM have period `b - a`, and `b` is by default the last observation. Predictions beyond it do not
  return to the prior but repeat the predictions from `b - a` earlier.
* C143: `q_u` and `q_z` must not both be initialised with zero means: coordinate ascent would stay there for all data. The code
  draws them at random.
* C144: `linspace(-m, m, 1)` is `[-m]`, so that a model with `n_u=1` places its only inducing point of the filter at the far
  left edge of the window rather than at its centre.
* C145: `save` writes the variables, but the depth `_q_i` and the terms `ts` that `condition` sets are attributes of the
  approximation. A loaded model is unconditioned: with the structured scheme, `predict` raises; with a mean-field scheme it returns
  the prior without a warning. `experiments/experiment.py` conditions again after loading, which is what the partial theorem needs.
* C148: not for the signal. Its variance given the inducing variables of the filter is multiplied by the excitation, so that one large
  observation can raise the predicted variance elsewhere (`c148_signal`).
* C157: `np.std(values) / len(values) ** 0.5` divides by `n` twice where an unbiased squared standard error divides by `n - 1` once. With
  six years of data the reported variance is 5/6 of the right one on average; with one value it is zero.
* C165: `fit` of a structured model starts from seed 0 and from the initial posteriors, which it does not change; it does not read the
  samples that an earlier `fit` stored. With `optimise_hypers=False` a second call therefore stores exactly the same samples again.
* C166: because `_sample` repeats a pass that exceeded its attempts, long runs of `ESS` converge to the target weighted by the probability
  that a pass succeeds, not to the target. The two agree up to the smallest such probability.
* C167: `analyse_plots` draws the autocovariance of the data beside the predicted and the true kernel. At lag zero it tends to kernel plus
  noise, whereas the other curves exclude noise. At positive lags it is biased downwards because the sample mean is subtracted: by exactly
  `noise / n` if there is only noise.
* C170: the CGPCM places inducing inputs at negative times, but `k_h` is zero there. Sampled filters are therefore zero at these inputs and
  not equal to the inducing variables.
* C171: `compare_inference.py` passes no names to `minimise_l_bfgs_b`, so the two gradient curves are obtained by training the noise, length
  scales and inducing inputs as well, while coordinate ascent and the structured scheme keep them. The gradient curves can end above the
  evidence of the model of the other curves.
* C172: `analyse_plots` passes the autocovariance without a window to `estimate_psd`. Its Fourier transform can be negative, which the
  absolute value hides, and the total power over the unsorted frequencies (C52) can be negative, which makes all decibels NaN. With
  `window=True` the transform is the periodogram.
* C173: `analyse_plots` reads the noise with `model.ps.noise()`, a variable that exists only if the noise is learned. For a model with
  `fix_noise=True` this raises `KeyError`, and after loading the file of a model that learned its noise it returns the noise in the
  file, although the model predicts with the one of the constructor. Four models or fewer than three observations raise `ValueError`.
* C174: under the structured scheme `elbo` ignores the samples that `fit` stored. It runs coordinate ascent and reports the bound of the
  result, so that a model that was fitted to other data, and predicts something else, reports the same number. As the result is stored,
  `predict_filter` gives another filter afterwards.
* C175: after `condition`, a mean-field fit can lower the bound, for every data set and every positive number of iterations: the updates of
  coordinate ascent and the explicit update of `q(z)` use the original prior, while the bound uses the previous posterior. This is the
  consequence of C36 for `fit`.
* C178: the README says that `fit` takes the keyword argument `rate`. Under every mean-field scheme it raises a `TypeError`.
* C180: `predict` and `predict_z` subtract the square of the mean from the mean square. In double precision the result can be negative for
  samples with positive variance (two neighbouring numbers just above one), also with a small positive noise added. `summarise_samples`
  averages squared deviations, which cannot happen to it.
* C183: `kl` computes the log-determinant of the ratio of two factors with a factorisation, which regularises once more. A distribution diverges from
  itself by `-(n/2) log(1 + B.epsilon)`, and the bound of a model without observations exceeds the evidence by that. The error is at most
  `n B.epsilon / 2`.
* C185: a GPCM asked for an even number `n_u` of inducing points has `n_u + 1`, a CGPCM always `n_u + 2`; an RGPCM replaces a `gamma` above
  two thirds of `alpha`. None of this is documented at the arguments.
* C186: after `condition`, `Structured.elbo_gibbs` adds the density of the previous posterior, which does not depend on hyper-parameters, to
  `log_Z_u`, but samples with the original priors. The gradient is that of neither evidence: for a one-dimensional model it is zero
  although the evidence increases everywhere.
* C190: by default `omega = pi / spacing ** 2` follows the spacing of `t_z`, so refining `t_z` never explains the last
  share (at least 1/3000, about 0.4% in the limit) of the power of the signal of a GPCM. With `omega` given it does. The
  inducing variables of the RGPCM see the filter only up to `pi / alpha`, so that `exp(-2 pi)` (about 0.2%) of the power
  stays unexplained however many there are.
* C192: fits of `mean-field-ca` are not continuous in the data. They stop as soon as a step changes the variables by less than 1e-6, so at data where a step changes them by exactly this much, arbitrarily close data give fits that differ by a further step.
* C193: the constructors choose the number of inducing points by rounding up, so for a window of one the automatic `t_u` of a CGPCM has six points if the scale is one and seven if it is slightly less. Comparing models with nearly equal windows and scales compares models of different sizes unless `n_u` and `n_z` are given.
* C195: `ESS.sample(trace=True)` sums the output of `autocorr`, which starts with the one of lag zero, so the effective sample size shown has three in place of one in its denominator. An uncorrelated chain of n samples shows n / 3, every chain of 22 to 26 samples shows n / 2, and for an oscillating chain of 46 samples -2024 is shown. The numerator counts the first 20 samples, which the autocorrelations leave out.
* C202: the likelihood that the structured posterior uses is the exponential of an expected log-likelihood, which contains the variance of the signal that the inducing variables leave unexplained. At times far from the inducing inputs this pulls the filter towards zero whatever is observed, so credible regions contain the truth less often than they say.
* C204: for the same reason as in C202, an observation far from the inducing inputs can make the posterior mean a worse prediction than the prior mean.
* C207: if all times of the data are within half the scale, the constructors of the GPCM and the CGPCM ask for a single inducing point of the excitation and raise an `IndexError` when they compute the spacing for `omega`. The constructor of the RGPCM does so, whatever the data, if the scale is at least four windows.
* C208: the axis of the figure of the price of oil starts at the first prediction from day 150 on, not at day 150. With data from day 1 to day 364, as in 2013, the observation of day 150 is part of the figure but lies outside of the axis. `plot_kernel_predictions` overwrites the inputs of the structured prediction by those of the mean-field prediction; this shows predictions at wrong inputs if the files are from runs with different inputs.
* C209: `comparative_kernel` of `smk.py` is an exponentiated quadratic without oscillation, so the "optimised" likelihood can be below the true one for every choice of the parameters; in `eq.py` the optimisation starts at the truth.
* C212: `compare` of `vix_forecast_process.py` takes the absolute value of the mean difference and then one tail only, so its p-values are half of those of a two-sided test and never above one half. The paired t-test of `crude_oil_aggregate.py` is two-sided, so the p-values of the two experiments are not comparable.
* C213: `collect` makes a new class for every result and does not put it into a module, so what `predict_kernel`, `predict_psd` and `predict_filter` return cannot be pickled. The scripts take attributes out first and are not affected.
* C214: `extent`, which determines the default inputs of `predict_kernel`, `predict_psd` and `predict_filter`, is computed by the constructors from the initial `alpha` and not updated when `alpha` is learned. If training lengthens the window, the default inputs show only part of the filter and the kernel.
* C215: `fit` creates its own random state from the seed zero, but the approximate posteriors are initialised with `B.randn(n, 1)`, which uses the global random state. So two runs of the same fit agree only if the global random state is the same when the posteriors are first accessed. `B.randn` is called on every access, also if the variable exists already, so merely reading `q_u` changes the random numbers that are drawn afterwards.
* C216: an experiment seeds the global random state once, and the posteriors of all models are initialised from it. So `--model cgpcm` and `--model gpcm cgpcm` train the CGPCM from different initial values with the same `--seed`.
* C219: `reproduce.sh` does not stop when a command raises. If `crude_oil.py` raises while training, `crude_oil_aggregate.py` still
  reports, with predictions of an earlier run if there are any (`c219_false`).
* C220: with `--train` and without `--predict`, `crude_oil.py` and `vix_analyse.py` save new models, but draw the predictions of the old
  ones, if there are any (`c220_false`).
## Plan per property

| id | title | how modelled and proved |
|---|---|---|
| C01 | Polynomial expressions evaluate faithfully | `Model/ExpPoly` (Factor, Term, Poly, ExpPoly, set-order oracle); structural induction on expression trees / lists of terms |
| C02 | Hash-seed independence of polynomial results | `Model/ExpPoly` (Factor, Term, Poly, ExpPoly, set-order oracle); structural induction on expression trees / lists of terms |
| C03 | Substitution commutes with evaluation | `Model/ExpPoly` (Factor, Term, Poly, ExpPoly, set-order oracle); structural induction on expression trees / lists of terms |
| C04 | Polynomial equality is sound | `Model/ExpPoly` (Factor, Term, Poly, ExpPoly, set-order oracle); structural induction on expression trees / lists of terms |
| C05 | Polynomial equality is complete | refutation by a concrete polynomial; sound direction is C04 |
| C06 | A polynomial stores at most one term per monomial | refutation by a concrete cancellation; partial theorem for the remaining case |
| C07 | Dependence queries are truthful | `Model/ExpPoly` (Factor, Term, Poly, ExpPoly, set-order oracle); structural induction on expression trees / lists of terms |
| C08 | Evaluation raises KeyError exactly when a needed variable is missing | `Model/ExpPoly` (Factor, Term, Poly, ExpPoly, set-order oracle); structural induction on expression trees / lists of terms |
| C09 | Quadratic decomposition | `Model/ExpPoly` (Factor, Term, Poly, ExpPoly, set-order oracle); structural induction on expression trees / lists of terms |
| C10 | integrate() is the integral over the real line | `Model/ExpPoly` over R with `Spec/Integrals`; Gaussian integrals from Mathlib, affine changes of variables, induction over the variable list |
| C11 | integrate_half() over one variable is the integral over (-inf, 0] | `Model/ExpPoly` over R with `Spec/Integrals`; Gaussian integrals from Mathlib, affine changes of variables, induction over the variable list |
| C12 | integrate_half() over two variables is the integral over the negative quadrant | `Model/ExpPoly` over R with `Spec/Integrals`; Gaussian integrals from Mathlib, affine changes of variables, induction over the variable list |
| C13 | integrate_box() is the integral over the box | `Model/ExpPoly` over R with `Spec/Integrals`; Gaussian integrals from Mathlib, affine changes of variables, induction over the variable list |
| C14 | Integration never silently accepts a non-quadratic integrand | `Model/ExpPoly` over R with `Spec/Integrals`; Gaussian integrals from Mathlib, affine changes of variables, induction over the variable list |
| C15 | ExpPoly algebra is multiplicative | `Model/ExpPoly` over R with `Spec/Integrals`; Gaussian integrals from Mathlib, affine changes of variables, induction over the variable list |
| C16 | NaturalNormal moments | `Model/Normal` on Mathlib matrices; spectral argument for KL, change of variables for the density |
| C17 | Lazy caches of NaturalNormal are transparent | `Model/Normal` on Mathlib matrices; spectral argument for KL, change of variables for the density |
| C18 | KL divergence is a divergence | `Model/Normal` on Mathlib matrices; spectral argument for KL, change of variables for the density |
| C19 | logpdf is a normalised log-density | `Model/Normal` on Mathlib matrices; spectral argument for KL, change of variables for the density |
| C20 | NaturalNormal.sample has the right first two moments | `Model/Normal` on Mathlib matrices; spectral argument for KL, change of variables for the density |
| C21 | Mean-field coordinate updates are optimal | `Model/Approx` (terms, ELBO, updates, predictions) on Mathlib matrices; algebraic identity + KL >= 0; induction over iterations |
| C22 | Coordinate ascent never decreases the ELBO | `Model/Approx` (terms, ELBO, updates, predictions) on Mathlib matrices; algebraic identity + KL >= 0; induction over iterations |
| C23 | Coordinate ascent loop bookkeeping | `Model/Approx` (terms, ELBO, updates, predictions) on Mathlib matrices; algebraic identity + KL >= 0; induction over iterations |
| C24 | The collapsed ELBO dominates the uncollapsed one | `Model/Approx` (terms, ELBO, updates, predictions) on Mathlib matrices; algebraic identity + KL >= 0; induction over iterations |
| C25 | log_Z_u is the evidence bound collapsed over q(z|u) | `Model/Approx` (terms, ELBO, updates, predictions) on Mathlib matrices; algebraic identity + KL >= 0; induction over iterations |
| C26 | The structured ELBO estimate dominates the mean-field bound | `Model/Approx` (terms, ELBO, updates, predictions) on Mathlib matrices; algebraic identity + KL >= 0; induction over iterations |
| C27 | Sample path and moment path of the optimal update agree | `Model/Approx` (terms, ELBO, updates, predictions) on Mathlib matrices; algebraic identity + KL >= 0; induction over iterations |
| C28 | Predictive variance is at least the noise | `Model/Approx` (terms, ELBO, updates, predictions) on Mathlib matrices; algebraic identity + KL >= 0; induction over iterations |
| C29 | Summed terms are consistent with per-point terms | `Model/Approx` (terms, ELBO, updates, predictions) on Mathlib matrices; algebraic identity + KL >= 0; induction over iterations |
| C30 | Scheme selection | `Model/Fit` (schemes, pattern selection, fit drivers, variable store); case analysis and induction over call histories |
| C31 | Every documented scheme can be fitted | `Model/Fit` (schemes, pattern selection, fit drivers, variable store); case analysis and induction over call histories |
| C32 | ignore_qs selects the documented variables | `Model/Fit` (schemes, pattern selection, fit drivers, variable store); case analysis and induction over call histories |
| C33 | Structured fit stores exactly one thousand samples | `Model/Fit` (schemes, pattern selection, fit drivers, variable store); case analysis and induction over call histories |
| C34 | Gibbs chain alternation and random-state threading | `Model/Fit` (schemes, pattern selection, fit drivers, variable store); case analysis and induction over call histories |
| C35 | Fitting after conditioning never changes earlier posteriors | `Model/Fit` (schemes, pattern selection, fit drivers, variable store); case analysis and induction over call histories |
| C36 | Optimal updates use the current prior | refutation by a one-dimensional instance; partial theorem for the unconditioned model is C21 |
| C37 | predict_fourier works under every scheme | `Model/Fit` (schemes, pattern selection, fit drivers, variable store); case analysis and induction over call histories |
| C38 | Saving and loading restores every variable | `Model/Store` (variables, files, crash points); induction over the saved names |
| C39 | A failed save does not lose the previous checkpoint | `Model/Store` (variables, files, crash points); induction over the saved names |
| C40 | A failed load leaves the model unchanged | `Model/Store` (variables, files, crash points); induction over the saved names |
| C41 | kernel_approx is the conditional expected kernel | `Model/Kernel` matrix identity |
| C42 | Normalised samples have unit variance at the origin | `Model/Kernel`, one-line identity |
| C43 | ESS keeps position and likelihood in step | `Model/ESS` state machine with random tape; induction over attempts, retries and samples |
| C44 | ESS only accepts points on the slice | `Model/ESS` state machine with random tape; induction over attempts, retries and samples |
| C45 | ESS bracket always contains the current state and shrinks | `Model/ESS` state machine with random tape; induction over attempts, retries and samples |
| C46 | ESS attempts are bounded and a failed attempt leaves the chain unchanged | `Model/ESS` state machine with random tape; induction over attempts, retries and samples |
| C47 | ESS reports the number of proposals | `Model/ESS` state machine with random tape; induction over attempts, retries and samples |
| C48 | invert_perm inverts permutations | `Model/Util`, direct |
| C49 | closest_psd leaves PSD matrices unchanged and inverts PD ones | `Model/Util`, direct |
| C50 | closest_psd returns the nearest PSD matrix | `Model/Util`, direct |
| C51 | autocorr is a normalised autocorrelation | `Model/Util`, direct |
| C52 | estimate_psd returns a non-negative spectral density | `Model/Util`, direct |
| C53 | estimate_psd discards no imaginary part | `Model/Util`, direct |
| C54 | Summary error bands are nested | `Model/Util`, direct |
| C55 | The 68% band contains 68% of the samples | `Model/Util`, direct |
| C56 | min_phase preserves the magnitude spectrum | `Model/Util`, direct |
| C57 | hessian returns a symmetric matrix and validates its input | `Model/Util`, direct |
| C58 | Length scale and factor conversions are inverse | `Model/GPCM` (constructor arithmetic and kernel integrals through `Model/ExpPoly`) |
| C59 | Default filter inducing points | `Model/GPCM` (constructor arithmetic and kernel integrals through `Model/ExpPoly`) |
| C60 | Inducing point caps are respected | `Model/GPCM` (constructor arithmetic and kernel integrals through `Model/ExpPoly`) |
| C61 | extend_t_z keeps the grid aligned | `Model/GPCM` (constructor arithmetic and kernel integrals through `Model/ExpPoly`) |
| C62 | Default filter prior is valid only for scale < sqrt(2) window | `Model/GPCM` (constructor arithmetic and kernel integrals through `Model/ExpPoly`) |
| C63 | Unit prior power | `Model/GPCM` (constructor arithmetic and kernel integrals through `Model/ExpPoly`) |
| C64 | Inter-domain processes have unit variance | `Model/GPCM` (constructor arithmetic and kernel integrals through `Model/ExpPoly`) |
| C65 | GPCM kernel integrals are correct | `Model/GPCM` (constructor arithmetic and kernel integrals through `Model/ExpPoly`) |
| C66 | GPCM covariance matrices are positive semi-definite | `Model/GPCM` (constructor arithmetic and kernel integrals through `Model/ExpPoly`) |
| C67 | Sampled kernels are stationary | `Model/GPCM` (constructor arithmetic and kernel integrals through `Model/ExpPoly`) |
| C68 | integral_abcd is the double integral | `Model/RGPCM` (constructor arithmetic, closed-form integrals); interval integrals from Mathlib |
| C69 | RGPCM I_ux is the defining integral | `Model/RGPCM` (constructor arithmetic, closed-form integrals); interval integrals from Mathlib |
| C70 | RGPCM I_hz is the defining integral | `Model/RGPCM` (constructor arithmetic, closed-form integrals); interval integrals from Mathlib |
| C71 | RGPCM I_uz is the defining integral | `Model/RGPCM` (constructor arithmetic, closed-form integrals); interval integrals from Mathlib |
| C72 | Frequency order does not matter | `Model/RGPCM` (constructor arithmetic, closed-form integrals); interval integrals from Mathlib |
| C73 | RGPCM K_z is the feature Gram matrix | `Model/RGPCM` (constructor arithmetic, closed-form integrals); interval integrals from Mathlib |
| C74 | RGPCM K_u is positive definite | `Model/RGPCM` (constructor arithmetic, closed-form integrals); interval integrals from Mathlib |
| C75 | RGPCM decay ordering | `Model/RGPCM` (constructor arithmetic, closed-form integrals); interval integrals from Mathlib |
| C76 | RGPCM feature bookkeeping | `Model/RGPCM` (constructor arithmetic, closed-form integrals); interval integrals from Mathlib |
| C77 | RGPCM covers the data | `Model/RGPCM` (constructor arithmetic, closed-form integrals); interval integrals from Mathlib |
| C78 | build_models builds exactly the requested models in a fixed order | `Model/Experiments`, direct |
| C79 | run forwards the training options | `Model/Experiments`, direct |
| C80 | first_monday terminates with the first Monday | `Model/Experiments`, direct |
| C81 | Runtime tracker excludes paused time | `Model/Experiments`, direct |
| C82 | Train/test split is a partition | `Model/Experiments`, direct |
| C83 | Mirrored samples are symmetric | `Model/Experiments`, direct |
| C84 | Building an expression never raises | refutation by `(1+x+x^2)(1-x+x^2)` under two set orders; partial theorems by counting the pairs of terms per monomial |
| C85 | ESS never moves to a point without likelihood | as C43–C47, every accepted point is strictly above a height |
| C86 | ESS sampling cannot get stuck | refuted for a NaN initial log-likelihood; otherwise induction on the number of passes |
| C87 | Tracked curves start at time zero | `Model/Experiments`, direct |
| C88 | Laplace approximation has the inverse negative Hessian as variance | `Model/ClosestPsd`, from C49 and C57 |
| C89 | The filter kernel is the prior covariance of the filter | `Model/Kernel`, refutation on a constructed model; the exact ratio `alpha_t^2` is proved |
| C90 | Loaded variables stay constrained and trainable | `Model/Vars`, refutation for every file loaded into a fresh model; induction over the file for existing variables |
| C91 | Filter predictions use the fitted posterior | `Model/Fit`, refutation for every structured fit; partial theorem for coordinate ascent |
| C92 | Evaluating the ELBO does not change the model | `Model/Fit`, refutation for the structured bound; frame theorems for everything else |
| C93 | RGPCM honours the requested number of features | `Model/RGPCM`, refutation for every n; the exact count is proved |
| C94 | RGPCM I_ux is defined for every admissible parameter | `Model/RGPCM`, refutation on a constructed model; defined everywhere else |
| C95 | RGPCM integrals are right at prediction times outside the basis interval | `Model/RGPCM`, refutation for all times beyond `b + t_u` by strict monotonicity of the integral; C70 and C71 are the partial results |
| C96 | The Gibbs sampler samples the structured posterior | `Model/Gibbs` over `Model/Approx`; conditionals by completing the square, invariance and uniqueness by Tonelli for a chain with positive transition density |
| C97 | The bounds are ordered and below the log-evidence | `Model/Approx`, `Model/Gibbs`; integrability by a quadratic bound, Jensen pointwise from log x <= x - 1 |
| C98 | The GPCM and the CGPCM meet the assumptions of their approximation | `Model/Instance` ties `Model/GPCM` to `Model/Approx`; every matrix is a Gram matrix of explicit square-integrable functions (a Gaussian factorisation of the filter), residuals by Bessel, definiteness by independence of exponentials |
| C99 | Sampled kernels are valid covariances | `Model/Sample`, `Model/RgpcmSample`, `Model/Kernel`, `Model/ClosestPsd`; as C98, strictness by independence of Gaussians (RGPCM: of functions that are cut off at different points) at a time before all others |
| C100 | sample draws from the process | `Model/Sample`, `Model/RgpcmSample`; moments of standard normals over C99 |
| C101 | Elliptical slice sampling leaves the target distribution invariant | `Spec/ESSLaw` puts independent random numbers on the tape of `Model/ESS`; the law of a pass is computed by induction over the shrinking bracket (`Lemmas/ESSKernel`, `ESSRing`, `ESSLaw`), detailed balance follows from the rotation invariance of two independent Gaussian samples; refuted by a likelihood with two values on the line |
| C102 | Filter predictions follow the approximate posterior | `Model/Filter` with `Spec/Filter`: a sample is an affine function of independent standard normal numbers, so its moments follow from linear algebra; refuted by strict positivity of the Schur complement, by a kernel that vanishes at negative inducing points (a Vandermonde argument gives a time at which the mean is wrong), and by the Markov property of the exponential kernel |
| C103 | Predicted filters of causal models are causal | `Model/Filter`; a factor of a covariance with a zero on the diagonal has a zero row |
| C104 | Fixed parameters are not learned | `Model/Prior` runs `__prior__` on the variable container of `Model/Vars`; a specification of one request (`Asked`) composed along the sequence of requests; the theorems about `GpcmModel.prior` and `RgpcmModel.prior` link it to the model of `__prior__` in C63 to C66 |
| C105 | A new model starts at the constructor's parameters | `Model/Prior` from an empty container; an exact criterion for the bounds to contain the initial values; refuted by a CGPCM with inducing points at zero and later |
| C106 | The scale argument is the length scale of the signal | closed form of a Gaussian integral over C65 for the GPCM; for the CGPCM the integral is over less than half of the line; algebra for the RGPCM |
| C107 | fix_scale keeps the length scale of the signal | C104 with the closed forms of C106; refuted by a container in which `alpha` has doubled |
| C108 | Predictions are the moments of the signal under the approximate posterior | the signal is defined by its covariances (Spec/Signal.lean: A coloured, B white, inducing variables change the second moments by c P c); the moments are integrated exactly and the double integrals interchanged with the square-integrable factorisation of C98; Posts.condition moves the index so that pU is the fitted posterior |
| C109 | The RGPCM meets the assumptions of its approximation | the noise is a smoothing of white noise (factX), its Fourier features smooth the same white noise (factZ: the derivative in the reproducing kernel Hilbert space on the interval, and the kernel before it); all integrals of rgpcm.py are then inner products of square-integrable functions and the argument of C98 applies with filter and noise exchanged; AgreeOn says that the approximation looks at the integrals only at the times it is given |
| C110 | Predicted kernels are valid and average to the expected kernel | a sampled kernel is kernel_approx at one draw of the inducing variables, so C99's factorisation gives positive definiteness; the kernel is an affine function of a quadratic form in the random vector, whose average is computed with std_quad |
| C111 | The kernel prediction is normalised | refuted: sample_kernel computes the mean variance but only prints it (c111_false for every RGPCM whose prior power is not one); the samples are returned unchanged |
| C112 | As many kernels are sampled as requested | refuted for conditioned structured models: _columns takes at most the stored samples without complaint; lengths proved by induction on the lists |
| C113 | Summaries of samples have the samples' mean and variance | sums over lists; refuted in decibels, where the standard deviation is converted to decibels and squared |
| C114 | The spectral density can be predicted with default inputs | linspace starts at zero and has positive spacing, so C53's description of estimate_psd applies to every sampled kernel |
| C115 | Coordinate ascent converges | the gain in ELBO of an iteration is a sum of KL divergences between successive iterates (the gap of C20), so these go to zero; iterates stay in a level set of the KL divergence from the prior, which is compact in mean and variance; on it, a small KL divergence forces a small difference of the natural parameters (compactness); limits pass through the update, which is continuous |
| C116 | The Gibbs sampler converges | the chain of the second block is reversible with respect to its marginal; inner products of iterates only depend on the sum of the numbers of sweeps and decrease, so the iterates are Cauchy in mean square, hence pointwise because the transition has a density; the limit is harmonic, hence an invariant density, hence constant by uniqueness (C96) |
| C117 | Predictions for the crude oil data are in the units of the data | scaling laws for means, standard deviations, quantiles and the discrete Fourier transform, by induction on lists; refuted with scale two, and the exact error given |
| C118 | The VIX forecasts do not use the future | a table in order of time splits into consecutive windows; induction on the number of windows |
| C119 | Dashed lines are two standard deviations of an observation | predicted variances contain the noise (C28); refuted for every model and time |
| C120 | The check for equal spacing does not depend on the origin of time | second differences ignore the origin, the largest absolute time does not; refuted with a witness, and for all times there is an origin that makes them count as equally spaced |
| C121 | The spectrum of the excitation is the Fourier transform of its covariance | integral of complex exponentials over the half lines, with Mathlib's Fourier transform |
| C122 | Comparing models does not depend on the order | scaling laws and symmetry of the normal distribution; wbml's metrics are not modelled |
| C123 | Conditioning on data in stages accounts for all data | `Model/Session.lean` puts fits, conditionings and predictions in sequence on top of `Approx` and `Gibbs`; the samples stored by a fit are given in closed form; they depend on the data of the last stage only. |
| C124 | A conditioned model can predict | An invariant over arbitrary sequences of operations relates the stored samples and terms to the history; whether predict succeeds, and otherwise which exception it raises, is characterised exactly. |
| C125 | Predicted Fourier features are Fourier coefficients | The coefficients of the noise given its inducing variables are computed as integrals; the waves are orthogonal on the interval, so that the features are the coefficients. Means and variances over the samples follow by linearity. |
| C126 | The panels of Fourier features show every feature once | Counting in the lists of indices. Refuted for the constant feature. |
| C127 | The true spectral density is comparable to the predicted one | The frequencies that estimate_psd returns are computed in closed form for the default inputs; how they change with the unit of time refutes the claim. |
| C128 | Tracked times do not count pauses | Events as a list; induction with the invariant that the recorded times are sorted and at most the time so far. |
| C129 | Recording the bound does not change the comparison | The loop with a callback refines the loop without one; the tracked values are values of the bound along coordinate ascent, which never decreases (C23). Running maxima by induction. |
| C130 | The time axis of the comparison shows all curves | Floor arithmetic; refuted with times of coordinate ascent beyond the others. |
| C131 | The kernels of the toy experiments are stationary kernels | Addition theorem of the cosine. Positive definiteness from that of the exponentiated quadratic, since sine and cosine have no common zero. |
| C132 | Interpolated filters, kernels and functions belong together | The loops by induction on the tape of samples; kernel and function by C99; the filter is linear in the inducing variables. Refuted for the filter: what the code computes ignores the values at negative inducing points. |
| C133 | The toy experiments show the truth where the data were removed | The inputs in closed form; refuted for eq.py, where all inputs are equal. |
| C134 | The order of the observations does not matter | Sums over observations are sums over multisets; a simulation of sessions that preserves the terms up to order. |
| C135 | The sign of the observations does not matter | The updates commute with the change of sign; a simulation of sessions. |
| C136 | The origin of time does not matter | `Spec.reclock` replaces the clock of an instantiated model. Every computation of the approximation reads the times only through the integrals, so sessions, coordinate ascent, bounds and predictions agree (`Spec.SameOnClock`). The constructors are equivariant branch by branch, and the integrals are those of the original model by translation of the integration variable (GPCM, through C65) or by cancellation of the shift in the closed forms (RGPCM). |
| C137 | The unit of time does not matter | `Spec.rescaleU` multiplies the inducing variables of the filter by a constant: natural parameters, optimal posteriors, the Gibbs sweep, the bounds and the predictions are followed through the change (`Spec.SameInUnit`), for Cholesky factors that scale (`Spec.CholScaled`, true of the factor with positive diagonal). The GPCM's integrals scale by substitution in the integrals of C65, the RGPCM's by the closed forms. The constructors are equivariant branch by branch. |
| C138 | The unit of the observations does not matter | `Spec.rescaleY` multiplies the function by a constant: terms scale, optimal posteriors do not change, moments scale, hence so do predictions, and the bounds shift. For the GPCM it is combined with the change of scale of the inducing variables of C137. |
| C139 | Far from the data predictions return to the prior | Gaussian bounds on the integrals (`FarLemmas`) give limits of the moments along `cocompact ℝ`; the limit of the variance is identified with the sampled kernels through C110. For the RGPCM all integrals with the harmonics have period b − a, so the mean repeats; a concrete posterior has a constant non-zero mean. |
| C140 | Sampled kernels vanish at long lags | GPCM and CGPCM: the same Gaussian bounds in the entry of the kernel. RGPCM: for large lags the closed form of the double integral separates and one factor is an exponential of the lag. |
| C141 | Which factor of a matrix the linear algebra library returns does not matter | Solutions of linear systems through a factor are the inverse of the matrix, for every factor. Two factors of a positive definite matrix differ by an orthogonal matrix. |
| C142 | The order of the inducing inputs does not matter | An orthogonal change of the inducing variables commutes with every step of both schemes (lemmas for all orthogonal matrices). Permutation matrices are orthogonal, and the integrals of the permuted model are the permuted integrals. Factors are exchanged by C141. |
| C143 | The sign of the filter is not determined | The same lemmas for the matrix minus one, which leaves the integrals as they are. |
| C144 | The GPCM has no arrow of time | The integrals of the acausal model do not change under reflection of all times, and the constructor is followed step by step. A single automatic inducing point is at the far edge of the window for both directions (c144_single), hence the restriction. |
| C145 | Saving and loading does not change what a model predicts | `Model/SaveSession` on `Model/Session`; induction on the history: number of conditionings, terms of the last one and untouched posteriors; refuted for loading alone |
| C146 | A model without observations predicts its prior | `MeanField.predict`, `Structured.predict`, `Session`; moments of the prior, the optimal factors without data are the priors |
| C147 | No bound exceeds the density of a perfect fit | `MeanField.elbo`, `elboCollapsedZ`; KL nonnegative, expected log-likelihood at most that of a perfect fit by nonnegative predicted power |
| C148 | More observations never make the excitation or the filter less certain | `qzOptimal`, `quOptimal`, mean-field updates; precisions add positive semi-definite terms, inversion is antitone; witness for the signal |
| C149 | Repeated measurements act like their averages with less noise | `Session.fitCA`, `Session.fitStructured`, `predict`; all optimal factors agree, induction on the iterations |
| C150 | Given the filter, predictions are linear in the observations | `Structured.predict`, `qzOptimal`; precision free of the values, natural mean linear in them |
| C151 | Predictions and sampled kernels are continuous in time | Integrals against `Spec`, dominated convergence (gates continuous almost everywhere); closed forms of the RGPCM, `integralAbcd` rewritten without branches |
| C152 | More inducing variables never make the best bound worse | `MeanField.elbo`, `elboCollapsedZ`, instances of the three models; a posterior over more variables that is the prior given the old ones, its moments and its KL divergence |
| C153 | Fitted values shrink the observations | `MeanField.predict`, `Structured.predict`, `fitMeanFieldCA`; posterior precision dominates the outer products of the regressors, Jensen over the samples |
| C154 | With ever more noise, predictions return to the prior | `fitMeanFieldCA`, `predict` as functions of the noise; limits of all iterates, the loop returns one of finitely many |
| C155 | A prediction does not depend on the other times asked for | `Session.predictMeanField`, `Session.predictStructured`; predictions as a map over the times |
| C156 | An experiment can be repeated from its files | `runExperiment`, `trainModels` with arbitrary models and a directory of files; what training leaves in the directory, then `Session.save` and `Session.load` |
| C157 | The reported standard errors are standard errors | `aggregate`, `aggregateDiff`, `compareModels`; expectation of the sample variance of independent variables |
| C158 | Sampled functions in the figure can be compared | `sampleStep`, `sampleStepR` with a lower triangular factor; C99 |
| C159 | Scripts model and compare the data they say | `maunaLoa`, `kernelAnalysis`; lists |
| C160 | Samples of long fits are independent draws from the posterior | `Session.fitStructured` under `normalExpect`; the sweep as a Markov kernel, uniform convergence along the chain from C116 |
| C161 | Averages over the samples of the sampler are consistent | `Fit.gibbsLoop` under `normalExpect`; law of large numbers for the kernel |
| C162 | A Monte Carlo error remains however long the fit | `Session.fitStructured`, `condition` and `predictStructured` under `normalExpect`; asymptotic independence (C160) for truncated functions, uniform exponential moments of the sampler |
| C163 | Structured training follows the gradient of the evidence | `elboGibbsGrad` differentiates the modelled `elbo_gibbs` at the held samples (`stop_gradient`); differentiation under the integral with domination by a Gaussian, once over all inducing variables and once given the filter, then the tower property; consistency from C161 |
| C164 | A best mean-field approximation exists | a maximising sequence has bounded divergences from the priors, hence a convergent subsequence (C115); the bound is continuous along it; at the maximum both gaps of the coordinate updates are divergences that have to vanish |
| C165 | Fitting again continues the earlier fit | for coordinate ascent the loop composes unless it stopped by itself, and the bound never decreases over any sequence of fits; the state after a structured fit is a function of the posteriors, which it does not change, and of the fixed seed, so two fits are the last one alone; witness with noise that tells when it is used |
| C166 | Long runs of elliptical slice sampling sample the target | the list that `sample` returns is a function of the three tapes, and each sample uses numbers that are independent of those of the others (`Lemmas/ESSTape`, `ESSRuns`), so the samples form a Markov chain; detailed balance makes it reversible for the target weighted by the probability of success, a pass reaches every set of positive mass (`ESSNull`), and the square of a reversible chain is a Gibbs sampler, whose convergence is known (`MarkovRev`, `ESSChain`); refuted by the likelihood with two values |
| C167 | The autocovariance shown beside a predicted kernel estimates that kernel | series as random variables with given mean and covariance; the exact expectation of the autocovariance with the sample mean subtracted, bounded by the Cesaro mean of the absolute covariances, which vanishes if the kernel does; witnesses with white noise and with moving averages of independent normals |
| C168 | The learned noise is what the predictions leave unexplained | the bound as a function of the noise alone is a one-dimensional function with one stationary point; a collapsed bound dominates the bound with the posterior of the learned noise and touches it there, so a local optimum of one is a local optimum of the other |
| C169 | Collapsing the bound does not change what is best | dominance and equality case of C24, for families of models indexed by hyper-parameters |
| C170 | Sampled filters pass through their inducing variables | the conditional variance is at most the variance of the difference to one inducing variable (completing the square), which the Lipschitz windows and the stationary factors bound in terms of the distance; zero variance forces a zero row of every factor; the CGPCM has negative inducing inputs where its kernel vanishes |
| C171 | The compared schemes bound the same quantity | values at fixed hyper-parameters are bounded by the best mean-field bound (C164); the evidence is at most the height of the noise density, so for a large initial noise every bound at another noise exceeds it |
| C172 | The spectral density shown for the data is that of the data | the padded symmetric transform is a cosine sum over lags; with a window it is the periodogram (double sum by lags, induction on the length); a witness with three observations where the transform is negative and the total power over unsorted frequencies is negative |
| C173 | The figure of predicted functions shows every model with its noise | the loop over the panels as a recursion with exceptions; exact characterisation of success by induction on the models; the noise by C104 (what an instantiation stores) and C38 (what loading restores) |
| C174 | The reported bound is that of the posterior that predicts | sessions (fit, report, condition, predict) as state transformers; frame arguments on the variables each one reads and writes; witnesses with one inducing variable and a chain without noise, by induction on the sweeps |
| C175 | A mean-field fit never makes the bound worse | fit with the values it computes, for an arbitrary minimiser; monotonicity of coordinate ascent (C22), collapsing (C24) and descent of the minimiser chained, induction over sequences of fits; refutation through a fixed point of coordinate ascent (C164) with one posterior replaced by the true optimum |
| C176 | With less noise a model follows the data more closely | the bound and the log-density as functions of the noise and the misfit; for mean-field, the two optimality inequalities added up; for the posterior, a pointwise inequality between tilted densities, integrated |
| C177 | The scheme "mean-field-ca" does not learn hyper-parameters | induction over the operations with the frame rules of instantiation, optimisers and assignments; for the fits that learn, the selected names contain all hyper-parameters |
| C178 | fit takes the learning rate | the keyword is not a parameter of the mean-field method, so the call raises; the structured method has it |
| C179 | Observing data brings the model closer to them | the likelihood of the new data is a decreasing function of the misfit, so that it tilts the posterior towards less misfit (pointwise inequality, integrated); for mean-field, the two optimality inequalities added up; the prior is the posterior given no data |
| C180 | Rounding does not make reported variances negative | rounded arithmetic as a function with bounded relative error, sums as arbitrary trees; accumulated errors by induction over the tree; rounding to 53 bits, to the nearest and to even, is shown to be such an arithmetic and evaluated on the counterexample |
| C181 | As regularisation vanishes, results become those of exact linear algebra | factorisations as arbitrary functions that add between nothing and a given amount to the diagonal; inverses, determinants and everything computed from them are continuous at positive-definite matrices; the fit by induction over the iterations of the loop, which eventually take the same branch |
| C182 | Regularisation never makes predicted variances smaller than the noise | the regularised inverses are those of another valid instance, and the regularised second moment minus the outer product of the mean is positive semidefinite |
| C183 | Reported divergences are not negative | divergence of a distribution from itself computed in closed form; lower bound from the eigenvalues of the regularised ratio |
| C184 | All mean-field schemes look for the same posteriors | the bound differs from its maximum over one posterior by a divergence, which is differentiable along curves and has derivative zero where it vanishes; conversely the divergence is convex along straight lines of means and variances, so that it is stationary only at its minimum |
| C185 | Parameters that are given are used | by cases on which arguments are given, through the steps of the constructors; the exceptions (number of inducing points of the filter, decay of the filter of the RGPCM) are refuted |
| C186 | Structured training follows the gradient of the evidence also after conditioning | the gradient differs from that of C163 by the derivative of the density of the filter's prior; refuted with a one-dimensional model whose evidence is computed |
| C187 | With vanishing noise a model follows the data as closely as it can | Gibbs' inequality bounds the expected misfit by the logarithm of the normalising constant, which the prior probability of nearly optimal inducing variables bounds; mean-field approximations are compared with narrow normal distributions |
| C188 | More samples make Monte Carlo estimates more accurate, at the usual rate | samples are affine functions of independent standard normal vectors, under whose product law variances add; the logarithm of the normalising constant and sampled kernels grow at most quadratically and so have finite variance |
| C189 | The GPCM models smooth signals, the CGPCM and the RGPCM rough ones | overlaps of filters are Gaussian integrals over the line (GPCM, closed form) or the half line (CGPCM, differentiated under the integral; the derivatives add up to a boundary term); for the RGPCM they are even and differentiable by dominated convergence, so that only the prior covariance has a kink |
| C190 | With ever more inducing points the inducing variables determine the signal | the unexplained power is at most the sum of two squared norms of residuals of L² projections; translates of a Gaussian at the points of an interval are total in L², because a function that is orthogonal to them has an analytic Laplace transform that vanishes on an interval and hence a vanishing characteristic function; for the default omega a wave at the frequency of the grid is orthogonal to all inducing functions; for the RGPCM the part of the filter after the last inducing point is |
| C191 | Training cannot drive the noise to zero | the residual of a projection of the filtered kernel on finitely many products is positive, because the kernel is not a finite sum of products (the Gram matrix of its rows is positive definite for any number of rows); the second moment of the signal is at least the squared mean plus this residual, so the expected misfit is at least c_sum; the rest is the function -n/2 log(2 pi v) - S/(2 v) of the noise and a compactness argument as for C164 |
| C192 | Nearly equal data give nearly equal results | every quantity is a composition of continuous functions of the matrices of the instance at the times, for any filter; the Cholesky factor is continuous by induction over its columns; the integrals are continuous in the times (C151); for coordinate ascent the stopping rule is a comparison, so the fit is continuous unless a step changes the variables by exactly 1e-6, and a fit that jumps is constructed with the first point at which the change reaches 1e-6 |
| C193 | Nearly equal parameters give nearly equal results | for GPCM and CGPCM by dominated convergence with Gaussian bounds that are uniform in the parameters, for the RGPCM from the closed forms; objectives and predictions follow with C192; the constructor is continuous if the numbers of inducing points are given, and a model whose automatic number of inducing points jumps is computed |
| C194 | Showing progress does not change the samples | the loop with reports is modelled beside the loop without, and by induction on the number of samples both go through the same states; the effective sample size never raises because the chain is not empty |
| C195 | The effective sample size shown is that of the chain | autocorr returns lag zero as well, so three takes the place of one; for 22 to 26 samples all lags are included and their sum is fixed by the centring, so half the number of samples is shown for every chain; every sequence of numbers is a run of the sampler for some tape, and two runs refute the statement |
| C196 | The curves in a summary are samples | direct calculation for every permutation; the inequality in decibels is Jensen's |
| C197 | The gap between the bound and the log-evidence measures how wrong the approximation is | the bound is split into the two divergences from the priors and the expected log-likelihood, which is integrable over the product because it is bounded above; Pinsker's inequality is proved for densities, with its case of equality |
| C198 | The mean-field scheme is at least as certain as the structured one | the precision given the filter is affine in the products of the inducing variables, so its average is the precision of the update; the inverse is convex, by a variational formula for its quadratic form |
| C199 | The Gibbs sampler forgets its start at a geometric rate | one sweep leads into a fixed compact set with probability at least one half from every state, because the mean given the data is bounded in terms of the data alone and the precision is at least that of the prior; on that set the density of the next sweep is bounded from below, so that two sweeps shrink the range of every function by a fixed factor; the errors of averages are sums of such terms |
| C200 | The stored samples are nearly independent draws from the structured posterior, at a geometric rate | `Session.fitStructured` under `normalExpect`; the rate of C199 and induction over the samples, which are `thinning` sweeps apart |
| C201 | No model beats the truth by more than chance | the evidence of C97 integrates over the observations to the prior expectation of the exponential of minus the unexplained variance over twice the noise (Tonelli), which is at most one; Markov's and Gibbs' inequalities; with learned noise the best bound decays like the inverse of the observation, which is not integrable |
| C202 | Credible regions contain the truth as often as they say | `structuredPosterior` times `evidence` is the joint density of observations and inducing variables; the law of total expectation, up to the factor of C201, which is one if nothing is left unexplained; a witness far from the inducing inputs |
| C203 | The figure of the priors shows what it says | `PriorFigure` models the two kinds of panel; monotone quantiles and `band_lower` of C55; ten to the power of the decibels over ten is the identity on positive numbers; the inequality of the arithmetic and geometric mean with its case of equality |
| C204 | No prediction is better than the posterior mean | the law of total expectation of C202 turns the error of a prediction into an average over the observations of errors under the posterior; the mean minimises each; further observations can be ignored; the witness of C202 |
| C205 | The bounds are below the score of predicting the observations one after another | the evidence of one observation more is the evidence times a posterior expectation (`lintegral_posterior`), and by Jensen's inequality the exponential of the expected log-likelihood is at most the predictive density; induction on the data; C97 and the symmetry of the evidence in the observations |
| C206 | With ever more inducing points credible regions become calibrated and the evidence the density of the data | the expected variance of the signal given the inducing variables under the prior is the unexplained power of C190 (the model with the mean of the signal taken away is again valid, and its expected misfit is known); Jensen's inequality bounds the fraction explained of C202, which is the mass of the evidence; C190 for the limit |
| C207 | A model can be built from a window, a scale and the times of the data | evaluation of the model of the constructors branch by branch; the number of points of a grid is a ceiling, which is at least two exactly if what is rounded exceeds one; C60 and C76 for the sizes |
| C208 | The figures of the comparisons show predictions where they were made, and data in their units | `kernelFigure`, `psdFigure`, `oilFigure`; masks and zips of lists, frequencies of `predict_psd` start at zero, last point of `linspace` |
| C209 | The likelihoods printed beside the bounds are benchmarks | `analyseElbos`, `gpLogpdf`; the evidence has mass at most one as a function of the data (C97, C201), Markov's inequality for the ratio of densities; closed forms for two observations |
| C210 | Training reaches exactly the parameters that the constraints allow | a training replaces the latent values of selected visible variables by any of the same length; by induction, constraints and lengths survive, and a constraint maps every latent value into its set; backwards, the latent values are those of the wanted parameters |
| C211 | Comparisons of forecasts do not depend on the unit of the prices, and reward being right | normalisation by mean and standard deviation removes unit and origin before the data reach the model, and untransforming puts them back; both metrics are means of functions of standardised residuals; the expected log-likelihood is a function of two moments that log x <= x - 1 maximises |
| C212 | The reported p-values are p-values | `compareModels`, `tStatistic`; the normal distribution function is continuous and strictly increasing, so tail probabilities of a standard normal variable are uniform up to one half; a witness with a symmetric distribution |
| C213 | Predictions have the attributes they were given and can be saved, and every model has its own integrals | `collect`, `PyObj`, `picklable`, `Classes`, `method`, `importModels`; induction over keywords, tuples and registered methods; a new class is not the one that any name refers to |
| C214 | The window is the length of the filter, and default inputs of predictions cover the filter | `filterKernel` and `extent` of both models, `instantiate`, `prior`; Gaussian and exponential integrals, a bound for Gaussian tails |
| C215 | Fits do not depend on random numbers drawn elsewhere | a process with a global random state and a model whose posteriors need not exist (`GlobalState`); refinement of `Session`, induction over sequences of operations |
| C216 | What an experiment finds for a model does not depend on the other models | `build_models` and the training loop with one global random state, for arbitrary training (`SeededRun`); induction over the models |
| C217 | The compared schemes start from the same point | initialisation of the four models in one process, the callback of the structured scheme and its curve (`CompareStart`), on top of C129, C171 and C188 |
| C218 | Compiling an objective does not change its values | latent vectors, tracing and the sequence of calls (`JitObjective`): setting the latent vector of a container in a copy of one alike gives the container back; invariant over the traces that are kept |
| C219 | Reported results come from the run that reports them | the files that the scripts of the paper write and read, and a shell script that carries on after errors (`Reproduce`); induction over operations and commands: states of the files that agree on what was written stay in agreement. The paths of the scripts are constants, so that they are checked by evaluation |
| C220 | A figure can be drawn again without training, and belongs to the saved model | two runs of a script with different options on the files of `Reproduce`, for arbitrary contents |
