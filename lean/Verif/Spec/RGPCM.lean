import Mathlib.Analysis.SpecialFunctions.Exp
import Mathlib.Analysis.SpecialFunctions.Trigonometric.Basic
import Mathlib.Analysis.Calculus.Deriv.Basic
import Mathlib.MeasureTheory.Integral.IntervalIntegral.Basic
import Mathlib.MeasureTheory.Measure.Lebesgue.Basic

/-!
# What the RGPCM integrals should be

The filter is `h(s) = alphaT exp(-alpha s) w(s)` for `s ≥ 0` and zero for `s < 0`, with `w` white noise. The
noise `x` is a Matérn-1/2 process with decay `lam`. The inducing variables of the filter are
`u(t) = ∫_{s ≤ t} gammaT exp(-gamma (t - s)) w(s) ds`. The inducing variables of `x` are its projections on
Fourier features on `[a, b]`: cosines for the frequencies up to `M`, and sines after that. Nothing here refers
to the model.
-/

open MeasureTheory Real

namespace Gpcm.Spec.R

/-- Parameters of the RGPCM. -/
structure Params where
  alpha : ℝ
  alphaT : ℝ
  lam : ℝ
  gamma : ℝ
  gammaT : ℝ
  a : ℝ
  b : ℝ
  M : ℤ

variable (p : Params)

/-- Covariance of the noise. -/
noncomputable def kx (x y : ℝ) : ℝ := exp (-(p.lam * |x - y|))

/-- The window of the filter: what multiplies the white noise. -/
noncomputable def win (s : ℝ) : ℝ := if 0 ≤ s then p.alphaT * exp (-(p.alpha * s)) else 0

/-- The smoothing of white noise that gives the inducing variable at `u`. -/
noncomputable def smooth (u s : ℝ) : ℝ := if s ≤ u then p.gammaT * exp (-(p.gamma * (u - s))) else 0

/-- Covariance of the filter at `s` and the inducing variable at `u`. -/
noncomputable def khu (s u : ℝ) : ℝ := win p s * smooth p u s

/-- Covariance of two inducing variables of the filter. -/
noncomputable def ku (u1 u2 : ℝ) : ℝ := ∫ s, smooth p u1 s * smooth p u2 s

/-- Prior covariance of the signal. -/
noncomputable def ihx (t1 t2 : ℝ) : ℝ := ∫ s, win p s * win p s * kx p (t1 - s) (t2 - s)

/-- The quadratic form of the signal's covariance in the inducing variables of the filter, with the first
inducing point paired with the first time, as in the GPCM. -/
noncomputable def iux (t1 t2 u1 u2 : ℝ) : ℝ :=
  ∫ s1, ∫ s2, khu p s1 u1 * khu p s2 u2 * kx p (t1 - s1) (t2 - s2)

/-- The frequency of a feature. -/
noncomputable def freq (m : ℕ) : ℝ :=
  if (m : ℤ) ≤ p.M then 2 * π * m / (p.b - p.a) else 2 * π * ((m : ℝ) - p.M) / (p.b - p.a)

/-- A Fourier feature on `[a, b]`. -/
noncomputable def wave (m : ℕ) (τ : ℝ) : ℝ :=
  if (m : ℤ) ≤ p.M then cos (freq p m * (τ - p.a)) else sin (freq p m * (τ - p.a))

/-- Covariance of the noise at `τ` and an inducing variable of the noise: the feature on `[a, b]`, which decays
outside it. -/
noncomputable def phi (m : ℕ) (τ : ℝ) : ℝ :=
  if τ < p.a then (if (m : ℤ) ≤ p.M then exp (-(p.lam * (p.a - τ))) else 0)
  else if τ ≤ p.b then wave p m τ
  else if (m : ℤ) ≤ p.M then exp (-(p.lam * (τ - p.b))) else 0

/-- The quadratic form of the signal's second moment in the inducing variables of the noise. -/
noncomputable def ihz (t : ℝ) (m n : ℕ) : ℝ :=
  ∫ τ, win p (t - τ) * win p (t - τ) * (phi p m τ * phi p n τ)

/-- The bilinear form of the signal's mean in both sets of inducing variables. -/
noncomputable def iuz (t u : ℝ) (m : ℕ) : ℝ := ∫ τ, khu p (t - τ) u * phi p m τ

/-- The inner product of the reproducing kernel Hilbert space of the Matérn-1/2 kernel on `[a, b]`. -/
noncomputable def inner (lam a b : ℝ) (f g : ℝ → ℝ) : ℝ :=
  1 / (2 * lam) * (∫ t in a..b, (lam * f t + deriv f t) * (lam * g t + deriv g t)) + f a * g a

end Gpcm.Spec.R
