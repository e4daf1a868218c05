import Verif.Spec.Integrals

/-!
# What the GPCM integrals should be

The filter `h` has prior covariance `kH`, the white noise `x` and its inter-domain transform `s`
have cross-covariance `kXS`; in the causal model `h` is zero on the negative half line. Nothing here
refers to the model.
-/

open MeasureTheory Real

namespace Gpcm.Spec

/-- Parameters of the GPCM. -/
structure Params where
  causal : Bool
  alpha : ℝ
  alphaT : ℝ
  gamma : ℝ
  omega : ℝ
  omegaT : ℝ

variable (p : Params)

/-- Prior covariance of the filter, without the causality constraint. -/
noncomputable def kH (x y : ℝ) : ℝ :=
  p.alphaT ^ 2 * exp (-(p.alpha * x ^ 2)) * exp (-(p.alpha * y ^ 2)) * exp (-(p.gamma * (x - y) ^ 2))

/-- Covariance of white noise and its inter-domain transform. -/
noncomputable def kXS (x y : ℝ) : ℝ := p.omegaT * exp (-(p.omega * (x - y) ^ 2))

/-- Causality: the filter vanishes on the negative half line. -/
noncomputable def gate (x : ℝ) : ℝ := if p.causal = true ∧ x < 0 then 0 else 1

/-- Prior covariance of the signal. -/
noncomputable def ihx (t1 t2 : ℝ) : ℝ :=
  ∫ τ, gate p (t1 - τ) * gate p (t2 - τ) * kH p (t1 - τ) (t2 - τ)

/-- Covariance of the inter-domain transform. -/
noncomputable def kz (z1 z2 : ℝ) : ℝ := ∫ τ, kXS p z1 τ * kXS p τ z2

/-- The quadratic form of the signal's covariance in the inducing points of the filter. -/
noncomputable def iux (t1 t2 u1 u2 : ℝ) : ℝ :=
  ∫ τ, gate p (t1 - τ) * gate p (t2 - τ) * (kH p (t1 - τ) u1 * kH p u2 (t2 - τ))

/-- The quadratic form of the signal's second moment in the inducing points of the noise. -/
noncomputable def ihz (t z1 z2 : ℝ) : ℝ :=
  ∫ τ₁, ∫ τ₂, gate p (t - τ₁) * gate p (t - τ₂) *
    (kH p (t - τ₁) (t - τ₂) * kXS p τ₁ z1 * kXS p z2 τ₂)

/-- The bilinear form of the signal's mean in both sets of inducing points. -/
noncomputable def iuz (t u z : ℝ) : ℝ :=
  ∫ τ, gate p (t - τ) * (kH p (t - τ) u * kXS p τ z)

end Gpcm.Spec
