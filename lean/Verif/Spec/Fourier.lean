import Mathlib.LinearAlgebra.Matrix.NonsingularInverse
import Verif.Spec.RGPCM

/-!
# Fourier coefficients

The coefficients of a function on `[a, b]` in terms of the cosines and sines of period `b - a`. Nothing here refers to the
model.
-/

open MeasureTheory Real

namespace Gpcm.Spec

/-- The mean of `f` on `[a, b]`: the constant coefficient. -/
noncomputable def meanCoef (a b : ℝ) (f : ℝ → ℝ) : ℝ := 1 / (b - a) * ∫ t in a..b, f t

/-- The coefficient of the cosine with `k` periods on `[a, b]`. -/
noncomputable def cosCoef (a b : ℝ) (f : ℝ → ℝ) (k : ℕ) : ℝ :=
  2 / (b - a) * ∫ t in a..b, f t * cos (2 * π * k / (b - a) * (t - a))

/-- The coefficient of the sine with `k` periods on `[a, b]`. -/
noncomputable def sinCoef (a b : ℝ) (f : ℝ → ℝ) (k : ℕ) : ℝ :=
  2 / (b - a) * ∫ t in a..b, f t * sin (2 * π * k / (b - a) * (t - a))

/-- The coefficient of the feature `m`, where the features up to `M` are the cosines, the first of which is constant, and
the features from `M + 1` are the sines. -/
noncomputable def featureCoef (a b : ℝ) (M : ℤ) (f : ℝ → ℝ) (m : ℕ) : ℝ :=
  if m = 0 then meanCoef a b f
  else if (m : ℤ) ≤ M then cosCoef a b f m
  else sinCoef a b f ((m : ℤ) - M).toNat

/-- The mean of the noise at `τ` given values `z` of its inducing variables, whose covariance matrix is `K`. -/
noncomputable def noiseMean (p : R.Params) {n : ℕ} (ms : Fin n → ℕ) (K : Matrix (Fin n) (Fin n) ℝ) (z : Fin n → ℝ)
    (τ : ℝ) : ℝ := ∑ i, R.phi p (ms i) τ * (K⁻¹.mulVec z) i

end Gpcm.Spec
