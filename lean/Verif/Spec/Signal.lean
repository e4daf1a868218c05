import Mathlib.MeasureTheory.Integral.Bochner.Basic
import Mathlib.MeasureTheory.Measure.Lebesgue.Basic
import Mathlib.Data.Matrix.Mul

/-!
# What the moments of the signal should be

The signal is `f(t) = ∫ A(t - τ) B(τ) dτ`, where `A` and `B` are independent processes: `A` has prior covariance `K`, and
`B` is white noise times a deterministic function `w`. Each process has inducing variables; `c a s` is the covariance of
`A(s)` with its inducing variable `a`, and `d b s` that of `B(s)` with its inducing variable `b`. Given inducing
variables `K_a û`, where `K_a` is their covariance matrix, `A` has the mean `∑ c a s û a`, and its covariance falls by
`∑ c a s (K_a⁻¹) a b c b t`. Nothing here refers to the model.
-/

open MeasureTheory

namespace Gpcm.Spec

variable {ι κ : Type} [Fintype ι] [Fintype κ]

/-- What inducing variables change about the second moment of a process, where `P` is the second moment of `û` minus the
inverse of the covariance matrix of the inducing variables. -/
noncomputable def change (c : ι → ℝ → ℝ) (P : Matrix ι ι ℝ) (s t : ℝ) : ℝ := ∑ a, ∑ b, c a s * P a b * c b t

/-- The mean of the signal, when the means of the inducing variables are `u` and `z`. -/
noncomputable def signalMean (c : ι → ℝ → ℝ) (u : ι → ℝ) (d : κ → ℝ → ℝ) (z : κ → ℝ) (t : ℝ) : ℝ :=
  ∫ τ, (∑ a, c a (t - τ) * u a) * ∑ b, d b τ * z b

/-- The second moment of the signal: `E[A(t - τ₁) A(t - τ₂)] E[B(τ₁) B(τ₂)]` integrated over both, where the white noise in
`B` contributes the diagonal. -/
noncomputable def signalM2 (K : ℝ → ℝ → ℝ) (c : ι → ℝ → ℝ) (P : Matrix ι ι ℝ) (w : ℝ → ℝ) (d : κ → ℝ → ℝ)
    (Q : Matrix κ κ ℝ) (t : ℝ) : ℝ :=
  (∫ τ, w τ ^ 2 * (K (t - τ) (t - τ) + change c P (t - τ) (t - τ))) +
    ∫ τ₁, ∫ τ₂, (K (t - τ₁) (t - τ₂) + change c P (t - τ₁) (t - τ₂)) * change d Q τ₁ τ₂

end Gpcm.Spec
