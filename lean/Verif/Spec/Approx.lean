import Mathlib.Analysis.SpecialFunctions.Log.Basic
import Mathlib.Analysis.SpecialFunctions.Trigonometric.Basic
import Mathlib.LinearAlgebra.Matrix.PosDef

/-!
# What the bounds and predictions of the approximations should be

Nothing here refers to the model.
-/

open Matrix Real

namespace Gpcm.Spec

/-- Expectation of the log-density of an observation `y` with noise variance `s` when the signal has first
moment `m₁` and second moment `m₂`. -/
noncomputable def ell (s y m₁ m₂ : ℝ) : ℝ :=
  -(1 / 2) * log (2 * π * s) - (y ^ 2 - 2 * y * m₁ + m₂) / (2 * s)

/-- Inner product of matrices. -/
def inner {α β : Type} [Fintype α] [Fintype β] (X Y : Matrix α β ℝ) : ℝ := ∑ i, ∑ j, X i j * Y i j

/-- Moments of the signal `f(t)` given independent inducing variables, in terms of the integrals of the
point, the inverse kernel matrices and the moments of the inducing variables. -/
def moments {ι κ : Type} [Fintype ι] [Fintype κ] (ihx : ℝ) (iux : Matrix ι ι ℝ) (ihz : Matrix κ κ ℝ)
    (iuz : Matrix ι κ ℝ) (KuInv : Matrix ι ι ℝ) (KzInv : Matrix κ κ ℝ)
    (u : ι → ℝ) (u2 : Matrix ι ι ℝ) (z : κ → ℝ) (z2 : Matrix κ κ ℝ) : ℝ × ℝ :=
  (u ⬝ᵥ (iuz *ᵥ z),
    inner (iux - iuz * KzInv * iuzᵀ) u2 + inner (ihz - iuzᵀ * KuInv * iuz) z2 +
      (ihx - inner KuInv iux - inner KzInv ihz + inner KuInv (iuz * KzInv * iuzᵀ)) +
      inner u2 (iuz * z2 * iuzᵀ))

end Gpcm.Spec
