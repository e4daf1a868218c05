import Verif.Spec.Approx
import Verif.Model.Approx

/-!
# Spec: data at given times

The words in which C201 and C202 are stated: a data set as a function of its observations, and what the inducing variables say about
the signal at one time.
-/

open Matrix

namespace Gpcm.Spec

variable {ι κ : Type} [Fintype ι] [DecidableEq ι] [Fintype κ] [DecidableEq κ]

/-- Observations `y` at times `t`. -/
def dataset {n : ℕ} (t y : Fin n → ℝ) : List (ℝ × ℝ) := List.ofFn fun i => (t i, y i)

/-- The mean and the second moment of the signal at time `s` given the inducing variables. -/
noncomputable def given (m : Inst ι κ) (s : ℝ) (x : (ι → ℝ) × (κ → ℝ)) : ℝ × ℝ :=
  moments (m.iHx s s) m.iUx (m.iHz s) (m.iUz s) m.Ku⁻¹ m.Kz⁻¹ x.1 (vecMulVec x.1 x.1) x.2 (vecMulVec x.2 x.2)

/-- The variance of the signal at time `s` given the inducing variables: what they leave unexplained. -/
noncomputable def residual (m : Inst ι κ) (s : ℝ) (x : (ι → ℝ) × (κ → ℝ)) : ℝ := (given m s x).2 - (given m s x).1 ^ 2

end Gpcm.Spec
