import Verif.Model.Gibbs
import Mathlib.Analysis.Calculus.Deriv.Basic

/-!
# Model of the gradient with which `Structured.fit` learns hyper-parameters

Automatic differentiation is modelled as exact differentiation. The model is a function `M` of one parameter, all other parameters
held fixed.
-/

open Matrix Real

namespace Gpcm

variable {ι κ : Type} [Fintype ι] [DecidableEq ι] [Fintype κ] [DecidableEq κ]
variable (C : Chols ι κ)

/-- The derivative of the value of `elbo_gibbs` with respect to a parameter, at `a`, that automatic differentiation gives to
`minimise_adam` (approx.py:759-776). `stop_gradient` (approx.py:457) treats the last sample of `u` as a constant, so the
derivative is of the value at that sample, which is the value after no further sweeps. -/
noncomputable def elboGibbsGrad (M : ℝ → Inst ι κ) (a : ℝ) (s : Posts ι κ) (d : List (ℝ × ℝ)) (W : ℕ → (ι → ℝ) × (κ → ℝ))
    (k : ℕ) (x : (ι → ℝ) × (κ → ℝ)) : ℝ :=
  deriv (fun θ => (elboGibbs C (M θ) s d W 0 (elboGibbs C (M a) s d W k x).2).1) a

end Gpcm
