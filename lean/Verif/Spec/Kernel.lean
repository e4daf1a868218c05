import Verif.Spec.Approx
import Mathlib.LinearAlgebra.Matrix.PosDef

/-!
# What predictions of the kernel should be

Nothing here refers to the model.
-/

namespace Gpcm.Spec

/-- The expected kernel between two times, given inducing variables `K_u û` of the filter: the prior covariance, minus
the part that the inducing variables determine, plus that part given them. Here `u2` is the second moment of `û`. -/
def expectedKernel {ι : Type} [Fintype ι] (ihx : ℝ) (KuInv Iux u2 : Matrix ι ι ℝ) : ℝ :=
  ihx - inner KuInv Iux + inner u2 Iux

/-- A stationary kernel: an even function of the lag that gives a positive definite matrix at all distinct times. -/
def IsKernel (k : ℝ → ℝ) : Prop :=
  (∀ x, k (-x) = k x) ∧ ∀ t : List ℝ, t.Nodup →
    (Matrix.of fun i j : Fin t.length => k (t.get i - t.get j)).PosDef

end Gpcm.Spec
