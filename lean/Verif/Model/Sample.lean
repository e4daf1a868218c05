import Verif.Model.Kernel
import Verif.Model.ClosestPsd

/-!
# Model of `AbstractGPCM.sample` (`gpcm/model.py`) for the GPCM and the CGPCM

The random numbers are arguments. `B.sample(a)` is a Cholesky factor of `a` times random numbers.
-/

open Matrix Real

namespace Gpcm

/-- A nested list as a matrix. -/
def toMatrix (n : ℕ) (K : List (List ℝ)) : Matrix (Fin n) (Fin n) ℝ :=
  .of fun i j => (K.getD i []).getD j 0

variable (R : Runtime ℝ)

/-- `AbstractGPCM.sample` (model.py:228-248). The random numbers `w` are used for `u`, `e` for `f` and
`d` for the observations. -/
noncomputable def GpcmModel.sample (g : GpcmModel) (Cu : CholOracle (Fin g.tU.length)) (t : List ℝ)
    (Ct : CholOracle (Fin t.length))
    (svd : Matrix (Fin t.length) (Fin t.length) ℝ → Util.Svd t.length) (normalise : Bool)
    (w : Fin g.tU.length → ℝ) (e d : Fin t.length → ℝ) :
    Except PyErr (List (List ℝ) × (Fin t.length → ℝ)) :=
  bind1 (matE fun i j => g.kuEntry R (g.tU.get i) (g.tU.get j)) fun Ku =>
  let u := Cu.chol Ku *ᵥ w
  bind1 (g.kernelApprox R Cu t t u) fun K =>
  bind1 (sampleKernel K normalise) fun K =>
  let f := Ct.chol (Util.closestPsd svd (toMatrix t.length K) false) *ᵥ e
  .ok (K, fun i => f i + √g.noise * d i)

end Gpcm
