import Verif.Model.Sample
import Verif.Model.RGPCM

/-!
# Model of `AbstractGPCM.sample` (`gpcm/model.py`) for the RGPCM

The random numbers are arguments. `B.sample(a)` is a Cholesky factor of `a` times random numbers.
-/

open Matrix Real

namespace Gpcm

/-- `AbstractGPCM.sample` (model.py:228-248) for the RGPCM. The random numbers `w` are used for `u`, `e` for `f`
and `d` for the observations. -/
noncomputable def RgpcmModel.sample (g : RgpcmModel) (Cu : CholOracle (Fin g.tU.length)) (t : List ℝ)
    (Ct : CholOracle (Fin t.length))
    (svd : Matrix (Fin t.length) (Fin t.length) ℝ → Util.Svd t.length) (normalise : Bool)
    (w : Fin g.tU.length → ℝ) (e d : Fin t.length → ℝ) :
    Except PyErr (List (List ℝ) × (Fin t.length → ℝ)) :=
  let u := Cu.chol g.computeKu *ᵥ w
  bind1 (g.kernelApprox Cu t t u) fun K =>
  bind1 (sampleKernel K normalise) fun K =>
  let f := Ct.chol (Util.closestPsd svd (toMatrix t.length K) false) *ᵥ e
  .ok (K, fun i => f i + √g.noise * d i)

end Gpcm
