import Verif.Model.RGPCM
import Verif.Model.Instance

/-!
# The integrals that an RGPCM hands to its approximation

The counterpart of `Model/Instance.lean` for the functions of `rgpcm.py`.
-/

namespace Gpcm

/-- What the approximation of an RGPCM works with is what the functions of `rgpcm.py` return, at the times `T` at which the
approximation asks for integrals. `perm` is what `np.argsort(model.ms)` returned. -/
structure RgpcmModel.IsInst (g : RgpcmModel) (perm : List ℕ) (T : Set ℝ) (m : Inst (Fin g.tU.length) (Fin g.ms.length)) :
    Prop where
  /-- `self.K_u` (model.py:44). -/
  Ku : m.Ku = g.computeKu
  /-- `self.K_z` (model.py:42). -/
  Kz : m.Kz = g.computeKz
  /-- `self.noise` (rgpcm.py:195-196). -/
  noise : m.noise = g.noise
  /-- `compute_i_hx` (approx.py:144). -/
  iHx : ∀ a b, m.iHx a b = g.ihx a b
  /-- `compute_I_ux` (approx.py:145), where both times default to zero (rgpcm.py:307-317, 331-332). -/
  iUx : ∀ i j, g.iuxEntry 0 0 (g.tU.get i) (g.tU.get j) = .ok (m.iUx i j)
  /-- `compute_I_hz` (approx.py:146). -/
  iHz : ∀ t ∈ T, g.computeIhz perm t = .ok (rows (m.iHz t))
  /-- `compute_I_uz` (approx.py:147). -/
  iUz : ∀ t ∈ T, g.computeIuz perm t = .ok (rows (m.iUz t))

end Gpcm
