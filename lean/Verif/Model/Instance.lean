import Verif.Model.GPCM
import Verif.Model.Approx

/-!
# The integrals that a GPCM hands to its approximation

`AbstractGPCM.__prior__` (model.py:40-48) computes the kernel matrices, and
`Approximation._construct_terms` (approx.py:132-166) asks the model for the integrals. In
`Model/Approx.lean` these are the fields of an `Inst`; here they are tied to the functions of
`gpcm.py`.
-/

namespace Gpcm

/-- A matrix as a nested list. -/
def rows {m n : ℕ} (M : Matrix (Fin m) (Fin n) ℝ) : List (List ℝ) :=
  List.ofFn fun i => List.ofFn fun j => M i j

/-- What the approximation of a GPCM works with is what the functions of `gpcm.py` return, for all
inputs. -/
structure GpcmModel.IsInst (R : Runtime ℝ) (g : GpcmModel)
    (m : Inst (Fin g.tU.length) (Fin g.tZ.length)) : Prop where
  /-- `self.K_u` (model.py:44). -/
  Ku : g.computeKu R = .ok (rows m.Ku)
  /-- `self.K_z` (model.py:42). -/
  Kz : g.computeKz R = .ok (rows m.Kz)
  /-- `self.noise` (gpcm.py:271). -/
  noise : m.noise = g.noise
  /-- `compute_i_hx` (approx.py:144). -/
  iHx : ∀ a b, g.ihx R a b = .ok (m.iHx a b)
  /-- `compute_I_ux` (approx.py:145). -/
  iUx : g.computeIux0 R = .ok (rows m.iUx)
  /-- `compute_I_hz` (approx.py:146). -/
  iHz : ∀ t : List ℝ, g.computeIhz R t = .ok (t.map fun a => rows (m.iHz a))
  /-- `compute_I_uz` (approx.py:147). -/
  iUz : ∀ t : List ℝ, g.computeIuz R t = .ok (t.map fun a => rows (m.iUz a))

end Gpcm
