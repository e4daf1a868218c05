import Verif.Model.Kernel
import Verif.Model.RGPCM
import Verif.Model.Normal
import Verif.Model.Util

/-!
# Model of `AbstractGPCM.predict_filter` (`gpcm/model.py`)

The random numbers are arguments. Conditioning a Gaussian process on values at finitely many inputs is the textbook
formula; `jitter` is the number that `B.chol` adds to the diagonal of the covariance of the values (`1e-12`, or zero for
exact arithmetic), and `fac` returns a Cholesky factor of the covariance to sample from. The summary of the samples is
`summarise_samples` (`Model/Util.lean`).
-/

open Matrix Real

namespace Gpcm

variable {ι κ : Type} [Fintype ι] [DecidableEq ι] [Fintype κ]

/-- The matrix of a kernel at two lists of inputs. -/
def gramMat {ι κ : Type} (k : ℝ → ℝ → ℝ) (x : ι → ℝ) (y : κ → ℝ) : Matrix ι κ ℝ := .of fun i j => k (x i) (y j)

/-- The mean of `GP(k) | (GP(k)(tU), u)` at `tH` (model.py:178-179). -/
noncomputable def condMean (jitter : ℝ) (k : ℝ → ℝ → ℝ) (tU : ι → ℝ) (tH : κ → ℝ) (u : ι → ℝ) : κ → ℝ :=
  gramMat k tH tU *ᵥ ((gramMat k tU tU + jitter • 1)⁻¹ *ᵥ u)

/-- The covariance of `GP(k) | (GP(k)(tU), u)` at `tH` (model.py:178-179). -/
noncomputable def condCov (jitter : ℝ) (k : ℝ → ℝ → ℝ) (tU : ι → ℝ) (tH : κ → ℝ) : Matrix κ κ ℝ :=
  gramMat k tH tH - gramMat k tH tU * (gramMat k tU tU + jitter • 1)⁻¹ * gramMat k tU tH

/-- `sample_h` (model.py:174-181): the random numbers `w` are used for `û`, `e` for the filter. -/
noncomputable def sampleH (C : CholOracle ι) (fac : Matrix κ κ ℝ → Matrix κ κ ℝ) (jitter : ℝ) (k : ℝ → ℝ → ℝ)
    (Ku : Matrix ι ι ℝ) (p : NatNormal ι) (tU : ι → ℝ) (tH : κ → ℝ) (w : ι → ℝ) (e : κ → ℝ) : κ → ℝ :=
  let u := Ku *ᵥ p.sample C w
  condMean jitter k tU tH u + fac (condCov jitter k tU tH) *ᵥ e

/-- `AbstractGPCM.predict_filter` (model.py:159-199) up to the summary: the inputs and the samples. `draws` are the
random numbers of the samples. A sample with NaNs is `none`. -/
noncomputable def predictFilter {n : ℕ} (C : CholOracle ι) (fac : Matrix (Fin n) (Fin n) ℝ → Matrix (Fin n) (Fin n) ℝ)
    (jitter : ℝ) (k : ℝ → ℝ → ℝ) (Ku : Matrix ι ι ℝ) (p : NatNormal ι) (tU : ι → ℝ) (tH : Fin n → ℝ) (minPhase : Bool)
    (draws : List ((ι → ℝ) × (Fin n → ℝ))) : Except PyErr ((Fin n → ℝ) × List (Option (Fin n → ℝ))) :=
  let samples := draws.map fun d =>
    let h := sampleH C fac jitter k Ku p tU tH d.1 d.2
    if minPhase then Util.minPhase h else some h
  if minPhase then
    if hn : 0 < n then .ok (fun i => tH i - tH ⟨0, hn⟩, samples) else .error .indexError
  else .ok (tH, samples)

/-- The kernel that `RGPCM.k_h()` builds (rgpcm.py:180-189): an exponential kernel of length scale `1 / lam`, times the
window at both inputs, times the causality constraint. -/
noncomputable def RgpcmModel.filterKernel (g : RgpcmModel) (x y : ℝ) : ℝ :=
  let window := fun t => exp (-g.alpha * |t|)
  let gate := fun t : ℝ => if 0 ≤ t then 1 else (0 : ℝ)
  exp (-|(x - y) / (1 / g.lam)|) * (window x * window y) * (gate x * gate y)

end Gpcm
