import Verif.Model.Approx
import Verif.Model.GPCM

/-!
# Model of `kernel_approx` and `sample` (`gpcm/model.py`), and of the kernel of the filter

The Cholesky factor is an arbitrary factor, the sample of `u` is an argument. What `sample` draws on top of the
kernel matrix is modelled in `Model/Sample.lean` (`closest_psd` in
`Model/ClosestPsd.lean`).
-/

open Matrix Real

namespace Gpcm

variable {ι : Type} [Fintype ι] [DecidableEq ι]

/-- One entry of `AbstractGPCM.kernel_approx` (model.py:203-226), given the integrals of the two
inputs. -/
noncomputable def kernelEntry (C : CholOracle ι) (Ku : Matrix ι ι ℝ) (ihx : ℝ) (Iux : Matrix ι ι ℝ)
    (u : ι → ℝ) : ℝ :=
  let part1 := ihx
  let invL := (C.chol Ku)⁻¹
  let prod := invL *ᵥ u
  let trisolved := invL * Iux * invLᵀ
  let part2 := trisolved.trace - prod ⬝ᵥ (trisolved *ᵥ prod)
  part1 - part2

/-- `AbstractGPCM.kernel_approx` (model.py:203-226) for vectors of inputs. -/
noncomputable def kernelApprox (C : CholOracle ι) (Ku : Matrix ι ι ℝ) (ihx : ℝ → ℝ → ℝ)
    (Iux : ℝ → ℝ → Matrix ι ι ℝ) (t1 t2 : List ℝ) (u : ι → ℝ) : List (List ℝ) :=
  t1.map fun a => t2.map fun b => kernelEntry C Ku (ihx a b) (Iux a b) u

/-- The kernel matrix of `AbstractGPCM.sample` (model.py:230-244) from the matrix of `kernel_approx`.
Division by zero, which gives infinities and NaNs in numpy, is an error here. -/
noncomputable def sampleKernel (K : List (List ℝ)) (normalise : Bool) : Except PyErr (List (List ℝ)) :=
  if normalise then
    match K with
    | (k :: _) :: _ => if k = 0 then .error .zeroDivision else .ok (K.map fun r => r.map fun x => x / k)
    | _ => .error .indexError
  else .ok K

/-- `Approximation._sample_kernel` (approx.py:286-294). -/
noncomputable def sampleKernelAt (C : CholOracle ι) (Ku : Matrix ι ι ℝ) (ihx : ℝ → ℝ → ℝ)
    (Iux : ℝ → ℝ → Matrix ι ι ℝ) (tk : List ℝ) (u : ι → ℝ) : List ℝ :=
  (kernelApprox C Ku ihx Iux tk [0] (Ku *ᵥ u)).flatten

/-- A matrix of fallible entries. The indices of the intermediate nested list always exist. -/
noncomputable def matE {n : ℕ} (f : Fin n → Fin n → Except PyErr ℝ) :
    Except PyErr (Matrix (Fin n) (Fin n) ℝ) :=
  bind1 (mapE (fun i => mapE (fun j => f i j) (List.finRange n)) (List.finRange n)) fun l =>
    .ok (.of fun i j => (l.getD i []).getD j 0)

variable (R : Runtime ℝ)

/-- `GPCM.kernel_approx` (model.py:203-226 with the integrals of gpcm.py). -/
noncomputable def GpcmModel.kernelApprox (g : GpcmModel) (C : CholOracle (Fin g.tU.length))
    (t1 t2 : List ℝ) (u : Fin g.tU.length → ℝ) : Except PyErr (List (List ℝ)) :=
  bind1 (matE fun i j => g.kuEntry R (g.tU.get i) (g.tU.get j)) fun Ku =>
  mapE (fun a => mapE (fun b =>
    bind1 (g.ihx R a b) fun h =>
    bind1 (matE fun i j => g.iuxEntry R a b (g.tU.get i) (g.tU.get j)) fun I =>
    .ok (kernelEntry C Ku h I u)) t2) t1

/-- The kernel that `GPCM.k_h()` builds (gpcm.py:240-253): an exponentiated quadratic of length scale
`sqrt(1 / (2 gamma))`, times the window at both inputs, times the causality constraint. -/
noncomputable def GpcmModel.filterKernel (g : GpcmModel) (x y : ℝ) : ℝ :=
  let scale := √(1 / (2 * g.gamma))
  let window := fun t => exp (-g.alpha * t ^ 2)
  let gate := fun t : ℝ => if g.causal then (if 0 ≤ t then 1 else 0) else (1 : ℝ)
  exp (-(1 / 2) * ((x - y) / scale) ^ 2) * (window x * window y) * (gate x * gate y)

end Gpcm
