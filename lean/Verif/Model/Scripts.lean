import Verif.Model.Filter
import Verif.Model.Sample
import Verif.Model.Experiments

/-!
# Model of the toy experiments and of the script that interpolates filters

`experiments/eq.py`, `experiments/smk.py`, the kernel of `experiments/paper/smk.py`, and
`experiments/paper/sample_interpolation.py`. A function times a kernel is the kernel times the function at both inputs, as
in the library `mlkernels`. Random numbers are arguments.
-/

open Matrix Real

namespace Gpcm.Scripts

/-! ## Kernels and data of the toy experiments -/

/-- `EQ()`. -/
noncomputable def eqKernel (x y : ℝ) : ℝ := exp (-(1 / 2) * (x - y) ^ 2)

/-- A function times a kernel. -/
def timesFn (f : ℝ → ℝ) (k : ℝ → ℝ → ℝ) (x y : ℝ) : ℝ := f x * f y * k x y

/-- `kernel` (paper/smk.py:37). -/
noncomputable def smkPaperKernel (x y : ℝ) : ℝ :=
  timesFn (fun x => sin (π * x)) eqKernel x y + timesFn (fun x => cos (π * x)) eqKernel x y

/-- `kernel.stretch(s)`. -/
noncomputable def stretch (s : ℝ) (k : ℝ → ℝ → ℝ) (x y : ℝ) : ℝ := k (x / s) (y / s)

/-- `kernel` (smk.py:15-16). -/
noncomputable def smkKernel (x y : ℝ) : ℝ :=
  timesFn (fun x => cos (2 * π * x)) (stretch 1 eqKernel) x y +
    timesFn (fun x => sin (2 * π * x)) (stretch 1 eqKernel) x y

/-- `k` (paper/smk.py:39): the kernel between the inputs and zero. -/
noncomputable def smkPaperRow (tK : List ℝ) : List ℝ := tK.map fun x => smkPaperKernel x 0

/-- `t_plot` (eq.py:12). -/
noncomputable def eqPlot : Except PyErr (List ℝ) := linspace 44 44 500

/-- `t_plot` (smk.py:12). -/
noncomputable def smkPlot : Except PyErr (List ℝ) := linspace 0 10 500

/-- The removal of a region (eq.py:27-30, smk.py:28-31): the observations that are kept. -/
noncomputable def removeRegion (d : List (ℝ × ℝ)) : List (ℝ × ℝ) :=
  d.filter fun p => !(decide (-8.8 ≤ p.1) && decide (p.1 ≤ 8.8))

/-! ## Interpolation between two filters -/

section
variable {ι : Type}

/-- A `while` loop that draws samples as long as `again` holds (sample_interpolation.py:45-47, 53-55), from the tape of
samples `draws`. Nothing if the tape ends before the loop. -/
def drawWhile (again : (ι → ℝ) → Prop) [DecidablePred again] (u : ι → ℝ) : List (ι → ℝ) → Option (ι → ℝ)
  | [] => if again u then none else some u
  | d :: ds => if again u then drawWhile again d ds else some u

open Classical in
/-- The smooth sample (sample_interpolation.py:45-47); `o` is the index of the third inducing point. -/
noncomputable def drawSmooth (o : ι) (draws : List (ι → ℝ)) : Option (ι → ℝ) :=
  drawWhile (fun u => 1e-2 < |u o|) (fun _ => 1) draws

open Classical in
/-- The rough sample (sample_interpolation.py:53-55). -/
noncomputable def drawRough (o : ι) (draws : List (ι → ℝ)) : Option (ι → ℝ) :=
  drawWhile (fun u => u o < 0.5) (fun _ => 0) draws

/-- `c * u2 + (1 - c) * u1` (sample_interpolation.py:63, 69). -/
def mix (c : ℝ) (u1 u2 : ι → ℝ) : ι → ℝ := fun i => c * u2 i + (1 - c) * u1 i

end

/-- One iteration of the loop (sample_interpolation.py:61-73): the kernel, the filter and the function at `t`. `jitter` is
as in `condMean`. -/
noncomputable def interpolate (R : Runtime ℝ) (g : GpcmModel) (C : CholOracle (Fin g.tU.length)) (t : List ℝ)
    (Ct : CholOracle (Fin t.length)) (svd : Matrix (Fin t.length) (Fin t.length) ℝ → Util.Svd t.length) (jitter : ℝ)
    (u1 u2 : Fin g.tU.length → ℝ) (noiseF : Fin t.length → ℝ) (c : ℝ) :
    Except PyErr (List ℝ × (Fin t.length → ℝ) × (Fin t.length → ℝ)) :=
  bind1 (g.kernelApprox R C t t (mix c u1 u2)) fun K =>
  bind1 (sampleKernel K true) fun K =>
  .ok (K.headD [], mix c (condMean jitter g.filterKernel g.tU.get t.get u1)
      (condMean jitter g.filterKernel g.tU.get t.get u2),
    Ct.chol (Util.closestPsd svd (toMatrix t.length K) false) *ᵥ noiseF)

end Gpcm.Scripts
