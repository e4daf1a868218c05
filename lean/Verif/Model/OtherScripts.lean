import Verif.Model.Paper
import Verif.Model.Sample
import Verif.Model.RgpcmSample

/-!
# Model of the remaining scripts

`experiments/paper/crude_oil_aggregate.py`, `experiments/paper/sample.py`, `experiments/mauna_loa.py` and
`kernel_analysis` of `experiments/paper/comparison_process.py`. The metrics of the library `wbml` are arguments.
-/

open Matrix Real

namespace Gpcm.Scripts

/-! ## Aggregated results -/

/-- What is printed for the values of a metric (crude_oil_aggregate.py:25-30, vix_forecast_process.py:29-34): the mean and
the "std". -/
noncomputable def aggregate (values : List ℝ) : ℝ × ℝ := (Util.mean values, std values / √values.length)

/-- The difference that is printed for two models (crude_oil_aggregate.py:35, 37). -/
noncomputable def aggregateDiff (values1 values2 : List ℝ) : ℝ := Util.mean values1 - Util.mean values2

/-! ## Samples -/

/-- One iteration of the loop of `sample` (sample.py:37-47) for the GPCM and the CGPCM: the kernel and the function. `w` are
the random numbers for the inducing variables. -/
noncomputable def sampleStep (R : Runtime ℝ) (g : GpcmModel) (C : CholOracle (Fin g.tU.length)) (t : List ℝ)
    (Ct : CholOracle (Fin t.length)) (svd : Matrix (Fin t.length) (Fin t.length) ℝ → Util.Svd t.length)
    (noiseF : Fin t.length → ℝ) (w : Fin g.tU.length → ℝ) : Except PyErr (List ℝ × (Fin t.length → ℝ)) :=
  bind1 (matE fun i j => g.kuEntry R (g.tU.get i) (g.tU.get j)) fun Ku =>
  bind1 (g.kernelApprox R C t t (C.chol Ku *ᵥ w)) fun K =>
  bind1 (sampleKernel K true) fun K =>
  .ok (K.headD [], Ct.chol (Util.closestPsd svd (toMatrix t.length K) false) *ᵥ noiseF)

/-- One iteration of the loop of `sample` (sample.py:37-47) for the RGPCM. -/
noncomputable def sampleStepR (g : RgpcmModel) (C : CholOracle (Fin g.tU.length)) (t : List ℝ)
    (Ct : CholOracle (Fin t.length)) (svd : Matrix (Fin t.length) (Fin t.length) ℝ → Util.Svd t.length)
    (noiseF : Fin t.length → ℝ) (w : Fin g.tU.length → ℝ) : Except PyErr (List ℝ × (Fin t.length → ℝ)) :=
  bind1 (g.kernelApprox C t t (C.chol g.computeKu *ᵥ w)) fun K =>
  bind1 (sampleKernel K true) fun K =>
  .ok (K.headD [], Ct.chol (Util.closestPsd svd (toMatrix t.length K) false) *ᵥ noiseF)

/-! ## Mauna Loa -/

/-- `a[-n:]` for `n > 0`. -/
def lastN {α : Type} (n : ℕ) (a : List α) : List α := a.drop (a.length - n)

/-- The data that are modelled (mauna_loa.py:8-16). `t[0]` raises if there are none. A division by zero gives NaN in NumPy and
zero here; see C159 for when it happens. -/
noncomputable def maunaLoa (data : List (ℝ × ℝ)) : Except PyErr (List (ℝ × ℝ)) :=
  let d := lastN 200 data
  match d with
  | [] => .error .indexError
  | r :: _ =>
    let y := d.map Prod.snd
    let y1 := y.map fun a => a - Util.mean y
    let y2 := y1.map fun a => a / std y1
    .ok ((d.map fun a => a.1 - r.1).zip y2)

/-! ## Comparison -/

/-- `x[inds]` for `inds = t <= until`: NumPy raises `IndexError` if the lengths differ. -/
noncomputable def maskLe (t : List ℝ) (until_ : ℝ) (x : List ℝ) : Except PyErr (List ℝ) :=
  if t.length = x.length then .ok (((t.zip x).filter fun p => decide (p.1 ≤ until_)).map Prod.snd) else .error .indexError

/-- `kernel_analysis` (comparison_process.py:14-24) with the content of the two files. -/
noncomputable def kernelAnalysis {α : Type} (smll : List ℝ → List ℝ → List ℝ → α) (rmse : List ℝ → List ℝ → α)
    (kFile : Option (List ℝ)) (predFile : Option (List ℝ × List ℝ × List ℝ)) (metric : String) (until_ : ℝ) : Except PyErr α :=
  match kFile, predFile with
  | none, _ => .error .osError
  | some _, none => .error .osError
  | some k, some (t, m, v) =>
    if metric = "smll" then
      bind1 (maskLe t until_ m) fun m => bind1 (maskLe t until_ v) fun v => bind1 (maskLe t until_ k) fun k => .ok (smll m v k)
    else if metric = "rmse" then
      bind1 (maskLe t until_ m) fun m => bind1 (maskLe t until_ k) fun k => .ok (rmse m k)
    else .error .valueError

/-- `t_k` (comparison.py:17). -/
noncomputable def comparisonInputs : Except PyErr (List ℝ) := linspace 0 4 200

end Gpcm.Scripts
