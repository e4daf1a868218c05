import Verif.Model.KernelPred
import Verif.Model.Experiments
import Mathlib.Probability.Distributions.Gaussian.Real

/-!
# Model of the data handling and post-processing in `experiments`

The post-processing of predictions in `crude_oil.py`, the data sets of `vix_forecast.py`, the comparison of
`vix_forecast_process.py`, the decomposition in `vix_analyse.py`, and the parts of `analyse_plots` in `experiment.py`
that compute something.
-/

open Real

namespace Gpcm.Paper

/-! ## `crude_oil.py` -/

/-- `probmods.Normaliser`: location and scale, fitted at the first `transform`. -/
structure Normaliser where
  loc : ℝ
  scale : ℝ

/-- The fit at the first call of `transform`: the mean and the standard deviation of the data. -/
noncomputable def Normaliser.fit (y : List ℝ) : Normaliser := ⟨Util.mean y, std y⟩

/-- `Normaliser.transform` of data. -/
noncomputable def Normaliser.transform (n : Normaliser) (y : List ℝ) : List ℝ := y.map fun a => (a - n.loc) / n.scale

/-- `Normaliser.untransform` of a mean and a variance (crude_oil.py:102-103, vix_forecast.py:109). -/
def Normaliser.untransform (n : Normaliser) (p : ℝ × ℝ) : ℝ × ℝ := (p.1 * n.scale + n.loc, p.2 * n.scale ^ 2)

/-- The kernel prediction at one lag after "Carefully untransform kernel prediction" (crude_oil.py:105-110): mean and
variance. -/
def untransformKernel (n : Normaliser) (s : Summary) : ℝ × ℝ := (s.mean * n.scale, s.var * n.scale ^ 2)

/-- The prediction of the spectral density at one frequency after "Carefully untransform PSD prediction"
(crude_oil.py:111-118): mean, lower and upper limit. `B.log` is the natural logarithm. -/
noncomputable def untransformPsd (n : Normaliser) (s : Summary) : ℝ × ℝ × ℝ :=
  (s.mean + 20 * log n.scale, s.bands.err95Lower + 20 * log n.scale, s.bands.err95Upper + 20 * log n.scale)

/-! ## `vix_forecast.py` -/

/-- The length of a day, in microseconds. -/
def dayLen : ℤ := 24 * 3600 * 1000000

/-- `get_data` (vix_forecast.py:29-36). Rows are time stamps, in microseconds since some midnight, with opening prices. -/
noncomputable def getData (ref : ℤ) (data : List (ℤ × ℝ)) (lower upper : ℤ) : List (ℤ × ℝ) :=
  (data.filter fun r => decide (lower ≤ r.1) && decide (r.1 < upper)).map fun r => ((r.1 - ref) / dayLen, log r.2)

/-- The training set (vix_forecast.py:39-40): times are counted from the first observation. -/
noncomputable def vixTrain (ref : ℤ) (data : List (ℤ × ℝ)) (monday1 monday2 : ℤ) : Except PyErr (List (ℤ × ℝ)) :=
  let train := getData ref data monday1 monday2
  match train with
  | [] => .error .indexError
  | r :: _ => .ok (train.map fun a => (a.1 - r.1, a.2))

/-- One pass of the loop over test sets (vix_forecast.py:45-57): the conditioning window and the test window, with times
counted from the first observation of the conditioning window. `t_test1[0]` raises `IndexError` if there is none. -/
noncomputable def vixTest (ref : ℤ) (data : List (ℤ × ℝ)) (monday : ℤ) (i : ℕ) :
    Except PyErr (List (ℤ × ℝ) × List (ℤ × ℝ)) :=
  let test1 := getData ref data (monday + i * Experiments.weekLen) (monday + (i + 4 : ℕ) * Experiments.weekLen)
  let test2 := getData ref data (monday + (i + 4 : ℕ) * Experiments.weekLen) (monday + (i + 5 : ℕ) * Experiments.weekLen)
  match test1 with
  | [] => .error .indexError
  | r :: _ => .ok (test1.map fun a => (a.1 - r.1, a.2), test2.map fun a => (a.1 - r.1, a.2))

/-- All test sets (vix_forecast.py:43-57). -/
noncomputable def vixTests (ref : ℤ) (data : List (ℤ × ℝ)) (monday : ℤ) :
    Except PyErr (List (List (ℤ × ℝ) × List (ℤ × ℝ))) :=
  mapE (vixTest ref data monday) (List.range 100)

/-! ## `vix_forecast_process.py` -/

/-- The standard normal distribution function, `scipy.stats.norm.cdf`. -/
noncomputable def normCdf (x : ℝ) : ℝ := (ProbabilityTheory.gaussianReal 0 1).real (Set.Iic x)

/-- `compare` (vix_forecast_process.py:39-56) for one metric: mean, standard error and p-value. NumPy does not raise on
a division by zero; no p-value is modelled then. -/
noncomputable def compareModels (values1 values2 : List ℝ) : ℝ × ℝ × Option ℝ :=
  let diff := List.zipWith (fun x y => x - y) values1 values2
  let m := Util.mean diff
  let s := std diff / √diff.length
  (m, s, if s = 0 then none else some (normCdf (-|m| / s)))

/-! ## `vix_analyse.py` -/

/-- The spectrum of the excitation in decibels (vix_analyse.py:95-97). -/
noncomputable def specX (lam alphaT alpha f : ℝ) : ℝ :=
  10 * log (2 * lam / (lam ^ 2 + (2 * π * f) ^ 2) * (alphaT ^ 2 / (2 * alpha))) / log 10

/-- The decomposition into the filter's part and the excitation's part (vix_analyse.py:122-133), for one of the mean and
the two limits. -/
noncomputable def decompose (value spec : ℝ) : ℝ × ℝ := (value - spec - 7.5, spec + 7.5)

/-! ## `analyse_plots` -/

/-- The dashed lines around a prediction (experiment.py:399-400, 418-420). -/
noncomputable def errorLines (noise : ℝ) (p : ℝ × ℝ) : ℝ × ℝ :=
  let std := √p.2
  let error := 2 * √(noise + std ^ 2)
  (p.1 + error, p.1 - error)

/-- `np.diff`. -/
def diff : List ℝ → List ℝ
  | a :: b :: l => (b - a) :: diff (b :: l)
  | _ => []

/-- `max` of a list: `ValueError` if it is empty. -/
noncomputable def maxOf : List ℝ → Except PyErr ℝ
  | [] => .error .valueError
  | a :: l => .ok (l.foldl max a)

/-- `t_is_equally_spaced` (experiment.py:389). Dividing by zero gives infinity or NaN, which are not below the tolerance. -/
noncomputable def equallySpaced (t : List ℝ) : Except PyErr Bool :=
  bind1 (maxOf ((diff (diff t)).map abs)) fun a =>
  bind1 (maxOf (t.map abs)) fun b => .ok (if b = 0 then false else decide (a / b < 5e-2))

end Gpcm.Paper
