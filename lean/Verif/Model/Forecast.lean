import Verif.Model.Paper

/-!
# Model of the forecasts and their scores

The loop of `experiments/paper/vix_forecast.py` that makes and saves predictions, the predictions of `crude_oil.py` at the test data, and
`compute_metrics` and `compare` of `vix_forecast_process.py`. What a model predicts is an arbitrary function of the data that it is fitted
to, the data that it is conditioned on, and the times. `rmse` and `mll` are functions of the library `wbml`. NaN is `none`.
-/

open Real

namespace Gpcm.Paper

/-- What a fitted and conditioned model predicts: the data for `fit`, those for `condition`, the times for `predict`; means and variances. -/
abbrev Predictor (τ : Type) := List (τ × ℝ) → List (τ × ℝ) → List τ → Except PyErr (List (ℝ × ℝ))

/-- A data set with normalised values (vix_forecast.py:75, 108, crude_oil.py:64). -/
noncomputable def Normaliser.data {τ : Type} (n : Normaliser) (d : List (τ × ℝ)) : List (τ × ℝ) :=
  (d.map Prod.fst).zip (n.transform (d.map Prod.snd))

/-- What is saved for one test set (vix_forecast.py:107-110): observations, means and variances. -/
noncomputable def forecast {τ : Type} (M : Predictor τ) (n : Normaliser) (train : List (τ × ℝ)) (test : List (τ × ℝ) × List (τ × ℝ)) :
    Except PyErr (List (ℝ × ℝ × ℝ)) :=
  bind1 (M (n.data train) (n.data test.1) (test.2.map Prod.fst)) fun p => .ok ((test.2.map Prod.snd).zip (p.map n.untransform))

/-- The predictions for all test sets (vix_forecast.py:73-111); those of `crude_oil.py` at the test data (crude_oil.py:63-64, 101-103) are
the ones with the training data as only data conditioned on. Training data without variance give NaN in NumPy and an error here. -/
noncomputable def forecasts {τ : Type} (M : Predictor τ) (train : List (τ × ℝ)) (tests : List (List (τ × ℝ) × List (τ × ℝ))) :
    Except PyErr (List (List (ℝ × ℝ × ℝ))) :=
  let n := Normaliser.fit (train.map Prod.snd)
  if n.scale = 0 then .error .zeroDivision else mapE (forecast M n train) tests

/-- `vix_forecast.py` for one model. -/
noncomputable def vixForecast (M : Predictor ℤ) (ref : ℤ) (data : List (ℤ × ℝ)) (monday1 monday2 : ℤ) :
    Except PyErr (List (List (ℝ × ℝ × ℝ))) :=
  bind1 (vixTrain ref data monday1 monday2) fun train => bind1 (vixTests ref data monday2) fun tests => forecasts M train tests

/-- `metric.rmse(mean, y)` of `wbml`. -/
noncomputable def rmse (p : List (ℝ × ℝ × ℝ)) : Option ℝ :=
  if p = [] then none else some √(Util.mean (p.map fun q => (q.2.1 - q.1) ^ 2))

open Classical in
/-- `metric.mll(mean, var, y)` of `wbml`: the mean logarithm of the normal density. -/
noncomputable def mll (p : List (ℝ × ℝ × ℝ)) : Option ℝ :=
  if p = [] ∨ ∃ q ∈ p, q.2.2 ≤ 0 then none
  else some (Util.mean (p.map fun q => -(log (2 * π * q.2.2) + (q.1 - q.2.1) ^ 2 / q.2.2) / 2))

/-- `compute_metrics(model, summarise=False)` (vix_forecast_process.py:24-28, 36). -/
noncomputable def computeMetrics (preds : List (List (ℝ × ℝ × ℝ))) : List (Option ℝ) × List (Option ℝ) := (preds.map mll, preds.map rmse)

/-- `compare` (vix_forecast_process.py:39-56) for one metric; NaN if some value is. Simplified: both models have the same number of
values. -/
noncomputable def compareMetric (values1 values2 : List (Option ℝ)) : Option (ℝ × ℝ × Option ℝ) :=
  match values1.mapM id, values2.mapM id with
  | some v1, some v2 => some (compareModels v1 v2)
  | _, _ => none

/-- `compare` (vix_forecast_process.py:39-56): what is printed for the two metrics. -/
noncomputable def compareForecasts (preds1 preds2 : List (List (ℝ × ℝ × ℝ))) :
    Option (ℝ × ℝ × Option ℝ) × Option (ℝ × ℝ × Option ℝ) :=
  (compareMetric (computeMetrics preds1).1 (computeMetrics preds2).1, compareMetric (computeMetrics preds1).2 (computeMetrics preds2).2)

end Gpcm.Paper
