import Verif.Model.Forecast

/-!
# Model of the statistic of the paired t-test

`ttest_rel` of SciPy, which `experiments/paper/crude_oil_aggregate.py` calls. Its distribution function is not modelled.
-/

open Real

namespace Gpcm.Paper

/-- The statistic of `ttest_rel(values1, values2)` (crude_oil_aggregate.py:34, 36): the mean difference divided by its standard error, with the
unbiased estimate of the variance. NaN and infinity are `none`. -/
noncomputable def tStatistic (values1 values2 : List ℝ) : Option ℝ :=
  let diff := List.zipWith (fun x y => x - y) values1 values2
  let m := Util.mean diff
  let v := (diff.map fun x => (x - m) ^ 2).sum / ((diff.length : ℝ) - 1)
  if diff.length < 2 ∨ v = 0 then none else some (m / √(v / diff.length))

end Gpcm.Paper
