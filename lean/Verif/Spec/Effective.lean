import Mathlib.Data.Real.Basic
import Mathlib.Algebra.BigOperators.Fin
import Mathlib.Data.Real.Archimedean

/-!
# Specification: autocorrelation and effective sample size of a chain

Textbook definitions, independent of the model.
-/

namespace Gpcm.Spec

/-- The average of a chain. -/
noncomputable def chainMean (c : List ℝ) : ℝ := c.sum / c.length

/-- The sum of lagged products of a chain around its average. -/
noncomputable def lagged (c : List ℝ) (k : ℕ) : ℝ :=
  ∑ i ∈ Finset.range (c.length - k), (c.getD (i + k) 0 - chainMean c) * (c.getD i 0 - chainMean c)

/-- The autocorrelation of a chain at a lag. -/
noncomputable def correlation (c : List ℝ) (k : ℕ) : ℝ := lagged c k / lagged c 0

/-- The effective number of samples among `n`: the number of samples over the integrated autocorrelation time, one plus twice the
autocorrelations at the lags one to five. -/
noncomputable def effective (n : ℕ) (c : List ℝ) : ℝ := n / (1 + 2 * ∑ k ∈ Finset.range 5, correlation c (k + 1))

end Gpcm.Spec
