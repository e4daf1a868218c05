import Mathlib.Data.Real.Basic
import Mathlib.Data.Int.Order.Basic

/-! # Windows of data the properties talk about -/

namespace Gpcm.Spec

/-- The rows of a table with a time in `[a, b)`, in the order of the table. -/
def window (data : List (ℤ × ℝ)) (a b : ℤ) : List (ℤ × ℝ) := data.filter fun r => decide (a ≤ r.1) && decide (r.1 < b)

end Gpcm.Spec
