import Mathlib.MeasureTheory.Integral.IntervalIntegral.Basic
import Mathlib.Analysis.SpecialFunctions.Exp
import Mathlib.Analysis.SpecialFunctions.Log.Basic
import Mathlib.Analysis.SpecialFunctions.Trigonometric.Basic
import Mathlib.Analysis.SpecialFunctions.Sqrt
import Mathlib.MeasureTheory.Measure.Lebesgue.Basic

/-!
# Integrals the properties talk about

Mathlib integrals only; nothing refers to the model.
-/

open MeasureTheory Real

namespace Gpcm

/-- The error function. -/
noncomputable def erf (x : ℝ) : ℝ := 2 / √π * ∫ t in (0 : ℝ)..x, exp (-t ^ 2)

/-- Density of the standard bivariate normal distribution with correlation `ρ`. -/
noncomputable def bvnDensity (ρ s t : ℝ) : ℝ :=
  1 / (2 * π * √(1 - ρ ^ 2)) * exp (-(s ^ 2 - 2 * ρ * s * t + t ^ 2) / (2 * (1 - ρ ^ 2)))

/-- Its distribution function. -/
noncomputable def bvnCdf (x y ρ : ℝ) : ℝ :=
  ∫ s in Set.Iic x, ∫ t in Set.Iic y, bvnDensity ρ s t

/-- Iterated integral over the real line over a list of variables, the first one innermost. -/
noncomputable def iterInt : List String → ((String → ℝ) → ℝ) → (String → ℝ) → ℝ
  | [], f, v => f v
  | x :: xs, f, v => iterInt xs (fun w => ∫ t, f (Function.update w x t)) v

/-- All the integrals of `iterInt` converge absolutely. -/
def Converges : List String → ((String → ℝ) → ℝ) → Prop
  | [], _ => True
  | x :: xs, f => (∀ w, Integrable fun t => f (Function.update w x t)) ∧
      Converges xs fun w => ∫ t, f (Function.update w x t)

/-- Second difference of the logarithm of a function in a variable: for `k * exp (a x² + b x + c)`
with `k ≠ 0` this is `2 a`. -/
noncomputable def curvature (f : (String → ℝ) → ℝ) (x : String) (w : String → ℝ) : ℝ :=
  log (f (Function.update w x 1)) + log (f (Function.update w x (-1))) -
    2 * log (f (Function.update w x 0))

/-- The curvature of the integrand is at most `2π·10^30` in magnitude at every stage of `iterInt`, so
that the clamp of `safe_sqrt` is not active. -/
def Mild : List String → ((String → ℝ) → ℝ) → Prop
  | [], _ => True
  | x :: xs, f => (∀ w, -(2 * π * 10 ^ 30) ≤ curvature f x w) ∧
      Mild xs fun w => ∫ t, f (Function.update w x t)

/-- Integral from a lower limit to an upper limit; `none` is minus infinity as a lower limit and
plus infinity as an upper limit. -/
noncomputable def boxInt (l u : Option ℝ) (f : ℝ → ℝ) : ℝ :=
  match l, u with
  | none, none => ∫ t, f t
  | none, some b => ∫ t in Set.Iic b, f t
  | some a, none => ∫ t in Set.Ioi a, f t
  | some a, some b => ∫ t in a..b, f t

/-- Exponent of the bivariate integrand. -/
noncomputable def biQuad (a11 a12 a22 b1 b2 c s t : ℝ) : ℝ :=
  -(a11 * s ^ 2 + 2 * a12 * s * t + a22 * t ^ 2) / 2 + b1 * s + b2 * t + c

end Gpcm
