import Verif.Spec.ESSLaw

/-!
# What long runs of elliptical slice sampling should converge to

Expectations over all samples that `ESS.sample` returns, and the distributions they are compared to.
-/

open MeasureTheory ProbabilityTheory Set
open scoped ENNReal

namespace Gpcm.Ess

variable {V : Type} [MeasurableSpace V] {Ω : Type} [MeasurableSpace Ω]

omit [MeasurableSpace V] in
/-- `G` of the list of samples when `sample` has returned, zero while it is still running. -/
def collected (G : List V → ℝ≥0∞) : Option (State V × Except PyErr (List V)) → ℝ≥0∞
  | some (_, .ok xs) => G xs
  | _ => 0

/-- A measure scaled to a probability measure. -/
noncomputable def normalised (μ : Measure V) : Measure V := (μ univ)⁻¹ • μ

variable [AddCommGroup V] [Module ℝ V] (P : Measure Ω) (T : Ω → Tape V) (L : V → LL)

omit [MeasurableSpace V] in
/-- The expected value of `G` at the list of the `num` samples that `sample` returns, however many passes they take. -/
noncomputable def expectedAll (num : ℕ) (G : List V → ℝ≥0∞) (s : State V) : ℝ≥0∞ :=
  ⨆ fuel, ∫⁻ ω, collected G (sample (T ω) L fuel num s) ∂P

/-- The target weighted by the probability that a pass succeeds. -/
noncomputable def favoured (γ : Measure V) : Measure V :=
  (target γ L).withDensity fun x => success P T L { x := x, logLikX := L x }

end Gpcm.Ess
