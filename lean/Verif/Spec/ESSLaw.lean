import Verif.Spec.ESS
import Mathlib.Probability.Distributions.Exponential
import Mathlib.Probability.ProductMeasure
import Mathlib.Analysis.SpecialFunctions.Log.ERealExp

/-!
# The distribution that elliptical slice sampling should preserve

Random numbers as probability theory sees them, the target distribution (prior times likelihood), and expectations of
what a pass or a call of `_sample` returns.
-/

open MeasureTheory ProbabilityTheory Set
open scoped ENNReal

namespace Gpcm.Ess

/-- The uniform distribution on `[0, 1)`. -/
noncomputable def unitLaw : Measure ℝ := volume.restrict (Ico 0 1)

instance : IsProbabilityMeasure unitLaw := ⟨by simp [unitLaw]⟩

instance : IsProbabilityMeasure (expMeasure 1) := isProbabilityMeasure_expMeasure one_pos

variable {V : Type} [MeasurableSpace V] {Ω : Type} [MeasurableSpace Ω]

/-- A random tape: three independent sequences of independent draws, standard exponential numbers, samples of the
prior `γ`, and uniform numbers. -/
structure RandomTape (γ : Measure V) [IsProbabilityMeasure γ] (P : Measure Ω) (T : Ω → Tape V) : Prop where
  measurable : Measurable fun ω => ((T ω).expo, (T ω).prior, (T ω).unit)
  law : P.map (fun ω => ((T ω).expo, (T ω).prior, (T ω).unit)) =
    (Measure.infinitePi fun _ => expMeasure 1).prod
      ((Measure.infinitePi fun _ => γ).prod (Measure.infinitePi fun _ => unitLaw))

omit [MeasurableSpace V] in
/-- The likelihood: the exponential of the log-likelihood, zero where it is NaN. -/
noncomputable def lik (L : V → LL) (x : V) : ℝ≥0∞ :=
  match L x with
  | none => 0
  | some l => EReal.exp l

/-- A log-likelihood that is measurable and never plus infinity. -/
structure LogLik (L : V → LL) : Prop where
  measurable : ∀ c : ℝ, MeasurableSet {x | (L x).gt (some (c : EReal))}
  ne_top : ∀ x, L x ≠ some ⊤

/-- The target distribution, not normalised: prior times likelihood. -/
noncomputable def target (γ : Measure V) (L : V → LL) : Measure V := γ.withDensity (lik L)

omit [MeasurableSpace V] in
/-- `φ` at the new state when the pass succeeds, zero when it fails. -/
def moved (φ : V → ℝ≥0∞) : State V × Pass → ℝ≥0∞
  | (s, .done _) => φ s.x
  | _ => 0

omit [MeasurableSpace V] in
/-- `φ` at the new state when `_sample` has returned, zero while it is still running. -/
def returned (φ : V → ℝ≥0∞) : Option (State V × Except PyErr ℕ) → ℝ≥0∞
  | some (s, .ok _) => φ s.x
  | _ => 0

section expectations

variable [AddCommGroup V] [Module ℝ V] (P : Measure Ω) (T : Ω → Tape V) (L : V → LL)

/-- The probability that a pass from the state `s` succeeds. -/
noncomputable def success (s : State V) : ℝ≥0∞ := ∫⁻ ω, moved (fun _ => 1) (samplePass (T ω) L s) ∂P

/-- The expected value of `φ` at the state that `_sample` returns, however many passes it takes. -/
noncomputable def expected (φ : V → ℝ≥0∞) (s : State V) : ℝ≥0∞ :=
  ⨆ fuel, ∫⁻ ω, returned φ (sample1 (T ω) L fuel s) ∂P

end expectations

end Gpcm.Ess
