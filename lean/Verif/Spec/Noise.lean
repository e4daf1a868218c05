import Verif.Lemmas.JointLemmas

/-! # Specification: random numbers and the structured posterior -/

open MeasureTheory ENNReal

namespace Gpcm

/-- The sequence with first element `a` and further elements `l`. -/
def Markov.cons {A : Type} (a : A) (l : ℕ → A) : ℕ → A
  | 0 => a
  | i + 1 => l i

variable {ι κ : Type} [Fintype ι] [DecidableEq ι] [Fintype κ] [DecidableEq κ]

/-- The expectation of `H` if the first `n` entries of the tape of random numbers are independent pairs of standard normal
vectors: an iterated integral, over the last entry first. -/
noncomputable def normalExpect : ℕ → ((ℕ → (ι → ℝ) × (κ → ℝ)) → ℝ≥0∞) → ℝ≥0∞
  | 0, H => H fun _ => 0
  | n + 1, H => ∫⁻ w₁, ENNReal.ofReal (stdPdf w₁) * ∫⁻ w₂, ENNReal.ofReal (stdPdf w₂) *
      normalExpect n fun W => H (Markov.cons (w₁, w₂) W)

/-- The distribution of the inducing variables with density proportional to `joint m d`. -/
noncomputable def structuredPosterior (m : Inst ι κ) (d : List (ℝ × ℝ)) : Measure ((ι → ℝ) × (κ → ℝ)) :=
  (volume.prod volume).withDensity fun x => joint m d x / ∫⁻ x', joint m d x' ∂(volume.prod volume)

end Gpcm
