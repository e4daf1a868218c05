import Verif.Lemmas.ESSInv
import Verif.Lemmas.ESSFail

/-!
# Properties of the distribution of elliptical slice sampling

C101: `ESS` leaves the target distribution invariant. True of a single pass that counts a failure as a sample, false of
`_sample`, which repeats a failed pass until one succeeds.
-/

open MeasureTheory ProbabilityTheory Set Real
open scoped ENNReal

namespace Gpcm.Ess

variable {V : Type} [NormedAddCommGroup V] [NormedSpace ℝ V] [MeasurableSpace V] [BorelSpace V]
  [SecondCountableTopology V] [CompleteSpace V] {γ : Measure V} [IsGaussian γ] {L : V → LL}
  {Ω : Type} [MeasurableSpace Ω] {P : Measure Ω} {T : Ω → Tape V} {s : V → State V}

/-- **C101**, a part. Successful passes satisfy detailed balance with respect to prior times likelihood: for a Gaussian
prior with mean zero and any log-likelihood, moving from `ψ` to `φ` is as likely as moving from `φ` to `ψ`. -/
theorem c101_reversible_partial (hγ : ∫ x, x ∂γ = 0) (h : LogLik L) (hT : RandomTape γ P T)
    (hx : ∀ x, (s x).x = x) (hl : ∀ x, (s x).logLikX = L x) {φ ψ : V → ℝ≥0∞} (hφ : Measurable φ) (hψ : Measurable ψ) :
    ∫⁻ x, ψ x * ∫⁻ ω, moved φ (samplePass (T ω) L (s x)) ∂P ∂target γ L =
      ∫⁻ x, φ x * ∫⁻ ω, moved ψ (samplePass (T ω) L (s x)) ∂P ∂target γ L := by
  have key : ∀ {φ : V → ℝ≥0∞} (ψ : V → ℝ≥0∞), Measurable φ → ∀ x,
      lik L x * (ψ x * ∫⁻ ω, moved φ (samplePass (T ω) L (s x)) ∂P) = lik L x * (ψ x * hop γ L φ x) := by
    intro φ ψ hφ x
    by_cases h0 : lik L x = 0
    · rw [h0, zero_mul, zero_mul]
    · obtain ⟨r, hr⟩ := h.finite h0
      rw [(lintegral_pass hT h (s := s x) (by rw [hl, hx]) (r := r) (by rw [hx, hr]) hφ).1, hx]
  rw [lintegral_target h, lintegral_target h, lintegral_congr (key ψ hφ), lintegral_congr (key φ hψ)]
  exact hop_symm (IsGaussian.map_rotation_eq_self hγ) h hψ hφ

/-- **C101**, a part. A single pass leaves the target invariant when a failed pass counts as a sample: the state
after the pass, which is the old state if the pass failed, is distributed like the state before. -/
theorem c101_pass_invariant_partial (hγ : ∫ x, x ∂γ = 0) (h : LogLik L)
    (hT : RandomTape γ P T) (hx : ∀ x, (s x).x = x) (hl : ∀ x, (s x).logLikX = L x) {φ : V → ℝ≥0∞}
    (hφ : Measurable φ) :
    ∫⁻ x, ∫⁻ ω, φ (samplePass (T ω) L (s x)).1.x ∂P ∂target γ L = ∫⁻ x, φ x ∂target γ L := by
  have key : ∀ x, lik L x * ∫⁻ ω, φ (samplePass (T ω) L (s x)).1.x ∂P =
      lik L x * (1 * hop γ L φ x) + lik L x * ((1 - hop γ L (fun _ => 1) x) * φ x) := by
    intro x
    by_cases h0 : lik L x = 0
    · rw [h0, zero_mul, zero_mul, zero_mul, add_zero]
    · obtain ⟨r, hr⟩ := h.finite h0
      rw [(lintegral_pass hT h (s := s x) (by rw [hl, hx]) (r := r) (by rw [hx, hr]) hφ).2, hx, mul_add, one_mul]
  have hm := measurable_lik_hop (γ := γ) h (measurable_const (a := (1 : ℝ≥0∞))) hφ
  have hm' := measurable_lik_hop (γ := γ) h hφ (measurable_const (a := (1 : ℝ≥0∞)))
  rw [lintegral_target h, lintegral_target h, lintegral_congr key, lintegral_add_left hm]
  simp only [one_mul]
  rw [lik_hop_eq (IsGaussian.map_rotation_eq_self hγ) h hφ, ← lintegral_add_left hm']
  refine lintegral_congr fun x => ?_
  rw [← mul_add, mul_comm (φ x), ← add_mul, add_tsub_cancel_of_le (hop_le_one _ (fun _ => le_rfl) _), one_mul]

/-- **C101**, a part. What `_sample` leaves invariant is the target weighted by the probability that a pass
succeeds. -/
theorem c101_weighted_invariant_partial (hγ : ∫ x, x ∂γ = 0) (h : LogLik L)
    (hT : RandomTape γ P T) (hx : ∀ x, (s x).x = x) (hl : ∀ x, (s x).logLikX = L x) {φ : V → ℝ≥0∞}
    (hφ : Measurable φ) :
    ∫⁻ x, success P T L (s x) * expected P T L φ (s x) ∂target γ L =
      ∫⁻ x, success P T L (s x) * φ x ∂target γ L := by
  rw [lintegral_target h, lintegral_target h]
  have e1 : ∀ x, lik L x * (success P T L (s x) * expected P T L φ (s x)) = lik L x * hop γ L φ x := by
    intro x
    by_cases h0 : lik L x = 0
    · rw [h0, zero_mul, zero_mul]
    · obtain ⟨r, hr⟩ := h.finite h0
      have hr' : L (s x).x = some (r : EReal) := by rw [hx, hr]
      rw [success_eq hT h (by rw [hl, hx]) hr', expected_eq hT h (by rw [hl, hx]) hr' hφ, hx]
      congr 1
      by_cases hq : hop γ L (fun _ => 1) x = 0
      · rw [hop_eq_zero (φ := φ) h hr hq, mul_zero, mul_zero]
      · rw [← mul_assoc, ENNReal.mul_inv_cancel hq
          (ne_top_of_le_ne_top ENNReal.one_ne_top (hop_le_one _ (fun _ => le_rfl) _)), one_mul]
  have e2 : ∀ x, lik L x * (success P T L (s x) * φ x) = lik L x * (φ x * hop γ L (fun _ => 1) x) := by
    intro x
    by_cases h0 : lik L x = 0
    · rw [h0, zero_mul, zero_mul]
    · obtain ⟨r, hr⟩ := h.finite h0
      have hr' : L (s x).x = some (r : EReal) := by rw [hx, hr]
      rw [success_eq hT h (by rw [hl, hx]) hr', hx, mul_comm (φ x)]
  rw [lintegral_congr e1, lintegral_congr e2]
  exact lik_hop_eq (IsGaussian.map_rotation_eq_self hγ) h hφ

/-- **C101**, a part. If a pass succeeds with probability at least `c` wherever the likelihood is positive, then
`_sample` changes the probability of an event under the target, and the expectation of any nonnegative function, at most
by the factor `c`. -/
theorem c101_nearly_invariant_partial (hγ : ∫ x, x ∂γ = 0) (h : LogLik L)
    (hT : RandomTape γ P T) (hx : ∀ x, (s x).x = x) (hl : ∀ x, (s x).logLikX = L x) {φ : V → ℝ≥0∞}
    (hφ : Measurable φ) {c : ℝ≥0∞} (hc : ∀ x, lik L x ≠ 0 → c ≤ success P T L (s x)) :
    c * ∫⁻ x, φ x ∂target γ L ≤ ∫⁻ x, expected P T L φ (s x) ∂target γ L ∧
      c * ∫⁻ x, expected P T L φ (s x) ∂target γ L ≤ ∫⁻ x, φ x ∂target γ L := by
  have hw := c101_weighted_invariant_partial hγ h hT hx hl hφ
  have hs : ∀ x, lik L x ≠ 0 → success P T L (s x) ≤ 1 := fun x h0 => by
    obtain ⟨r, hr⟩ := h.finite h0
    rw [success_eq hT h (by rw [hl, hx]) (r := r) (by rw [hx, hr])]
    exact hop_le_one _ (fun _ => le_rfl) _
  have low : ∀ f : V → ℝ≥0∞, c * ∫⁻ x, f x ∂target γ L ≤ ∫⁻ x, success P T L (s x) * f x ∂target γ L := fun f => by
    refine (lintegral_const_mul_le c f).trans ?_
    rw [lintegral_target h, lintegral_target h]
    refine lintegral_mono fun x => ?_
    by_cases h0 : lik L x = 0
    · rw [h0, zero_mul, zero_mul]
    · beta_reduce
      gcongr
      exact hc x h0
  have up : ∀ f : V → ℝ≥0∞, ∫⁻ x, success P T L (s x) * f x ∂target γ L ≤ ∫⁻ x, f x ∂target γ L := fun f => by
    rw [lintegral_target h, lintegral_target h]
    refine lintegral_mono fun x => ?_
    by_cases h0 : lik L x = 0
    · rw [h0, zero_mul, zero_mul]
    · beta_reduce
      gcongr
      exact mul_le_of_le_one_left (zero_le) (hs x h0)
  exact ⟨(low _).trans (hw ▸ up _), (low _).trans (hw ▸ up _)⟩


/-- The hypotheses of the theorems above can be met: a standard normal prior on the line, a log-likelihood with two
values, and a random tape. -/
example : (∫ x, x ∂gaussianReal 0 1 = 0) ∧ LogLik stepLL ∧
    RandomTape (gaussianReal 0 1) (tapeLaw (gaussianReal 0 1)) (clamp (V := ℝ)) :=
  ⟨by simp, logLik_stepLL, randomTape_clamp _⟩

/-- **C101** is false: with a standard normal prior on the line and the likelihood `1` on the right half and `exp (-1)`
on the left half, one call of `_sample` from a state drawn from the target ends in the left half more often than the
target says. Passes that start in the right half may fail and are repeated, passes that start in the left half never
fail. -/
theorem c101_false : ∫⁻ x, (Iio (0 : ℝ)).indicator 1 x ∂target (gaussianReal 0 1) stepLL <
    ∫⁻ x, expected (tapeLaw (gaussianReal 0 1)) clamp stepLL ((Iio 0).indicator 1)
      { x := x, logLikX := stepLL x } ∂target (gaussianReal 0 1) stepLL := by
  have h := logLik_stepLL
  have hφ : Measurable ((Iio (0 : ℝ)).indicator (1 : ℝ → ℝ≥0∞)) := measurable_one.indicator measurableSet_Iio
  have hT := randomTape_clamp (gaussianReal 0 1)
  have hγ : ∫ x, x ∂gaussianReal 0 1 = 0 := by simp
  have he : ∀ x : ℝ, expected (tapeLaw (gaussianReal 0 1)) clamp stepLL ((Iio 0).indicator 1)
      { x := x, logLikX := stepLL x } = (hop (gaussianReal 0 1) stepLL (fun _ => 1) x)⁻¹ *
        hop (gaussianReal 0 1) stepLL ((Iio 0).indicator 1) x := fun x => by
    obtain ⟨r, hr⟩ := stepLL_finite x
    exact expected_eq hT h (s := { x := x, logLikX := stepLL x }) rfl hr hφ
  have hm : ∀ {ψ : ℝ → ℝ≥0∞}, Measurable ψ → Measurable (hop (gaussianReal 0 1) stepLL ψ) := fun {ψ} hψ => by
    have := (h.measurable_lik.inv).mul
      (measurable_lik_hop (γ := gaussianReal 0 1) h (measurable_const (a := (1 : ℝ≥0∞))) hψ)
    convert this using 1
    funext x
    simp only [Pi.mul_apply, Pi.inv_apply, one_mul]
    rw [← mul_assoc, ENNReal.inv_mul_cancel (lik_stepLL_ne_zero x) (h.lik_ne_top x), one_mul]
  simp only [he]
  rw [lintegral_target h, lintegral_target h]
  have hA : ∫⁻ x, lik stepLL x * (Iio (0 : ℝ)).indicator 1 x ∂gaussianReal 0 1 =
      ∫⁻ x, lik stepLL x * hop (gaussianReal 0 1) stepLL ((Iio 0).indicator 1) x ∂gaussianReal 0 1 := by
    rw [lik_hop_eq (IsGaussian.map_rotation_eq_self hγ) h hφ]
    refine lintegral_congr fun x => ?_
    by_cases hx : x < 0
    · rw [hop_left hx, mul_one]
    · rw [indicator_of_notMem (show x ∉ Iio 0 from hx), zero_mul]
  have hle : ∀ x, lik stepLL x * hop (gaussianReal 0 1) stepLL ((Iio 0).indicator 1) x ≤ lik stepLL x *
      ((hop (gaussianReal 0 1) stepLL (fun _ => 1) x)⁻¹ *
        hop (gaussianReal 0 1) stepLL ((Iio 0).indicator 1) x) := fun x => by
    gcongr
    exact le_mul_of_one_le_left zero_le (ENNReal.one_le_inv.2 (hop_le_one _ (fun _ => le_rfl) _))
  have hmB : Measurable fun x => lik stepLL x * ((hop (gaussianReal 0 1) stepLL (fun _ => 1) x)⁻¹ *
        hop (gaussianReal 0 1) stepLL ((Iio 0).indicator 1) x) :=
    h.measurable_lik.mul ((hm measurable_const).inv.mul (hm hφ))
  have hfin : ∫⁻ x, lik stepLL x * hop (gaussianReal 0 1) stepLL ((Iio 0).indicator 1) x ∂gaussianReal 0 1 ≠ ⊤ := by
    rw [← hA]
    have : ∫⁻ x, lik stepLL x * (Iio (0 : ℝ)).indicator 1 x ∂gaussianReal 0 1 ≤ ∫⁻ _, 1 ∂gaussianReal 0 1 := by
      refine lintegral_mono fun x => ?_
      refine mul_le_one' ?_ (indicator_le_self' (fun _ _ => zero_le) x)
      rw [lik_eq, logLik, ← EReal.exp_zero]
      refine EReal.exp_monotone ?_
      by_cases h0 : 0 ≤ x
      · simp [stepLL_of_nonneg h0]
      · simp [stepLL_of_neg (not_le.1 h0)]
    refine ne_top_of_le_ne_top ?_ this
    simp
  rw [hA]
  refine lt_of_le_of_ne (lintegral_mono hle) fun heq => ?_
  have hae := ae_eq_of_ae_le_of_lintegral_le (Filter.Eventually.of_forall hle) hfin hmB.aemeasurable heq.ge
  have hnull : gaussianReal 0 1 (Ioi 0) = 0 := by
    refine measure_mono_null (fun x hx => ?_) (ae_iff.1 hae)
    have hx : 0 < x := hx
    have h1 := hop_right hx
    have h2 := hop_right_left hx
    have h3 : hop (gaussianReal 0 1) stepLL ((Iio 0).indicator 1) x ≠ ⊤ := ne_top_of_le_ne_top ENNReal.one_ne_top
      (hop_le_one _ (fun z => indicator_le_self' (fun _ _ => zero_le) z) x)
    intro hxe
    beta_reduce at hxe
    rw [ENNReal.mul_right_inj (lik_stepLL_ne_zero x) (h.lik_ne_top x)] at hxe
    have h4 := ENNReal.mul_lt_mul_left h2.ne' h3 (ENNReal.one_lt_inv.2 h1)
    rw [one_mul, ← hxe] at h4
    exact lt_irrefl _ h4
  have := gaussianReal_absolutelyContinuous' 0 one_ne_zero hnull
  simp at this

end Gpcm.Ess
