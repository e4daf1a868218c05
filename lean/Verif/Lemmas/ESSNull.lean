import Verif.Lemmas.ESSRuns
import Mathlib.MeasureTheory.Measure.Lebesgue.EqHaar

/-!
# Where a successful pass of elliptical slice sampling can end

When the prior has a positive density, a successful pass ends in a set with positive probability exactly when the target gives
the set positive probability.
-/

set_option linter.unusedSectionVars false

open MeasureTheory ProbabilityTheory Set Real
open scoped ENNReal

namespace Gpcm.Ess

theorem acc_null {S : Set ℝ} {φ : ℝ → ℝ≥0∞} (hφ : ∀ᵐ θ, φ θ = 0) (n : ℕ) : ∀ p lo hi : ℝ, acc S φ n p lo hi = 0 := by
  classical
  induction n with
  | zero => intro p lo hi; rfl
  | succ n ih =>
    intro p lo hi
    rw [acc]
    have : ∫⁻ θ in Ico lo hi, (if θ ∈ S then φ θ else if p < θ then acc S φ n p lo θ else acc S φ n p θ hi) = 0 := by
      refine (lintegral_congr_ae (g := fun _ => 0) (ae_restrict_of_ae ?_)).trans lintegral_zero
      filter_upwards [hφ] with θ hθ
      simp [ih, hθ]
    rw [this, mul_zero]

theorem le_acc (S : Set ℝ) (φ : ℝ → ℝ≥0∞) (n : ℕ) (p lo hi : ℝ) :
    (ENNReal.ofReal (hi - lo))⁻¹ * ∫⁻ θ in Ico lo hi, S.indicator φ θ ≤ acc S φ (n + 1) p lo hi := by
  classical
  rw [acc]
  gcongr with θ
  by_cases h : θ ∈ S
  · rw [indicator_of_mem h, if_pos h]
  · rw [indicator_of_notMem h]
    exact zero_le

theorem expMeasure_Ioi_pos {a : ℝ} (ha : 0 ≤ a) : 0 < expMeasure 1 (Ioi a) := by
  rw [expMeasure, gammaMeasure, withDensity_apply _ measurableSet_Ioi]
  have hpdf : Measurable (gammaPDF 1 1) := by
    unfold gammaPDF
    exact (measurable_gammaPDFReal 1 1).ennreal_ofReal
  refine (setLIntegral_pos_iff hpdf).2 ?_
  have : Ioi a ⊆ Function.support (gammaPDF 1 1) ∩ Ioi a := fun e he => by
    refine ⟨?_, he⟩
    have he' : a < e := he
    have := exponentialPDF_of_nonneg (r := 1) (ha.trans he'.le)
    have h0 : exponentialPDF 1 e ≠ 0 := by
      rw [this]
      simp [exp_pos]
    exact h0
  exact lt_of_lt_of_le (by simp) (measure_mono this)

section

variable {V : Type} [NormedAddCommGroup V] [NormedSpace ℝ V] [MeasurableSpace V] [BorelSpace V]
  [SecondCountableTopology V] [FiniteDimensional ℝ V] {γ : Measure V} [IsProbabilityMeasure γ] {L : V → LL} {μ : Measure V} [μ.IsAddHaarMeasure]

omit [IsProbabilityMeasure γ] in
theorem measure_point (x : V) {θ : ℝ} (hθ : sin θ ≠ 0) (N : Set V) : μ {y | point x y θ ∈ N} = 0 ↔ μ N = 0 := by
  have e : {y | point x y θ ∈ N} = (fun y => sin θ • y) ⁻¹' ((fun y => cos θ • x + y) ⁻¹' N) := rfl
  rw [e, Measure.addHaar_preimage_smul μ hθ, measure_preimage_add, mul_eq_zero]
  refine or_iff_right ?_
  simp [hθ]

theorem ae_sin : ∀ᵐ θ : ℝ, sin θ ≠ 0 := by
  have : {θ : ℝ | sin θ = 0} ⊆ range fun n : ℤ => (n : ℝ) * π := fun θ hθ => by
    obtain ⟨n, hn⟩ := sin_eq_zero_iff.1 hθ
    exact ⟨n, hn⟩
  rw [ae_iff]
  simp only [not_not]
  exact measure_mono_null this ((countable_range _).measure_zero _)

theorem ae_point (h1 : γ ≪ μ) (h2 : μ ≪ γ) {φ : V → ℝ≥0∞} (h : ∀ᵐ y ∂γ, φ y = 0) (x : V) {θ : ℝ} (hθ : sin θ ≠ 0) :
    ∀ᵐ y ∂γ, φ (point x y θ) = 0 := by
  have h3 : μ {y | ¬ φ y = 0} = 0 := h2 (ae_iff.1 h)
  exact ae_iff.2 (h1 ((measure_point x hθ _).2 h3))

theorem ae_of_point (h1 : γ ≪ μ) (h2 : μ ≪ γ) {φ : V → ℝ≥0∞} (x : V) {θ : ℝ} (hθ : sin θ ≠ 0)
    (h : ∀ᵐ y ∂γ, φ (point x y θ) = 0) : ∀ᵐ y ∂γ, φ y = 0 := by
  have h3 : μ {y | ¬ φ (point x y θ) = 0} = 0 := h2 (ae_iff.1 h)
  exact ae_iff.2 (h1 ((measure_point x hθ {y | ¬ φ y = 0}).1 h3))

theorem measurable_comp_point {φ : V → ℝ≥0∞} (x : V) (hφ : Measurable φ) : Measurable fun q : V × ℝ => φ (point x q.1 q.2) :=
  hφ.comp (measurable_point.comp (f := fun q : V × ℝ => ((x, q.1), q.2)) (by fun_prop))

omit [NormedAddCommGroup V] [NormedSpace ℝ V] [BorelSpace V] [SecondCountableTopology V] [FiniteDimensional ℝ V]
  [IsProbabilityMeasure γ] in
theorem ae_zero {f : V → ℝ≥0∞} (hf : Measurable f) (h : ∫⁻ y, f y ∂γ = 0) : ∀ᵐ y ∂γ, f y = 0 := (lintegral_eq_zero_iff hf).1 h

theorem ae_zero_real {ν : Measure ℝ} {f : ℝ → ℝ≥0∞} (hf : Measurable f) (h : ∫⁻ y, f y ∂ν = 0) : ∀ᵐ y ∂ν, f y = 0 :=
  (lintegral_eq_zero_iff hf).1 h

theorem zero_of_ae {f : V → ℝ≥0∞} (h : ∀ᵐ y ∂γ, f y = 0) : ∫⁻ y, f y ∂γ = 0 := by
  rw [lintegral_congr_ae (g := fun _ => 0) h, lintegral_zero]

theorem zero_of_ae_real {ν : Measure ℝ} {f : ℝ → ℝ≥0∞} (h : ∀ᵐ y ∂ν, f y = 0) : ∫⁻ y, f y ∂ν = 0 := by
  rw [lintegral_congr_ae (g := fun _ => 0) h, lintegral_zero]

theorem ring_null {ℓ : V → EReal} {φ : V → ℝ≥0∞} (n : ℕ) {x y : V} (hy : ∀ᵐ θ : ℝ, φ (point x y θ) = 0) (u : ℝ) :
    ring ℓ φ n (x, y) u = 0 := by
  have h := acc_null (S := slice ℓ (x, y) u) (φ := fun θ => φ (point x y θ)) hy n
  unfold ring
  rw [lintegral_congr fun θ₀ => h 0 (θ₀ - 2 * π) θ₀, lintegral_zero, mul_zero]

theorem le_ring (ℓ : V → EReal) (φ : V → ℝ≥0∞) (n : ℕ) (x y : V) (u : ℝ) :
    (ENNReal.ofReal (2 * π))⁻¹ * ∫⁻ θ in Ico 0 (2 * π), {y | (u : EReal) < ℓ y}.indicator φ (point x y θ) ≤
      ring ℓ φ (n + 1) (x, y) u := by
  have hpi : (0 : ℝ) < 2 * π := by positivity
  obtain ⟨f, hf⟩ : ∃ f : ℝ → ℝ≥0∞, f = fun θ => {y | (u : EReal) < ℓ y}.indicator φ (point x y θ) := ⟨_, rfl⟩
  have hind : (slice ℓ (x, y) u).indicator (fun θ => φ (point x y θ)) = f := by rw [hf]; rfl
  have hper : ∀ θ, f (θ + 2 * π) = f θ := fun θ => by
    rw [hf]
    simp only [point_periodic]
  have hff : ∀ θ, {y | (u : EReal) < ℓ y}.indicator φ (point x y θ) = f θ := fun θ => by rw [hf]
  simp only [hff]
  unfold ring
  have h3 : ∀ θ₀ ∈ Ico 0 (2 * π), (ENNReal.ofReal (2 * π))⁻¹ * ∫⁻ θ in Ico 0 (2 * π), f θ ≤
      acc (slice ℓ (x, y) u) (fun θ => φ (point x y θ)) (n + 1) 0 (θ₀ - 2 * π) θ₀ := fun θ₀ hθ₀ => by
    have h4 := le_acc (slice ℓ (x, y) u) (fun θ => φ (point x y θ)) n 0 (θ₀ - 2 * π) θ₀
    have h5 := setLIntegral_periodic hper (d := 2 * π - θ₀) (by linarith [hθ₀.2]) (by linarith [hθ₀.1])
    rw [show -(2 * π - θ₀) = θ₀ - 2 * π by ring, show 2 * π - (2 * π - θ₀) = θ₀ by ring] at h5
    rw [hind, h5, show θ₀ - (θ₀ - 2 * π) = 2 * π by ring] at h4
    exact h4
  have h6 := setLIntegral_mono' (μ := volume) measurableSet_Ico h3
  rw [setLIntegral_const, Real.volume_Ico, sub_zero] at h6
  have e : (ENNReal.ofReal (2 * π))⁻¹ * ∫⁻ θ in Ico 0 (2 * π), f θ = (ENNReal.ofReal (2 * π))⁻¹ *
      ((ENNReal.ofReal (2 * π))⁻¹ * (∫⁻ θ in Ico 0 (2 * π), f θ) * ENNReal.ofReal (2 * π)) := by
    rw [mul_comm _ (ENNReal.ofReal (2 * π)), ← mul_assoc, ENNReal.inv_mul_cancel (by simpa using pi_pos)
      ENNReal.ofReal_ne_top, one_mul]
  rw [e]
  exact mul_le_mul_right h6 _

/-- Sets that the prior does not reach are not reached. -/
theorem hop_null (h1 : γ ≪ μ) (h2 : μ ≪ γ) (h : LogLik L) {x : V} {r : ℝ} (hx : L x = some (r : EReal)) {φ : V → ℝ≥0∞}
    (hφ : Measurable φ) (h0 : ∀ᵐ y ∂γ, φ y = 0) : hop γ L φ x = 0 := by
  have hm := measurable_comp_point x hφ
  have h3 : ∫⁻ y, (∫⁻ θ, φ (point x y θ)) ∂γ = 0 := by
    rw [lintegral_lintegral_swap (μ := γ) (ν := (volume : Measure ℝ)) (f := fun y θ => φ (point x y θ)) hm.aemeasurable]
    exact zero_of_ae_real (ae_sin.mono fun θ hθ => zero_of_ae (ae_point h1 h2 h0 x hθ))
  have hpr : Measurable fun y => ∫⁻ θ : ℝ, φ (point x y θ) := hm.lintegral_prod_right'
  have h4 := ae_zero hpr h3
  rw [hop_eq h hx hφ]
  refine zero_of_ae_real (Filter.Eventually.of_forall fun e => zero_of_ae (h4.mono fun y hy => ?_))
  have hmy : Measurable fun θ : ℝ => φ (point x y θ) := hm.comp (f := fun θ : ℝ => (y, θ)) (by fun_prop)
  exact ring_null 100 (ae_zero_real hmy hy) (r - e)

theorem null_of_ring (h1 : γ ≪ μ) (h2 : μ ≪ γ) {ℓ : V → EReal} (hℓ : Measurable ℓ) {φ : V → ℝ≥0∞} (hφ : Measurable φ) (n : ℕ)
    (x : V) (u : ℝ) (h0 : ∫⁻ y, ring ℓ φ (n + 1) (x, y) u ∂γ = 0) :
    ∀ᵐ y ∂γ, {y | (u : EReal) < ℓ y}.indicator φ y = 0 := by
  obtain ⟨ψ, hψ⟩ : ∃ ψ : V → ℝ≥0∞, ψ = {y | (u : EReal) < ℓ y}.indicator φ := ⟨_, rfl⟩
  have hψm : Measurable ψ := by
    rw [hψ]
    exact hφ.indicator (measurableSet_lt measurable_const hℓ)
  have hle := fun y => le_ring ℓ φ n x y u
  rw [← hψ] at hle ⊢
  have hm := measurable_comp_point x hψm
  have h7 : ∫⁻ y, (∫⁻ θ in Ico 0 (2 * π), ψ (point x y θ)) ∂γ = 0 := by
    have h8 : ∫⁻ y, (ENNReal.ofReal (2 * π))⁻¹ * (∫⁻ θ in Ico 0 (2 * π), ψ (point x y θ)) ∂γ = 0 :=
      le_antisymm ((lintegral_mono hle).trans h0.le) zero_le
    rw [lintegral_const_mul _ hm.lintegral_prod_right', mul_eq_zero] at h8
    exact h8.resolve_left (ENNReal.inv_ne_zero.2 ENNReal.ofReal_ne_top)
  have hpl : Measurable fun θ : ℝ => ∫⁻ y, ψ (point x y θ) ∂γ := hm.lintegral_prod_left'
  rw [lintegral_lintegral_swap (μ := γ) (ν := (volume : Measure ℝ).restrict (Ico 0 (2 * π))) (f := fun y θ => ψ (point x y θ))
    hm.aemeasurable] at h7
  have h10 := (ae_zero_real hpl h7).and (ae_restrict_of_ae ae_sin)
  have : (ae (volume.restrict (Ico 0 (2 * π)))).NeBot := by
    rw [ae_neBot, Ne, Measure.restrict_eq_zero, Real.volume_Ico]
    simp [pi_pos]
  obtain ⟨θ, h11, h12⟩ := h10.exists
  have hmy : Measurable fun y => ψ (point x y θ) := hm.comp (f := fun y : V => (y, θ)) (by fun_prop)
  exact ae_of_point h1 h2 x h12 (ae_zero hmy h11)

/-- Sets that are not reached have probability zero under the target. -/
theorem null_of_hop (h1 : γ ≪ μ) (h2 : μ ≪ γ) (h : LogLik L) {x : V} {r : ℝ} (hx : L x = some (r : EReal)) {φ : V → ℝ≥0∞}
    (hφ : Measurable φ) (h0 : hop γ L φ x = 0) : ∀ᵐ y ∂γ, logLik L y ≠ ⊥ → φ y = 0 := by
  have hℓ := h.measurable_logLik
  rw [hop_eq h hx hφ] at h0
  have hring : Measurable fun q : ℝ × V => ring (logLik L) φ 100 (x, q.2) (r - q.1) :=
    (measurable_ring hℓ hφ 100).comp (f := fun q : ℝ × V => ((x, q.2), r - q.1)) (by fun_prop)
  have hri : Measurable fun e : ℝ => ∫⁻ y, ring (logLik L) φ 100 (x, y) (r - e) ∂γ := hring.lintegral_prod_right'
  rw [lintegral_eq_zero_iff hri] at h0
  have key : ∀ᵐ e ∂expMeasure 1, ∀ᵐ y ∂γ, {y | ((r - e : ℝ) : EReal) < logLik L y}.indicator φ y = 0 := by
    filter_upwards [h0] with e he
    exact null_of_ring h1 h2 hℓ hφ 99 x (r - e) he
  have hex : ∀ k : ℕ, ∃ e : ℝ, (k : ℝ) < e ∧ ∀ᵐ y ∂γ, {y | ((r - e : ℝ) : EReal) < logLik L y}.indicator φ y = 0 := fun k => by
    by_contra hno
    rw [not_exists] at hno
    have h3 : expMeasure 1 (Ioi (k : ℝ)) = 0 := by
      refine measure_mono_null (fun e he => ?_) (ae_iff.1 key)
      have he : (k : ℝ) < e := he
      exact fun hh => hno e ⟨he, hh⟩
    have h4 := expMeasure_Ioi_pos (a := (k : ℝ)) (by positivity)
    exact h4.ne' h3
  choose e he1 he2 using hex
  filter_upwards [ae_all_iff.2 he2] with y hy hb
  obtain ⟨s, hs⟩ := finite_of_ne_bot h.ne_top hb
  have hs' : logLik L y = (s : EReal) := by rw [logLik, hs]; rfl
  obtain ⟨k, hk⟩ := exists_nat_gt (r - s)
  have := hy k
  rwa [indicator_of_mem (show y ∈ {y | ((r - e k : ℝ) : EReal) < logLik L y} by
    change ((r - e k : ℝ) : EReal) < logLik L y
    rw [hs']
    exact_mod_cast (by linarith [he1 k] : r - e k < s))] at this

end

end Gpcm.Ess
