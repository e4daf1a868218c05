import Verif.Props.CalibrationProps
import Verif.Lemmas.GibbsChain
import Mathlib.MeasureTheory.Function.L2Space

/-! # Property C204: the posterior mean is the best prediction if the inducing variables determine the signal -/

set_option linter.unusedSectionVars false

open Matrix Real MeasureTheory ENNReal ProbabilityTheory

namespace Gpcm

variable {ι κ : Type} [Fintype ι] [DecidableEq ι] [Fintype κ] [DecidableEq κ] {m : Inst ι κ}

/-- The mean of a quantity under the structured posterior given the observations `y` at the times `t`. -/
noncomputable def Spec.posteriorMean (m : Inst ι κ) {n : ℕ} (t : Fin n → ℝ) (φ : (ι → ℝ) × (κ → ℝ) → ℝ) (y : Fin n → ℝ) : ℝ :=
  ∫ x, φ x ∂structuredPosterior m (Spec.dataset t y)

/-- The mean squared error of a prediction of a quantity from observations at the times `t`, if the inducing variables are drawn from the
prior and the observations given them. -/
noncomputable def Spec.risk (m : Inst ι κ) {n : ℕ} (t : Fin n → ℝ) (φ : (ι → ℝ) × (κ → ℝ) → ℝ) (g : (Fin n → ℝ) → ℝ) : ℝ≥0∞ :=
  ∫⁻ x, (∫⁻ y, ENNReal.ofReal (Spec.obsDens m t y x) * ENNReal.ofReal ((φ x - g y) ^ 2)) ∂Spec.priorLaw m

/-- The mean is the best constant prediction, also of a quantity with infinite variance. -/
theorem mean_best {S : Type} [MeasurableSpace S] (P : Measure S) [IsProbabilityMeasure P] {φ : S → ℝ} (hφ : Measurable φ) (c : ℝ) :
    ∫⁻ x, ENNReal.ofReal ((φ x - ∫ x', φ x' ∂P) ^ 2) ∂P ≤ ∫⁻ x, ENNReal.ofReal ((φ x - c) ^ 2) ∂P := by
  by_cases hfin : ∫⁻ x, ENNReal.ofReal ((φ x - c) ^ 2) ∂P = ∞
  · rw [hfin]
    exact le_top
  have hi : Integrable (fun x => (φ x - c) ^ 2) P := by
    refine ⟨((hφ.sub_const c).pow_const 2).aestronglyMeasurable, ?_⟩
    rw [hasFiniteIntegral_iff_ofReal (Filter.Eventually.of_forall fun x => sq_nonneg _)]
    exact lt_top_iff_ne_top.2 hfin
  have hL : MemLp (fun x => φ x - c) 2 P := (memLp_two_iff_integrable_sq (hφ.sub_const c).aestronglyMeasurable).2 hi
  have h1 : Integrable (fun x => φ x - c) P := hL.integrable (by norm_num)
  have hφi : Integrable φ P := by
    have := h1.add (integrable_const c)
    refine this.congr (Filter.Eventually.of_forall fun x => ?_)
    simp
  obtain ⟨E, hE⟩ : ∃ E, E = ∫ x', φ x' ∂P := ⟨_, rfl⟩
  rw [← hE]
  have hi2 : Integrable (fun x => (φ x - E) ^ 2) P := by
    have := (hi.add ((h1.const_mul (2 * (c - E))))).add (integrable_const ((c - E) ^ 2))
    refine this.congr (Filter.Eventually.of_forall fun x => ?_)
    simp only [Pi.add_apply]
    ring
  rw [← ofReal_integral_eq_lintegral_ofReal hi2 (Filter.Eventually.of_forall fun x => sq_nonneg _),
    ← ofReal_integral_eq_lintegral_ofReal hi (Filter.Eventually.of_forall fun x => sq_nonneg _)]
  refine ENNReal.ofReal_le_ofReal ?_
  have e : ∀ x, (φ x - c) ^ 2 = (φ x - E) ^ 2 + (2 * (E - c) * (φ x - E) + (E - c) ^ 2) := fun x => by ring
  have h3 : Integrable (fun x => 2 * (E - c) * (φ x - E)) P := (hφi.sub (integrable_const E)).const_mul _
  have h4 : Integrable (fun x => 2 * (E - c) * (φ x - E) + (E - c) ^ 2) P := h3.add (integrable_const _)
  rw [integral_congr_ae (Filter.Eventually.of_forall e), integral_add hi2 h4, integral_add h3 (integrable_const _), integral_const_mul, integral_sub hφi (integrable_const E)]
  simp only [integral_const, probReal_univ, smul_eq_mul, one_mul, ← hE, sub_self, mul_zero, zero_add]
  exact le_add_of_nonneg_right (sq_nonneg _)

theorem measurable_posteriorMean (h : m.Valid) {n : ℕ} (t : Fin n → ℝ) {φ : (ι → ℝ) × (κ → ℝ) → ℝ} (hφ : Measurable φ) :
    Measurable (Spec.posteriorMean m t φ) := by
  have hj := measurable_joint_dataset h t
  have hZ : Measurable fun y : Fin n → ℝ => ∫⁻ x, joint m (Spec.dataset t y) x := hj.lintegral_prod_right'
  have e : Spec.posteriorMean m t φ = fun y =>
      ∫ x, (joint m (Spec.dataset t y) x / ∫⁻ x', joint m (Spec.dataset t y) x').toReal * φ x := by
    funext y
    have h0 := (joint_finite h (Spec.dataset t y)).1
    rw [Spec.posteriorMean, structuredPosterior, integral_withDensity_eq_integral_toReal_smul
      ((measurable_joint h _).div_const _) (Filter.Eventually.of_forall fun x => ?_), ← Measure.volume_eq_prod]
    · rfl
    · exact ENNReal.div_lt_top (by rw [joint]; exact ENNReal.ofReal_ne_top) h0
  rw [e]
  have hm : Measurable fun p : (Fin n → ℝ) × ((ι → ℝ) × (κ → ℝ)) =>
      (joint m (Spec.dataset t p.1) p.2 / ∫⁻ x', joint m (Spec.dataset t p.1) x').toReal * φ p.2 :=
    ((hj.div (hZ.comp measurable_fst)).ennreal_toReal).mul (hφ.comp measurable_snd)
  exact (hm.stronglyMeasurable.integral_prod_right').measurable

theorem risk_eq (h : m.Valid) {n : ℕ} (t : Fin n → ℝ) (h0 : ∀ i x, Spec.residual m (t i) x = 0)
    {φ : (ι → ℝ) × (κ → ℝ) → ℝ} (hφ : Measurable φ) {g : (Fin n → ℝ) → ℝ} (hg : Measurable g) :
    Spec.risk m t φ g = ∫⁻ y, ENNReal.ofReal (evidence m (Spec.dataset t y)) *
      ∫⁻ x, ENNReal.ofReal ((φ x - g y) ^ 2) ∂structuredPosterior m (Spec.dataset t y) := by
  have hG : Measurable fun p : (Fin n → ℝ) × ((ι → ℝ) × (κ → ℝ)) => ENNReal.ofReal ((φ p.2 - g p.1) ^ 2) :=
    (((hφ.comp measurable_snd).sub (hg.comp measurable_fst)).pow_const 2).ennreal_ofReal
  rw [c202_total_partial h t hG, Spec.risk]
  refine lintegral_congr fun x => ?_
  rw [Finset.sum_eq_zero fun i _ => h0 i x, zero_div, neg_zero, exp_zero, ENNReal.ofReal_one, one_mul]

/-- **C204** If the inducing variables determine the signal at the times of the data, then no prediction of a quantity from the observations
has a smaller mean squared error than the mean of the structured posterior.
Missing for the full claim: the signal is usually not determined. -/
theorem c204_best_partial (h : m.Valid) {n : ℕ} (t : Fin n → ℝ) (h0 : ∀ i x, Spec.residual m (t i) x = 0)
    (φ : (ι → ℝ) × (κ → ℝ) → ℝ) (hφ : Measurable φ) (g : (Fin n → ℝ) → ℝ) (hg : Measurable g) :
    Spec.risk m t φ (Spec.posteriorMean m t φ) ≤ Spec.risk m t φ g := by
  rw [risk_eq h t h0 hφ (measurable_posteriorMean h t hφ), risk_eq h t h0 hφ hg]
  refine lintegral_mono fun y => mul_le_mul_right ?_ _
  have := structuredPosterior_prob h (Spec.dataset t y)
  exact mean_best _ hφ (g y)

/-- Observations that a prediction ignores do not matter for its error. -/
theorem risk_ignore (h : m.Valid) {n : ℕ} (t : Fin (n + 1) → ℝ) (i : Fin (n + 1)) (φ : (ι → ℝ) × (κ → ℝ) → ℝ) {g : (Fin n → ℝ) → ℝ}
    (hg : Measurable g) :
    Spec.risk m t φ (fun y => g fun j => y (i.succAbove j)) = Spec.risk m (fun j => t (i.succAbove j)) φ g := by
  unfold Spec.risk
  refine lintegral_congr fun x => ?_
  obtain ⟨F, hF⟩ : ∃ F : ℝ × (Fin n → ℝ) → ℝ≥0∞, F = fun p =>
      ENNReal.ofReal (gaussianPDFReal (Spec.given m (t i) x).1 m.noise.toNNReal p.1) *
        (ENNReal.ofReal (Spec.obsDens m (fun j => t (i.succAbove j)) p.2 x) * ENNReal.ofReal ((φ x - g p.2) ^ 2)) := ⟨_, rfl⟩
  have hobs : Measurable fun y : Fin n → ℝ => ENNReal.ofReal (Spec.obsDens m (fun j => t (i.succAbove j)) y x) := by
    have := (measurable_lik m fun j => t (i.succAbove j)).comp (measurable_prodMk_right (y := x))
    exact this.ennreal_ofReal
  have e : ∀ y : Fin (n + 1) → ℝ, ENNReal.ofReal (Spec.obsDens m t y x) * ENNReal.ofReal ((φ x - g fun j => y (i.succAbove j)) ^ 2) =
      F (MeasurableEquiv.piFinSuccAbove (fun _ => ℝ) i y) := fun y => by
    rw [hF, Spec.obsDens, Fin.prod_univ_succAbove _ i, ENNReal.ofReal_mul (gaussianPDFReal_nonneg _ _ _), mul_assoc]
    rfl
  have hG : Measurable fun y : Fin n → ℝ =>
      ENNReal.ofReal (Spec.obsDens m (fun j => t (i.succAbove j)) y x) * ENNReal.ofReal ((φ x - g y) ^ 2) :=
    hobs.mul (((measurable_const.sub hg).pow_const 2).ennreal_ofReal)
  rw [lintegral_congr e, (volume_preserving_piFinSuccAbove (fun _ => ℝ) i).lintegral_comp_emb (MeasurableEquiv.measurableEmbedding _),
    hF, Measure.volume_eq_prod]
  beta_reduce
  rw [lintegral_prod_mul (measurable_gaussianPDFReal _ _).ennreal_ofReal.aemeasurable hG.aemeasurable]
  have := lintegral_gaussianPDFReal_eq_one (Spec.given m (t i) x).1 (Real.toNNReal_pos.2 h.noise).ne'
  rw [this, one_mul]

/-- **C204** If the inducing variables determine the signal at the times of the data, then the mean of the structured posterior is no worse a
prediction with a further observation than without it, on average, whichever observation it is. -/
theorem c204_more_partial (h : m.Valid) {n : ℕ} (t : Fin (n + 1) → ℝ) (h0 : ∀ i x, Spec.residual m (t i) x = 0) (i : Fin (n + 1))
    (φ : (ι → ℝ) × (κ → ℝ) → ℝ) (hφ : Measurable φ) :
    Spec.risk m t φ (Spec.posteriorMean m t φ) ≤
      Spec.risk m (fun j => t (i.succAbove j)) φ (Spec.posteriorMean m (fun j => t (i.succAbove j)) φ) := by
  have hm := measurable_posteriorMean h (fun j => t (i.succAbove j)) hφ
  rw [← risk_ignore h t i φ hm]
  refine c204_best_partial h t h0 φ hφ _ (hm.comp ?_)
  exact measurable_pi_lambda _ fun j => measurable_pi_apply _

/-- The error of a constant prediction of whether the inducing variables lie in a region. -/
theorem risk_const (h : m.Valid) {n : ℕ} (t : Fin n → ℝ) {R : Set ((ι → ℝ) × (κ → ℝ))} (hR : MeasurableSet R) (c : ℝ) :
    Spec.risk m t (R.indicator 1) (fun _ => c) =
      ENNReal.ofReal ((1 - c) ^ 2 * (Spec.priorLaw m R).toReal + c ^ 2 * (1 - (Spec.priorLaw m R).toReal)) := by
  have hprob := priorLaw_prob h
  have e : ∀ x, ∫⁻ y, ENNReal.ofReal (Spec.obsDens m t y x) * ENNReal.ofReal ((R.indicator 1 x - c) ^ 2) =
      ENNReal.ofReal ((R.indicator 1 x - c) ^ 2) := fun x => by
    rw [lintegral_mul_const' _ _ ENNReal.ofReal_ne_top, lintegral_obsDens h, one_mul]
  rw [Spec.risk, lintegral_congr e, ← lintegral_add_compl _ hR,
    setLIntegral_congr_fun hR (g := fun _ => ENNReal.ofReal ((1 - c) ^ 2)) (fun x hx => by simp [hx]),
    setLIntegral_congr_fun hR.compl (g := fun _ => ENNReal.ofReal (c ^ 2)) (fun x hx => by
      have : x ∉ R := hx
      simp [this]), setLIntegral_const, setLIntegral_const, prob_compl_eq_one_sub hR]
  have hle : Spec.priorLaw m R ≤ 1 := prob_le_one
  have ht : Spec.priorLaw m R ≠ ∞ := measure_ne_top _ _
  have hr : (Spec.priorLaw m R).toReal ≤ 1 := by
    have := ENNReal.toReal_mono ENNReal.one_ne_top hle
    simpa using this
  rw [ENNReal.ofReal_add (by positivity) (mul_nonneg (sq_nonneg _) (by linarith)), ENNReal.ofReal_mul (sq_nonneg _),
    ENNReal.ofReal_mul (sq_nonneg _), ENNReal.ofReal_sub _ ENNReal.toReal_nonneg, ENNReal.ofReal_one, ENNReal.ofReal_toReal ht]

/-- **C204** If the inducing variables do not determine the signal, then the mean of the structured posterior can be a worse prediction than
a constant: there is a quantity for which it is worse with an observation than without any. -/
theorem c204_false : ∃ (m : Inst (Fin 1) (Fin 1)) (φ : (Fin 1 → ℝ) × (Fin 1 → ℝ) → ℝ) (c : ℝ), m.Valid ∧ Measurable φ ∧
    c = ∫ x, φ x ∂Spec.priorLaw m ∧
    Spec.risk m ![0] φ (fun _ => c) < Spec.risk m ![0] φ (Spec.posteriorMean m ![0] φ) := by
  obtain ⟨R, a, hR, hpost, hlt, -⟩ := far_region
  have h := farInst_valid
  have hprob := priorLaw_prob h
  have hm : Spec.posteriorMean farInst ![0] (R.indicator 1) = fun _ => a.toReal := by
    funext y
    rw [Spec.posteriorMean, integral_indicator_one hR, Measure.real, hpost]
  have ha : a ≠ ∞ := by
    have hp := structuredPosterior_prob h (Spec.dataset ![0] ![0])
    rw [← hpost ![0]]
    exact measure_ne_top _ _
  have hlt' : (Spec.priorLaw farInst R).toReal < a.toReal := (ENNReal.toReal_lt_toReal (measure_ne_top _ _) ha).2 hlt
  refine ⟨farInst, R.indicator 1, (Spec.priorLaw farInst R).toReal, h, measurable_one.indicator hR, ?_, ?_⟩
  · rw [integral_indicator_one hR]
    rfl
  · rw [hm, risk_const h _ hR, risk_const h _ hR]
    obtain ⟨p, hp⟩ : ∃ p, p = (Spec.priorLaw farInst R).toReal := ⟨_, rfl⟩
    obtain ⟨b, hb⟩ : ∃ b, b = a.toReal := ⟨_, rfl⟩
    rw [← hp, ← hb]
    rw [← hp, ← hb] at hlt'
    have hsq : 0 < (b - p) ^ 2 := by
      have : 0 < b - p := by linarith
      positivity
    have hp0 : 0 ≤ p := by rw [hp]; exact ENNReal.toReal_nonneg
    have hp1 : p ≤ 1 := by
      have := ENNReal.toReal_mono ENNReal.one_ne_top (prob_le_one (μ := Spec.priorLaw farInst) (s := R))
      rw [← hp] at this
      simpa using this
    have hlt2 : (1 - p) ^ 2 * p + p ^ 2 * (1 - p) < (1 - b) ^ 2 * p + b ^ 2 * (1 - p) := by nlinarith
    refine (ENNReal.ofReal_lt_ofReal_iff (lt_of_le_of_lt ?_ hlt2)).2 hlt2
    exact add_nonneg (mul_nonneg (sq_nonneg _) hp0) (mul_nonneg (sq_nonneg _) (by linarith))

/-- The product of the inducing variables, predicted from any observations. -/
example (n : ℕ) (t : Fin n → ℝ) (g : (Fin n → ℝ) → ℝ) (hg : Measurable g) :
    Spec.risk exactInst t (fun x => x.1 0 * x.2 0) (Spec.posteriorMean exactInst t fun x => x.1 0 * x.2 0) ≤
      Spec.risk exactInst t (fun x => x.1 0 * x.2 0) g :=
  c204_best_partial exactInst_valid t (fun i => exactInst_residual (t i)) _
    (((measurable_pi_apply 0).comp measurable_fst).mul ((measurable_pi_apply 0).comp measurable_snd)) g hg

end Gpcm
