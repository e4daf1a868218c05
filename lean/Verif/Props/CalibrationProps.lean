import Verif.Lemmas.SubDensity
import Verif.Spec.Noise
import Verif.Lemmas.GibbsChain

/-! # Property C202: the structured posterior is calibrated if the inducing variables determine the signal -/

set_option linter.unusedSectionVars false

open Matrix Real MeasureTheory ENNReal ProbabilityTheory

namespace Gpcm

variable {ι κ : Type} [Fintype ι] [DecidableEq ι] [Fintype κ] [DecidableEq κ] {m : Inst ι κ}

/-- The density of the observations `y` at the times `t` given the inducing variables: independent normals around the mean of the
signal with the noise as variance. -/
noncomputable def Spec.obsDens (m : Inst ι κ) {n : ℕ} (t y : Fin n → ℝ) (x : (ι → ℝ) × (κ → ℝ)) : ℝ :=
  ∏ i, gaussianPDFReal (Spec.given m (t i) x).1 m.noise.toNNReal (y i)

/-- The prior of the inducing variables. -/
noncomputable def Spec.priorLaw (m : Inst ι κ) : Measure ((ι → ℝ) × (κ → ℝ)) := volume.withDensity fun x => ENNReal.ofReal (priorDens m x)

/-- The probability that the inducing variables lie in the region reported for the observations, if the inducing variables are drawn from
the prior and the observations given them. -/
noncomputable def Spec.coverage (m : Inst ι κ) {n : ℕ} (t : Fin n → ℝ) (R : (Fin n → ℝ) → Set ((ι → ℝ) × (κ → ℝ))) : ℝ≥0∞ :=
  ∫⁻ x, (∫⁻ y in {y | x ∈ R y}, ENNReal.ofReal (Spec.obsDens m t y x)) ∂Spec.priorLaw m

theorem priorLaw_prob (h : m.Valid) : IsProbabilityMeasure (Spec.priorLaw m) :=
  ⟨by rw [Spec.priorLaw, withDensity_apply _ MeasurableSet.univ, Measure.restrict_univ, lintegral_priorDens h]⟩

theorem lintegral_posterior (h : m.Valid) (d : List (ℝ × ℝ)) {g : (ι → ℝ) × (κ → ℝ) → ℝ≥0∞} (hg : Measurable g) :
    ENNReal.ofReal (evidence m d) * ∫⁻ x, g x ∂structuredPosterior m d = ∫⁻ x, joint m d x * g x := by
  have h0 := (joint_finite h d).1
  have h1 := (joint_finite h d).2
  rw [ofReal_evidence h, structuredPosterior, lintegral_withDensity_eq_lintegral_mul _ ((measurable_joint h d).div_const _) hg,
    ← Measure.volume_eq_prod]
  rw [← Measure.volume_eq_prod] at h0 h1
  rw [← lintegral_const_mul' _ _ h1]
  refine lintegral_congr fun x => ?_
  rw [Pi.mul_apply, ← mul_assoc, ENNReal.mul_div_cancel h0 h1]

/-- **C202** Averaging the structured posterior over observations, weighted by the evidence, gives back the prior, weighted by how well
the inducing variables explain the signal at the times of the data: for every weight `g` of observations and inducing variables. -/
theorem c202_total_partial (h : m.Valid) {n : ℕ} (t : Fin n → ℝ) {g : (Fin n → ℝ) × ((ι → ℝ) × (κ → ℝ)) → ℝ≥0∞} (hg : Measurable g) :
    ∫⁻ y, ENNReal.ofReal (evidence m (Spec.dataset t y)) * ∫⁻ x, g (y, x) ∂structuredPosterior m (Spec.dataset t y) =
      ∫⁻ x, ENNReal.ofReal (exp (-((∑ i, Spec.residual m (t i) x) / (2 * m.noise)))) *
        (∫⁻ y, ENNReal.ofReal (Spec.obsDens m t y x) * g (y, x)) ∂Spec.priorLaw m := by
  have hgm : ∀ y, Measurable fun x => g (y, x) := fun y => hg.comp measurable_prodMk_left
  rw [lintegral_congr fun y => lintegral_posterior h (Spec.dataset t y) (hgm y), lintegral_swap_joint h t hg, Spec.priorLaw,
    lintegral_withDensity_eq_lintegral_mul _ (continuous_priorDens m).measurable.ennreal_ofReal]
  · refine lintegral_congr fun x => ?_
    rw [Pi.mul_apply, ← mul_assoc, tilted, ENNReal.ofReal_mul (show 0 ≤ priorDens m x from (exp_pos _).le)]
    rfl
  · refine Measurable.mul ?_ ?_
    · exact (((continuous_finsetSum _ fun i _ => continuous_residual m (t i)).div_const _).neg.rexp).measurable.ennreal_ofReal
    · exact Measurable.lintegral_prod_left' (((measurable_lik m t).ennreal_ofReal).mul hg)

/-- The observations are drawn given the inducing variables. -/
theorem lintegral_obsDens (h : m.Valid) {n : ℕ} (t : Fin n → ℝ) (x : (ι → ℝ) × (κ → ℝ)) :
    ∫⁻ y, ENNReal.ofReal (Spec.obsDens m t y x) = 1 :=
  lintegral_normals _ (Real.toNNReal_pos.2 h.noise).ne'

theorem coverage_eq (h : m.Valid) {n : ℕ} (t : Fin n → ℝ) (h0 : ∀ i x, Spec.residual m (t i) x = 0)
    {R : (Fin n → ℝ) → Set ((ι → ℝ) × (κ → ℝ))} (hR : MeasurableSet {p : (Fin n → ℝ) × ((ι → ℝ) × (κ → ℝ)) | p.2 ∈ R p.1}) :
    Spec.coverage m t R =
      ∫⁻ y, ENNReal.ofReal (evidence m (Spec.dataset t y)) * structuredPosterior m (Spec.dataset t y) (R y) := by
  have hg : Measurable ({p : (Fin n → ℝ) × ((ι → ℝ) × (κ → ℝ)) | p.2 ∈ R p.1}.indicator fun _ => (1 : ℝ≥0∞)) :=
    measurable_const.indicator hR
  have e := c202_total_partial h t hg
  have hRy : ∀ y, MeasurableSet (R y) := fun y => (measurable_prodMk_left (x := y)) hR
  have hRx : ∀ x, MeasurableSet {y | x ∈ R y} := fun x => (measurable_prodMk_right (y := x)) hR
  have e1 : ∀ y, ∫⁻ x, {p : (Fin n → ℝ) × ((ι → ℝ) × (κ → ℝ)) | p.2 ∈ R p.1}.indicator (fun _ => (1 : ℝ≥0∞)) (y, x)
      ∂structuredPosterior m (Spec.dataset t y) = structuredPosterior m (Spec.dataset t y) (R y) := fun y => by
    rw [← lintegral_indicator_one (hRy y)]
    rfl
  rw [lintegral_congr fun y => congrArg _ (e1 y)] at e
  rw [e, Spec.coverage]
  refine lintegral_congr fun x => ?_
  rw [Finset.sum_eq_zero fun i _ => h0 i x, zero_div, neg_zero, exp_zero, ENNReal.ofReal_one, one_mul, ← lintegral_indicator (hRx x)]
  refine lintegral_congr fun y => ?_
  by_cases hy : x ∈ R y
  · rw [Set.indicator_of_mem (show y ∈ {y | x ∈ R y} from hy),
      Set.indicator_of_mem (show (y, x) ∈ {p : (Fin n → ℝ) × ((ι → ℝ) × (κ → ℝ)) | p.2 ∈ R p.1} from hy), mul_one]
  · rw [Set.indicator_of_notMem (show y ∉ {y | x ∈ R y} from hy),
      Set.indicator_of_notMem (show (y, x) ∉ {p : (Fin n → ℝ) × ((ι → ℝ) × (κ → ℝ)) | p.2 ∈ R p.1} from hy), mul_zero]

theorem evidence_mass (h : m.Valid) {n : ℕ} (t : Fin n → ℝ) (h0 : ∀ i x, Spec.residual m (t i) x = 0) :
    ∫⁻ y, ENNReal.ofReal (evidence m (Spec.dataset t y)) = 1 := by
  rw [lintegral_evidence h, ← lintegral_priorDens h]
  refine lintegral_congr fun x => ?_
  rw [tilted, Finset.sum_eq_zero fun i _ => h0 i x, zero_div, neg_zero, exp_zero, mul_one]

/-- **C202** If the inducing variables determine the signal at the times of the data, then regions that contain a fraction `a` of the
structured posterior, for every observation, contain the inducing variables with probability `a` (at least, if they contain at least `a`).
Missing for the full claim: the signal is usually not determined. -/
theorem c202_coverage_partial (h : m.Valid) {n : ℕ} (t : Fin n → ℝ) (h0 : ∀ i x, Spec.residual m (t i) x = 0)
    (R : (Fin n → ℝ) → Set ((ι → ℝ) × (κ → ℝ))) (hR : MeasurableSet {p : (Fin n → ℝ) × ((ι → ℝ) × (κ → ℝ)) | p.2 ∈ R p.1}) (a : ℝ≥0∞) :
    ((∀ y, structuredPosterior m (Spec.dataset t y) (R y) = a) → Spec.coverage m t R = a) ∧
    ((∀ y, a ≤ structuredPosterior m (Spec.dataset t y) (R y)) → a ≤ Spec.coverage m t R) := by
  have hm : Measurable fun y : Fin n → ℝ => ENNReal.ofReal (evidence m (Spec.dataset t y)) :=
    (measurable_evidence h t).ennreal_ofReal
  constructor
  · intro ha
    rw [coverage_eq h t h0 hR, lintegral_congr fun y => congrArg _ (ha y), lintegral_mul_const _ hm, evidence_mass h t h0, one_mul]
  · intro ha
    rw [coverage_eq h t h0 hR]
    calc a = ∫⁻ y, ENNReal.ofReal (evidence m (Spec.dataset t y)) * a := by
          rw [lintegral_mul_const _ hm, evidence_mass h t h0, one_mul]
      _ ≤ _ := lintegral_mono fun y => mul_le_mul_right (ha y) _

/-- **C202** The same for credible intervals of any quantity that is computed from the inducing variables, such as the kernel at some lag:
the interval contains the true value as often as it says. -/
theorem c202_interval_partial (h : m.Valid) {n : ℕ} (t : Fin n → ℝ) (h0 : ∀ i x, Spec.residual m (t i) x = 0)
    (f : (ι → ℝ) × (κ → ℝ) → ℝ) (hf : Measurable f) (lower upper : (Fin n → ℝ) → ℝ) (hl : Measurable lower) (hu : Measurable upper)
    (a : ℝ≥0∞) (ha : ∀ y, a ≤ structuredPosterior m (Spec.dataset t y) {x | lower y ≤ f x ∧ f x ≤ upper y}) :
    a ≤ Spec.coverage m t fun y => {x | lower y ≤ f x ∧ f x ≤ upper y} := by
  refine (c202_coverage_partial h t h0 _ ?_ a).2 ha
  exact (measurableSet_le (hl.comp measurable_fst) (hf.comp measurable_snd)).inter
    (measurableSet_le (hf.comp measurable_snd) (hu.comp measurable_fst))

/-- How much of the signal at the times of the data the inducing variables explain, between zero and one: one if all of it. -/
noncomputable def Spec.explained (m : Inst ι κ) {n : ℕ} (t : Fin n → ℝ) : ℝ≥0∞ :=
  ∫⁻ x, ENNReal.ofReal (exp (-((∑ i, Spec.residual m (t i) x) / (2 * m.noise)))) ∂Spec.priorLaw m

theorem explained_eq (h : m.Valid) {n : ℕ} (t : Fin n → ℝ) :
    Spec.explained m t = ∫⁻ y, ENNReal.ofReal (evidence m (Spec.dataset t y)) := by
  have e := c202_total_partial h t (g := fun _ => 1) measurable_const
  simp only [mul_one] at e
  have e1 : ∀ y : Fin n → ℝ, ∫⁻ _, (1 : ℝ≥0∞) ∂structuredPosterior m (Spec.dataset t y) = 1 := fun y => by
    have := structuredPosterior_prob h (Spec.dataset t y)
    rw [lintegral_one, measure_univ]
  simp only [e1, mul_one, lintegral_obsDens h] at e
  rw [e, Spec.explained]

theorem coverage_ge (h : m.Valid) {n : ℕ} (t : Fin n → ℝ) {R : (Fin n → ℝ) → Set ((ι → ℝ) × (κ → ℝ))}
    (hR : MeasurableSet {p : (Fin n → ℝ) × ((ι → ℝ) × (κ → ℝ)) | p.2 ∈ R p.1}) :
    ∫⁻ y, ENNReal.ofReal (evidence m (Spec.dataset t y)) * structuredPosterior m (Spec.dataset t y) (R y) ≤ Spec.coverage m t R := by
  have hg : Measurable ({p : (Fin n → ℝ) × ((ι → ℝ) × (κ → ℝ)) | p.2 ∈ R p.1}.indicator fun _ => (1 : ℝ≥0∞)) :=
    measurable_const.indicator hR
  have e := c202_total_partial h t hg
  have hRy : ∀ y, MeasurableSet (R y) := fun y => (measurable_prodMk_left (x := y)) hR
  have hRx : ∀ x, MeasurableSet {y | x ∈ R y} := fun x => (measurable_prodMk_right (y := x)) hR
  have e1 : ∀ y, ∫⁻ x, {p : (Fin n → ℝ) × ((ι → ℝ) × (κ → ℝ)) | p.2 ∈ R p.1}.indicator (fun _ => (1 : ℝ≥0∞)) (y, x)
      ∂structuredPosterior m (Spec.dataset t y) = structuredPosterior m (Spec.dataset t y) (R y) := fun y => by
    rw [← lintegral_indicator_one (hRy y)]
    rfl
  rw [lintegral_congr fun y => congrArg _ (e1 y)] at e
  rw [e, Spec.coverage]
  refine lintegral_mono fun x => ?_
  rw [← lintegral_indicator (hRx x)]
  have hw : ENNReal.ofReal (exp (-((∑ i, Spec.residual m (t i) x) / (2 * m.noise)))) ≤ 1 :=
    ENNReal.ofReal_le_one.2 (exp_le_one_iff.2 (neg_nonpos.2
      (div_nonneg (Finset.sum_nonneg fun i _ => residual_nonneg h (t i) x) (by linarith [h.noise]))))
  refine (mul_le_of_le_one_left' hw).trans (lintegral_mono fun y => ?_)
  by_cases hy : x ∈ R y
  · rw [Set.indicator_of_mem (show y ∈ {y | x ∈ R y} from hy),
      Set.indicator_of_mem (show (y, x) ∈ {p : (Fin n → ℝ) × ((ι → ℝ) × (κ → ℝ)) | p.2 ∈ R p.1} from hy), mul_one]
  · rw [Set.indicator_of_notMem (show y ∉ {y | x ∈ R y} from hy),
      Set.indicator_of_notMem (show (y, x) ∉ {p : (Fin n → ℝ) × ((ι → ℝ) × (κ → ℝ)) | p.2 ∈ R p.1} from hy), mul_zero]

/-- **C202** In general credible regions are off by at most what the inducing variables leave unexplained: regions that contain at least a
fraction `a` of the structured posterior contain the inducing variables with probability at least `a` times the fraction explained, and
regions that contain at most `a` miss them with probability at least `1 - a` times that fraction. -/
theorem c202_near_partial (h : m.Valid) {n : ℕ} (t : Fin n → ℝ) (R : (Fin n → ℝ) → Set ((ι → ℝ) × (κ → ℝ)))
    (hR : MeasurableSet {p : (Fin n → ℝ) × ((ι → ℝ) × (κ → ℝ)) | p.2 ∈ R p.1}) (a : ℝ≥0∞) :
    ((∀ y, a ≤ structuredPosterior m (Spec.dataset t y) (R y)) → a * Spec.explained m t ≤ Spec.coverage m t R) ∧
    ((∀ y, structuredPosterior m (Spec.dataset t y) (R y) ≤ a) →
      (1 - a) * Spec.explained m t ≤ Spec.coverage m t fun y => (R y)ᶜ) := by
  have hm : Measurable fun y : Fin n → ℝ => ENNReal.ofReal (evidence m (Spec.dataset t y)) :=
    (measurable_evidence h t).ennreal_ofReal
  have key : ∀ {S : (Fin n → ℝ) → Set ((ι → ℝ) × (κ → ℝ))},
      MeasurableSet {p : (Fin n → ℝ) × ((ι → ℝ) × (κ → ℝ)) | p.2 ∈ S p.1} → ∀ b : ℝ≥0∞,
      (∀ y, b ≤ structuredPosterior m (Spec.dataset t y) (S y)) → b * Spec.explained m t ≤ Spec.coverage m t S := fun hS b hb => by
    refine le_trans ?_ (coverage_ge h t hS)
    rw [explained_eq h, mul_comm, ← lintegral_mul_const _ hm]
    exact lintegral_mono fun y => mul_le_mul_right (hb y) _
  refine ⟨key hR a, fun ha => key (S := fun y => (R y)ᶜ) hR.compl (1 - a) fun y => ?_⟩
  have hp := structuredPosterior_prob h (Spec.dataset t y)
  have hRy : MeasurableSet (R y) := (measurable_prodMk_left (x := y)) hR
  rw [prob_compl_eq_one_sub hRy]
  exact tsub_le_tsub_left (ha y) 1

/-- **C202** The fraction explained is at most one, and one if the inducing variables determine the signal. -/
theorem c202_explained_partial (h : m.Valid) {n : ℕ} (t : Fin n → ℝ) :
    Spec.explained m t ≤ 1 ∧ ((∀ i x, Spec.residual m (t i) x = 0) → Spec.explained m t = 1) := by
  rw [explained_eq h]
  exact ⟨lintegral_evidence_le h t, evidence_mass h t⟩

/-! ## Witness -/

/-- Weighting a distribution by something that is larger inside a region than outside makes the region more likely. -/
theorem weight_region {S : Type} [MeasurableSpace S] (P : Measure S) [IsProbabilityMeasure P] {R : Set S} (hR : MeasurableSet R)
    (h1 : P R ≠ 0) (h2 : P Rᶜ ≠ 0) {w : S → ℝ≥0∞} (hw : Measurable w) {e : ℝ≥0∞} (he : e ≠ ∞) (h3 : ∀ x, w x ≤ 1) (hi : ∀ x ∈ R, e ≤ w x)
    (ho : ∀ x ∈ Rᶜ, w x < e) : P R * ∫⁻ x, w x ∂P < ∫⁻ x in R, w x ∂P := by
  have hp1 : P R ≠ ∞ := measure_ne_top _ _
  have hp2 : P Rᶜ ≠ ∞ := measure_ne_top _ _
  have hsum : P R + P Rᶜ = 1 := by rw [measure_add_measure_compl hR, measure_univ]
  have hA : e * P R ≤ ∫⁻ x in R, w x ∂P := by
    rw [← setLIntegral_const]
    exact setLIntegral_mono' hR hi
  have hB : ∫⁻ x in Rᶜ, w x ∂P < e * P Rᶜ := by
    rw [← setLIntegral_const]
    refine setLIntegral_strict_mono hR.compl h2 measurable_const ?_ (Filter.Eventually.of_forall ho)
    refine ne_top_of_le_ne_top (ENNReal.mul_ne_top he hp2) ?_
    rw [← setLIntegral_const]
    exact setLIntegral_mono' hR.compl fun x hx => (ho x hx).le
  obtain ⟨A, hAd⟩ : ∃ A, A = ∫⁻ x in R, w x ∂P := ⟨_, rfl⟩
  obtain ⟨B, hBd⟩ : ∃ B, B = ∫⁻ x in Rᶜ, w x ∂P := ⟨_, rfl⟩
  rw [← lintegral_add_compl w hR, ← hAd, ← hBd]
  rw [← hAd] at hA
  rw [← hBd] at hB
  have htop : A ≠ ∞ := by
    rw [hAd]
    refine ne_top_of_le_ne_top hp1 ?_
    rw [← setLIntegral_one]
    exact lintegral_mono fun x => h3 x
  calc P R * (A + B) = P R * A + P R * B := mul_add _ _ _
    _ < P R * A + P R * (e * P Rᶜ) := by
        refine ENNReal.add_lt_add_left (ENNReal.mul_ne_top hp1 htop) ?_
        exact (ENNReal.mul_lt_mul_iff_right h1 hp1).2 hB
    _ = P R * A + P Rᶜ * (e * P R) := by ring
    _ ≤ P R * A + P Rᶜ * A := by gcongr
    _ = A := by rw [← add_mul, hsum, one_mul]

/-- A model that is asked about times far from its inducing inputs: they say nothing about the mean of the signal. -/
noncomputable def farInst : Inst (Fin 1) (Fin 1) :=
  { Ku := 1, Kz := 1, noise := 1, iHx := fun _ _ => 1, iUx := 1, iHz := fun _ => 0, iUz := fun _ => 0 }

theorem farInst_valid : farInst.Valid where
  Ku := Matrix.PosDef.one
  Kz := Matrix.PosDef.one
  noise := one_pos
  A := fun s => by simpa [farInst] using Matrix.PosSemidef.one
  B := fun s => by simpa [farInst] using Matrix.PosSemidef.zero
  c := fun s => by simp [farInst, Spec.inner]

theorem farInst_given (s : ℝ) (x : (Fin 1 → ℝ) × (Fin 1 → ℝ)) : Spec.given farInst s x = (0, x.1 0 ^ 2) := by
  simp [Spec.given, Spec.moments, Spec.inner, farInst, vecMulVec, sq]

theorem farInst_joint (y : Fin 1 → ℝ) (x : (Fin 1 → ℝ) × (Fin 1 → ℝ)) :
    joint farInst (Spec.dataset ![0] y) x =
      ENNReal.ofReal (gaussianPDFReal 0 1 (y 0)) * (ENNReal.ofReal (priorDens farInst x) * ENNReal.ofReal (exp (-(x.1 0 ^ 2 / 2)))) := by
  rw [joint_dataset farInst_valid, tilted, ENNReal.ofReal_mul (show 0 ≤ priorDens farInst x from (exp_pos _).le), mul_comm]
  have hn : farInst.noise = 1 := rfl
  simp [farInst_given, Spec.residual, hn]

theorem open_prior_pos (m : Inst ι κ) {S : Set ((ι → ℝ) × (κ → ℝ))} (hS : IsOpen S) (hne : S.Nonempty) : Spec.priorLaw m S ≠ 0 := by
  have hac : (volume : Measure ((ι → ℝ) × (κ → ℝ))) ≪ Spec.priorLaw m :=
    withDensity_absolutelyContinuous' (continuous_priorDens m).measurable.ennreal_ofReal.aemeasurable
      (Filter.Eventually.of_forall fun x => ofReal_exp_ne_zero _)
  exact fun h0 => (hS.measure_pos volume hne).ne' (hac h0)

theorem far_region : ∃ (R : Set ((Fin 1 → ℝ) × (Fin 1 → ℝ))) (a : ℝ≥0∞), MeasurableSet R ∧
    (∀ y, structuredPosterior farInst (Spec.dataset ![0] y) R = a) ∧ Spec.priorLaw farInst R < a ∧
    Spec.coverage farInst ![0] (fun _ => R) < a := by
  have h := farInst_valid
  have hprob := priorLaw_prob h
  obtain ⟨P, hP⟩ : ∃ P, P = Spec.priorLaw farInst := ⟨_, rfl⟩
  obtain ⟨R, hRd⟩ : ∃ R : Set ((Fin 1 → ℝ) × (Fin 1 → ℝ)), R = {x | |x.1 0| ≤ 1} := ⟨_, rfl⟩
  obtain ⟨w, hwd⟩ : ∃ w : (Fin 1 → ℝ) × (Fin 1 → ℝ) → ℝ≥0∞, w = fun x => ENNReal.ofReal (exp (-(x.1 0 ^ 2 / 2))) := ⟨_, rfl⟩
  have hc : Continuous fun x : (Fin 1 → ℝ) × (Fin 1 → ℝ) => x.1 0 := (continuous_apply 0).comp continuous_fst
  have hcl : IsClosed R := by
    rw [hRd]
    exact isClosed_le hc.abs continuous_const
  have hw : Measurable w := by
    rw [hwd]
    exact ((hc.pow 2).div_const 2).neg.rexp.measurable.ennreal_ofReal
  have hP1 : P R ≠ 0 := by
    have ho : IsOpen {x : (Fin 1 → ℝ) × (Fin 1 → ℝ) | |x.1 0| < 1} := isOpen_lt hc.abs continuous_const
    have hne : {x : (Fin 1 → ℝ) × (Fin 1 → ℝ) | |x.1 0| < 1}.Nonempty := ⟨(fun _ => 0, fun _ => 0), by simp⟩
    have hsub : {x : (Fin 1 → ℝ) × (Fin 1 → ℝ) | |x.1 0| < 1} ⊆ R := fun x hx => by
      rw [hRd]
      exact (show |x.1 0| < 1 from hx).le
    intro h0
    rw [hP] at h0
    exact open_prior_pos farInst ho hne (measure_mono_null hsub h0)
  have hP2 : P Rᶜ ≠ 0 := by
    rw [hP]
    refine open_prior_pos farInst hcl.isOpen_compl ⟨(fun _ => 2, 0), ?_⟩
    rw [hRd]
    norm_num
  rw [← hP] at hprob
  have key := weight_region P hcl.measurableSet hP1 hP2 hw (e := ENNReal.ofReal (exp (-(1 / 2)))) ENNReal.ofReal_ne_top
    (fun x => by
      rw [hwd]
      exact ENNReal.ofReal_le_one.2 (exp_le_one_iff.2 (neg_nonpos.2 (by positivity))))
    (fun x hx => by
      rw [hRd] at hx
      rw [hwd]
      refine ENNReal.ofReal_le_ofReal (exp_le_exp.2 ?_)
      have := (sq_le_one_iff_abs_le_one (x.1 0)).2 hx
      linarith)
    (fun x hx => by
      rw [hRd] at hx
      rw [hwd]
      refine (ENNReal.ofReal_lt_ofReal_iff (exp_pos _)).2 (exp_lt_exp.2 ?_)
      have : ¬x.1 0 ^ 2 ≤ 1 := fun h1 => hx ((sq_le_one_iff_abs_le_one (x.1 0)).1 h1)
      linarith [lt_of_not_ge this])
  have hW0 : ∫⁻ x, w x ∂P ≠ 0 := by
    intro h0
    rw [lintegral_eq_zero_iff hw] at h0
    have : ∀ᵐ x ∂P, False := h0.mono fun x hx => by
      rw [hwd] at hx
      exact ofReal_exp_ne_zero _ hx
    rw [Filter.eventually_false_iff_eq_bot, ae_eq_bot] at this
    exact hP1 (by rw [this]; rfl)
  have hW1 : ∫⁻ x, w x ∂P ≠ ∞ := by
    refine ne_top_of_le_ne_top (measure_ne_top P Set.univ) ?_
    rw [← lintegral_one]
    refine lintegral_mono fun x => ?_
    rw [hwd]
    exact ENNReal.ofReal_le_one.2 (exp_le_one_iff.2 (neg_nonpos.2 (by positivity)))
  have hpost : ∀ y, structuredPosterior farInst (Spec.dataset ![0] y) R = (∫⁻ x in R, w x ∂P) / ∫⁻ x, w x ∂P := fun y => by
    have hg0 : ENNReal.ofReal (gaussianPDFReal 0 1 (y 0)) ≠ 0 := by
      rw [Ne, ENNReal.ofReal_eq_zero, not_le]
      exact gaussianPDFReal_pos 0 1 _ one_ne_zero
    have hi : ∀ S : Set ((Fin 1 → ℝ) × (Fin 1 → ℝ)), MeasurableSet S → ∫⁻ x, joint farInst (Spec.dataset ![0] y) x * S.indicator 1 x =
        ENNReal.ofReal (gaussianPDFReal 0 1 (y 0)) * ∫⁻ x in S, w x ∂P := fun S hS => by
      rw [hP, Spec.priorLaw, ← lintegral_indicator hS, lintegral_withDensity_eq_lintegral_mul _
        (continuous_priorDens farInst).measurable.ennreal_ofReal (hw.indicator hS), ← lintegral_const_mul' _ _ ENNReal.ofReal_ne_top]
      refine lintegral_congr fun x => ?_
      rw [farInst_joint, hwd]
      by_cases hx : x ∈ S
      · simp [hx, mul_assoc]
      · simp [hx]
    have e1 := lintegral_posterior h (Spec.dataset ![0] y) (g := R.indicator 1) (measurable_one.indicator hcl.measurableSet)
    rw [lintegral_indicator_one hcl.measurableSet, hi R hcl.measurableSet] at e1
    have e2 : ENNReal.ofReal (evidence farInst (Spec.dataset ![0] y)) =
        ENNReal.ofReal (gaussianPDFReal 0 1 (y 0)) * ∫⁻ x, w x ∂P := by
      have := hi Set.univ MeasurableSet.univ
      simp only [Set.indicator_univ, Pi.one_apply, mul_one, Measure.restrict_univ] at this
      rw [ofReal_evidence h, this]
    rw [e2, mul_assoc] at e1
    have e3 := (ENNReal.mul_right_inj hg0 ENNReal.ofReal_ne_top).1 e1
    rw [ENNReal.eq_div_iff hW0 hW1, e3]
  have hlt : P R < (∫⁻ x in R, w x ∂P) / ∫⁻ x, w x ∂P := by
    rw [ENNReal.lt_div_iff_mul_lt (Or.inl hW0) (Or.inl hW1)]
    exact key
  refine ⟨R, (∫⁻ x in R, w x ∂P) / ∫⁻ x, w x ∂P, hcl.measurableSet, hpost, ?_, ?_⟩
  · rw [← hP]
    exact hlt
  · refine lt_of_eq_of_lt ?_ hlt
    rw [Spec.coverage, ← hP, ← lintegral_indicator_one hcl.measurableSet]
    refine lintegral_congr fun x => ?_
    by_cases hx : x ∈ R
    · simp only [hx, Set.setOf_true, Measure.restrict_univ, Set.indicator_of_mem, Pi.one_apply]
      exact lintegral_obsDens h _ x
    · simp [hx]

/-- **C202** The structured posterior is not calibrated if the inducing variables do not determine the signal: there is a model and a region
that contains more of the posterior than `a`, whatever is observed, but of the prior less than `a`. So the region contains the inducing
variables less often than the posterior says, however the observations depend on them. -/
theorem c202_false : ∃ (m : Inst (Fin 1) (Fin 1)) (R : Set ((Fin 1 → ℝ) × (Fin 1 → ℝ))) (a : ℝ≥0∞), m.Valid ∧ MeasurableSet R ∧
    (∀ y, a ≤ structuredPosterior m (Spec.dataset ![0] y) R) ∧ Spec.priorLaw m R < a ∧ Spec.coverage m ![0] (fun _ => R) < a := by
  obtain ⟨R, a, h1, h2, h3, h4⟩ := far_region
  exact ⟨farInst, R, a, farInst_valid, h1, fun y => (h2 y).ge, h3, h4⟩

/-! ## Cases -/

/-- A model whose signal is the product of the two inducing variables. -/
noncomputable def exactInst : Inst (Fin 1) (Fin 1) :=
  { Ku := 1, Kz := 1, noise := 1, iHx := fun _ _ => 1, iUx := 1, iHz := fun _ => 1, iUz := fun _ => 1 }

theorem exactInst_valid : exactInst.Valid where
  Ku := Matrix.PosDef.one
  Kz := Matrix.PosDef.one
  noise := one_pos
  A := fun s => by simpa [exactInst] using Matrix.PosSemidef.zero
  B := fun s => by simpa [exactInst] using Matrix.PosSemidef.zero
  c := fun s => by simp [exactInst, Spec.inner]

theorem exactInst_residual (s : ℝ) (x : (Fin 1 → ℝ) × (Fin 1 → ℝ)) : Spec.residual exactInst s x = 0 := by
  simp [Spec.residual, Spec.given, Spec.moments, Spec.inner, exactInst, vecMulVec, dotProduct]
  ring

/-- Its credible intervals for the product, from any number of observations, contain the product as often as they say. -/
example (n : ℕ) (t : Fin n → ℝ) (lower upper : (Fin n → ℝ) → ℝ) (hl : Measurable lower) (hu : Measurable upper)
    (ha : ∀ y, 0.95 ≤ structuredPosterior exactInst (Spec.dataset t y) {x | lower y ≤ x.1 0 * x.2 0 ∧ x.1 0 * x.2 0 ≤ upper y}) :
    0.95 ≤ Spec.coverage exactInst t fun y => {x | lower y ≤ x.1 0 * x.2 0 ∧ x.1 0 * x.2 0 ≤ upper y} :=
  c202_interval_partial exactInst_valid t (fun i => exactInst_residual (t i)) (fun x => x.1 0 * x.2 0)
    (((measurable_pi_apply 0).comp measurable_fst).mul ((measurable_pi_apply 0).comp measurable_snd)) lower upper hl hu _ ha

end Gpcm
