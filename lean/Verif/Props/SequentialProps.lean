import Verif.Props.CalibrationProps
import Verif.Props.ObserveProps
import Verif.Lemmas.GibbsChain
import Mathlib.Analysis.Convex.Integral
import Mathlib.Probability.Distributions.Gaussian.Real
import Mathlib.Probability.Moments.Variance

/-! # Property C205: the bounds are below the score of predicting the observations one after another -/

set_option linter.unusedSectionVars false

open Matrix Real MeasureTheory ENNReal ProbabilityTheory

namespace Gpcm

variable {ι κ : Type} [Fintype ι] [DecidableEq ι] [Fintype κ] [DecidableEq κ] (C : Chols ι κ) {m : Inst ι κ}

/-- A distribution of the signal at every time given the inducing variables, with the mean and second moment of C108. It need not be
normal. -/
structure Spec.SignalLaw (m : Inst ι κ) (F : ℝ → (ι → ℝ) × (κ → ℝ) → Measure ℝ) : Prop where
  prob : ∀ s x, IsProbabilityMeasure (F s x)
  sq : ∀ s x, Integrable (fun f => f ^ 2) (F s x)
  mean : ∀ s x, ∫ f, f ∂F s x = (Spec.given m s x).1
  second : ∀ s x, ∫ f, f ^ 2 ∂F s x = (Spec.given m s x).2

/-- The density with which the structured posterior from the data `d` predicts the observation `y` at time `s`. -/
noncomputable def Spec.predDens (m : Inst ι κ) (F : ℝ → (ι → ℝ) × (κ → ℝ) → Measure ℝ) (d : List (ℝ × ℝ)) (s y : ℝ) : ℝ≥0∞ :=
  ∫⁻ x, (∫⁻ f, ENNReal.ofReal (gaussianPDFReal f m.noise.toNNReal y) ∂F s x) ∂structuredPosterior m d

/-- The sum of the log-densities of predicting observations one after another, each from those before, if `d` was observed at first. -/
noncomputable def Spec.score (m : Inst ι κ) (F : ℝ → (ι → ℝ) × (κ → ℝ) → Measure ℝ) : List (ℝ × ℝ) → List (ℝ × ℝ) → ℝ
  | _, [] => 0
  | d, p :: e => log (Spec.predDens m F d p.1 p.2).toReal + Spec.score m F (d ++ [p]) e

/-! ## One observation -/

theorem gaussian_eq_ell {v : ℝ} (hv : 0 < v) (y f : ℝ) : gaussianPDFReal f v.toNNReal y = exp (Spec.ell v y f (f ^ 2)) := by
  rw [exp_ell hv, sub_self, zero_div, neg_zero, exp_zero, mul_one]

theorem gaussian_bound {v : ℝ} (hv : 0 < v) (y f : ℝ) : gaussianPDFReal f v.toNNReal y ≤ (√(2 * π * v))⁻¹ := by
  rw [gaussianPDFReal_def]
  simp only [Real.coe_toNNReal v hv.le]
  refine mul_le_of_le_one_right (by positivity) (exp_le_one_iff.2 ?_)
  rw [neg_div]
  exact neg_nonpos.2 (by positivity)

theorem continuous_gaussian_mean {v : ℝ} (hv : 0 < v) (y : ℝ) : Continuous fun f => gaussianPDFReal f v.toNNReal y := by
  simp only [gaussian_eq_ell hv]
  unfold Spec.ell
  fun_prop

/-- The density of an observation is at least the exponential of the expected log-density. -/
theorem ell_le_density {v : ℝ} (hv : 0 < v) (P : Measure ℝ) [IsProbabilityMeasure P] (h2 : Integrable (fun f => f ^ 2) P) (y : ℝ) :
    ENNReal.ofReal (exp (Spec.ell v y (∫ f, f ∂P) (∫ f, f ^ 2 ∂P))) ≤
      ∫⁻ f, ENNReal.ofReal (gaussianPDFReal f v.toNNReal y) ∂P := by
  have h1 : Integrable (fun f : ℝ => f) P :=
    ((memLp_two_iff_integrable_sq (continuous_id.aestronglyMeasurable (f := fun f : ℝ => f))).2 h2).integrable (by norm_num)
  have hl : ∀ f : ℝ, Spec.ell v y f (f ^ 2) = (-(1 / 2) * log (2 * π * v) - y ^ 2 / (2 * v)) + (y / v * f - 1 / (2 * v) * f ^ 2) := fun f => by
    unfold Spec.ell
    field_simp
    ring
  have h3 : Integrable (fun f : ℝ => y / v * f - 1 / (2 * v) * f ^ 2) P := (h1.const_mul _).sub (h2.const_mul _)
  have hi : Integrable (fun f : ℝ => Spec.ell v y f (f ^ 2)) P := by
    simp only [hl]
    exact (integrable_const _).add h3
  have he : ∫ f, Spec.ell v y f (f ^ 2) ∂P = Spec.ell v y (∫ f, f ∂P) (∫ f, f ^ 2 ∂P) := by
    simp only [hl]
    rw [integral_add (integrable_const _) h3, integral_sub (h1.const_mul _) (h2.const_mul _), integral_const_mul, integral_const_mul]
    simp only [integral_const, probReal_univ, smul_eq_mul, one_mul]
    unfold Spec.ell
    field_simp
    ring
  have hg : Integrable (fun f => gaussianPDFReal f v.toNNReal y) P := by
    refine Integrable.mono' (integrable_const (√(2 * π * v))⁻¹) (continuous_gaussian_mean hv y).aestronglyMeasurable
      (Filter.Eventually.of_forall fun f => ?_)
    rw [norm_eq_abs, abs_of_nonneg (gaussianPDFReal_nonneg _ _ _)]
    exact gaussian_bound hv y f
  rw [← ofReal_integral_eq_lintegral_ofReal hg (Filter.Eventually.of_forall fun f => gaussianPDFReal_nonneg _ _ _), ← he]
  refine ENNReal.ofReal_le_ofReal ?_
  simp only [gaussian_eq_ell hv] at hg ⊢
  exact convexOn_exp.map_integral_le continuous_exp.continuousOn isClosed_univ (by simp) hi hg

theorem density_bound {v : ℝ} (hv : 0 < v) (P : Measure ℝ) [IsProbabilityMeasure P] (y : ℝ) :
    ∫⁻ f, ENNReal.ofReal (gaussianPDFReal f v.toNNReal y) ∂P ≤ ENNReal.ofReal (√(2 * π * v))⁻¹ := by
  calc _ ≤ ∫⁻ _, ENNReal.ofReal (√(2 * π * v))⁻¹ ∂P := lintegral_mono fun f => ENNReal.ofReal_le_ofReal (gaussian_bound hv y f)
    _ = _ := by rw [lintegral_const, measure_univ, mul_one]

/-- A distribution without variance. -/
theorem density_exact {v : ℝ} (P : Measure ℝ) [IsProbabilityMeasure P] (h2 : Integrable (fun f => f ^ 2) P)
    (h0 : ∫ f, f ^ 2 ∂P = (∫ f, f ∂P) ^ 2) (y : ℝ) :
    ∫⁻ f, ENNReal.ofReal (gaussianPDFReal f v.toNNReal y) ∂P = ENNReal.ofReal (gaussianPDFReal (∫ f, f ∂P) v.toNNReal y) := by
  have h1 : Integrable (fun f : ℝ => f) P :=
    ((memLp_two_iff_integrable_sq (continuous_id.aestronglyMeasurable (f := fun f : ℝ => f))).2 h2).integrable (by norm_num)
  obtain ⟨a, ha⟩ : ∃ a, a = ∫ f, f ∂P := ⟨_, rfl⟩
  rw [← ha] at h0 ⊢
  have e : ∀ f : ℝ, (f - a) ^ 2 = f ^ 2 + (-(2 * a) * f + a ^ 2) := fun f => by ring
  have h3 : Integrable (fun f : ℝ => -(2 * a) * f + a ^ 2) P := (h1.const_mul _).add (integrable_const _)
  have hi : Integrable (fun f : ℝ => (f - a) ^ 2) P := by
    simp only [e]
    exact h2.add h3
  have hz : ∫ f, (f - a) ^ 2 ∂P = 0 := by
    simp only [e]
    rw [integral_add h2 h3, integral_add (h1.const_mul _) (integrable_const _), integral_const_mul, h0, ← ha]
    simp only [integral_const, probReal_univ, smul_eq_mul, one_mul]
    ring
  have hae := (integral_eq_zero_iff_of_nonneg (fun f => sq_nonneg (f - a)) hi).1 hz
  have : ∀ᵐ f ∂P, ENNReal.ofReal (gaussianPDFReal f v.toNNReal y) = ENNReal.ofReal (gaussianPDFReal a v.toNNReal y) :=
    hae.mono fun f hf => by
      have : f - a = 0 := pow_eq_zero_iff (two_ne_zero) |>.1 hf
      rw [sub_eq_zero.1 this]
  rw [lintegral_congr_ae this, lintegral_const, measure_univ, mul_one]

/-! ## The chain rule -/

/-- **C205** Observing one thing more multiplies the evidence by the expectation, under the posterior so far, of the exponential of its
expected log-likelihood. -/
theorem c205_chain (h : m.Valid) (d : List (ℝ × ℝ)) (p : ℝ × ℝ) :
    ENNReal.ofReal (evidence m (d ++ [p])) = ENNReal.ofReal (evidence m d) *
      ∫⁻ x, ENNReal.ofReal (exp (Spec.ell m.noise p.2 (Spec.given m p.1 x).1 (Spec.given m p.1 x).2)) ∂structuredPosterior m d := by
  have hc : Measurable fun x : (ι → ℝ) × (κ → ℝ) =>
      ENNReal.ofReal (exp (Spec.ell m.noise p.2 (Spec.given m p.1 x).1 (Spec.given m p.1 x).2)) := by
    have c1 := continuous_given m p.1
    have c2 := continuous_given2 m p.1
    unfold Spec.ell
    exact (Continuous.measurable (by fun_prop)).ennreal_ofReal
  rw [lintegral_posterior h d hc, ofReal_evidence h]
  refine lintegral_congr fun x => ?_
  rw [joint, joint, ← ENNReal.ofReal_mul (exp_pos _).le, ← exp_add, logJoint, logJoint, expLogLik_append]
  congr 2
  have : expLogLik m [p] x.1 (vecMulVec x.1 x.1) x.2 (vecMulVec x.2 x.2) =
      Spec.ell m.noise p.2 (Spec.given m p.1 x).1 (Spec.given m p.1 x).2 := by
    simp [expLogLik, Spec.given]
  rw [this]
  ring

variable {F : ℝ → (ι → ℝ) × (κ → ℝ) → Measure ℝ}

theorem predDens_ge (h : m.Valid) (hF : Spec.SignalLaw m F) (d : List (ℝ × ℝ)) (p : ℝ × ℝ) :
    ENNReal.ofReal (evidence m (d ++ [p])) ≤ ENNReal.ofReal (evidence m d) * Spec.predDens m F d p.1 p.2 := by
  rw [c205_chain h]
  refine mul_le_mul_right (lintegral_mono fun x => ?_) _
  have := hF.prob p.1 x
  have := ell_le_density h.noise (F p.1 x) (hF.sq p.1 x) p.2
  rwa [hF.mean, hF.second] at this

theorem predDens_ne_top (h : m.Valid) (hF : Spec.SignalLaw m F) (d : List (ℝ × ℝ)) (s y : ℝ) : Spec.predDens m F d s y ≠ ∞ := by
  have hp := structuredPosterior_prob h d
  refine ne_top_of_le_ne_top (ENNReal.ofReal_ne_top (r := (√(2 * π * m.noise))⁻¹)) ?_
  calc Spec.predDens m F d s y ≤ ∫⁻ _, ENNReal.ofReal (√(2 * π * m.noise))⁻¹ ∂structuredPosterior m d := by
        refine lintegral_mono fun x => ?_
        have := hF.prob s x
        exact density_bound h.noise (F s x) y
    _ = _ := by rw [lintegral_const, measure_univ, mul_one]

theorem predDens_pos (h : m.Valid) (hF : Spec.SignalLaw m F) (d : List (ℝ × ℝ)) (s y : ℝ) : 0 < (Spec.predDens m F d s y).toReal := by
  refine ENNReal.toReal_pos (fun h0 => ?_) (predDens_ne_top h hF d s y)
  have := predDens_ge h hF d (s, y)
  rw [h0, mul_zero, nonpos_iff_eq_zero, ENNReal.ofReal_eq_zero] at this
  exact absurd (evidence_pos h (d ++ [(s, y)])) (not_lt.2 this)

theorem log_evidence_step (h : m.Valid) (hF : Spec.SignalLaw m F) (d : List (ℝ × ℝ)) (p : ℝ × ℝ) :
    log (evidence m (d ++ [p])) ≤ log (evidence m d) + log (Spec.predDens m F d p.1 p.2).toReal := by
  have h1 := predDens_ge h hF d p
  have ht := predDens_ne_top h hF d p.1 p.2
  rw [← log_mul (evidence_pos h d).ne' (predDens_pos h hF d p.1 p.2).ne']
  refine log_le_log (evidence_pos h _) ?_
  rw [← ENNReal.ofReal_toReal ht, ← ENNReal.ofReal_mul (evidence_pos h d).le] at h1
  exact (ENNReal.ofReal_le_ofReal_iff (mul_nonneg (evidence_pos h d).le ENNReal.toReal_nonneg)).1 h1

theorem evidence_nil (h : m.Valid) : evidence m [] = 1 := by
  have e : ENNReal.ofReal (evidence m []) = 1 := by
    rw [ofReal_evidence h, ← lintegral_priorDens h]
    refine lintegral_congr fun x => ?_
    simp [joint, logJoint, expLogLik, priorDens]
  have := congrArg ENNReal.toReal e
  rwa [ENNReal.toReal_ofReal (evidence_pos h []).le, ENNReal.toReal_one] at this

theorem log_evidence_append (h : m.Valid) (hF : Spec.SignalLaw m F) (e d : List (ℝ × ℝ)) :
    log (evidence m (d ++ e)) ≤ log (evidence m d) + Spec.score m F d e := by
  induction e generalizing d with
  | nil => simp [Spec.score]
  | cons p e ih =>
    have h1 := ih (d ++ [p])
    have h2 := log_evidence_step h hF d p
    rw [List.append_assoc, List.singleton_append] at h1
    rw [Spec.score]
    linarith

theorem evidence_perm {d d' : List (ℝ × ℝ)} (hp : d.Perm d') : evidence m d = evidence m d' := by
  unfold evidence logJoint expLogLik
  simp only [(hp.map _).sum_eq]

/-- **C205** The log-evidence is at most the sum of the log-densities with which the structured scheme predicts the observations one after
another, each from those before, in whatever order. -/
theorem c205_evidence (h : m.Valid) (hF : Spec.SignalLaw m F) {d d' : List (ℝ × ℝ)} (hp : d.Perm d') :
    log (evidence m d) ≤ Spec.score m F [] d' := by
  have := log_evidence_append h hF d' []
  rwa [List.nil_append, evidence_nil h, log_one, zero_add, ← evidence_perm hp] at this

/-- **C205** So are the bounds of the mean-field schemes, collapsed or not, whatever the approximate posteriors. -/
theorem c205_mean_field (h : m.Valid) (hF : Spec.SignalLaw m F) {d d' : List (ℝ × ℝ)} (hp : d.Perm d') (s : Posts ι κ) (hs : s.qi = 0)
    (hu : s.qU.prec.PosDef) (hz : s.qZ.prec.PosDef) (collapsed : Option String) (v : ℝ)
    (hv : MeanField.elbo C m s d collapsed = .ok v) : v ≤ Spec.score m F [] d' :=
  (c97_mean_field C h s hs d hu hz collapsed v hv).1.trans (c205_evidence h hF hp)

/-- **C205** So is the bound of the structured scheme. -/
theorem c205_structured (h : m.Valid) (hF : Spec.SignalLaw m F) {d d' : List (ℝ × ℝ)} (hp : d.Perm d') (q : NatNormal ι)
    (hq : q.prec.PosDef) : structuredBound C m d q ≤ Spec.score m F [] d' :=
  (c97_structured C h d q hq).trans (c205_evidence h hF hp)

/-- **C205** If the inducing variables determine the signal at the times of the data, then the log-evidence is the sum of the log-densities
of the predictions. -/
theorem c205_exact (h : m.Valid) (hF : Spec.SignalLaw m F) (d : List (ℝ × ℝ)) (h0 : ∀ p ∈ d, ∀ x, Spec.residual m p.1 x = 0) :
    log (evidence m d) = Spec.score m F [] d := by
  have step : ∀ (d : List (ℝ × ℝ)) (p : ℝ × ℝ), (∀ x, Spec.residual m p.1 x = 0) →
      log (evidence m (d ++ [p])) = log (evidence m d) + log (Spec.predDens m F d p.1 p.2).toReal := fun d p hr => by
    have e : ∫⁻ x, ENNReal.ofReal (exp (Spec.ell m.noise p.2 (Spec.given m p.1 x).1 (Spec.given m p.1 x).2)) ∂structuredPosterior m d =
        Spec.predDens m F d p.1 p.2 := by
      refine lintegral_congr fun x => ?_
      have := hF.prob p.1 x
      have hx : (Spec.given m p.1 x).2 = (Spec.given m p.1 x).1 ^ 2 := sub_eq_zero.1 (hr x)
      rw [density_exact (F p.1 x) (hF.sq p.1 x) (by rw [hF.mean, hF.second, hx]), hF.mean, gaussian_eq_ell h.noise, hx]
    have h1 := c205_chain h d p
    rw [e] at h1
    have h2 := congrArg ENNReal.toReal h1
    rw [ENNReal.toReal_mul, ENNReal.toReal_ofReal (evidence_pos h _).le, ENNReal.toReal_ofReal (evidence_pos h _).le] at h2
    rw [h2, log_mul (evidence_pos h d).ne' (predDens_pos h hF d p.1 p.2).ne']
  have key : ∀ (e d : List (ℝ × ℝ)), (∀ p ∈ e, ∀ x, Spec.residual m p.1 x = 0) →
      log (evidence m (d ++ e)) = log (evidence m d) + Spec.score m F d e := fun e => by
    induction e with
    | nil => simp [Spec.score]
    | cons p e ih =>
      intro d he
      have h1 := ih (d ++ [p]) fun q hq => he q (List.mem_cons_of_mem _ hq)
      rw [List.append_assoc, List.singleton_append, step d p (he p List.mem_cons_self)] at h1
      rw [h1, Spec.score]
      ring
  have := key d [] h0
  rwa [List.nil_append, evidence_nil h, log_one, zero_add] at this

/-- **C205** Every model has such a distribution of the signal: a normal one. -/
theorem c205_law (h : m.Valid) :
    Spec.SignalLaw m fun s x => gaussianReal (Spec.given m s x).1 (Spec.residual m s x).toNNReal where
  prob := fun s x => inferInstance
  sq := fun s x => (memLp_two_iff_integrable_sq continuous_id.aestronglyMeasurable).1 (memLp_id_gaussianReal 2)
  mean := fun s x => integral_id_gaussianReal
  second := fun s x => by
    have hv := variance_id_gaussianReal (μ := (Spec.given m s x).1) (v := (Spec.residual m s x).toNNReal)
    rw [variance_eq_sub (memLp_id_gaussianReal 2), Real.coe_toNNReal _ (residual_nonneg h s x)] at hv
    have h1 : ∫ f, f ∂gaussianReal (Spec.given m s x).1 (Spec.residual m s x).toNNReal = (Spec.given m s x).1 := integral_id_gaussianReal
    simp only [Pi.pow_apply, id] at hv
    have hr : Spec.residual m s x = (Spec.given m s x).2 - (Spec.given m s x).1 ^ 2 := rfl
    rw [h1] at hv
    linarith

/-- Two observations, predicted in reverse order. -/
example : log (evidence exactInst [(0, 1), (1, 2)]) ≤
    Spec.score exactInst (fun s x => gaussianReal (Spec.given exactInst s x).1 (Spec.residual exactInst s x).toNNReal) [] [(1, 2), (0, 1)] :=
  c205_evidence exactInst_valid (c205_law exactInst_valid) (List.Perm.swap _ _ _)

/-- In the model `exactInst` the inducing variables determine the signal. -/
example : log (evidence exactInst [(0, 1), (1, 2)]) =
    Spec.score exactInst (fun s x => gaussianReal (Spec.given exactInst s x).1 (Spec.residual exactInst s x).toNNReal) [] [(0, 1), (1, 2)] :=
  c205_exact exactInst_valid (c205_law exactInst_valid) _ fun p _ x => exactInst_residual p.1 x

end Gpcm
