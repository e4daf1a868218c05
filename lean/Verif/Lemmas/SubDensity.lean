import Verif.Props.EvidenceProps
import Verif.Spec.Dataset
import Mathlib.Probability.Distributions.Gaussian.Real

/-! # Helper lemmas: the evidence as a function of the observations -/

set_option linter.unusedSectionVars false

open Matrix Real MeasureTheory ENNReal ProbabilityTheory

namespace Gpcm

variable {ι κ : Type} [Fintype ι] [DecidableEq ι] [Fintype κ] [DecidableEq κ] {m : Inst ι κ}

theorem residual_nonneg (h : m.Valid) (s : ℝ) (x : (ι → ℝ) × (κ → ℝ)) : 0 ≤ Spec.residual m s x := by
  obtain ⟨Cu⟩ := cholOracle_nonempty (n := ι)
  obtain ⟨Cz⟩ := cholOracle_nonempty (n := κ)
  have h1 := ptMoments_var ⟨Cu, Cz⟩ h (u := x.1) (u2 := vecMulVec x.1 x.1) (z := x.2) (z2 := vecMulVec x.2 x.2)
    (by rw [sub_self]; exact Matrix.PosSemidef.zero) (by rw [sub_self]; exact Matrix.PosSemidef.zero) s
  rw [ptMoments_spec ⟨Cu, Cz⟩ h] at h1
  exact sub_nonneg.2 h1

/-- The likelihood of one observation: a normal density, less what the inducing variables leave unexplained. -/
theorem exp_ell {v : ℝ} (hv : 0 < v) (y a b : ℝ) :
    exp (Spec.ell v y a b) = gaussianPDFReal a v.toNNReal y * exp (-((b - a ^ 2) / (2 * v))) := by
  have h2 : 0 < 2 * π * v := by positivity
  rw [gaussianPDFReal_def, Spec.ell]
  simp only [Real.coe_toNNReal v hv.le]
  have : (√(2 * π * v))⁻¹ = exp (-(1 / 2) * log (2 * π * v)) := by
    rw [sqrt_eq_rpow, ← rpow_neg h2.le, rpow_def_of_pos h2]
    ring_nf
  rw [this, ← exp_add, ← exp_add]
  congr 1
  field_simp
  ring

theorem expLogLik_dataset (m : Inst ι κ) {n : ℕ} (t y : Fin n → ℝ) (x : (ι → ℝ) × (κ → ℝ)) :
    expLogLik m (Spec.dataset t y) x.1 (vecMulVec x.1 x.1) x.2 (vecMulVec x.2 x.2) =
      ∑ i, Spec.ell m.noise (y i) (Spec.given m (t i) x).1 (Spec.given m (t i) x).2 := by
  rw [expLogLik, Spec.dataset, List.map_ofFn, List.sum_ofFn]
  rfl

theorem exp_expLogLik_dataset (h : m.Valid) {n : ℕ} (t y : Fin n → ℝ) (x : (ι → ℝ) × (κ → ℝ)) :
    exp (expLogLik m (Spec.dataset t y) x.1 (vecMulVec x.1 x.1) x.2 (vecMulVec x.2 x.2)) =
      (∏ i, gaussianPDFReal (Spec.given m (t i) x).1 m.noise.toNNReal (y i)) *
        exp (-((∑ i, Spec.residual m (t i) x) / (2 * m.noise))) := by
  rw [expLogLik_dataset, exp_sum, Finset.sum_div, ← Finset.sum_neg_distrib, exp_sum, ← Finset.prod_mul_distrib]
  exact Finset.prod_congr rfl fun i _ => exp_ell h.noise _ _ _

theorem lintegral_normals {n : ℕ} (a : Fin n → ℝ) {v : NNReal} (hv : v ≠ 0) :
    ∫⁻ y : Fin n → ℝ, ENNReal.ofReal (∏ i, gaussianPDFReal (a i) v (y i)) = 1 := by
  have hi : Integrable fun y : Fin n → ℝ => ∏ i, gaussianPDFReal (a i) v (y i) :=
    Integrable.fintype_prod fun i => integrable_gaussianPDFReal (a i) v
  rw [← ofReal_integral_eq_lintegral_ofReal hi (Filter.Eventually.of_forall fun y =>
    Finset.prod_nonneg fun i _ => gaussianPDFReal_nonneg _ _ _), integral_fintype_prod_volume_eq_prod]
  simp [integral_gaussianPDFReal_eq_one _ hv]

/-- The prior density of the inducing variables. -/
noncomputable def priorDens (m : Inst ι κ) (x : (ι → ℝ) × (κ → ℝ)) : ℝ := exp (logPrior m.Ku x.1 + logPrior m.Kz x.2)

theorem continuous_priorDens (m : Inst ι κ) : Continuous (priorDens m) :=
  (((continuous_logPrior m.Ku).comp continuous_fst).add ((continuous_logPrior m.Kz).comp continuous_snd)).rexp

theorem lintegral_priorDens (h : m.Valid) : ∫⁻ x, ENNReal.ofReal (priorDens m x) = 1 := by
  obtain ⟨Cu⟩ := cholOracle_nonempty (n := ι)
  obtain ⟨Cz⟩ := cholOracle_nonempty (n := κ)
  have e : ∀ x : (ι → ℝ) × (κ → ℝ), ENNReal.ofReal (priorDens m x) =
      ENNReal.ofReal (exp (logPrior m.Ku x.1)) * ENNReal.ofReal (exp (logPrior m.Kz x.2)) := fun x => by
    rw [priorDens, exp_add, ENNReal.ofReal_mul (exp_pos _).le]
  rw [lintegral_congr e, Measure.volume_eq_prod, lintegral_prod_mul
    (continuous_logPrior m.Ku).rexp.measurable.ennreal_ofReal.aemeasurable
    (continuous_logPrior m.Kz).rexp.measurable.ennreal_ofReal.aemeasurable]
  simp only [logPrior_eq Cu h.Ku, logPrior_eq Cz h.Kz]
  rw [lexpect_one Cu (d := ⟨0, m.Ku⟩) h.Ku, lexpect_one Cz (d := ⟨0, m.Kz⟩) h.Kz, one_mul]

/-- The prior, less what the inducing variables leave unexplained at the times of the data. -/
noncomputable def tilted (m : Inst ι κ) {n : ℕ} (t : Fin n → ℝ) (x : (ι → ℝ) × (κ → ℝ)) : ℝ :=
  priorDens m x * exp (-((∑ i, Spec.residual m (t i) x) / (2 * m.noise)))

theorem tilted_pos (m : Inst ι κ) {n : ℕ} (t : Fin n → ℝ) (x : (ι → ℝ) × (κ → ℝ)) : 0 < tilted m t x :=
  mul_pos (exp_pos _) (exp_pos _)

theorem tilted_le (h : m.Valid) {n : ℕ} (t : Fin n → ℝ) (x : (ι → ℝ) × (κ → ℝ)) : tilted m t x ≤ priorDens m x := by
  refine mul_le_of_le_one_right (exp_pos _).le (exp_le_one_iff.2 (neg_nonpos.2 (div_nonneg ?_ ?_)))
  · exact Finset.sum_nonneg fun i _ => residual_nonneg h _ _
  · linarith [h.noise]

theorem joint_dataset (h : m.Valid) {n : ℕ} (t y : Fin n → ℝ) (x : (ι → ℝ) × (κ → ℝ)) :
    joint m (Spec.dataset t y) x =
      ENNReal.ofReal (tilted m t x) *
        ENNReal.ofReal (∏ i, gaussianPDFReal (Spec.given m (t i) x).1 m.noise.toNNReal (y i)) := by
  rw [joint, logJoint, exp_add, exp_expLogLik_dataset h, ← ENNReal.ofReal_mul (tilted_pos m t x).le, tilted, priorDens]
  congr 1
  ring

theorem continuous_given (m : Inst ι κ) (s : ℝ) : Continuous fun x => (Spec.given m s x).1 := by
  unfold Spec.given Spec.moments
  exact continuous_fst.dotProduct (continuous_const.matrix_mulVec continuous_snd)

theorem measurable_lik (m : Inst ι κ) {n : ℕ} (t : Fin n → ℝ) :
    Measurable fun p : (Fin n → ℝ) × ((ι → ℝ) × (κ → ℝ)) =>
      ∏ i, gaussianPDFReal (Spec.given m (t i) p.2).1 m.noise.toNNReal (p.1 i) := by
  refine Continuous.measurable (continuous_finsetProd _ fun i _ => ?_)
  unfold gaussianPDFReal
  have c1 := (continuous_given m (t i)).comp (continuous_snd (X := Fin n → ℝ))
  have c2 : Continuous fun p : (Fin n → ℝ) × ((ι → ℝ) × (κ → ℝ)) => p.1 i := (continuous_apply i).comp continuous_fst
  exact continuous_const.mul (((c2.sub c1).pow 2).neg.div_const _).rexp

theorem continuous_given2 (m : Inst ι κ) (s : ℝ) : Continuous fun x => (Spec.given m s x).2 := by
  have hf : ∀ {α β : Type} [Fintype α] [Fintype β] {X Y : (ι → ℝ) × (κ → ℝ) → Matrix α β ℝ}, Continuous X →
      Continuous Y → Continuous fun x => Spec.inner (X x) (Y x) := fun hX hY => by
    unfold Spec.inner
    exact continuous_finsetSum _ fun i _ => continuous_finsetSum _ fun j _ =>
      (hX.matrix_elem i j).mul (hY.matrix_elem i j)
  have hu : Continuous fun x : (ι → ℝ) × (κ → ℝ) => vecMulVec x.1 x.1 := continuous_fst.matrix_vecMulVec continuous_fst
  have hz : Continuous fun x : (ι → ℝ) × (κ → ℝ) => vecMulVec x.2 x.2 := continuous_snd.matrix_vecMulVec continuous_snd
  unfold Spec.given Spec.moments
  exact (((hf continuous_const hu).add (hf continuous_const hz)).add continuous_const).add
    (hf hu ((continuous_const.matrix_mul hz).matrix_mul continuous_const))

theorem continuous_residual (m : Inst ι κ) (s : ℝ) : Continuous (Spec.residual m s) :=
  (continuous_given2 m s).sub ((continuous_given m s).pow 2)

theorem continuous_tilted (m : Inst ι κ) {n : ℕ} (t : Fin n → ℝ) : Continuous (tilted m t) :=
  (continuous_priorDens m).mul ((continuous_finsetSum _ fun i _ => continuous_residual m (t i)).div_const _).neg.rexp

theorem measurable_joint_dataset (h : m.Valid) {n : ℕ} (t : Fin n → ℝ) :
    Measurable fun p : (Fin n → ℝ) × ((ι → ℝ) × (κ → ℝ)) => joint m (Spec.dataset t p.1) p.2 := by
  simp only [joint_dataset h]
  exact ((continuous_tilted m t).measurable.ennreal_ofReal.comp measurable_snd).mul (measurable_lik m t).ennreal_ofReal

theorem ofReal_evidence (h : m.Valid) (d : List (ℝ × ℝ)) : ENNReal.ofReal (evidence m d) = ∫⁻ x, joint m d x := by
  rw [evidence_eq h, ENNReal.ofReal_toReal (joint_finite h d).2, Measure.volume_eq_prod]

theorem measurable_evidence (h : m.Valid) {n : ℕ} (t : Fin n → ℝ) :
    Measurable fun y : Fin n → ℝ => evidence m (Spec.dataset t y) := by
  have h1 : Measurable fun y : Fin n → ℝ => ∫⁻ x, joint m (Spec.dataset t y) x :=
    (measurable_joint_dataset h t).lintegral_prod_right'
  have e : (fun y : Fin n → ℝ => evidence m (Spec.dataset t y)) = fun y => (∫⁻ x, joint m (Spec.dataset t y) x).toReal := by
    funext y
    rw [evidence_eq h, Measure.volume_eq_prod]
  rw [e]
  exact h1.ennreal_toReal

/-- Weights of parameters and data may be integrated in either order. -/
theorem lintegral_swap_joint (h : m.Valid) {n : ℕ} (t : Fin n → ℝ) {g : (Fin n → ℝ) × ((ι → ℝ) × (κ → ℝ)) → ℝ≥0∞} (hg : Measurable g) :
    ∫⁻ y, ∫⁻ x, joint m (Spec.dataset t y) x * g (y, x) =
      ∫⁻ x, ENNReal.ofReal (tilted m t x) * ∫⁻ y, ENNReal.ofReal
        (∏ i, gaussianPDFReal (Spec.given m (t i) x).1 m.noise.toNNReal (y i)) * g (y, x) := by
  rw [lintegral_lintegral_swap ((measurable_joint_dataset h t).mul hg).aemeasurable]
  refine lintegral_congr fun x => ?_
  rw [← lintegral_const_mul' _ _ ENNReal.ofReal_ne_top]
  refine lintegral_congr fun y => ?_
  rw [joint_dataset h, mul_assoc]

theorem lintegral_evidence (h : m.Valid) {n : ℕ} (t : Fin n → ℝ) :
    ∫⁻ y, ENNReal.ofReal (evidence m (Spec.dataset t y)) = ∫⁻ x, ENNReal.ofReal (tilted m t x) := by
  have e := lintegral_swap_joint h t (g := fun _ => 1) measurable_const
  simp only [mul_one] at e
  rw [lintegral_congr fun y => ofReal_evidence h (Spec.dataset t y), e]
  refine lintegral_congr fun x => ?_
  rw [lintegral_normals _ (Real.toNNReal_pos.2 h.noise).ne', mul_one]

theorem lintegral_evidence_le (h : m.Valid) {n : ℕ} (t : Fin n → ℝ) :
    ∫⁻ y, ENNReal.ofReal (evidence m (Spec.dataset t y)) ≤ 1 := by
  rw [lintegral_evidence h, ← lintegral_priorDens h]
  exact lintegral_mono fun x => ENNReal.ofReal_le_ofReal (tilted_le h t x)

end Gpcm
