import Verif.Props.CalibrationProps
import Verif.Props.SequentialProps
import Verif.Props.DenseProps
import Mathlib.Probability.Kernel.Composition.MeasureCompProd

/-! # Property C206: with ever more inducing points credible regions become calibrated, and the evidence the density of the data -/

set_option linter.unusedSectionVars false

open Matrix Real MeasureTheory ENNReal ProbabilityTheory Filter
open scoped Topology

namespace Gpcm

variable {ι κ : Type} [Fintype ι] [DecidableEq ι] [Fintype κ] [DecidableEq κ] {m : Inst ι κ}

/-- A distribution of the signal at the times of the data given the inducing variables, with the means and second moments of C108. It need
not be normal, and values at different times may depend on each other in whatever way. -/
structure Spec.DataLaw (m : Inst ι κ) {n : ℕ} (t : Fin n → ℝ) (G : Kernel ((ι → ℝ) × (κ → ℝ)) (Fin n → ℝ)) : Prop where
  sq : ∀ x i, Integrable (fun f => f i ^ 2) (G x)
  mean : ∀ x i, ∫ f, f i ∂G x = (Spec.given m (t i) x).1
  second : ∀ x i, ∫ f, f i ^ 2 ∂G x = (Spec.given m (t i) x).2

/-- The density of the observations: inducing variables from the prior, the signal given them, and independent noise. -/
noncomputable def Spec.dataDens (m : Inst ι κ) {n : ℕ} (G : Kernel ((ι → ℝ) × (κ → ℝ)) (Fin n → ℝ)) (y : Fin n → ℝ) : ℝ≥0∞ :=
  ∫⁻ x, (∫⁻ f, ENNReal.ofReal (∏ i, gaussianPDFReal (f i) m.noise.toNNReal (y i)) ∂G x) ∂Spec.priorLaw m

/-! ## The expected residual -/

/-- The model at one time, with the mean of the signal taken away. -/
noncomputable def restInst (m : Inst ι κ) (s : ℝ) : Inst ι κ :=
  { m with
    iUx := m.iUx - m.iUz s * m.Kz⁻¹ * (m.iUz s)ᵀ
    iHz := fun _ => m.iHz s - (m.iUz s)ᵀ * m.Ku⁻¹ * m.iUz s
    iUz := fun _ => 0
    iHx := fun _ _ => Spec.unexplPower m s }

theorem inner_sub_right {α β : Type} [Fintype α] [Fintype β] (X Y Z : Matrix α β ℝ) :
    Spec.inner X (Y - Z) = Spec.inner X Y - Spec.inner X Z := by
  simp [Spec.inner, mul_sub]

theorem inner_symm {α β : Type} [Fintype α] [Fintype β] (X Y : Matrix α β ℝ) : Spec.inner X Y = Spec.inner Y X := by
  simp [Spec.inner, mul_comm]

theorem restInst_c (m : Inst ι κ) (s : ℝ) :
    Spec.unexplPower m s - Spec.inner m.Ku⁻¹ (m.iUx - m.iUz s * m.Kz⁻¹ * (m.iUz s)ᵀ) -
      Spec.inner m.Kz⁻¹ (m.iHz s - (m.iUz s)ᵀ * m.Ku⁻¹ * m.iUz s) =
    m.iHx s s - Spec.inner m.Ku⁻¹ m.iUx - Spec.inner m.Kz⁻¹ (m.iHz s) + Spec.inner m.Ku⁻¹ (m.iUz s * m.Kz⁻¹ * (m.iUz s)ᵀ) := by
  rw [inner_sub_right, inner_sub_right, inner_mul_transpose, Spec.unexplPower]
  ring

theorem restInst_valid (h : m.Valid) (s : ℝ) : (restInst m s).Valid where
  Ku := h.Ku
  Kz := h.Kz
  noise := h.noise
  A := fun _ => by simpa [restInst] using h.A s
  B := fun _ => by simpa [restInst] using h.B s
  c := fun _ => by
    have := h.c s
    rw [← restInst_c] at this
    simpa [restInst, Spec.inner] using this

theorem inner_outer_sq (u : ι → ℝ) (z : κ → ℝ) (X : Matrix ι κ ℝ) :
    Spec.inner (vecMulVec u u) (X * vecMulVec z z * Xᵀ) = (u ⬝ᵥ (X *ᵥ z)) ^ 2 := by
  have : X * vecMulVec z z * Xᵀ = vecMulVec (X *ᵥ z) (X *ᵥ z) := by
    rw [mul_vecMulVec, vecMulVec_mul, vecMul_transpose]
  rw [this, sq, dotProduct, Finset.sum_mul_sum, Spec.inner]
  refine Finset.sum_congr rfl fun i _ => Finset.sum_congr rfl fun j _ => ?_
  simp only [vecMulVec_apply]
  ring

theorem misfit_rest (m : Inst ι κ) (s : ℝ) (x : (ι → ℝ) × (κ → ℝ)) : Spec.misfit (restInst m s) [(s, 0)] x = Spec.residual m s x := by
  have hc := restInst_c m s
  simp only [Spec.misfit, misfitOf, Spec.residual, Spec.given, Spec.moments, restInst, List.map_cons, List.map_nil, List.sum_cons,
    List.sum_nil, inner_outer_sq]
  have e0 : Spec.inner (vecMulVec x.1 x.1) ((0 : Matrix ι κ ℝ) * vecMulVec x.2 x.2 * (0 : Matrix ι κ ℝ)ᵀ) = 0 := by simp [Spec.inner]
  have e1 : Spec.inner m.Ku⁻¹ ((0 : Matrix ι κ ℝ) * m.Kz⁻¹ * (0 : Matrix ι κ ℝ)ᵀ) = 0 := by simp [Spec.inner]
  have e2 : x.1 ⬝ᵥ (0 : Matrix ι κ ℝ) *ᵥ x.2 = 0 := by simp
  rw [e1, e2]
  simp only [Matrix.zero_mul, Matrix.mul_zero, transpose_zero, sub_zero]
  linarith

theorem posterior_nil (h : m.Valid) : structuredPosterior m [] = Spec.priorLaw m := by
  have e : ∀ x, joint m [] x = ENNReal.ofReal (priorDens m x) := fun x => by simp [joint, logJoint, expLogLik, priorDens]
  have e1 : ∫⁻ x, joint m [] x ∂(volume.prod volume) = 1 := by
    rw [← Measure.volume_eq_prod]
    simp only [e]
    exact lintegral_priorDens h
  rw [structuredPosterior, e1, Spec.priorLaw, ← Measure.volume_eq_prod]
  simp only [e, div_one]

theorem prior_residual (h : m.Valid) (s : ℝ) : Integrable (Spec.residual m s) (Spec.priorLaw m) ∧
    ∫ x, Spec.residual m s x ∂Spec.priorLaw m = Spec.unexplPower m s := by
  have h' := restInst_valid h s
  have i := misfit_integrable h' [] [(s, 0)]
  have e := prior_misfit h' [(s, 0)]
  have hp : structuredPosterior (restInst m s) [] = Spec.priorLaw m := posterior_nil h'
  rw [hp] at i e
  have hf : Spec.misfit (restInst m s) [(s, 0)] = Spec.residual m s := funext fun x => misfit_rest m s x
  rw [hf] at i e
  refine ⟨i, e.trans ?_⟩
  simp only [misfitOf, Spec.moments, restInst, List.map_cons, List.map_nil, List.sum_cons, List.sum_nil]
  rw [inner_symm _ m.Ku⁻¹, inner_symm _ m.Kz⁻¹]
  simp [Spec.inner]

/-! ## C206 -/

/-- **C206** The power that the inducing variables leave unexplained, which the model can compute, is the expected variance of the signal
given them, and bounds the fraction explained from below. -/
theorem c206_explained (h : m.Valid) {n : ℕ} (t : Fin n → ℝ) :
    (∀ s, ∫ x, Spec.residual m s x ∂Spec.priorLaw m = Spec.unexplPower m s) ∧
    ENNReal.ofReal (exp (-((∑ i, Spec.unexplPower m (t i)) / (2 * m.noise)))) ≤ Spec.explained m t := by
  refine ⟨fun s => (prior_residual h s).2, ?_⟩
  have hp := priorLaw_prob h
  obtain ⟨R, hR⟩ : ∃ R : (ι → ℝ) × (κ → ℝ) → ℝ, ∀ x, R x = -((∑ i, Spec.residual m (t i) x) / (2 * m.noise)) := ⟨_, fun _ => rfl⟩
  have hi : Integrable R (Spec.priorLaw m) := by
    simp only [funext hR]
    exact ((integrable_finsetSum _ fun i _ => (prior_residual h (t i)).1).div_const _).neg
  have he : ∫ x, R x ∂Spec.priorLaw m = -((∑ i, Spec.unexplPower m (t i)) / (2 * m.noise)) := by
    simp only [hR]
    rw [integral_neg, integral_div, integral_finsetSum _ fun i _ => (prior_residual h (t i)).1]
    simp only [(prior_residual h _).2]
  have hle : ∀ x, R x ≤ 0 := fun x => by
    rw [hR]
    exact neg_nonpos.2 (div_nonneg (Finset.sum_nonneg fun i _ => residual_nonneg h (t i) x) (by linarith [h.noise]))
  have hexp : Integrable (fun x => exp (R x)) (Spec.priorLaw m) :=
    Integrable.mono' (integrable_const 1) (continuous_exp.comp_aestronglyMeasurable hi.1)
      (Eventually.of_forall fun x => by
        rw [norm_eq_abs, abs_of_pos (exp_pos _)]
        exact exp_le_one_iff.2 (hle x))
  rw [Spec.explained, ← he]
  simp only [← hR]
  rw [← ofReal_integral_eq_lintegral_ofReal hexp (Eventually.of_forall fun x => (exp_pos _).le)]
  exact ENNReal.ofReal_le_ofReal
    (convexOn_exp.map_integral_le continuous_exp.continuousOn isClosed_univ (Eventually.of_forall fun _ => Set.mem_univ _) hi hexp)

/-- **C206** So credible regions are off by at most a factor that the model can compute. -/
theorem c206_region (h : m.Valid) {n : ℕ} (t : Fin n → ℝ) (R : (Fin n → ℝ) → Set ((ι → ℝ) × (κ → ℝ)))
    (hR : MeasurableSet {p : (Fin n → ℝ) × ((ι → ℝ) × (κ → ℝ)) | p.2 ∈ R p.1}) (a : ℝ≥0∞) :
    ((∀ y, a ≤ structuredPosterior m (Spec.dataset t y) (R y)) →
      a * ENNReal.ofReal (exp (-((∑ i, Spec.unexplPower m (t i)) / (2 * m.noise)))) ≤ Spec.coverage m t R) ∧
    ((∀ y, structuredPosterior m (Spec.dataset t y) (R y) ≤ a) →
      (1 - a) * ENNReal.ofReal (exp (-((∑ i, Spec.unexplPower m (t i)) / (2 * m.noise)))) ≤ Spec.coverage m t fun y => (R y)ᶜ) := by
  obtain ⟨h1, h2⟩ := c202_near_partial h t R hR a
  exact ⟨fun ha => (mul_le_mul_right (c206_explained h t).2 _).trans (h1 ha),
    fun ha => (mul_le_mul_right (c206_explained h t).2 _).trans (h2 ha)⟩

section Data

variable {n : ℕ} {t : Fin n → ℝ} {G : Kernel ((ι → ℝ) × (κ → ℝ)) (Fin n → ℝ)} [IsMarkovKernel G]

theorem prod_gaussian_eq {v : ℝ} (hv : 0 < v) (y f : Fin n → ℝ) :
    ∏ i, gaussianPDFReal (f i) v.toNNReal (y i) = exp (∑ i, Spec.ell v (y i) (f i) (f i ^ 2)) := by
  simp only [gaussian_eq_ell hv]
  rw [exp_sum]

theorem continuous_prod_gaussian {v : ℝ} (hv : 0 < v) :
    Continuous fun p : (Fin n → ℝ) × (Fin n → ℝ) => ∏ i, gaussianPDFReal (p.2 i) v.toNNReal (p.1 i) := by
  have : ∀ p : (Fin n → ℝ) × (Fin n → ℝ), ∏ i, gaussianPDFReal (p.2 i) v.toNNReal (p.1 i) =
      exp (∑ i, Spec.ell v (p.1 i) (p.2 i) (p.2 i ^ 2)) := fun p => prod_gaussian_eq hv p.1 p.2
  simp only [this]
  unfold Spec.ell
  fun_prop

/-- The expected log-density of one observation. -/
theorem integral_ell {Ω : Type} [MeasurableSpace Ω] {P : Measure Ω} [IsProbabilityMeasure P] {X : Ω → ℝ} (hX : AEStronglyMeasurable X P)
    (h2 : Integrable (fun w => X w ^ 2) P) {v : ℝ} (hv : 0 < v) (y : ℝ) :
    Integrable (fun w => Spec.ell v y (X w) (X w ^ 2)) P ∧
      ∫ w, Spec.ell v y (X w) (X w ^ 2) ∂P = Spec.ell v y (∫ w, X w ∂P) (∫ w, X w ^ 2 ∂P) := by
  have h1 : Integrable X P := ((memLp_two_iff_integrable_sq hX).2 h2).integrable (by norm_num)
  have hl : ∀ f : ℝ, Spec.ell v y f (f ^ 2) = (-(1 / 2) * log (2 * π * v) - y ^ 2 / (2 * v)) + (y / v * f - 1 / (2 * v) * f ^ 2) := fun f => by
    unfold Spec.ell
    field_simp
    ring
  have h3 : Integrable (fun w => y / v * X w - 1 / (2 * v) * X w ^ 2) P := (h1.const_mul _).sub (h2.const_mul _)
  simp only [hl]
  refine ⟨(integrable_const _).add h3, ?_⟩
  rw [integral_add (integrable_const _) h3, integral_sub (h1.const_mul _) (h2.const_mul _), integral_const_mul, integral_const_mul]
  simp only [integral_const, probReal_univ, smul_eq_mul, one_mul]
  unfold Spec.ell
  field_simp
  ring

/-- The density of observations is at least the exponential of their expected log-density. -/
theorem ells_le_density {v : ℝ} (hv : 0 < v) (P : Measure (Fin n → ℝ)) [IsProbabilityMeasure P]
    (h2 : ∀ i, Integrable (fun f : Fin n → ℝ => f i ^ 2) P) (y : Fin n → ℝ) :
    ENNReal.ofReal (exp (∑ i, Spec.ell v (y i) (∫ f, f i ∂P) (∫ f, f i ^ 2 ∂P))) ≤
      ∫⁻ f, ENNReal.ofReal (∏ i, gaussianPDFReal (f i) v.toNNReal (y i)) ∂P := by
  have hi : ∀ i, Integrable (fun f : Fin n → ℝ => Spec.ell v (y i) (f i) (f i ^ 2)) P := fun i =>
    (integral_ell (continuous_apply i).aestronglyMeasurable (h2 i) hv (y i)).1
  have hi' : ∀ i, ∫ f, Spec.ell v (y i) (f i) (f i ^ 2) ∂P = Spec.ell v (y i) (∫ f, f i ∂P) (∫ f, f i ^ 2 ∂P) := fun i =>
    (integral_ell (continuous_apply i).aestronglyMeasurable (h2 i) hv (y i)).2
  obtain ⟨S, hS⟩ : ∃ S : (Fin n → ℝ) → ℝ, ∀ f, S f = ∑ i, Spec.ell v (y i) (f i) (f i ^ 2) := ⟨_, fun _ => rfl⟩
  have hs : Integrable S P := by
    rw [funext hS]
    exact integrable_finsetSum _ fun i _ => hi i
  have e : ∑ i, Spec.ell v (y i) (∫ f, f i ∂P) (∫ f, f i ^ 2 ∂P) = ∫ f, S f ∂P := by
    simp only [hS, ← hi']
    rw [integral_finsetSum _ fun i _ => hi i]
  have eS : ∀ f : Fin n → ℝ, ∏ i, gaussianPDFReal (f i) v.toNNReal (y i) = exp (S f) := fun f => by rw [prod_gaussian_eq hv, hS]
  have hb : ∀ f, exp (S f) ≤ ∏ _i : Fin n, (√(2 * π * v))⁻¹ := fun f => by
    rw [← eS]
    exact Finset.prod_le_prod (fun i _ => gaussianPDFReal_nonneg _ _ _) fun i _ => gaussian_bound hv _ _
  rw [e]
  simp only [eS]
  clear e eS hi hi' hS h2
  have hg : Integrable (fun f => exp (S f)) P :=
    Integrable.mono' (integrable_const (∏ _i : Fin n, (√(2 * π * v))⁻¹)) (continuous_exp.comp_aestronglyMeasurable hs.1)
      (Eventually.of_forall fun f => by
        rw [norm_eq_abs, abs_of_pos (exp_pos _)]
        exact hb f)
  rw [← ofReal_integral_eq_lintegral_ofReal hg (Eventually.of_forall fun f => (exp_pos _).le)]
  exact ENNReal.ofReal_le_ofReal
    (convexOn_exp.map_integral_le continuous_exp.continuousOn isClosed_univ (Eventually.of_forall fun _ => Set.mem_univ _) hs hg)

/-- Given the inducing variables, the density of the observations is at least the exponential of their expected log-likelihood. -/
theorem lik_le_density (h : m.Valid) (hG : Spec.DataLaw m t G) (y : Fin n → ℝ) (x : (ι → ℝ) × (κ → ℝ)) :
    ENNReal.ofReal (exp (∑ i, Spec.ell m.noise (y i) (Spec.given m (t i) x).1 (Spec.given m (t i) x).2)) ≤
      ∫⁻ f, ENNReal.ofReal (∏ i, gaussianPDFReal (f i) m.noise.toNNReal (y i)) ∂G x := by
  have := ells_le_density h.noise (G x) (hG.sq x) y
  simp only [hG.mean, hG.second] at this
  exact this

theorem evidence_prior (h : m.Valid) (t y : Fin n → ℝ) : ENNReal.ofReal (evidence m (Spec.dataset t y)) =
    ∫⁻ x, ENNReal.ofReal (exp (∑ i, Spec.ell m.noise (y i) (Spec.given m (t i) x).1 (Spec.given m (t i) x).2)) ∂Spec.priorLaw m := by
  have hm : Measurable fun x : (ι → ℝ) × (κ → ℝ) =>
      ENNReal.ofReal (exp (∑ i, Spec.ell m.noise (y i) (Spec.given m (t i) x).1 (Spec.given m (t i) x).2)) := by
    have c1 := fun i => continuous_given m (t i)
    have c2 := fun i => continuous_given2 m (t i)
    unfold Spec.ell
    exact (Continuous.measurable (by fun_prop)).ennreal_ofReal
  rw [ofReal_evidence h, Spec.priorLaw, lintegral_withDensity_eq_lintegral_mul _ (continuous_priorDens m).measurable.ennreal_ofReal hm]
  refine lintegral_congr fun x => ?_
  rw [Pi.mul_apply, joint, logJoint, exp_add, ENNReal.ofReal_mul (exp_pos _).le, expLogLik_dataset]
  rfl

/-- The density of the data has mass one. -/
theorem dataDens_mass {Ω : Type} [MeasurableSpace Ω] (P : Measure Ω) [IsProbabilityMeasure P] (G : Kernel Ω (Fin n → ℝ)) [IsMarkovKernel G]
    {v : ℝ} (hv : 0 < v) :
    ∫⁻ y : Fin n → ℝ, (∫⁻ x, (∫⁻ f, ENNReal.ofReal (∏ i, gaussianPDFReal (f i) v.toNNReal (y i)) ∂G x) ∂P) = 1 := by
  obtain ⟨g, hgd⟩ : ∃ g : (Fin n → ℝ) → (Fin n → ℝ) → ℝ≥0∞, g = fun y f => ENNReal.ofReal (∏ i, gaussianPDFReal (f i) v.toNNReal (y i)) :=
    ⟨_, rfl⟩
  have hmeas : Measurable (Function.uncurry g) := by
    rw [hgd]
    exact (continuous_prod_gaussian hv).measurable.ennreal_ofReal
  have hg1 : ∀ f, ∫⁻ y, g y f = 1 := fun f => by
    rw [hgd]
    exact lintegral_normals _ (Real.toNNReal_pos.2 hv).ne'
  have e : ∀ y, ∫⁻ x, (∫⁻ f, ENNReal.ofReal (∏ i, gaussianPDFReal (f i) v.toNNReal (y i)) ∂G x) ∂P = ∫⁻ p, g y p.2 ∂(P ⊗ₘ G) := fun y => by
    rw [Measure.lintegral_compProd (f := fun p : Ω × (Fin n → ℝ) => g y p.2) (hmeas.comp (measurable_const.prodMk measurable_snd)), hgd]
  rw [lintegral_congr e, lintegral_lintegral_swap (f := fun y (p : Ω × (Fin n → ℝ)) => g y p.2)
    (hmeas.comp (measurable_fst.prodMk (measurable_snd.comp measurable_snd))).aemeasurable]
  simp only [hg1, lintegral_one, measure_univ]

/-- **C206** For every such distribution of the signal the evidence is at most the density of the data, and as densities of the data the two
differ by at most what the inducing variables leave unexplained. -/
theorem c206_density (h : m.Valid) (hG : Spec.DataLaw m t G) :
    (∀ y, ENNReal.ofReal (evidence m (Spec.dataset t y)) ≤ Spec.dataDens m G y) ∧
    ∫⁻ y, Spec.dataDens m G y = 1 ∧
    ∫⁻ y, (Spec.dataDens m G y - ENNReal.ofReal (evidence m (Spec.dataset t y))) ≤
      1 - ENNReal.ofReal (exp (-((∑ i, Spec.unexplPower m (t i)) / (2 * m.noise)))) := by
  have hp := priorLaw_prob h
  have hle : ∀ y, ENNReal.ofReal (evidence m (Spec.dataset t y)) ≤ Spec.dataDens m G y := fun y => by
    rw [evidence_prior h]
    exact lintegral_mono fun x => lik_le_density h hG y x
  have hone : ∫⁻ y, Spec.dataDens m G y = 1 := dataDens_mass (Spec.priorLaw m) G h.noise
  refine ⟨hle, hone, ?_⟩
  have hev := lintegral_evidence_le h t
  rw [lintegral_sub (measurable_evidence h t).ennreal_ofReal (ne_top_of_le_ne_top one_ne_top hev) (Eventually.of_forall hle), hone,
    ← explained_eq h]
  exact tsub_le_tsub_left (c206_explained h t).2 1

end Data

/-! ## The limit -/

theorem coverage_compl (h : m.Valid) {n : ℕ} (t : Fin n → ℝ) {R : (Fin n → ℝ) → Set ((ι → ℝ) × (κ → ℝ))}
    (hR : MeasurableSet {p : (Fin n → ℝ) × ((ι → ℝ) × (κ → ℝ)) | p.2 ∈ R p.1}) :
    Spec.coverage m t R + Spec.coverage m t (fun y => (R y)ᶜ) = 1 := by
  have hp := priorLaw_prob h
  have hRx : ∀ x, MeasurableSet {y | x ∈ R y} := fun x => (measurable_prodMk_right (y := x)) hR
  have hk : Measurable fun x : (ι → ℝ) × (κ → ℝ) => ∫⁻ y in {y | x ∈ R y}, ENNReal.ofReal (Spec.obsDens m t y x) := by
    have : (fun x : (ι → ℝ) × (κ → ℝ) => ∫⁻ y in {y | x ∈ R y}, ENNReal.ofReal (Spec.obsDens m t y x)) = fun x =>
        ∫⁻ y, {p : (Fin n → ℝ) × ((ι → ℝ) × (κ → ℝ)) | p.2 ∈ R p.1}.indicator (fun p => ENNReal.ofReal (Spec.obsDens m t p.1 p.2)) (y, x) := by
      funext x
      rw [← lintegral_indicator (hRx x)]
      rfl
    rw [this]
    exact Measurable.lintegral_prod_left' (((measurable_lik m t).ennreal_ofReal).indicator hR)
  unfold Spec.coverage
  rw [← lintegral_add_left hk]
  have e : ∀ x, (∫⁻ y in {y | x ∈ R y}, ENNReal.ofReal (Spec.obsDens m t y x)) +
      (∫⁻ y in {y | x ∈ (R y)ᶜ}, ENNReal.ofReal (Spec.obsDens m t y x)) = 1 := fun x => by
    have := lintegral_add_compl (μ := volume) (fun y => ENNReal.ofReal (Spec.obsDens m t y x)) (hRx x)
    rw [lintegral_obsDens h] at this
    exact this
  rw [lintegral_congr e, lintegral_one, measure_univ]

theorem coverage_within (h : m.Valid) {n : ℕ} (t : Fin n → ℝ) {ε : ℝ≥0∞}
    (hε : 1 - ε ≤ ENNReal.ofReal (exp (-((∑ i, Spec.unexplPower m (t i)) / (2 * m.noise)))))
    (R : (Fin n → ℝ) → Set ((ι → ℝ) × (κ → ℝ)))
    (hR : MeasurableSet {p : (Fin n → ℝ) × ((ι → ℝ) × (κ → ℝ)) | p.2 ∈ R p.1}) (a : ℝ≥0∞) (ha1 : a ≤ 1) :
    ((∀ y, a ≤ structuredPosterior m (Spec.dataset t y) (R y)) → a ≤ Spec.coverage m t R + ε) ∧
    ((∀ y, structuredPosterior m (Spec.dataset t y) (R y) ≤ a) → Spec.coverage m t R ≤ a + ε) := by
  obtain ⟨h1, h2⟩ := c206_region h t R hR a
  have hsub : ∀ b : ℝ≥0∞, b ≤ 1 → b ≤ b * (1 - ε) + ε := fun b hb => by
    calc b = b * 1 := (mul_one b).symm
      _ ≤ b * (1 - ε + ε) := by gcongr; exact le_tsub_add
      _ = b * (1 - ε) + b * ε := mul_add _ _ _
      _ ≤ b * (1 - ε) + ε := by gcongr; exact mul_le_of_le_one_left' hb
  refine ⟨fun ha => ?_, fun ha => ?_⟩
  · exact (hsub a ha1).trans (add_le_add_left ((mul_le_mul_right hε _).trans (h1 ha)) _)
  · have h3 := (hsub (1 - a) tsub_le_self).trans (add_le_add_left ((mul_le_mul_right hε _).trans (h2 ha)) ε)
    have h4 := coverage_compl h t hR
    have hct : Spec.coverage m t (fun y => (R y)ᶜ) ≠ ∞ := ne_top_of_le_ne_top one_ne_top (h4 ▸ le_add_self)
    have h5 : 1 ≤ a + (Spec.coverage m t (fun y => (R y)ᶜ) + ε) := by
      rw [add_comm]
      exact tsub_le_iff_right.1 h3
    rw [← h4] at h5
    refine (ENNReal.add_le_add_iff_right hct).1 (h5.trans_eq ?_)
    ring

/-- What it means that a sequence of models becomes right about the data: at whatever times the data are, regions of inducing variables contain
them as often as the posterior says, up to an error that vanishes uniformly over all regions and fractions, and the evidence converges to
the density of the data, whatever the distribution of the signal given the inducing variables. -/
structure Spec.BecomesRight {a b : ℕ → ℕ} (m : ∀ k, Inst (Fin (a k)) (Fin (b k))) : Prop where
  region : ∀ (n : ℕ) (t : Fin n → ℝ) (ε : ℝ≥0∞), 0 < ε → ∀ᶠ k in atTop, ∀ (R : (Fin n → ℝ) → Set ((Fin (a k) → ℝ) × (Fin (b k) → ℝ))),
    MeasurableSet {p : (Fin n → ℝ) × ((Fin (a k) → ℝ) × (Fin (b k) → ℝ)) | p.2 ∈ R p.1} → ∀ p : ℝ≥0∞, p ≤ 1 →
      ((∀ y, p ≤ structuredPosterior (m k) (Spec.dataset t y) (R y)) → p ≤ Spec.coverage (m k) t R + ε) ∧
      ((∀ y, structuredPosterior (m k) (Spec.dataset t y) (R y) ≤ p) → Spec.coverage (m k) t R ≤ p + ε)
  density : ∀ (n : ℕ) (t : Fin n → ℝ) (G : ∀ k, Kernel ((Fin (a k) → ℝ) × (Fin (b k) → ℝ)) (Fin n → ℝ)), (∀ k, IsMarkovKernel (G k)) →
    (∀ k, Spec.DataLaw (m k) t (G k)) →
      (∀ k y, ENNReal.ofReal (evidence (m k) (Spec.dataset t y)) ≤ Spec.dataDens (m k) (G k) y) ∧
      Tendsto (fun k => ∫⁻ y, (Spec.dataDens (m k) (G k) y - ENNReal.ofReal (evidence (m k) (Spec.dataset t y)))) atTop (𝓝 0)

theorem becomesRight {a b : ℕ → ℕ} {m : ∀ k, Inst (Fin (a k)) (Fin (b k))} (h : ∀ k, (m k).Valid) {v : ℝ} (hv : ∀ k, (m k).noise = v)
    (h0 : ∀ s, Tendsto (fun k => Spec.unexplPower (m k) s) atTop (𝓝 0)) : Spec.BecomesRight m := by
  have lim : ∀ (n : ℕ) (t : Fin n → ℝ),
      Tendsto (fun k => ENNReal.ofReal (exp (-((∑ i, Spec.unexplPower (m k) (t i)) / (2 * (m k).noise))))) atTop (𝓝 1) := fun n t => by
    simp only [hv]
    have h1 := (tendsto_finsetSum (Finset.univ : Finset (Fin n)) fun i _ => h0 (t i)).div_const (2 * v)
    have h2 := (continuous_exp.tendsto _).comp h1.neg
    rw [Finset.sum_const_zero, zero_div, neg_zero, exp_zero] at h2
    have h3 := ENNReal.tendsto_ofReal h2
    rw [ENNReal.ofReal_one] at h3
    exact h3
  refine ⟨fun n t ε hε => ?_, fun n t G hM hG => ⟨fun k y => ?_, ?_⟩⟩
  · have hlt : 1 - ε < 1 := ENNReal.sub_lt_self one_ne_top one_ne_zero hε.ne'
    filter_upwards [(lim n t).eventually (lt_mem_nhds hlt)] with k hk R hR p hp
    exact coverage_within (h k) t hk.le R hR p hp
  · have := hM k
    exact (c206_density (h k) (hG k)).1 y
  · have h1 : Tendsto (fun k => 1 - ENNReal.ofReal (exp (-((∑ i, Spec.unexplPower (m k) (t i)) / (2 * (m k).noise))))) atTop (𝓝 (1 - 1)) :=
      ENNReal.Tendsto.sub tendsto_const_nhds (lim n t) (Or.inl one_ne_top)
    rw [tsub_self] at h1
    refine tendsto_of_tendsto_of_tendsto_of_le_of_le tendsto_const_nhds h1 (fun k => bot_le) fun k => ?_
    have := hM k
    exact (c206_density (h k) (hG k)).2.2

variable (R : Runtime ℝ)

/-- **C206** When the inducing points of the filter and of the excitation fill intervals, however short, while the other parameters stay as
they are, the model becomes right about the data. -/
theorem c206_fill {g : ℕ → GpcmModel} {p : Spec.Params} (hp : ∀ n, (g n).params = p) (hm : ∀ n, (g n).Moderate)
    (hγ : 0 < p.gamma) {v : ℝ} (hv : 0 < v) (hn : ∀ n, (g n).noise = v) (hu : ∀ n, (g n).tU.Nodup) (hz : ∀ n, (g n).tZ.Nodup) {a b a' b' : ℝ}
    (hab : a < b) (hab' : a' < b') (hfu : Spec.Fills (fun n => (g n).tU) a b) (hfz : Spec.Fills (fun n => (g n).tZ) a' b')
    (m : ∀ n, Inst (Fin (g n).tU.length) (Fin (g n).tZ.length)) (hi : ∀ n, (g n).IsInst R (m n)) : Spec.BecomesRight m := by
  have h0 := (c190_fill R hp hm hγ hu hz hab hab' hfu hfz m hi).1
  have hgγ : ∀ n, 0 < (g n).gamma := fun n => by have := hγ; rw [← hp n] at this; exact this
  refine becomesRight (fun n => ?_) (fun n => (hi n).noise.trans (hn n)) h0
  rw [(c98_instance R (g n) (hm n)).unique (hi n) ((g n).specInst_isInst R (hm n))]
  exact (g n).specInst_valid (hm n) (hgγ n) (by rw [hn]; exact hv) (hu n) (hz n)

/-- **C206** The grids of the constructor do so: when the frequency `omega` of the transform of the excitation is given, asking for ever
more inducing points makes the model right about the data. -/
theorem c206_constructor {a : GpcmArgs} (hU : a.tU = none) (hZ : a.tZ = none) {ω : ℝ} (ho : a.omega = some ω) (hv : 0 < a.noise)
    {t : List ℝ} (ht : a.t = some t) {x y : ℝ} (hx : x ∈ t) (hy : y ∈ t) (hxy : x ≠ y) {N Z : ℕ → ℤ}
    (hN : Tendsto N atTop atTop) (hZt : Tendsto Z atTop atTop) {g : ℕ → GpcmModel}
    (hg : ∀ n, GpcmModel.new { a with nU := some (N n), nZ := some (Z n) } = .ok (g n)) (hm : ∀ n, (g n).Moderate)
    (hγ : ∀ n, 0 < (g n).gamma) (m : ∀ n, Inst (Fin (g n).tU.length) (Fin (g n).tZ.length))
    (hi : ∀ n, (g n).IsInst R (m n)) : Spec.BecomesRight m := by
  have h0 := (c190_constructor R hU hZ ho ht hx hy hxy hN hZt hg hm hγ m hi).1
  have hn : ∀ n, (g n).noise = a.noise := fun n => (GpcmModel.new_ok (hg n)).2.2.2.2.2.2.2.2.1
  have hα : ∀ n, 0 < (g n).alpha := fun n => by have := (hm n).alpha_lo; linarith
  refine becomesRight (fun n => ?_) (fun n => (hi n).noise.trans (hn n)) h0
  rw [(c98_instance R (g n) (hm n)).unique (hi n) ((g n).specInst_isInst R (hm n))]
  exact (g n).specInst_valid (hm n) (hγ n) (by rw [hn]; exact hv) (c98_distinct_u (hg n) hU (hα n))
    (c98_distinct_z (hg n) hZ (hα n) ht hx hy hxy)

/-- **C206** Every model has such a distribution of the signal: one that is normal, for example. -/
theorem c206_law (h : m.Valid) {n : ℕ} (t : Fin n → ℝ) :
    ∃ G : Kernel ((ι → ℝ) × (κ → ℝ)) (Fin n → ℝ), IsMarkovKernel G ∧ Spec.DataLaw m t G ∧
      ∀ x i, (G x).map (fun f => f i) = gaussianReal (Spec.given m (t i) x).1 (Spec.residual m (t i) x).toNNReal := by
  obtain ⟨φ, hφ⟩ : ∃ φ : ((ι → ℝ) × (κ → ℝ)) × ℝ → Fin n → ℝ,
      φ = fun p i => (Spec.given m (t i) p.1).1 + √(Spec.residual m (t i) p.1) * p.2 := ⟨_, rfl⟩
  have hc : Measurable φ := by
    have c1 := fun i => continuous_given m (t i)
    have c2 := fun i => continuous_residual m (t i)
    rw [hφ]
    exact Continuous.measurable (by fun_prop)
  obtain ⟨G, hG⟩ : ∃ G : Kernel ((ι → ℝ) × (κ → ℝ)) (Fin n → ℝ),
      G = (Kernel.id ×ₖ Kernel.const ((ι → ℝ) × (κ → ℝ)) (gaussianReal 0 1)).map φ := ⟨_, rfl⟩
  have hM : IsMarkovKernel G := by
    rw [hG]
    exact Kernel.IsMarkovKernel.map _ hc
  have hmap : ∀ x, G x = (gaussianReal 0 1).map fun w => φ (x, w) := fun x => by
    rw [hG, Kernel.map_apply _ hc, Kernel.prod_apply, Kernel.id_apply, Kernel.const_apply, Measure.dirac_prod,
      Measure.map_map hc measurable_prodMk_left]
    rfl
  have hi : ∀ x i, (G x).map (fun f => f i) = gaussianReal (Spec.given m (t i) x).1 (Spec.residual m (t i) x).toNNReal := fun x i => by
    have hx : Measurable fun w => φ (x, w) := hc.comp measurable_prodMk_left
    rw [hmap, Measure.map_map (measurable_pi_apply i) hx]
    have e : ((fun f : Fin n → ℝ => f i) ∘ fun w => φ (x, w)) =
        (fun z => (Spec.given m (t i) x).1 + z) ∘ fun w => √(Spec.residual m (t i) x) * w := by
      rw [hφ]
      rfl
    rw [e, ← Measure.map_map (measurable_const_add _) (measurable_const_mul _), gaussianReal_map_const_mul, gaussianReal_map_const_add]
    congr 1
    · ring
    · ext
      simp [sq_sqrt (residual_nonneg h (t i) x), Real.coe_toNNReal _ (residual_nonneg h (t i) x)]
  have hL := c205_law h
  refine ⟨G, hM, ⟨fun x i => ?_, fun x i => ?_, fun x i => ?_⟩, hi⟩
  · have := hL.sq (t i) x
    rw [← hi x i] at this
    exact (integrable_map_measure (continuous_pow 2).aestronglyMeasurable (measurable_pi_apply i).aemeasurable).1 this
  · have hmi : AEMeasurable (fun f : Fin n → ℝ => f i) (G x) := (measurable_pi_apply i).aemeasurable
    have := hL.mean (t i) x
    rw [← hi x i, integral_map hmi (f := fun f : ℝ => f) continuous_id.aestronglyMeasurable] at this
    exact this
  · have hmi : AEMeasurable (fun f : Fin n → ℝ => f i) (G x) := (measurable_pi_apply i).aemeasurable
    have := hL.second (t i) x
    rw [← hi x i, integral_map hmi (f := fun f : ℝ => f ^ 2) (continuous_pow 2).aestronglyMeasurable] at this
    exact this

/-! ## Cases -/

/-- Both causal and acausal models become right. -/
example (causal : Bool) : ∃ (g : ℕ → GpcmModel) (m : ∀ n, Inst (Fin (g n).tU.length) (Fin (g n).tZ.length)),
    (∀ n, (g n).causal = causal) ∧ (∀ n, (g n).IsInst R (m n)) ∧ Spec.BecomesRight m := by
  choose g hg hm hγ using c190_witness causal
  refine ⟨g, fun n => (g n).specInst, fun n => ((GpcmModel.new_ok (hg n)).2.2.2.2.2.2.2.1),
    fun n => (g n).specInst_isInst R (hm n), ?_⟩
  have hN : Tendsto (fun n : ℕ => (n : ℤ) + 2) atTop atTop :=
    tendsto_atTop_add_const_right _ _ tendsto_natCast_atTop_atTop
  exact c206_constructor R (a := { witnessArgs causal 1 1 with omega := some 1 }) rfl rfl rfl (by norm_num [witnessArgs]) rfl (x := 0) (y := 1)
    (by simp) (by simp) (by norm_num) hN hN hg hm hγ _ fun n => (g n).specInst_isInst R (hm n)

/-- A model whose inducing variables leave all of the power unexplained. -/
example : Spec.unexplPower farInst 0 = 1 ∧ ENNReal.ofReal (exp (-(1 / 2))) ≤ Spec.explained farInst (fun _ : Fin 1 => 0) := by
  have e : Spec.unexplPower farInst 0 = 1 := by simp [Spec.unexplPower, farInst, Spec.inner]
  refine ⟨e, ?_⟩
  have := (c206_explained farInst_valid fun _ : Fin 1 => 0).2
  simpa [e, show farInst.noise = 1 from rfl] using this

end Gpcm
