import Verif.Props.GradientProps

/-!
# Property C186: the gradient with which the structured scheme learns hyper-parameters after conditioning

See `GradientProps` for the curves `M` of models. After conditioning, the samples of `elbo_gibbs` are still drawn with the
original priors, but the density of the filter in its value is that of the previous posterior.
-/

set_option linter.unusedSectionVars false

open Matrix Real MeasureTheory Filter Topology

namespace Gpcm

open Markov

variable {ι κ : Type} [Fintype ι] [DecidableEq ι] [Fintype κ] [DecidableEq κ]
variable (C : Chols ι κ) {M : ℝ → Inst ι κ} {d : List (ℝ × ℝ)} {a : ℝ}

/-- The evidence of the data for other priors than those of the model. -/
noncomputable def Spec.evidenceFrom (pu : (ι → ℝ) → ℝ) (pz : (κ → ℝ) → ℝ) (m : Inst ι κ) (d : List (ℝ × ℝ)) : ℝ :=
  ∫ x : (ι → ℝ) × (κ → ℝ), exp (pu x.1 + pz x.2 + expLogLik m d x.1 (vecMulVec x.1 x.1) x.2 (vecMulVec x.2 x.2))

theorem elboGibbs_value (m : Inst ι κ) (s : Posts ι κ) (d : List (ℝ × ℝ)) (W : ℕ → (ι → ℝ) × (κ → ℝ))
    (y : (ι → ℝ) × (κ → ℝ)) :
    (elboGibbs C m s d W 0 y).1 = logMargU C m d y.1 - logPrior m.Ku y.1 + (s.pU m).logpdf C.u y.1 := by
  simp only [elboGibbs, Fit.elboGibbsLoop, logMargU]
  ring

theorem pU_later (s : Posts ι κ) (hs : s.qi ≠ 0) (m : Inst ι κ) : s.pU m = s.qu (s.qi - 1) := if_neg hs

/-- **C186** (partial) After conditioning, the expectation of the gradient with which the structured scheme learns a hyper-parameter
lacks, of the gradient of the evidence of the new data, the part that comes from the prior of the filter. -/
theorem c186_bias_partial (h : SmoothAt M d a) (hv : ∀ᶠ θ in 𝓝 a, (M θ).Valid) (s : Posts ι κ) (hs : s.qi ≠ 0) :
    ∃ g p : (ι → ℝ) → ℝ, (∀ W k x, elboGibbsGrad C M a s d W k x = g (elboGibbs C (M a) s d W k x).2.1) ∧
      (∀ u, HasDerivAt (fun θ => logPrior (M θ).Ku u) (p u) a) ∧
      Integrable (fun x => g x.1) (structuredPosterior (M a) d) ∧ Integrable (fun x => p x.1) (structuredPosterior (M a) d) ∧
      HasDerivAt (fun θ => log (evidence (M θ) d))
        ((∫ x, g x.1 ∂structuredPosterior (M a) d) + ∫ x, p x.1 ∂structuredPosterior (M a) d) a := by
  have hva := hv.self_of_nhds
  have hprob := structuredPosterior_prob hva d
  obtain ⟨g0, -, -, -, -, -, h1, h2, h3⟩ := gradient_aux C h hv ⟨0, s.qu, s.qz⟩ rfl
  obtain ⟨L', c, k, hc, hL⟩ := logPrior_poly (κ := κ) h.Ku hva.Ku PolyC1.fst
  obtain ⟨-, l2, l3⟩ := hL.self_of_nhds
  obtain ⟨p, hp⟩ : ∃ p : (ι → ℝ) → ℝ, ∀ u, p u = L' a (u, 0) := ⟨_, fun _ => rfl⟩
  have hpd : ∀ u, HasDerivAt (fun θ => logPrior (M θ).Ku u) (p u) a := fun u => by
    rw [hp]
    exact (l3 (u, 0)).1
  have hpm : Measurable p := by
    rw [show p = fun u => L' a (u, 0) from funext hp]
    exact (l2.comp (by fun_prop : Continuous fun u : ι → ℝ => (u, (0 : κ → ℝ)))).measurable
  have hpi : Integrable (fun x => p x.1) (structuredPosterior (M a) d) := by
    have hm' : Measurable fun x : (ι → ℝ) × (κ → ℝ) => p x.1 := hpm.comp measurable_fst
    have := posterior_moment hva d hm' (c := c) (k := k) fun x => by
      have e := (l3 (x.1, 0)).2.2
      rw [← hp] at e
      refine e.trans (mul_le_mul_of_nonneg_left (pow_le_pow_left₀ (zero_le_one.trans (sizeSq_one _)) ?_ k) hc)
      have := dot_self_nonneg' x.2
      simp only [sizeSq, zero_dotProduct, add_zero]
      linarith
    exact ((memLp_two_iff_integrable_sq hm'.aestronglyMeasurable).2 this).integrable one_le_two
  refine ⟨fun u => g0 u - p u, p, fun W k x => ?_, hpd, h2.sub hpi, hpi, ?_⟩
  · obtain ⟨y, hy⟩ : ∃ y, y = (elboGibbs C (M a) s d W k x).2 := ⟨_, rfl⟩
    rw [elboGibbsGrad, ← hy]
    have e := ((h1 W y).sub (hpd y.1)).add_const ((s.qu (s.qi - 1)).logpdf C.u y.1)
    refine (e.congr_of_eventuallyEq (hv.mono fun θ hθ => ?_)).deriv
    simp only [Pi.sub_apply]
    rw [elboGibbs_value, elboGibbs_value, pU_later s hs, show Posts.pU (M θ) ⟨0, s.qu, s.qz⟩ = ⟨0, (M θ).Ku⟩ from if_pos rfl,
      ← logPrior_eq C.u hθ.Ku]
    ring
  · rw [integral_sub h2 hpi, sub_add_cancel]
    exact h3

/-- **C186** (partial) After conditioning, the structured scheme learns hyper-parameters that do not affect the prior of the filter,
such as the variance of the noise, with the gradient of the evidence of the new data under the original priors. -/
theorem c186_noise_partial (h : SmoothAt M d a) (hv : ∀ᶠ θ in 𝓝 a, (M θ).Valid) (hK : ∀ᶠ θ in 𝓝 a, (M θ).Ku = (M a).Ku)
    (s : Posts ι κ) :
    ∃ g : (ι → ℝ) → ℝ, (∀ W k x, elboGibbsGrad C M a s d W k x = g (elboGibbs C (M a) s d W k x).2.1) ∧
      Integrable (fun x => g x.1) (structuredPosterior (M a) d) ∧
      HasDerivAt (fun θ => log (evidence (M θ) d)) (∫ x, g x.1 ∂structuredPosterior (M a) d) a := by
  by_cases hs : s.qi = 0
  · exact c163_gradient C h hv s hs
  · obtain ⟨g, p, h1, h2, h3, -, h4⟩ := c186_bias_partial C h hv s hs
    have hp : p = fun _ => 0 := funext fun u => (h2 u).unique
      ((hasDerivAt_const a (logPrior (M a).Ku u)).congr_of_eventuallyEq (hK.mono fun θ e => by simp only [e]))
    refine ⟨g, h1, h3, ?_⟩
    rw [hp, integral_zero, add_zero] at h4
    exact h4

/-! ## Refutations -/

/-- A signal that is the filter up to its sign: nothing is explained by the excitation. -/
noncomputable def rigid (k v : ℝ) : Inst (Fin 1) (Fin 1) :=
  { Ku := .of fun _ _ => k, Kz := 1, noise := v, iHx := fun _ _ => k⁻¹, iUx := 1, iHz := fun _ => 0, iUz := fun _ => 0 }

theorem posDef_fin1 {A : Matrix (Fin 1) (Fin 1) ℝ} (h : 0 < A 0 0) : A.PosDef := by
  rw [show A = A 0 0 • (1 : Matrix (Fin 1) (Fin 1) ℝ) from by ext i j; fin_cases i; fin_cases j; simp]
  exact Matrix.PosDef.one.smul h

theorem inv_fin1 (k : ℝ) : (Matrix.of fun _ _ => k : Matrix (Fin 1) (Fin 1) ℝ)⁻¹ = .of fun _ _ => k⁻¹ := by
  ext i j
  fin_cases i; fin_cases j
  simp [Matrix.inv_def, Matrix.adjugate_fin_one, Ring.inverse_eq_inv']

theorem rigid_valid {k v : ℝ} (hk : 0 < k) (hv : 0 < v) : (rigid k v).Valid where
  Ku := posDef_fin1 hk
  Kz := Matrix.PosDef.one
  noise := hv
  A _ := psd_fin1 (by simp [rigid])
  B _ := psd_fin1 (by simp [rigid])
  c _ := by simp [rigid, Spec.inner, inv_fin1]

theorem rigid_lik {k v : ℝ} (y : ℝ) (u z : Fin 1 → ℝ) :
    expLogLik (rigid k v) [(0, y)] u (vecMulVec u u) z (vecMulVec z z) =
      -(1 / 2) * log (2 * π * v) - (y ^ 2 + u 0 ^ 2) / (2 * v) := by
  simp [expLogLik, rigid, Spec.moments, Spec.ell, Spec.inner, inv_fin1, vecMulVec_apply]
  ring

theorem logPrior_fin1 {K : Matrix (Fin 1) (Fin 1) ℝ} (u : Fin 1 → ℝ) :
    logPrior K u = (log (K 0 0) - log (2 * π) - K 0 0 * u 0 ^ 2) / 2 := by
  simp [logPrior, dotProduct, mulVec]
  ring

theorem integral_logPrior {n : Type} [Fintype n] [DecidableEq n] {K : Matrix n n ℝ} (hK : K.PosDef) :
    ∫ x, exp (logPrior K x) = 1 := by
  obtain ⟨Cn⟩ := cholOracle_nonempty (n := n)
  simp only [logPrior_eq Cn hK]
  exact (NatNormal.expect_one Cn (d := ⟨0, K⟩) hK).2

/-- The logarithm of the evidence for a filter with precision `p`. -/
noncomputable def rigidFit (p v y : ℝ) : ℝ := (log p - log (p + v⁻¹)) / 2 - 1 / 2 * log (2 * π * v) - y ^ 2 / (2 * v)

theorem rigid_from {k p v y : ℝ} (hp : 0 < p) (hv : 0 < v) :
    log (Spec.evidenceFrom (logPrior (Matrix.of fun _ _ => p)) (logPrior 1) (rigid k v) [(0, y)]) = rigidFit p v y := by
  have e : ∀ x : (Fin 1 → ℝ) × (Fin 1 → ℝ), exp (logPrior (Matrix.of fun _ _ => p) x.1 + logPrior 1 x.2 +
      expLogLik (rigid k v) [(0, y)] x.1 (vecMulVec x.1 x.1) x.2 (vecMulVec x.2 x.2)) =
      exp (rigidFit p v y) * (exp (logPrior (Matrix.of fun _ _ => p + v⁻¹) x.1) * exp (logPrior 1 x.2)) := fun x => by
    rw [rigid_lik, ← exp_add, ← exp_add, logPrior_fin1, logPrior_fin1 (K := .of fun _ _ => p + v⁻¹), rigidFit]
    congr 1
    simp only [of_apply]
    field_simp
    ring
  rw [Spec.evidenceFrom]
  simp only [e]
  rw [integral_const_mul, Measure.volume_eq_prod, integral_prod_mul (fun u => exp (logPrior (Matrix.of fun _ _ => p + v⁻¹) u))
    (fun z => exp (logPrior 1 z)), integral_logPrior (posDef_fin1 (by simp; positivity)), integral_logPrior Matrix.PosDef.one,
    mul_one, mul_one, log_exp]

theorem rigid_evidence {k v y : ℝ} (hk : 0 < k) (hv : 0 < v) : log (evidence (rigid k v) [(0, y)]) = rigidFit k v y :=
  rigid_from hk hv

/-- **C186** (refutation) After conditioning, the gradient of the structured scheme can be exactly zero at every sample and for every
value of a hyper-parameter, although the evidence of the data increases with it everywhere. -/
theorem c186_false (C : Chols (Fin 1) (Fin 1)) (s : Posts (Fin 1) (Fin 1)) (hs : s.qi ≠ 0) {a : ℝ} (ha : 0 < a) (y : ℝ) :
    (∀ᶠ θ in 𝓝 a, (rigid θ 1).Valid) ∧ SmoothAt (fun θ => rigid θ 1) [(0, y)] a ∧
      (∀ W k x, elboGibbsGrad C (fun θ => rigid θ 1) a s [(0, y)] W k x = 0) ∧
      ∃ g > 0, HasDerivAt (fun θ => log (evidence (rigid θ 1) [(0, y)])) g a := by
  have hpos : ∀ᶠ θ : ℝ in 𝓝 a, 0 < θ := lt_mem_nhds ha
  refine ⟨hpos.mono fun θ h => rigid_valid h one_pos, ⟨fun _ _ => contDiffAt_id, fun _ _ => contDiffAt_const, contDiffAt_const,
    fun _ _ => contDiffAt_id.inv ha.ne', fun _ _ => contDiffAt_const, fun _ _ _ _ => contDiffAt_const,
    fun _ _ _ _ => contDiffAt_const⟩, fun W k x => ?_, (a⁻¹ - (a + 1)⁻¹) / 2, ?_, ?_⟩
  · obtain ⟨w, hw⟩ : ∃ w, w = (elboGibbs C (rigid a 1) s [(0, y)] W k x).2 := ⟨_, rfl⟩
    rw [elboGibbsGrad]
    simp only [← hw]
    refine ((hasDerivAt_const a (-(1 / 2) * log (2 * π * 1) - (y ^ 2 + w.1 0 ^ 2) / (2 * 1) +
      (s.qu (s.qi - 1)).logpdf C.u w.1)).congr_of_eventuallyEq (hpos.mono fun θ hθ => ?_)).deriv
    have e := integral_joint_z C (rigid_valid hθ one_pos) [(0, y)] w.1
    simp only [logJoint, rigid_lik] at e
    have e' : ∀ z, exp (logPrior (rigid θ 1).Ku w.1 + logPrior (rigid θ 1).Kz z +
        (-(1 / 2) * log (2 * π * 1) - (y ^ 2 + w.1 0 ^ 2) / (2 * 1))) =
        exp (logPrior (rigid θ 1).Ku w.1 + (-(1 / 2) * log (2 * π * 1) - (y ^ 2 + w.1 0 ^ 2) / (2 * 1))) *
          exp (logPrior (rigid θ 1).Kz z) := fun z => by
      rw [← exp_add]
      ring_nf
    simp only [e'] at e
    rw [integral_const_mul, integral_logPrior (rigid_valid hθ one_pos).Kz, mul_one] at e
    rw [elboGibbs_value, pU_later s hs, ← exp_injective e]
    ring
  · have : (a + 1)⁻¹ < a⁻¹ := inv_strictAnti₀ ha (by linarith)
    linarith
  · have h1 : HasDerivAt (fun θ => rigidFit θ 1 y) ((a⁻¹ - (a + 1)⁻¹) / 2) a := by
      unfold rigidFit
      have d1 := hasDerivAt_log ha.ne'
      have d2 := (((hasDerivAt_id a).add_const (1 : ℝ)⁻¹).log (by simp; linarith))
      simp only [id, inv_one] at d2
      have := (((d1.sub d2).div_const 2).sub_const (1 / 2 * log (2 * π * 1))).sub_const (y ^ 2 / (2 * 1))
      simpa using this
    exact h1.congr_of_eventuallyEq (hpos.mono fun θ hθ => rigid_evidence hθ one_pos)

/-- **C186** (refutation) Nor is it the gradient of the evidence for the posterior that conditioning makes the prior: for the noise it
remains that of the original prior. -/
theorem c186_prior_false (C : Chols (Fin 1) (Fin 1)) (y : ℝ) :
    ∃ (M : ℝ → Inst (Fin 1) (Fin 1)) (s : Posts (Fin 1) (Fin 1)) (g : (Fin 1 → ℝ) → ℝ) (e : ℝ), s.qi = 1 ∧
      (∀ᶠ θ in 𝓝 1, (M θ).Valid) ∧ (∀ θ, (s.pU (M θ)).prec.PosDef ∧ (s.pZ (M θ)).prec.PosDef) ∧
      (∀ W k x, elboGibbsGrad C M 1 s [(0, y)] W k x = g (elboGibbs C (M 1) s [(0, y)] W k x).2.1) ∧
      HasDerivAt (fun θ => log (Spec.evidenceFrom ((s.pU (M θ)).logpdf C.u) ((s.pZ (M θ)).logpdf C.z) (M θ) [(0, y)])) e 1 ∧
      ∫ x, g x.1 ∂structuredPosterior (M 1) [(0, y)] ≠ e := by
  have hpos : ∀ᶠ θ : ℝ in 𝓝 1, 0 < θ := lt_mem_nhds one_pos
  have hv : ∀ᶠ θ : ℝ in 𝓝 1, (rigid 1 θ).Valid := hpos.mono fun θ h => rigid_valid one_pos h
  have hsm : SmoothAt (fun θ => rigid 1 θ) [(0, y)] 1 := ⟨fun _ _ => contDiffAt_const, fun _ _ => contDiffAt_const, contDiffAt_id,
    fun _ _ => contDiffAt_const, fun _ _ => contDiffAt_const, fun _ _ _ _ => contDiffAt_const,
    fun _ _ _ _ => contDiffAt_const⟩
  obtain ⟨s, hs⟩ : ∃ s : Posts (Fin 1) (Fin 1), s = ⟨1, fun _ => ⟨0, .of fun _ _ => 2⟩, fun _ => ⟨0, 1⟩⟩ := ⟨_, rfl⟩
  obtain ⟨g, h1, h2, h3⟩ := c186_noise_partial C hsm hv (Eventually.of_forall fun _ => rfl) s
  have hp2 : (Matrix.of fun _ _ => 2 : Matrix (Fin 1) (Fin 1) ℝ).PosDef := posDef_fin1 (by simp)
  have pu : ∀ θ, s.pU (rigid 1 θ) = ⟨0, .of fun _ _ => 2⟩ := fun θ => by rw [hs]; rfl
  have pz : ∀ θ, s.pZ (rigid 1 θ) = ⟨0, 1⟩ := fun θ => by rw [hs]; rfl
  have der : ∀ p : ℝ, 0 < p → HasDerivAt (fun v => rigidFit p v y) (1 / (p + 1) / 2 - 1 / 2 + y ^ 2 / 2) 1 := fun p hp => by
    unfold rigidFit
    have i1 := hasDerivAt_inv (one_ne_zero (α := ℝ))
    have d2 := ((i1.const_add p).log (by simp; linarith)).const_sub (log p) |>.div_const 2
    have d3 := (((hasDerivAt_id (1 : ℝ)).const_mul (2 * π)).log (by simp [pi_ne_zero])).const_mul (1 / 2)
    have d4 := (hasDerivAt_const (1 : ℝ) (y ^ 2)).div ((hasDerivAt_id (1 : ℝ)).const_mul 2) (by simp)
    refine ((d2.sub d3).sub d4).congr_deriv ?_
    simp only [id]
    have := pi_ne_zero
    field_simp
    ring
  have f1 := h3.unique ((der 1 one_pos).congr_of_eventuallyEq (hpos.mono fun θ hθ => rigid_evidence one_pos hθ))
  refine ⟨fun θ => rigid 1 θ, s, g, 1 / (2 + 1) / 2 - 1 / 2 + y ^ 2 / 2, by rw [hs], hv, fun θ => ?_, h1, ?_, ?_⟩
  · rw [pu, pz]
    exact ⟨hp2, Matrix.PosDef.one⟩
  · refine (der 2 two_pos).congr_of_eventuallyEq (hpos.mono fun θ hθ => ?_)
    simp only [pu, pz]
    rw [← rigid_from (k := 1) two_pos hθ]
    congr 2
    · exact funext fun u => (logPrior_eq C.u hp2 u).symm
    · exact funext fun z => (logPrior_eq C.z Matrix.PosDef.one z).symm
  · rw [f1]
    norm_num

/-- The noise of a model that has been conditioned. -/
example (D : Chols (Fin 1) (Fin 1)) : ∃ g : (Fin 1 → ℝ) → ℝ,
    (∀ W x, elboGibbsGrad D exNoise 0 (exPosts 1) [(0, 1), (2, 3)] W 5 x =
      g (elboGibbs D (exNoise 0) (exPosts 1) [(0, 1), (2, 3)] W 5 x).2.1) ∧
    HasDerivAt (fun θ => log (evidence (exNoise θ) [(0, 1), (2, 3)]))
      (∫ x, g x.1 ∂structuredPosterior (exNoise 0) [(0, 1), (2, 3)]) 0 := by
  obtain ⟨g, h1, -, h2⟩ := c186_noise_partial D (exNoise_smooth [(0, 1), (2, 3)] 0) (Eventually.of_forall exNoise_valid)
    (Eventually.of_forall fun _ => rfl) (exPosts 1)
  exact ⟨g, fun W x => h1 W 5 x, h2⟩

end Gpcm
