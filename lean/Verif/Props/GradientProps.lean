import Verif.Lemmas.Fisher
import Verif.Model.GibbsGrad
import Verif.Props.MseProps

/-!
# Property C163: the gradient with which the structured scheme learns hyper-parameters

The hyper-parameters are varied along a curve `M` of instantiated models; for a partial derivative, `M` varies one of them.
`evidence (M θ) d` is the evidence of the data under the model at `θ`, and `structuredPosterior (M θ) d` is the distribution of
the inducing variables given the data.
-/

set_option linter.unusedSectionVars false

open Matrix Real MeasureTheory Filter Topology

namespace Gpcm

open Markov

variable {ι κ : Type} [Fintype ι] [DecidableEq ι] [Fintype κ] [DecidableEq κ]
variable (C : Chols ι κ) {M : ℝ → Inst ι κ} {d : List (ℝ × ℝ)} {a : ℝ}

/-- The derivative of the logarithm of the evidence, and of the logarithm of the marginal of `u`, as integrals of the score. -/
theorem score (h : SmoothAt M d a) (hv : ∀ᶠ θ in 𝓝 a, (M θ).Valid) :
    ∃ (l : (ι → ℝ) × (κ → ℝ) → ℝ) (c : ℝ) (k : ℕ), Continuous l ∧ 0 ≤ c ∧ (∀ x, |l x| ≤ c * sizeSq x ^ k) ∧
      Integrable (fun x => l x * exp (logJoint (M a) d x.1 x.2)) ∧
      HasDerivAt (fun θ => log (evidence (M θ) d))
        ((∫ x, l x * exp (logJoint (M a) d x.1 x.2)) / evidence (M a) d) a ∧
      (∀ u, HasDerivAt (fun θ => log (∫ z, exp (logJoint (M θ) d u z)))
        ((∫ z, l (u, z) * exp (logJoint (M a) d u z)) / ∫ z, exp (logJoint (M a) d u z)) a) ∧
      ∀ x, HasDerivAt (fun θ => logJoint (M θ) d x.1 x.2) (l x) a := by
  have hva := hv.self_of_nhds
  obtain ⟨Cu⟩ := cholOracle_nonempty (n := ι)
  obtain ⟨Cz⟩ := cholOracle_nonempty (n := κ)
  obtain ⟨L', c, k, hc, hL⟩ := logJoint_poly h hva
  obtain ⟨B, e, he, hB⟩ := joint_bound h hv k
  have hLa := hL.self_of_nhds
  have hb : ∀ᶠ θ in 𝓝 a, ∀ x : (ι → ℝ) × (κ → ℝ), |L' θ x| * exp (logJoint (M θ) d x.1 x.2) ≤
      c * (B * (exp (-e * (x.1 ⬝ᵥ x.1)) * exp (-e * (x.2 ⬝ᵥ x.2)))) := by
    filter_upwards [hL, hB] with θ h1 h2 x
    calc _ ≤ c * sizeSq x ^ k * exp (logJoint (M θ) d x.1 x.2) :=
          mul_le_mul_of_nonneg_right (h1.2.2 x).2.2 (exp_pos _).le
      _ = c * (sizeSq x ^ k * exp (logJoint (M θ) d x.1 x.2)) := by ring
      _ ≤ _ := mul_le_mul_of_nonneg_left (h2 x) hc
  have f1 := fisher (μ := (volume : Measure ((ι → ℝ) × (κ → ℝ)))) (a := a) (L := fun θ x => logJoint (M θ) d x.1 x.2) (L' := L')
    (G := fun x => c * (B * (exp (-e * (x.1 ⬝ᵥ x.1)) * exp (-e * (x.2 ⬝ᵥ x.2))))) (by
      filter_upwards [hv, hL, hb] with θ h1 h2 h3
      exact ⟨(continuous_logJoint h1 d).rexp.aestronglyMeasurable, fun x => ⟨(h2.2.2 x).1, h3 x⟩⟩)
    ((((integrable_gauss he).mul_prod (integrable_gauss he)).const_mul B).const_mul c) (joint_integrable hva d)
    hLa.2.1.aestronglyMeasurable (evidence_pos hva d)
  refine ⟨L' a, c, k, hLa.2.1, hc, fun x => (hLa.2.2 x).2.2, f1.1, f1.2, fun u => ?_, fun x => (hLa.2.2 x).1⟩
  have hz : Continuous fun z : κ → ℝ => (u, z) := by fun_prop
  have hpos : 0 < ∫ z, exp (logJoint (M a) d u z) := by
    rw [integral_joint_z ⟨Cu, Cz⟩ hva]
    exact exp_pos _
  exact (fisher (μ := (volume : Measure (κ → ℝ))) (a := a) (L := fun θ z => logJoint (M θ) d u z) (L' := fun θ z => L' θ (u, z))
    (G := fun z => c * (B * (exp (-e * (u ⬝ᵥ u)) * exp (-e * (z ⬝ᵥ z))))) (by
      filter_upwards [hv, hL, hb] with θ h1 h2 h3
      exact ⟨((continuous_logJoint h1 d).comp hz).rexp.aestronglyMeasurable,
        fun z => ⟨(h2.2.2 (u, z)).1, h3 (u, z)⟩⟩)
    ((((integrable_gauss he).const_mul _).const_mul B).const_mul c)
    (Integrable.of_integral_ne_zero hpos.ne') (hLa.2.1.comp hz).aestronglyMeasurable hpos).2

/-- The expectation of a function of polynomial growth given `u`. -/
theorem condMean_le {m : Inst ι κ} (h : m.Valid) (d : List (ℝ × ℝ)) {l : (ι → ℝ) × (κ → ℝ) → ℝ} (hl : Continuous l) {c : ℝ} {k : ℕ}
    (hc : 0 ≤ c) (hb : ∀ x, |l x| ≤ c * sizeSq x ^ k) : ∃ b : ℝ, 0 ≤ b ∧ ∀ u : ι → ℝ,
      |(∫ z, l (u, z) * exp (logJoint m d u z)) / ∫ z, exp (logJoint m d u z)| ≤ b * (1 + u ⬝ᵥ u) ^ k := by
  obtain ⟨Cu⟩ := cholOracle_nonempty (n := ι)
  obtain ⟨Cz⟩ := cholOracle_nonempty (n := κ)
  obtain ⟨C, hC⟩ : ∃ C : Chols ι κ, C = ⟨Cu, Cz⟩ := ⟨_, rfl⟩
  obtain ⟨α, hα, hq⟩ := sq_le_quad h.Kz
  obtain ⟨D, hD⟩ : ∃ D, D = 1 + α * (2 + 2 * |dataSize m d|) := ⟨_, rfl⟩
  have hD0 : 0 ≤ D := by rw [hD]; positivity
  obtain ⟨J, hJ⟩ : ∃ J, J = ∫ w : κ → ℝ, stdPdf w * (1 + w ⬝ᵥ w) ^ k := ⟨_, rfl⟩
  have hJi : Integrable fun w : κ → ℝ => stdPdf w * (1 + w ⬝ᵥ w) ^ k := by
    have h1 : Integrable fun w : κ → ℝ => stdPdf w * exp (1 / 4 * (w ⬝ᵥ w)) := by
      refine ⟨(measurable_stdPdf.mul (by fun_prop)).aestronglyMeasurable, ?_⟩
      rw [hasFiniteIntegral_iff_ofReal (Eventually.of_forall fun w => mul_nonneg (stdPdf_nonneg w) (exp_pos _).le)]
      exact normal_exp_finite
    refine (h1.const_mul (4 ^ k * k.factorial * exp (1 / 4))).mono'
      (measurable_stdPdf.mul (by fun_prop)).aestronglyMeasurable (Eventually.of_forall fun w => ?_)
    have h5 := dot_self_nonneg' w
    have h2 := Real.pow_div_factorial_le_exp (1 / 4 * (1 + w ⬝ᵥ w)) (by positivity) k
    rw [div_le_iff₀ (by positivity), mul_pow, mul_add (1 / 4 : ℝ), exp_add, mul_one] at h2
    rw [norm_eq_abs, abs_of_nonneg (mul_nonneg (stdPdf_nonneg w) (by positivity))]
    have h3 : (1 + w ⬝ᵥ w) ^ k ≤ 4 ^ k * k.factorial * exp (1 / 4) * exp (1 / 4 * (w ⬝ᵥ w)) := by
      calc (1 + w ⬝ᵥ w) ^ k = 4 ^ k * ((1 / 4) ^ k * (1 + w ⬝ᵥ w) ^ k) := by
            rw [← mul_assoc, ← mul_pow]
            norm_num
        _ ≤ 4 ^ k * (exp (1 / 4) * exp (1 / 4 * (w ⬝ᵥ w)) * k.factorial) := mul_le_mul_of_nonneg_left h2 (by positivity)
        _ = _ := by ring
    calc _ ≤ stdPdf w * (4 ^ k * k.factorial * exp (1 / 4) * exp (1 / 4 * (w ⬝ᵥ w))) :=
          mul_le_mul_of_nonneg_left h3 (stdPdf_nonneg w)
      _ = _ := by ring
  have hJ0 : 0 ≤ J := by
    rw [hJ]
    refine integral_nonneg fun w => mul_nonneg (stdPdf_nonneg w) ?_
    have := dot_self_nonneg' w
    positivity
  refine ⟨c * D ^ k * J, by positivity, fun u => ?_⟩
  have e1 : (∫ z, l (u, z) * exp (logJoint m d u z)) / ∫ z, exp (logJoint m d u z) =
      ∫ w, stdPdf w * l (u, (qzOptimal m (constructDataTerms C m d) u).sample C.z w) := by
    rw [(NatNormal.expect_sample C.z (qzOptimal_posDef C h d u) fun z => l (u, z)).2, integral_joint_z C h]
    simp only [logJoint_u C h, exp_add]
    rw [div_eq_iff (exp_pos _).ne', mul_comm, ← integral_const_mul]
    exact integral_congr_ae (Eventually.of_forall fun z => by simp only; ring)
  rw [e1, ← norm_eq_abs]
  have hs : ∀ w, sizeSq (u, (qzOptimal m (constructDataTerms C m d) u).sample C.z w) ≤ D * ((1 + u ⬝ᵥ u) * (1 + w ⬝ᵥ w)) :=
    fun w => by
      have h1 := sample_quad C.z (qzOptimal_posDef C h d u) (qzOptimal_sub C h d u) w
      have h2 := qzOptimal_lam_le C h d u
      have h3 := hq ((qzOptimal m (constructDataTerms C m d) u).sample C.z w)
      have h4 := dot_self_nonneg' u
      have h5 := dot_self_nonneg' w
      have h6 := le_abs_self (dataSize m d)
      have h7 := abs_nonneg (dataSize m d)
      generalize (qzOptimal m (constructDataTerms C m d) u).sample C.z w = s at h1 h3 ⊢
      have h8 : s ⬝ᵥ s ≤ α * (2 * (w ⬝ᵥ w) + 2 * |dataSize m d|) := h3.trans (mul_le_mul_of_nonneg_left (by linarith) hα.le)
      rw [sizeSq, hD]
      have h9 : α * (2 * (w ⬝ᵥ w) + 2 * |dataSize m d|) ≤ α * (2 + 2 * |dataSize m d|) * (1 + w ⬝ᵥ w) := by
        rw [mul_assoc]
        exact mul_le_mul_of_nonneg_left (by nlinarith) hα.le
      have h10 : 0 ≤ α * (2 + 2 * |dataSize m d|) * (1 + w ⬝ᵥ w) := by positivity
      have h11 : 0 ≤ α * (2 + 2 * |dataSize m d|) * (1 + w ⬝ᵥ w) * (u ⬝ᵥ u) := mul_nonneg h10 h4
      have h12 := mul_nonneg h4 h5
      calc 1 + u ⬝ᵥ u + s ⬝ᵥ s ≤ (1 + u ⬝ᵥ u) * (1 + w ⬝ᵥ w) + α * (2 + 2 * |dataSize m d|) * (1 + w ⬝ᵥ w) * (1 + u ⬝ᵥ u) := by
            nlinarith
        _ = _ := by ring
  calc _ ≤ ∫ w, c * D ^ k * (1 + u ⬝ᵥ u) ^ k * (stdPdf w * (1 + w ⬝ᵥ w) ^ k) := by
        refine norm_integral_le_of_norm_le (hJi.const_mul _) (Eventually.of_forall fun w => ?_)
        have h4 := dot_self_nonneg' u
        have h5 := dot_self_nonneg' w
        rw [norm_mul, norm_eq_abs, norm_eq_abs, abs_of_nonneg (stdPdf_nonneg w)]
        have h6 := pow_le_pow_left₀ (zero_le_one.trans (sizeSq_one _)) (hs w) k
        rw [mul_pow, mul_pow] at h6
        calc _ ≤ stdPdf w * (c * (D ^ k * ((1 + u ⬝ᵥ u) ^ k * (1 + w ⬝ᵥ w) ^ k))) :=
              mul_le_mul_of_nonneg_left ((hb _).trans (mul_le_mul_of_nonneg_left h6 hc)) (stdPdf_nonneg w)
          _ = _ := by ring
    _ = _ := by
        rw [integral_const_mul, ← hJ]
        ring

theorem integral_structuredPosterior {m : Inst ι κ} (h : m.Valid) (d : List (ℝ × ℝ)) (f : (ι → ℝ) × (κ → ℝ) → ℝ) :
    (Integrable f (structuredPosterior m d) ↔ Integrable fun x => f x * exp (logJoint m d x.1 x.2)) ∧
      ∫ x, f x ∂structuredPosterior m d = (∫ x, f x * exp (logJoint m d x.1 x.2)) / evidence m d := by
  have hp := evidence_pos h d
  have hm := (measurable_joint h d).div_const (∫⁻ x, joint m d x ∂(volume.prod volume))
  have hr : ∀ x, (joint m d x / ∫⁻ x, joint m d x ∂(volume.prod volume)).toReal =
      exp (logJoint m d x.1 x.2) / evidence m d := fun x => by
    rw [ENNReal.toReal_div, evidence_eq h, joint, ENNReal.toReal_ofReal (exp_pos _).le]
  have hlt : ∀ᵐ x ∂(volume.prod volume : Measure ((ι → ℝ) × (κ → ℝ))),
      joint m d x / ∫⁻ x, joint m d x ∂(volume.prod volume) < ⊤ := Eventually.of_forall fun x =>
    ENNReal.div_lt_top (by rw [joint]; exact ENNReal.ofReal_ne_top) (joint_finite h d).1
  constructor
  · rw [structuredPosterior, integrable_withDensity_iff_integrable_smul' hm hlt]
    simp only [hr, smul_eq_mul]
    rw [← integrable_const_mul_iff (c := (evidence m d)⁻¹) (by simpa using hp.ne') (fun x => f x * exp (logJoint m d x.1 x.2))]
    rw [iff_iff_eq]
    congr 1
    funext x
    ring
  · rw [structuredPosterior, integral_withDensity_eq_integral_toReal_smul hm hlt]
    simp only [hr, smul_eq_mul]
    rw [div_eq_mul_inv, mul_comm _ (evidence m d)⁻¹, ← integral_const_mul]
    refine integral_congr_ae (Eventually.of_forall fun x => ?_)
    simp only
    ring

/-- The tower property. -/
theorem integral_condMean {m : Inst ι κ} (h : m.Valid) (d : List (ℝ × ℝ)) {l : (ι → ℝ) × (κ → ℝ) → ℝ} (hl : Continuous l)
    (hi : Integrable fun x => l x * exp (logJoint m d x.1 x.2)) {g : (ι → ℝ) → ℝ}
    (hg : ∀ u, g u = (∫ z, l (u, z) * exp (logJoint m d u z)) / ∫ z, exp (logJoint m d u z)) :
    Measurable g ∧ (Integrable (fun x => g x.1) (structuredPosterior m d) →
      ∫ x, g x.1 ∂structuredPosterior m d = (∫ x, l x * exp (logJoint m d x.1 x.2)) / evidence m d) := by
  obtain ⟨Cu⟩ := cholOracle_nonempty (n := ι)
  obtain ⟨Cz⟩ := cholOracle_nonempty (n := κ)
  have hpos : ∀ u, ∫ z, exp (logJoint m d u z) ≠ 0 := fun u => by
    rw [integral_joint_z ⟨Cu, Cz⟩ h]
    exact (exp_pos _).ne'
  have hj := (continuous_logJoint h d).rexp
  constructor
  · rw [funext hg]
    have h1 : StronglyMeasurable fun u => ∫ z, l (u, z) * exp (logJoint m d u z) :=
      (hl.mul hj).stronglyMeasurable.integral_prod_right'
    have h2 : StronglyMeasurable fun u => ∫ z, exp (logJoint m d u z) := hj.stronglyMeasurable.integral_prod_right'
    exact h1.measurable.div h2.measurable
  · intro hgi
    obtain ⟨e1, e2⟩ := integral_structuredPosterior h d fun x => g x.1
    rw [e2, Measure.volume_eq_prod, integral_prod _ (e1.1 hgi), integral_prod _ hi]
    congr 1
    refine integral_congr_ae (Eventually.of_forall fun u => ?_)
    simp only
    rw [integral_const_mul, hg u, div_mul_cancel₀ _ (hpos u)]

/-- The value of `elbo_gibbs` at a fixed sample. -/
theorem elboGibbs_zero {m : Inst ι κ} (h : m.Valid) (s : Posts ι κ) (hs : s.qi = 0) (d : List (ℝ × ℝ))
    (W : ℕ → (ι → ℝ) × (κ → ℝ)) (y : (ι → ℝ) × (κ → ℝ)) :
    (elboGibbs C m s d W 0 y).1 = log (∫ z, exp (logJoint m d y.1 z)) := by
  have h1 := c97_gibbs C h s hs d W 0 y
  rw [h1.2.1, h1.1]
  rfl

theorem gradient_aux (h : SmoothAt M d a) (hv : ∀ᶠ θ in 𝓝 a, (M θ).Valid) (s : Posts ι κ) (hs : s.qi = 0) :
    ∃ (g : (ι → ℝ) → ℝ) (b : ℝ) (k : ℕ), Measurable g ∧ 0 ≤ b ∧ (∀ u, |g u| ≤ b * (1 + u ⬝ᵥ u) ^ k) ∧
      (∀ W y, HasDerivAt (fun θ => (elboGibbs C (M θ) s d W 0 y).1) (g y.1) a) ∧
      Integrable (fun x => g x.1) (structuredPosterior (M a) d) ∧
      HasDerivAt (fun θ => log (evidence (M θ) d)) (∫ x, g x.1 ∂structuredPosterior (M a) d) a := by
  have hva := hv.self_of_nhds
  obtain ⟨l, c, k, hl, hc, hb, hi, h1, h2, -⟩ := score h hv
  obtain ⟨b, hb0, hg⟩ := condMean_le hva d hl hc hb
  obtain ⟨g, hg'⟩ : ∃ g : (ι → ℝ) → ℝ, ∀ u, g u =
    (∫ z, l (u, z) * exp (logJoint (M a) d u z)) / ∫ z, exp (logJoint (M a) d u z) := ⟨_, fun _ => rfl⟩
  simp only [← hg'] at hg h2
  obtain ⟨hm, hint⟩ := integral_condMean hva d hl hi hg'
  have hgi : Integrable (fun x => g x.1) (structuredPosterior (M a) d) := by
    have := structuredPosterior_prob hva d
    have hm' : Measurable fun x : (ι → ℝ) × (κ → ℝ) => g x.1 := hm.comp measurable_fst
    have := posterior_moment hva d hm' (c := b) (k := k) fun x => (hg x.1).trans (by
      have := dot_self_nonneg' x.1
      have := dot_self_nonneg' x.2
      exact mul_le_mul_of_nonneg_left (pow_le_pow_left₀ (by linarith) (by linarith) k) hb0)
    exact ((memLp_two_iff_integrable_sq hm'.aestronglyMeasurable).2 this).integrable one_le_two
  refine ⟨g, b, k, hm, hb0, hg, fun W y => ?_, hgi, ?_⟩
  · exact (h2 y.1).congr_of_eventuallyEq (hv.mono fun θ hθ => elboGibbs_zero C hθ s hs d W y)
  · rwa [hint hgi]

/-- **C163** The gradient with which the structured scheme learns a hyper-parameter is the gradient of the evidence, up to the Monte
Carlo error in the sample: it is a function of the sample of the filter only, and its expectation under the structured
posterior is the derivative of the logarithm of the evidence. -/
theorem c163_gradient (h : SmoothAt M d a) (hv : ∀ᶠ θ in 𝓝 a, (M θ).Valid) (s : Posts ι κ) (hs : s.qi = 0) :
    ∃ g : (ι → ℝ) → ℝ, (∀ W k x, elboGibbsGrad C M a s d W k x = g (elboGibbs C (M a) s d W k x).2.1) ∧
      Integrable (fun x => g x.1) (structuredPosterior (M a) d) ∧
      HasDerivAt (fun θ => log (evidence (M θ) d)) (∫ x, g x.1 ∂structuredPosterior (M a) d) a := by
  obtain ⟨g, b, k, -, -, -, h1, h2, h3⟩ := gradient_aux C h hv s hs
  exact ⟨g, fun W k x => (h1 W _).deriv, h2, h3⟩

/-- **C163** The average of the gradients over the sweeps of the Gibbs sampler, at fixed hyper-parameters, converges in mean square to
the derivative of the logarithm of the evidence. -/
theorem c163_consistent (h : SmoothAt M d a) (hv : ∀ᶠ θ in 𝓝 a, (M θ).Valid) (s : Posts ι κ) (hs : s.qi = 0)
    (x : (ι → ℝ) × (κ → ℝ)) :
    Tendsto (fun n : ℕ => normalExpect n fun W => ENNReal.ofReal ((
      ((List.range n).map fun i => elboGibbsGrad C M a s d W (i + 1) x).sum / n -
        deriv (fun θ => log (evidence (M θ) d)) a) ^ 2)) atTop (𝓝 0) := by
  have hva := hv.self_of_nhds
  obtain ⟨g, b, k, hm, hb, hg, h1, h2, h3⟩ := gradient_aux C h hv s hs
  have := c161_polynomial C hva d (f := fun x => g x.1) (hm.comp measurable_fst) (c := b) (k := k) (fun x => (hg x.1).trans (by
      have := dot_self_nonneg' x.1
      have := dot_self_nonneg' x.2
      exact mul_le_mul_of_nonneg_left (pow_le_pow_left₀ (by linarith) (by linarith) k) hb)) x
  rw [h3.deriv]
  refine this.congr fun n => congrArg (normalExpect n) (funext fun W => ?_)
  rw [c96_samples, List.map_map]
  have e : ((fun x : (ι → ℝ) × (κ → ℝ) => g x.1) ∘ fun i => gibbsChain C (M a) (constructDataTerms C (M a) d) W x (i + 1)) =
      fun i => elboGibbsGrad C M a s d W (i + 1) x := funext fun i => by
    rw [elboGibbsGrad, (h1 W _).deriv, (c97_gibbs C hva s hs d W (i + 1) x).1]
    rfl
  rw [e]

/-- A model with the noise variance as a hyper-parameter, on the logarithmic scale on which it is learnt. -/
noncomputable def exNoise (θ : ℝ) : Inst (Fin 1) (Fin 1) := { exInst with noise := exp θ }

theorem exNoise_valid (θ : ℝ) : (exNoise θ).Valid where
  Ku := exInst_valid.Ku
  Kz := exInst_valid.Kz
  noise := exp_pos θ
  A := exInst_valid.A
  B := exInst_valid.B
  c := exInst_valid.c

theorem exNoise_smooth (d : List (ℝ × ℝ)) (a : ℝ) : SmoothAt exNoise d a where
  Ku := fun _ _ => contDiffAt_const
  Kz := fun _ _ => contDiffAt_const
  noise := contDiff_exp.contDiffAt
  iHx := fun _ _ => contDiffAt_const
  iUx := fun _ _ => contDiffAt_const
  iHz := fun _ _ _ _ => contDiffAt_const
  iUz := fun _ _ _ _ => contDiffAt_const

/-- The noise of a model that explains two observations. -/
example (D : Chols (Fin 1) (Fin 1)) : ∃ g : (Fin 1 → ℝ) → ℝ,
    (∀ W x, elboGibbsGrad D exNoise 0 (exPosts 0) [(0, 1), (2, 3)] W 5 x =
      g (elboGibbs D (exNoise 0) (exPosts 0) [(0, 1), (2, 3)] W 5 x).2.1) ∧
    HasDerivAt (fun θ => log (evidence (exNoise θ) [(0, 1), (2, 3)]))
      (∫ x, g x.1 ∂structuredPosterior (exNoise 0) [(0, 1), (2, 3)]) 0 := by
  obtain ⟨g, h1, -, h2⟩ := c163_gradient D (exNoise_smooth [(0, 1), (2, 3)] 0) (Eventually.of_forall exNoise_valid) (exPosts 0) rfl
  exact ⟨g, fun W x => h1 W 5 x, h2⟩

end Gpcm
