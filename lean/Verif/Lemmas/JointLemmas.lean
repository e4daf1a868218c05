import Verif.Props.PredictProps
import Verif.Lemmas.GibbsLemmas

/-! # Helper lemmas: the joint density of the inducing variables -/

set_option linter.unusedSectionVars false

open Matrix Real MeasureTheory ENNReal

namespace Gpcm

/-! ## Sampling and densities with values in the extended reals -/

section sample

variable {n : Type} [Fintype n] [DecidableEq n] (C : CholOracle n)

theorem lintegral_affine {S : Matrix n n ℝ} (hS : S.det ≠ 0) (a : n → ℝ) (f : (n → ℝ) → ℝ≥0∞) :
    ENNReal.ofReal |S.det| * ∫⁻ z, f (a + S *ᵥ z) = ∫⁻ x, f x := by
  have hmap := Real.map_matrix_volume_pi_eq_smul_volume_pi hS
  obtain ⟨e, he⟩ : ∃ e : (n → ℝ) ≃L[ℝ] (n → ℝ), ∀ z, e z = S *ᵥ z := by
    have h1 : S * S⁻¹ = 1 := Matrix.mul_nonsing_inv S hS.isUnit
    have h2 : S⁻¹ * S = 1 := Matrix.nonsing_inv_mul S hS.isUnit
    exact ⟨(Matrix.toLin'OfInv h2 h1).toContinuousLinearEquiv, fun z => rfl⟩
  have hemb : MeasurableEmbedding (fun z : n → ℝ => S *ᵥ z) := by
    have : (fun z : n → ℝ => S *ᵥ z) = e := funext fun z => (he z).symm
    rw [this]
    exact e.toHomeomorph.measurableEmbedding
  have hmap' : Measure.map (fun z : n → ℝ => S *ᵥ z) volume =
      ENNReal.ofReal |(S.det)⁻¹| • volume := hmap
  have h1 : ∫⁻ z, f (a + S *ᵥ z) = ∫⁻ x, f (a + x) ∂(Measure.map (fun z : n → ℝ => S *ᵥ z) volume) :=
    (hemb.lintegral_map (fun x => f (a + x)) (μ := volume)).symm
  rw [h1, hmap', lintegral_smul_measure, lintegral_add_left_eq_self (fun x => f x), smul_eq_mul, ← mul_assoc,
    abs_inv, ← ENNReal.ofReal_mul (abs_nonneg _), mul_inv_cancel₀ (abs_pos.2 hS).ne', ENNReal.ofReal_one, one_mul]

/-- Expectations of the sampler are expectations under the density. -/
theorem lexpect_sample {d : NatNormal n} (h : d.prec.PosDef) (f : (n → ℝ) → ℝ≥0∞) :
    ∫⁻ z, ENNReal.ofReal (stdPdf z) * f (d.sample C z) = ∫⁻ x, ENNReal.ofReal (exp (d.logpdf C x)) * f x := by
  obtain ⟨h0, -⟩ := NatNormal.samplePart_det C h
  rw [← lintegral_affine h0 (d.mean C) fun x => ENNReal.ofReal (exp (d.logpdf C x)) * f x, ← lintegral_const_mul' _ _ ENNReal.ofReal_ne_top]
  refine lintegral_congr fun z => ?_
  rw [← mul_assoc, ← ENNReal.ofReal_mul (abs_nonneg _), NatNormal.density_sample C h, NatNormal.sample_eq C h]

theorem lexpect_one {d : NatNormal n} (h : d.prec.PosDef) :
    ∫⁻ x, ENNReal.ofReal (exp (d.logpdf C x)) = 1 := by
  obtain ⟨h1, h2⟩ := NatNormal.expect_one C h
  rw [← ofReal_integral_eq_lintegral_ofReal h1 (Filter.Eventually.of_forall fun x => (exp_pos _).le), h2,
    ENNReal.ofReal_one]

end sample

variable {ι κ : Type} [Fintype ι] [DecidableEq ι] [Fintype κ] [DecidableEq κ]
variable (C : Chols ι κ) {m : Inst ι κ}

/-- The logarithm of the density of a centred normal with precision `K`. -/
noncomputable def logPrior {n : Type} [Fintype n] [DecidableEq n] (K : Matrix n n ℝ) (x : n → ℝ) : ℝ :=
  (log K.det - Fintype.card n * log (2 * π) - x ⬝ᵥ (K *ᵥ x)) / 2

/-- The target of the sampler: the logarithm of prior densities times likelihood, where the likelihood is the
exponentiated expected log-likelihood given the inducing variables. -/
noncomputable def logJoint (m : Inst ι κ) (d : List (ℝ × ℝ)) (u : ι → ℝ) (z : κ → ℝ) : ℝ :=
  logPrior m.Ku u + logPrior m.Kz z + expLogLik m d u (vecMulVec u u) z (vecMulVec z z)

/-- The unnormalised target density. -/
noncomputable def joint (m : Inst ι κ) (d : List (ℝ × ℝ)) (x : (ι → ℝ) × (κ → ℝ)) : ℝ≥0∞ :=
  ENNReal.ofReal (exp (logJoint m d x.1 x.2))

theorem logPrior_eq {n : Type} [Fintype n] [DecidableEq n] (C : CholOracle n) {K : Matrix n n ℝ} (hK : K.PosDef)
    (x : n → ℝ) : logPrior K x = NatNormal.logpdf C ⟨0, K⟩ x := by
  rw [NatNormal.logpdf_nat C (p := ⟨0, K⟩) hK, logPrior, NatNormal.part]
  simp only [zero_dotProduct]
  ring

/-! ## Factorisations -/

/-- The logarithm of the marginal of `u`. -/
noncomputable def logMargU (m : Inst ι κ) (d : List (ℝ × ℝ)) (u : ι → ℝ) : ℝ :=
  logPrior m.Ku u + logZu C m (constructDataTerms C m d) u

/-- The logarithm of the marginal of `z`. -/
noncomputable def logMargZ (m : Inst ι κ) (d : List (ℝ × ℝ)) (z : κ → ℝ) : ℝ :=
  logPrior m.Kz z + sumEll (constructDataTerms C m d) m.noise 0 0 z (vecMulVec z z) +
    1 / 2 * ((quOptimal m (constructDataTerms C m d) z).part - (⟨0, m.Ku⟩ : NatNormal ι).part)

theorem logJoint_u (h : m.Valid) (d : List (ℝ × ℝ)) (u : ι → ℝ) (z : κ → ℝ) :
    logJoint m d u z = logMargU C m d u + (qzOptimal m (constructDataTerms C m d) u).logpdf C.z z := by
  have ho := qzOptimal_posDef C h d u
  rw [logJoint, logMargU, logZu_eq C m _ u ho, ← sumEll_expLogLik C h, sumEll_z, frob_vecMulVec, qzOptimal_eq,
    logPrior_eq C.z h.Kz]
  rw [qzOptimal_eq] at ho
  have := NatNormal.tilt_logpdf C.z (p := ⟨0, m.Kz⟩) h.Kz ho z
  linarith

theorem logJoint_z (h : m.Valid) (d : List (ℝ × ℝ)) (u : ι → ℝ) (z : κ → ℝ) :
    logJoint m d u z = logMargZ C m d z + (quOptimal m (constructDataTerms C m d) z).logpdf C.u u := by
  have ho := quOptimal_posDef C h d z
  rw [logJoint, logMargZ, ← sumEll_expLogLik C h, sumEll_u, frob_vecMulVec, quOptimal_eq,
    logPrior_eq C.u h.Ku]
  rw [quOptimal_eq] at ho
  have := NatNormal.tilt_logpdf C.u (p := ⟨0, m.Ku⟩) h.Ku ho u
  linarith

theorem joint_marg_u (h : m.Valid) (d : List (ℝ × ℝ)) (u : ι → ℝ) :
    ∫⁻ z, joint m d (u, z) = ENNReal.ofReal (exp (logMargU C m d u)) := by
  simp only [joint, logJoint_u C h, exp_add, ENNReal.ofReal_mul (exp_pos _).le]
  rw [lintegral_const_mul' _ _ ENNReal.ofReal_ne_top, lexpect_one C.z (qzOptimal_posDef C h d u), mul_one]

theorem joint_marg_z (h : m.Valid) (d : List (ℝ × ℝ)) (z : κ → ℝ) :
    ∫⁻ u, joint m d (u, z) = ENNReal.ofReal (exp (logMargZ C m d z)) := by
  simp only [joint, logJoint_z C h, exp_add, ENNReal.ofReal_mul (exp_pos _).le]
  rw [lintegral_const_mul' _ _ ENNReal.ofReal_ne_top, lexpect_one C.u (quOptimal_posDef C h d z), mul_one]

theorem ofReal_exp_ne_zero (a : ℝ) : ENNReal.ofReal (exp a) ≠ 0 := by
  rw [Ne, ENNReal.ofReal_eq_zero, not_le]
  exact exp_pos a

/-! ## Measurability and normalisation -/

theorem continuous_sumEll (ts : DataTerms ι κ) (s : ℝ) : Continuous fun x : (ι → ℝ) × (κ → ℝ) =>
    sumEll ts s x.1 (vecMulVec x.1 x.1) x.2 (vecMulVec x.2 x.2) := by
  have hu : Continuous fun x : (ι → ℝ) × (κ → ℝ) => vecMulVec x.1 x.1 :=
    continuous_fst.matrix_vecMulVec continuous_fst
  have hz : Continuous fun x : (ι → ℝ) × (κ → ℝ) => vecMulVec x.2 x.2 :=
    continuous_snd.matrix_vecMulVec continuous_snd
  have hf : ∀ {α β : Type} [Fintype α] [Fintype β] {X Y : (ι → ℝ) × (κ → ℝ) → Matrix α β ℝ}, Continuous X →
      Continuous Y → Continuous fun x => frob (X x) (Y x) := fun hX hY => by
    unfold frob
    exact continuous_finsetSum _ fun i _ => continuous_finsetSum _ fun j _ =>
      (hX.matrix_elem i j).mul (hY.matrix_elem i j)
  unfold sumEll
  refine continuous_const.sub (continuous_const.mul (((((continuous_const.add (hf continuous_const hu)).add
    (hf continuous_const hz)).add ?_).add continuous_const).sub (continuous_const.mul ?_)))
  · refine continuous_list_sum _ fun I _ => hf ?_ hu
    exact (continuous_const.matrix_mul hz).matrix_mul continuous_const
  · exact continuous_fst.dotProduct (continuous_const.matrix_mulVec continuous_snd)

theorem continuous_logPrior {n : Type} [Fintype n] [DecidableEq n] (K : Matrix n n ℝ) :
    Continuous (logPrior K) := by
  unfold logPrior
  exact (continuous_const.sub (continuous_id.dotProduct (continuous_const.matrix_mulVec continuous_id))).div_const _

theorem continuous_logJoint (h : m.Valid) (d : List (ℝ × ℝ)) :
    Continuous fun x : (ι → ℝ) × (κ → ℝ) => logJoint m d x.1 x.2 := by
  obtain ⟨Cu⟩ := cholOracle_nonempty (n := ι)
  obtain ⟨Cz⟩ := cholOracle_nonempty (n := κ)
  have h1 := continuous_sumEll (constructDataTerms ⟨Cu, Cz⟩ m d) m.noise
  simp only [sumEll_expLogLik ⟨Cu, Cz⟩ h] at h1
  unfold logJoint
  exact (((continuous_logPrior m.Ku).comp continuous_fst).add ((continuous_logPrior m.Kz).comp
    continuous_snd)).add h1

theorem measurable_joint (h : m.Valid) (d : List (ℝ × ℝ)) : Measurable (joint m d) :=
  ((continuous_logJoint h d).rexp).measurable.ennreal_ofReal

/-- The expected log-likelihood is bounded above. -/
theorem expLogLik_le (h : m.Valid) (d : List (ℝ × ℝ)) {u : ι → ℝ} {u2 : Matrix ι ι ℝ} {z : κ → ℝ}
    {z2 : Matrix κ κ ℝ} (hu : (u2 - vecMulVec u u).PosSemidef) (hz : (z2 - vecMulVec z z).PosSemidef) :
    expLogLik m d u u2 z z2 ≤ d.length * (-(1 / 2) * log (2 * π * m.noise)) := by
  obtain ⟨Cu⟩ := cholOracle_nonempty (n := ι)
  obtain ⟨Cz⟩ := cholOracle_nonempty (n := κ)
  unfold expLogLik
  induction d with
  | nil => simp
  | cons p d ih =>
    rw [List.map_cons, List.sum_cons, List.length_cons]
    have h1 := ptMoments_var ⟨Cu, Cz⟩ h hu hz p.1
    rw [ptMoments_spec ⟨Cu, Cz⟩ h] at h1
    have h2 : ∀ a b, a ^ 2 ≤ b → Spec.ell m.noise p.2 a b ≤ -(1 / 2) * log (2 * π * m.noise) := fun a b hab => by
      unfold Spec.ell
      have : 0 ≤ (p.2 ^ 2 - 2 * p.2 * a + b) / (2 * m.noise) :=
        div_nonneg (by nlinarith [sq_nonneg (p.2 - a)]) (by linarith [h.noise])
      linarith
    have h3 := h2 _ _ h1
    push_cast
    simp only at ih h3 ⊢
    linarith

theorem joint_finite (h : m.Valid) (d : List (ℝ × ℝ)) :
    ∫⁻ x, joint m d x ∂(volume.prod volume) ≠ 0 ∧ ∫⁻ x, joint m d x ∂(volume.prod volume) ≠ ∞ := by
  obtain ⟨Cu⟩ := cholOracle_nonempty (n := ι)
  obtain ⟨Cz⟩ := cholOracle_nonempty (n := κ)
  constructor
  · rw [Ne, lintegral_eq_zero_iff (measurable_joint h d)]
    intro h0
    have : ∀ᵐ x ∂(volume : Measure (ι → ℝ)).prod (volume : Measure (κ → ℝ)), False :=
      h0.mono fun x hx => ofReal_exp_ne_zero _ hx
    rw [Filter.eventually_false_iff_eq_bot, ae_eq_bot, ← Measure.measure_univ_eq_zero,
      ← Set.univ_prod_univ, Measure.prod_prod, mul_eq_zero, Measure.measure_univ_eq_zero,
      Measure.measure_univ_eq_zero] at this
    rcases this with h | h
    · exact NeZero.ne _ h
    · exact NeZero.ne _ h
  · obtain ⟨c, hc⟩ : ∃ c, c = ENNReal.ofReal (exp (d.length * (-(1 / 2) * log (2 * π * m.noise)))) := ⟨_, rfl⟩
    have hle : ∀ x : (ι → ℝ) × (κ → ℝ), joint m d x ≤ ENNReal.ofReal (exp (NatNormal.logpdf Cu ⟨0, m.Ku⟩ x.1)) *
        (ENNReal.ofReal (exp (NatNormal.logpdf Cz ⟨0, m.Kz⟩ x.2)) * c) := fun x => by
      rw [joint, hc, ← ENNReal.ofReal_mul (exp_pos _).le, ← ENNReal.ofReal_mul (exp_pos _).le, ← exp_add, ← exp_add,
        logJoint, logPrior_eq Cu h.Ku, logPrior_eq Cz h.Kz]
      refine ENNReal.ofReal_le_ofReal (exp_le_exp.2 ?_)
      have := expLogLik_le h d (u := x.1) (u2 := vecMulVec x.1 x.1) (z := x.2) (z2 := vecMulVec x.2 x.2)
        (by rw [sub_self]; exact Matrix.PosSemidef.zero) (by rw [sub_self]; exact Matrix.PosSemidef.zero)
      linarith
    refine ne_top_of_le_ne_top ?_ (lintegral_mono hle)
    have hm1 : Measurable fun x : ι → ℝ => ENNReal.ofReal (exp (NatNormal.logpdf Cu ⟨0, m.Ku⟩ x)) := by
      simp only [← logPrior_eq Cu h.Ku]
      exact (continuous_logPrior _).rexp.measurable.ennreal_ofReal
    have hm2 : Measurable fun x : κ → ℝ => ENNReal.ofReal (exp (NatNormal.logpdf Cz ⟨0, m.Kz⟩ x)) := by
      simp only [← logPrior_eq Cz h.Kz]
      exact (continuous_logPrior _).rexp.measurable.ennreal_ofReal
    rw [lintegral_prod_mul hm1.aemeasurable (hm2.mul_const c).aemeasurable, lintegral_mul_const _ hm2,
      lexpect_one Cu (d := ⟨0, m.Ku⟩) h.Ku, lexpect_one Cz (d := ⟨0, m.Kz⟩) h.Kz, one_mul, one_mul, hc]
    exact ENNReal.ofReal_ne_top

end Gpcm
