import Verif.Props.LessNoiseProps

/-!
# Property C179: observing data brings the model closer to them
-/

open Matrix Real MeasureTheory Filter Topology

namespace Gpcm

open Markov

variable {ι κ : Type} [Fintype ι] [DecidableEq ι] [Fintype κ] [DecidableEq κ] (C : Chols ι κ) {m : Inst ι κ}

theorem expLogLik_append (e d : List (ℝ × ℝ)) (u : ι → ℝ) (u2 : Matrix ι ι ℝ) (z : κ → ℝ) (z2 : Matrix κ κ ℝ) :
    expLogLik m (e ++ d) u u2 z z2 = expLogLik m e u u2 z z2 + expLogLik m d u u2 z z2 := by
  simp [expLogLik]

theorem logJoint_append (e d : List (ℝ × ℝ)) (x : (ι → ℝ) × (κ → ℝ)) :
    logJoint m (e ++ d) x.1 x.2 = logJoint m e x.1 x.2 + noiseFit d.length (Spec.misfit m d x) m.noise := by
  have := expLogLik_noise (m := m) d m.noise x.1 (vecMulVec x.1 x.1) x.2 (vecMulVec x.2 x.2)
  rw [withNoise_self] at this
  rw [logJoint, logJoint, expLogLik_append, this, Spec.misfit]
  ring

/-- **C179** Observing data brings the posterior closer to them: whatever was observed before, the expected sum of squared differences between
the new observations and the signal, under the posterior from which the structured scheme samples, does not increase when they are
observed. -/
theorem c179_structured (h : m.Valid) (e d : List (ℝ × ℝ)) :
    ∫ x, Spec.misfit m d x ∂structuredPosterior m (e ++ d) ≤ ∫ x, Spec.misfit m d x ∂structuredPosterior m e := by
  have i1 := misfit_integrable h (e ++ d) d
  have i2 := misfit_integrable h e d
  obtain ⟨R, hR⟩ : ∃ R, R = Spec.misfit m d := ⟨_, rfl⟩
  rw [← hR] at i1 i2 ⊢
  obtain ⟨a1, b1⟩ := integral_structuredPosterior h (e ++ d) R
  obtain ⟨a2, b2⟩ := integral_structuredPosterior h e R
  have p1 := evidence_pos h (e ++ d)
  have p2 := evidence_pos h e
  have j1 := joint_integrable h (e ++ d)
  have j2 := joint_integrable h e
  obtain ⟨r, hr⟩ : ∃ r, r = ∫ x, R x ∂structuredPosterior m e := ⟨_, rfl⟩
  rw [← hr, b1, div_le_iff₀ p1]
  have hn := h.noise
  have hJ : ∀ x : (ι → ℝ) × (κ → ℝ), logJoint m (e ++ d) x.1 x.2 = logJoint m e x.1 x.2 + noiseFit d.length (R x) m.noise := fun x => by
    rw [hR]
    exact logJoint_append e d x
  have key : ∀ x : (ι → ℝ) × (κ → ℝ), (R x - r) * exp (logJoint m (e ++ d) x.1 x.2) ≤
      exp (noiseFit d.length r m.noise) * ((R x - r) * exp (logJoint m e x.1 x.2)) := fun x => by
    rw [hJ, exp_add]
    have mono : ∀ a b : ℝ, a ≤ b → noiseFit d.length b m.noise ≤ noiseFit d.length a m.noise := fun a b hab => by
      unfold noiseFit
      have := div_le_div_of_nonneg_right hab (show 0 ≤ 2 * m.noise by positivity)
      linarith
    have h3 : (R x - r) * exp (noiseFit d.length (R x) m.noise) ≤ (R x - r) * exp (noiseFit d.length r m.noise) := by
      rcases le_total (R x) r with hle | hle
      · exact mul_le_mul_of_nonpos_left (exp_le_exp.2 (mono _ _ hle)) (by linarith)
      · exact mul_le_mul_of_nonneg_left (exp_le_exp.2 (mono _ _ hle)) (by linarith)
    have := mul_le_mul_of_nonneg_right h3 (exp_pos (logJoint m e x.1 x.2)).le
    linarith
  have s1 : Integrable fun x : (ι → ℝ) × (κ → ℝ) => (R x - r) * exp (logJoint m (e ++ d) x.1 x.2) := by
    simp only [sub_mul]
    exact (a1.1 i1).sub (j1.const_mul r)
  have s2 : Integrable fun x : (ι → ℝ) × (κ → ℝ) => (R x - r) * exp (logJoint m e x.1 x.2) := by
    simp only [sub_mul]
    exact (a2.1 i2).sub (j2.const_mul r)
  have h3 := integral_mono s1 (s2.const_mul _) key
  rw [integral_const_mul] at h3
  have e2 : ∫ x : (ι → ℝ) × (κ → ℝ), (R x - r) * exp (logJoint m e x.1 x.2) = 0 := by
    simp only [sub_mul]
    rw [integral_sub (a2.1 i2) (j2.const_mul r), integral_const_mul]
    show _ - r * evidence m e = 0
    rw [hr, b2, div_mul_cancel₀ _ p2.ne', sub_self]
  have e1 : ∫ x : (ι → ℝ) × (κ → ℝ), (R x - r) * exp (logJoint m (e ++ d) x.1 x.2) =
      (∫ x, R x * exp (logJoint m (e ++ d) x.1 x.2)) - r * evidence m (e ++ d) := by
    simp only [sub_mul]
    rw [integral_sub (a1.1 i1) (j1.const_mul r), integral_const_mul]
    rfl
  rw [e1, e2, mul_zero] at h3
  linarith

/-- The bound of a model that was not conditioned yet. -/
theorem elbo_zero (h : m.Valid) (s : Posts ι κ) (hs : s.qi = 0) (d : List (ℝ × ℝ)) : MeanField.elbo C m s d none =
    .ok (expLogLik m d (s.qU.mean C.u) (s.qU.m2 C.u) (s.qZ.mean C.z) (s.qZ.m2 C.z) - s.qU.kl C.u ⟨0, m.Ku⟩ - s.qZ.kl C.z ⟨0, m.Kz⟩) := by
  simp [MeanField.elbo, Posts.pU, Posts.pZ, hs, meanFieldBound_eq, sumEll_expLogLik C h]

theorem unexplained_eq (h : m.Valid) (s : Posts ι κ) (d : List (ℝ × ℝ)) :
    Spec.unexplained m.noise d (MeanField.predict C m s.condition (d.map Prod.fst)) =
      misfitOf m d (s.qU.mean C.u) (s.qU.m2 C.u) (s.qZ.mean C.z) (s.qZ.m2 C.z) := by
  rw [unexplained_predict, misfitOf]
  simp only [ptMoments_spec C h]

theorem expLogLik_misfit (d : List (ℝ × ℝ)) (u : ι → ℝ) (u2 : Matrix ι ι ℝ) (z : κ → ℝ) (z2 : Matrix κ κ ℝ) :
    expLogLik m d u u2 z z2 = noiseFit d.length (misfitOf m d u u2 z z2) m.noise := by
  have := expLogLik_noise (m := m) d m.noise u u2 z z2
  rwa [withNoise_self] at this

/-- **C179** The same for mean-field approximations: if `s₁` is at least as good as `s₂` with the new data, and `s₂` at least as good as
`s₁` without them, then the predictions of `s₁` leave at most as much of the new data unexplained as those of `s₂`. -/
theorem c179_mean_field (h : m.Valid) (e d : List (ℝ × ℝ)) (s₁ s₂ : Posts ι κ) (hs1 : s₁.qi = 0) (hs2 : s₂.qi = 0) (b₁ b₂ : ℝ)
    (hb1 : MeanField.elbo C m s₁ (e ++ d) none = .ok b₁) (hb2 : MeanField.elbo C m s₂ e none = .ok b₂)
    (hm1 : ∀ a, MeanField.elbo C m s₂ (e ++ d) none = .ok a → a ≤ b₁) (hm2 : ∀ a, MeanField.elbo C m s₁ e none = .ok a → a ≤ b₂) :
    Spec.unexplained m.noise d (MeanField.predict C m s₁.condition (d.map Prod.fst)) ≤
      Spec.unexplained m.noise d (MeanField.predict C m s₂.condition (d.map Prod.fst)) := by
  have q1 := hm1 _ (elbo_zero C h s₂ hs2 _)
  have q2 := hm2 _ (elbo_zero C h s₁ hs1 _)
  rw [← Except.ok.inj ((elbo_zero C h s₁ hs1 _).symm.trans hb1)] at q1
  rw [← Except.ok.inj ((elbo_zero C h s₂ hs2 _).symm.trans hb2)] at q2
  rw [expLogLik_append, expLogLik_append, expLogLik_misfit d, expLogLik_misfit d, ← unexplained_eq C h, ← unexplained_eq C h] at q1
  have hn := h.noise
  unfold noiseFit at q1
  rw [← div_le_div_iff_of_pos_right (show 0 < 2 * m.noise by positivity)]
  linarith

/-- The prior moments, as the model computes them. -/
theorem prior_moments (h : m.Valid) : (⟨0, m.Ku⟩ : NatNormal ι).mean C.u = 0 ∧ (⟨0, m.Kz⟩ : NatNormal κ).mean C.z = 0 ∧
    (⟨0, m.Ku⟩ : NatNormal ι).m2 C.u = m.Ku⁻¹ ∧ (⟨0, m.Kz⟩ : NatNormal κ).m2 C.z = m.Kz⁻¹ := by
  have hu : (⟨0, m.Ku⟩ : NatNormal ι).mean C.u = 0 := by
    rw [NatNormal.mean_eq C.u (d := ⟨0, m.Ku⟩) h.Ku, mulVec_zero]
  have hz : (⟨0, m.Kz⟩ : NatNormal κ).mean C.z = 0 := by
    rw [NatNormal.mean_eq C.z (d := ⟨0, m.Kz⟩) h.Kz, mulVec_zero]
  have hu2 : (⟨0, m.Ku⟩ : NatNormal ι).m2 C.u = m.Ku⁻¹ := by
    rw [NatNormal.m2_eq C.u (d := ⟨0, m.Ku⟩) h.Ku, hu, NatNormal.var_eq C.u (d := ⟨0, m.Ku⟩) h.Ku]
    simp
  have hz2 : (⟨0, m.Kz⟩ : NatNormal κ).m2 C.z = m.Kz⁻¹ := by
    rw [NatNormal.m2_eq C.z (d := ⟨0, m.Kz⟩) h.Kz, hz, NatNormal.var_eq C.z (d := ⟨0, m.Kz⟩) h.Kz]
    simp
  exact ⟨hu, hz, hu2, hz2⟩

/-- The expected misfit under the prior. -/
theorem prior_misfit (h : m.Valid) (d : List (ℝ × ℝ)) :
    ∫ x, Spec.misfit m d x ∂structuredPosterior m [] = misfitOf m d 0 m.Ku⁻¹ 0 m.Kz⁻¹ := by
  obtain ⟨Cu⟩ := cholOracle_nonempty (n := ι)
  obtain ⟨Cz⟩ := cholOracle_nonempty (n := κ)
  obtain ⟨C, hC⟩ : ∃ C : Chols ι κ, C = ⟨Cu, Cz⟩ := ⟨_, rfl⟩
  clear hC
  obtain ⟨hu, hz, hu2, hz2⟩ := prior_moments C h
  obtain ⟨a, b⟩ := integral_structuredPosterior h [] (Spec.misfit m d)
  have ia := a.1 (misfit_integrable h [] d)
  have j := joint_integrable h []
  have ej : ∀ x : (ι → ℝ) × (κ → ℝ), exp (logJoint m [] x.1 x.2) =
      exp (NatNormal.logpdf C.u ⟨0, m.Ku⟩ x.1) * exp (NatNormal.logpdf C.z ⟨0, m.Kz⟩ x.2) := fun x => by
    rw [logJoint, logPrior_eq C.u h.Ku, logPrior_eq C.z h.Kz, ← exp_add]
    simp [expLogLik]
  obtain ⟨iu, eu⟩ := NatNormal.expect_one C.u (d := ⟨0, m.Ku⟩) h.Ku
  obtain ⟨iz, ez⟩ := NatNormal.expect_one C.z (d := ⟨0, m.Kz⟩) h.Kz
  have ev : evidence m [] = 1 := by
    rw [evidence]
    simp only [ej] at j ⊢
    rw [MeasureTheory.Measure.volume_eq_prod, integral_prod_mul (fun u => exp (NatNormal.logpdf C.u ⟨0, m.Ku⟩ u))
      fun z => exp (NatNormal.logpdf C.z ⟨0, m.Kz⟩ z), eu, ez, one_mul]
  rw [b, ev, div_one]
  simp only [ej] at ia ⊢
  rw [MeasureTheory.Measure.volume_eq_prod] at ia ⊢
  rw [integral_prod _ ia]
  have inner : ∀ u, ∫ z, Spec.misfit m d (u, z) * (exp (NatNormal.logpdf C.u ⟨0, m.Ku⟩ u) * exp (NatNormal.logpdf C.z ⟨0, m.Kz⟩ z)) =
      -(2 * m.noise) * (exp (NatNormal.logpdf C.u ⟨0, m.Ku⟩ u) * expLogLik m d u (vecMulVec u u) 0 m.Kz⁻¹) -
        m.noise * d.length * log (2 * π * m.noise) * exp (NatNormal.logpdf C.u ⟨0, m.Ku⟩ u) := fun u => by
    obtain ⟨k1, k2⟩ := expect_expLogLik_z C h d (q := ⟨0, m.Kz⟩) h.Kz u (vecMulVec u u)
    rw [hz, hz2] at k2
    have e : ∀ z, Spec.misfit m d (u, z) * (exp (NatNormal.logpdf C.u ⟨0, m.Ku⟩ u) * exp (NatNormal.logpdf C.z ⟨0, m.Kz⟩ z)) =
        -(2 * m.noise) * exp (NatNormal.logpdf C.u ⟨0, m.Ku⟩ u) *
          (exp (NatNormal.logpdf C.z ⟨0, m.Kz⟩ z) * expLogLik m d u (vecMulVec u u) z (vecMulVec z z)) -
        m.noise * d.length * log (2 * π * m.noise) * exp (NatNormal.logpdf C.u ⟨0, m.Ku⟩ u) * exp (NatNormal.logpdf C.z ⟨0, m.Kz⟩ z) :=
      fun z => by
        rw [Spec.misfit, misfitOf_expLogLik h]
        ring
    simp only [e]
    rw [integral_sub (k1.const_mul _) (iz.const_mul _), integral_const_mul, integral_const_mul, k2, ez]
    ring
  simp only [inner]
  obtain ⟨k1, k2⟩ := expect_expLogLik C h d (q := ⟨0, m.Ku⟩) h.Ku 0 m.Kz⁻¹
  rw [hu, hu2] at k2
  rw [integral_sub (k1.const_mul _) (iu.const_mul _), integral_const_mul, integral_const_mul, k2, eu, misfitOf_expLogLik h]
  ring

/-- The predictions of a model that has not been conditioned: zero, with the prior variance. -/
theorem predict_untrained (h : m.Valid) (s₀ : Posts ι κ) (hs : s₀.qi = 0) (d : List (ℝ × ℝ)) :
    (∀ p ∈ MeanField.predict C m s₀ (d.map Prod.fst), p.1 = 0) ∧
      Spec.unexplained m.noise d (MeanField.predict C m s₀ (d.map Prod.fst)) = misfitOf m d 0 m.Ku⁻¹ 0 m.Kz⁻¹ := by
  obtain ⟨hu, hz, hu2, hz2⟩ := prior_moments C h
  have e : MeanField.predict C m s₀ (d.map Prod.fst) = (d.map Prod.fst).map fun x =>
      (fun x => toMeanVar m (ptMoments C m 0 m.Ku⁻¹ 0 m.Kz⁻¹ x)) x := by
    rw [MeanField.predict, predictMoments_eq, List.map_map]
    simp only [Posts.pU, Posts.pZ, hs, if_true, hu, hz, hu2, hz2]
    rfl
  rw [e]
  constructor
  · intro p hp
    obtain ⟨x, -, rfl⟩ := List.mem_map.1 hp
    simp [toMeanVar, ptMoments_spec C h, Spec.moments]
  · simp only [toMeanVar]
    rw [unexplained_map m.noise d fun x => ptMoments C m 0 m.Ku⁻¹ 0 m.Kz⁻¹ x, misfitOf]
    simp only [ptMoments_spec C h]

/-- **C179** Compared to not training: the expected misfit of the posterior is at most what the predictions of the untrained model, which are
zero everywhere, leave unexplained. -/
theorem c179_prior (h : m.Valid) (d : List (ℝ × ℝ)) (s₀ : Posts ι κ) (hs : s₀.qi = 0) :
    (∀ p ∈ MeanField.predict C m s₀ (d.map Prod.fst), p.1 = 0) ∧
    ∫ x, Spec.misfit m d x ∂structuredPosterior m d ≤ Spec.unexplained m.noise d (MeanField.predict C m s₀ (d.map Prod.fst)) ∧
    ∀ s : Posts ι κ, s.qi = 0 → s.Proper → ∀ b, MeanField.elbo C m s d none = .ok b →
      (∀ s', s'.qi = 0 → s'.Proper → ∀ a, MeanField.elbo C m s' d none = .ok a → a ≤ b) →
      Spec.unexplained m.noise d (MeanField.predict C m s.condition (d.map Prod.fst)) ≤
        Spec.unexplained m.noise d (MeanField.predict C m s₀ (d.map Prod.fst)) := by
  obtain ⟨hmean, hun⟩ := predict_untrained C h s₀ hs d
  refine ⟨hmean, ?_, ?_⟩
  · refine (c179_structured h [] d).trans (le_of_eq ?_)
    rw [hun]
    exact prior_misfit h d
  · intro s h1 h2 b hb hbest
    obtain ⟨sp, hsp⟩ : ∃ sp : Posts ι κ, sp = ⟨0, fun _ => ⟨0, m.Ku⟩, fun _ => ⟨0, m.Kz⟩⟩ := ⟨_, rfl⟩
    have hsp0 : sp.qi = 0 := by rw [hsp]
    have hqu : sp.qU = ⟨0, m.Ku⟩ := by rw [hsp]; rfl
    have hqz : sp.qZ = ⟨0, m.Kz⟩ := by rw [hsp]; rfl
    have e : MeanField.predict C m sp.condition (d.map Prod.fst) = MeanField.predict C m s₀ (d.map Prod.fst) := by
      have e1 : sp.condition.pU m = s₀.pU m := by rw [condition_pU, hqu, Posts.pU, if_pos hs]
      have e2 : sp.condition.pZ m = s₀.pZ m := by rw [condition_pZ, hqz, Posts.pZ, if_pos hs]
      rw [MeanField.predict, MeanField.predict, e1, e2]
    rw [← e]
    refine c179_mean_field C h [] d s sp h1 hsp0 b 0 hb ?_ (hbest sp hsp0 ⟨by rw [hqu]; exact h.Ku, by rw [hqz]; exact h.Kz⟩) ?_
    · rw [elbo_zero C h sp hsp0, hqu, hqz, kl_self C.u (q := ⟨0, m.Ku⟩) h.Ku, kl_self C.z (q := ⟨0, m.Kz⟩) h.Kz]
      simp [expLogLik]
    · intro a ha
      rw [← Except.ok.inj ((elbo_zero C h s h1 _).symm.trans ha)]
      have k1 := c18_nonneg C.u h2.1 (p := ⟨0, m.Ku⟩) h.Ku
      have k2 := c18_nonneg C.z h2.2 (p := ⟨0, m.Kz⟩) h.Kz
      simp only [expLogLik, List.map_nil, List.sum_nil]
      linarith

theorem zipWith_zero_mean (v : ℝ) (d l : List (ℝ × ℝ)) (h : ∀ p ∈ l, p.1 = 0) :
    List.zipWith (fun p r => (p.2 - r.1) ^ 2 + (r.2 - v)) d l = List.zipWith (fun p r => p.2 ^ 2 + (r.2 - v)) d l := by
  induction d generalizing l with
  | nil => rfl
  | cons p d ih =>
    cases l with
    | nil => rfl
    | cons r l =>
      simp only [List.zipWith_cons_cons]
      rw [ih l fun q hq => h q (List.mem_cons_of_mem _ hq), h r List.mem_cons_self, sub_zero]

/-- **C179** So a noise that is learned along with a best approximation is at most the average, over the observations, of their squares and
the prior variances of the signal. -/
theorem c179_noise (h : m.Valid) (d : List (ℝ × ℝ)) (s₀ s : Posts ι κ) (hs : s₀.qi = 0) (h1 : s.qi = 0) (h2 : s.Proper) (b : ℝ)
    (hb : MeanField.elbo C m s d none = .ok b)
    (hbest : ∀ s', s'.qi = 0 → s'.Proper → ∀ a, MeanField.elbo C m s' d none = .ok a → a ≤ b)
    (hn : Spec.LocallyBest (fun v => MeanField.elbo C (m.withNoise v) s d none) m.noise) :
    d.length * m.noise ≤ (List.zipWith (fun p r => p.2 ^ 2 + (r.2 - m.noise)) d (MeanField.predict C m s₀ (d.map Prod.fst))).sum := by
  obtain ⟨hz, -, hmf⟩ := c179_prior C h d s₀ hs
  rw [c168_mean_field C h s d hn]
  refine (hmf s h1 h2 b hb hbest).trans (le_of_eq ?_)
  unfold Spec.unexplained
  rw [zipWith_zero_mean _ _ _ hz]

/-- Best approximations exist with and without the new observations, so that the hypotheses can be met. -/
example (D : Chols (Fin 1) (Fin 1)) : ∃ s₁ s₂ : Posts (Fin 1) (Fin 1),
    Spec.unexplained exInst.noise [(1, -1)] (MeanField.predict D exInst s₁.condition [1]) ≤
      Spec.unexplained exInst.noise [(1, -1)] (MeanField.predict D exInst s₂.condition [1]) := by
  have best : ∀ d : List (ℝ × ℝ), ∃ (s : Posts (Fin 1) (Fin 1)) (b : ℝ), s.qi = 0 ∧ s.Proper ∧
      MeanField.elbo D exInst s d none = .ok b ∧ ∀ s' : Posts (Fin 1) (Fin 1), s'.qi = 0 → s'.Proper →
        ∀ a, MeanField.elbo D exInst s' d none = .ok a → a ≤ b := fun d => by
    obtain ⟨p, b, hp, hb, hmax, -⟩ := c164_best D exInst_valid d
    exact ⟨⟨0, fun _ => p.u, fun _ => p.z⟩, b, rfl, hp, (hb _ rfl rfl rfl).1, fun s' h1 h2 a ha => hmax s' h1 h2 none a ha⟩
  obtain ⟨s₁, b₁, h1, g1, e1, m1⟩ := best ([(0, 1)] ++ [(1, -1)])
  obtain ⟨s₂, b₂, h2, g2, e2, m2⟩ := best [(0, 1)]
  exact ⟨s₁, s₂, c179_mean_field D exInst_valid [(0, 1)] [(1, -1)] s₁ s₂ h1 h2 b₁ b₂ e1 e2 (m1 s₂ h2 g2) (m2 s₁ h1 g1)⟩

/-- Without and with a second observation. -/
example : ∫ x, Spec.misfit exInst [(1, -1)] x ∂structuredPosterior exInst [(0, 1), (1, -1)] ≤
    ∫ x, Spec.misfit exInst [(1, -1)] x ∂structuredPosterior exInst [(0, 1)] :=
  c179_structured exInst_valid [(0, 1)] [(1, -1)]

end Gpcm
