import Verif.Props.GradientProps
import Verif.Props.LearnedNoiseProps
import Verif.Props.CompareBoundsProps

/-!
# Properties C176, C168: the noise and how closely the model follows the data
-/

open Matrix Real MeasureTheory Filter Topology

namespace Gpcm

open Markov

variable {ι κ : Type} [Fintype ι] [DecidableEq ι] [Fintype κ] [DecidableEq κ] (C : Chols ι κ) {m : Inst ι κ}

/-- The expected sum of squared differences between the observations and the signal, for moments of the inducing variables. -/
noncomputable def misfitOf (m : Inst ι κ) (d : List (ℝ × ℝ)) (u : ι → ℝ) (u2 : Matrix ι ι ℝ) (z : κ → ℝ) (z2 : Matrix κ κ ℝ) : ℝ :=
  (d.map fun p =>
    let F := Spec.moments (m.iHx p.1 p.1) m.iUx (m.iHz p.1) (m.iUz p.1) m.Ku⁻¹ m.Kz⁻¹ u u2 z z2
    p.2 ^ 2 - 2 * p.2 * F.1 + F.2).sum

/-- The expected sum of squared differences between the observations and the signal, given the inducing variables. -/
noncomputable def Spec.misfit (m : Inst ι κ) (d : List (ℝ × ℝ)) (x : (ι → ℝ) × (κ → ℝ)) : ℝ :=
  misfitOf m d x.1 (vecMulVec x.1 x.1) x.2 (vecMulVec x.2 x.2)

theorem expLogLik_noise (d : List (ℝ × ℝ)) (v : ℝ) (u : ι → ℝ) (u2 : Matrix ι ι ℝ) (z : κ → ℝ) (z2 : Matrix κ κ ℝ) :
    expLogLik (m.withNoise v) d u u2 z z2 = noiseFit d.length (misfitOf m d u u2 z z2) v := by
  unfold expLogLik noiseFit misfitOf Spec.ell
  induction d with
  | nil => simp
  | cons p d ih =>
    rw [List.map_cons, List.sum_cons, ih, List.map_cons, List.sum_cons, List.length_cons]
    simp only [show (m.withNoise v).noise = v from rfl, show (m.withNoise v).iHx = m.iHx from rfl, show (m.withNoise v).iUx = m.iUx from rfl,
      show (m.withNoise v).iHz = m.iHz from rfl, show (m.withNoise v).iUz = m.iUz from rfl, show (m.withNoise v).Ku = m.Ku from rfl,
      show (m.withNoise v).Kz = m.Kz from rfl]
    push_cast
    ring

theorem logJoint_noise (d : List (ℝ × ℝ)) (v : ℝ) (x : (ι → ℝ) × (κ → ℝ)) :
    logJoint (m.withNoise v) d x.1 x.2 = logPrior m.Ku x.1 + logPrior m.Kz x.2 + noiseFit d.length (Spec.misfit m d x) v := by
  rw [logJoint, expLogLik_noise]
  rfl

theorem withNoise_smooth (m : Inst ι κ) (d : List (ℝ × ℝ)) (a : ℝ) : SmoothAt m.withNoise d a where
  Ku := fun _ _ => contDiffAt_const
  Kz := fun _ _ => contDiffAt_const
  noise := contDiffAt_id
  iHx := fun _ _ => contDiffAt_const
  iUx := fun _ _ => contDiffAt_const
  iHz := fun _ _ _ _ => contDiffAt_const
  iUz := fun _ _ _ _ => contDiffAt_const

theorem withNoise_eventually (h : m.Valid) {v : ℝ} (hv : 0 < v) : ∀ᶠ w in 𝓝 v, (m.withNoise w).Valid :=
  (lt_mem_nhds hv).mono fun _ hw => h.withNoise hw

/-- The misfit is continuous and of polynomial growth, its expectation under the posterior is finite, and it gives the derivative of the
evidence with respect to the noise. -/
theorem misfit_facts (h : m.Valid) (d : List (ℝ × ℝ)) {v : ℝ} (hv : 0 < v) :
    Continuous (Spec.misfit m d) ∧ (∃ c k, 0 ≤ c ∧ ∀ x, |Spec.misfit m d x| ≤ c * sizeSq x ^ k) ∧
      Integrable (Spec.misfit m d) (structuredPosterior (m.withNoise v) d) ∧
      HasDerivAt (fun w => log (evidence (m.withNoise w) d))
        (((∫ x, Spec.misfit m d x ∂structuredPosterior (m.withNoise v) d) - d.length * v) / (2 * v ^ 2)) v := by
  have hval := h.withNoise hv
  obtain ⟨l, c, k, hl, hc, hb, hi, h1, -, h2⟩ := score (withNoise_smooth m d v) (withNoise_eventually h hv)
  have e : ∀ x, l x = (Spec.misfit m d x - d.length * v) / (2 * v ^ 2) := fun x => by
    have h3 : HasDerivAt (fun w => logJoint (m.withNoise w) d x.1 x.2) ((Spec.misfit m d x - d.length * v) / (2 * v ^ 2)) v := by
      simp only [logJoint_noise]
      exact (noiseFit_hasDerivAt hv _ _).const_add _
    exact (h2 x).unique h3
  have e' : ∀ x, Spec.misfit m d x = 2 * v ^ 2 * l x + d.length * v := fun x => by
    rw [e]
    field_simp
    ring
  have hcont : Continuous (Spec.misfit m d) := by
    rw [funext e']
    exact (continuous_const.mul hl).add continuous_const
  have := structuredPosterior_prob hval d
  obtain ⟨p1, p2⟩ := integral_structuredPosterior hval d l
  have hli := p1.2 hi
  have hint : Integrable (Spec.misfit m d) (structuredPosterior (m.withNoise v) d) := by
    rw [funext e']
    exact (hli.const_mul _).add (integrable_const _)
  refine ⟨hcont, ⟨2 * v ^ 2 * c + d.length * v, k, by positivity, fun x => ?_⟩, hint, ?_⟩
  · have h4 := one_le_pow₀ (sizeSq_one x) (n := k)
    rw [e']
    calc _ ≤ |2 * v ^ 2 * l x| + |(d.length : ℝ) * v| := abs_add_le _ _
      _ = 2 * v ^ 2 * |l x| + d.length * v := by
          rw [abs_mul, abs_of_pos (show 0 < 2 * v ^ 2 by positivity), abs_of_nonneg (show 0 ≤ (d.length : ℝ) * v by positivity)]
      _ ≤ 2 * v ^ 2 * (c * sizeSq x ^ k) + d.length * v * sizeSq x ^ k := by
          have h5 : 2 * v ^ 2 * |l x| ≤ 2 * v ^ 2 * (c * sizeSq x ^ k) := mul_le_mul_of_nonneg_left (hb x) (by positivity)
          have h6 : (d.length : ℝ) * v * 1 ≤ d.length * v * sizeSq x ^ k := mul_le_mul_of_nonneg_left h4 (by positivity)
          linarith
      _ = _ := by ring
  · refine h1.congr_deriv ?_
    rw [← p2, funext e, integral_div, integral_sub hint (integrable_const _), integral_const]
    simp

/-- **C176** The less noise the model assumes, the more closely its posterior follows the data: the expected sum of squared differences
between observations and signal, under the posterior from which the structured scheme samples, does not decrease with the noise. -/
theorem c176_structured (h : m.Valid) (d : List (ℝ × ℝ)) {v₁ v₂ : ℝ} (h1 : 0 < v₁) (h12 : v₁ ≤ v₂) :
    ∫ x, Spec.misfit m d x ∂structuredPosterior (m.withNoise v₁) d ≤ ∫ x, Spec.misfit m d x ∂structuredPosterior (m.withNoise v₂) d := by
  have h2 := h1.trans_le h12
  have hv1 := h.withNoise h1
  have hv2 := h.withNoise h2
  obtain ⟨-, -, i1, -⟩ := misfit_facts h d h1
  obtain ⟨-, -, i2, -⟩ := misfit_facts h d h2
  obtain ⟨R, hR⟩ : ∃ R, R = Spec.misfit m d := ⟨_, rfl⟩
  rw [← hR] at i1 i2 ⊢
  obtain ⟨a1, b1⟩ := integral_structuredPosterior hv1 d R
  obtain ⟨a2, b2⟩ := integral_structuredPosterior hv2 d R
  have p1 := evidence_pos hv1 d
  have p2 := evidence_pos hv2 d
  have j1 := joint_integrable hv1 d
  have j2 := joint_integrable hv2 d
  obtain ⟨r, hr⟩ : ∃ r, r = ∫ x, R x ∂structuredPosterior (m.withNoise v₂) d := ⟨_, rfl⟩
  rw [← hr, b1, div_le_iff₀ p1]
  obtain ⟨c, hc⟩ : ∃ c : ℝ, c = 1 / (2 * v₁) - 1 / (2 * v₂) := ⟨_, rfl⟩
  have hc0 : 0 ≤ c := by
    rw [hc, sub_nonneg]
    exact one_div_le_one_div_of_le (by positivity) (by linarith)
  obtain ⟨k, hk⟩ : ∃ k : ℝ, k = -(1 / 2) * d.length * log (2 * π * v₁) + 1 / 2 * d.length * log (2 * π * v₂) := ⟨_, rfl⟩
  have hJ : ∀ x : (ι → ℝ) × (κ → ℝ), logJoint (m.withNoise v₁) d x.1 x.2 = logJoint (m.withNoise v₂) d x.1 x.2 + k - c * R x := fun x => by
    rw [logJoint_noise, logJoint_noise, noiseFit, noiseFit, hk, hc, hR]
    ring
  have key : ∀ x : (ι → ℝ) × (κ → ℝ), (R x - r) * exp (logJoint (m.withNoise v₁) d x.1 x.2) ≤
      exp (k - c * r) * ((R x - r) * exp (logJoint (m.withNoise v₂) d x.1 x.2)) := fun x => by
    rw [hJ, add_sub_assoc, exp_add]
    have h3 : (R x - r) * exp (k - c * R x) ≤ (R x - r) * exp (k - c * r) := by
      rcases le_total (R x) r with hle | hle
      · exact mul_le_mul_of_nonpos_left (exp_le_exp.2 (by nlinarith)) (by linarith)
      · exact mul_le_mul_of_nonneg_left (exp_le_exp.2 (by nlinarith)) (by linarith)
    have := mul_le_mul_of_nonneg_right h3 (exp_pos (logJoint (m.withNoise v₂) d x.1 x.2)).le
    linarith
  have s1 : Integrable fun x : (ι → ℝ) × (κ → ℝ) => (R x - r) * exp (logJoint (m.withNoise v₁) d x.1 x.2) := by
    simp only [sub_mul]
    exact (a1.1 i1).sub (j1.const_mul r)
  have s2 : Integrable fun x : (ι → ℝ) × (κ → ℝ) => (R x - r) * exp (logJoint (m.withNoise v₂) d x.1 x.2) := by
    simp only [sub_mul]
    exact (a2.1 i2).sub (j2.const_mul r)
  have h3 := integral_mono s1 (s2.const_mul _) key
  rw [integral_const_mul] at h3
  have e2 : ∫ x : (ι → ℝ) × (κ → ℝ), (R x - r) * exp (logJoint (m.withNoise v₂) d x.1 x.2) = 0 := by
    simp only [sub_mul]
    rw [integral_sub (a2.1 i2) (j2.const_mul r), integral_const_mul]
    show _ - r * evidence (m.withNoise v₂) d = 0
    rw [hr, b2, div_mul_cancel₀ _ p2.ne', sub_self]
  have e1 : ∫ x : (ι → ℝ) × (κ → ℝ), (R x - r) * exp (logJoint (m.withNoise v₁) d x.1 x.2) =
      (∫ x, R x * exp (logJoint (m.withNoise v₁) d x.1 x.2)) - r * evidence (m.withNoise v₁) d := by
    simp only [sub_mul]
    rw [integral_sub (a1.1 i1) (j1.const_mul r), integral_const_mul]
    rfl
  rw [e1, e2, mul_zero] at h3
  linarith

/-- **C176** The same for best mean-field approximations: with less noise, the predictions leave less unexplained, and the posteriors are
further from the prior. -/
theorem c176_mean_field (d : List (ℝ × ℝ)) {v₁ v₂ : ℝ} (h1 : 0 < v₁) (h12 : v₁ < v₂) (s₁ s₂ : Posts ι κ) (hs1 : s₁.qi = 0)
    (hs2 : s₂.qi = 0) (b₁ b₂ : ℝ) (hb1 : MeanField.elbo C (m.withNoise v₁) s₁ d none = .ok b₁)
    (hb2 : MeanField.elbo C (m.withNoise v₂) s₂ d none = .ok b₂)
    (hm1 : ∀ a, MeanField.elbo C (m.withNoise v₁) s₂ d none = .ok a → a ≤ b₁)
    (hm2 : ∀ a, MeanField.elbo C (m.withNoise v₂) s₁ d none = .ok a → a ≤ b₂) :
    Spec.unexplained v₁ d (MeanField.predict C (m.withNoise v₁) s₁.condition (d.map Prod.fst)) ≤
        Spec.unexplained v₂ d (MeanField.predict C (m.withNoise v₂) s₂.condition (d.map Prod.fst)) ∧
      s₂.qU.kl C.u ⟨0, m.Ku⟩ + s₂.qZ.kl C.z ⟨0, m.Kz⟩ ≤ s₁.qU.kl C.u ⟨0, m.Ku⟩ + s₁.qZ.kl C.z ⟨0, m.Kz⟩ := by
  have h2 := h1.trans h12
  have eR : ∀ v (s : Posts ι κ), Spec.unexplained v d (MeanField.predict C (m.withNoise v) s.condition (d.map Prod.fst)) =
      Spec.unexplained m.noise d (MeanField.predict C m s.condition (d.map Prod.fst)) := fun v s => by
    rw [unexplained_predict]
    exact unexplained_predict C (m := m.withNoise v) s d
  rw [eR, eR]
  obtain ⟨R1, hR1⟩ : ∃ R, R = Spec.unexplained m.noise d (MeanField.predict C m s₁.condition (d.map Prod.fst)) := ⟨_, rfl⟩
  obtain ⟨R2, hR2⟩ : ∃ R, R = Spec.unexplained m.noise d (MeanField.predict C m s₂.condition (d.map Prod.fst)) := ⟨_, rfl⟩
  have val : ∀ v (s : Posts ι κ), s.qi = 0 → MeanField.elbo C (m.withNoise v) s d none = .ok (noiseFit d.length
      (Spec.unexplained m.noise d (MeanField.predict C m s.condition (d.map Prod.fst))) v - s.qU.kl C.u ⟨0, m.Ku⟩ -
        s.qZ.kl C.z ⟨0, m.Kz⟩) := fun v s hs => by
    rw [← meanFieldBound_noise]
    simp [MeanField.elbo, Posts.pU, Posts.pZ, hs, Inst.withNoise]
  have q1 := hm1 _ (val v₁ s₂ hs2)
  have q2 := hm2 _ (val v₂ s₁ hs1)
  rw [← Except.ok.inj ((val v₁ s₁ hs1).symm.trans hb1)] at q1
  rw [← Except.ok.inj ((val v₂ s₂ hs2).symm.trans hb2)] at q2
  rw [← hR1, ← hR2] at q1 q2 ⊢
  unfold noiseFit at q1 q2
  obtain ⟨x1, hx1⟩ : ∃ x, x = 1 / (2 * v₁) := ⟨_, rfl⟩
  obtain ⟨x2, hx2⟩ : ∃ x, x = 1 / (2 * v₂) := ⟨_, rfl⟩
  have hx : x2 < x1 := by
    rw [hx1, hx2]
    exact one_div_lt_one_div_of_lt (by positivity) (by linarith)
  have hx20 : 0 < x2 := by rw [hx2]; positivity
  have e : ∀ R : ℝ, R / (2 * v₁) = R * x1 ∧ R / (2 * v₂) = R * x2 := fun R => by
    rw [hx1, hx2]
    constructor <;> ring
  simp only [(e _).1, (e _).2] at q1 q2
  have hR : R1 ≤ R2 := by
    by_contra hlt
    have := mul_pos (sub_pos.2 (not_le.1 hlt)) (sub_pos.2 hx)
    nlinarith
  refine ⟨hR, ?_⟩
  have := mul_nonneg (sub_nonneg.2 hR) hx20.le
  nlinarith

/-- **C168** Learned noise, exact evidence: at a noise that is locally best for the evidence, the noise is the average over the observations
of the expected squared difference between observation and signal under the posterior. -/
theorem c168_evidence (h : m.Valid) (d : List (ℝ × ℝ))
    (hb : Spec.LocallyBest (fun v => .ok (log (evidence (m.withNoise v) d))) m.noise) :
    d.length * m.noise = ∫ x, Spec.misfit m d x ∂structuredPosterior m d := by
  obtain ⟨b, hb, hw⟩ := hb
  have hmax : IsLocalMax (fun v => log (evidence (m.withNoise v) d)) m.noise := hw.mono fun w ⟨a, ha, hab⟩ => by
    rw [← Except.ok.inj ha, ← Except.ok.inj hb] at hab
    exact hab
  have h0 := hmax.hasDerivAt_eq_zero (misfit_facts h d h.noise).2.2.2
  rw [withNoise_self, div_eq_zero_iff] at h0
  rcases h0 with h0 | h0
  · linarith
  · exact absurd h0 (by have := h.noise; positivity)

/-- The expectation of the expected log-likelihood over a normal `z`. -/
theorem expect_expLogLik_z (h : m.Valid) (d : List (ℝ × ℝ)) {q : NatNormal κ} (hq : q.prec.PosDef) (u : ι → ℝ) (u2 : Matrix ι ι ℝ) :
    (Integrable fun z => exp (q.logpdf C.z z) * expLogLik m d u u2 z (vecMulVec z z)) ∧
    ∫ z, exp (q.logpdf C.z z) * expLogLik m d u u2 z (vecMulVec z z) = expLogLik m d u u2 (q.mean C.z) (q.m2 C.z) := by
  simp only [← sumEll_expLogLik C h]
  obtain ⟨ts, hts⟩ : ∃ ts, ts = constructDataTerms C m d := ⟨_, rfl⟩
  rw [← hts]
  obtain ⟨Q, hQ⟩ : ∃ Q, Q = zQuad ts u2 := ⟨_, rfl⟩
  obtain ⟨b, hb⟩ : ∃ b, b = ts.iUzSumᵀ *ᵥ u := ⟨_, rfl⟩
  have e : ∀ z, exp (q.logpdf C.z z) * sumEll ts m.noise u u2 z (vecMulVec z z) =
      (sumEll ts m.noise u u2 0 0 * exp (q.logpdf C.z z) +
      -(1 / (2 * m.noise)) * (exp (q.logpdf C.z z) * ((z - 0) ⬝ᵥ (Q *ᵥ (z - 0))))) +
      (1 / m.noise) * ∑ i, b i * (exp (q.logpdf C.z z) * z i) := fun z => by
    rw [sumEll_z, frob_vecMulVec, ← hQ, ← hb, sub_zero]
    have : b ⬝ᵥ z * exp (q.logpdf C.z z) = ∑ i, b i * (exp (q.logpdf C.z z) * z i) := by
      rw [dotProduct, Finset.sum_mul]
      exact Finset.sum_congr rfl fun i _ => by ring
    rw [← this]
    ring
  have i1 := (NatNormal.expect_one C.z hq).1.const_mul (sumEll ts m.noise u u2 0 0)
  have i2 := (NatNormal.expect_quad C.z hq Q 0).1.const_mul (-(1 / (2 * m.noise)))
  have i3 : Integrable fun z => (1 / m.noise) * ∑ i, b i * (exp (q.logpdf C.z z) * z i) :=
    (integrable_finsetSum _ fun i _ => (NatNormal.expect_coord C.z hq i).1.const_mul (b i)).const_mul _
  have i12 := i1.add i2
  simp only [e]
  refine ⟨i12.add i3, ?_⟩
  rw [integral_add (f := fun z => sumEll ts m.noise u u2 0 0 * exp (q.logpdf C.z z) +
      -(1 / (2 * m.noise)) * (exp (q.logpdf C.z z) * ((z - 0) ⬝ᵥ (Q *ᵥ (z - 0))))) i12 i3,
    integral_add i1 i2, integral_const_mul, integral_const_mul, integral_const_mul,
    integral_finsetSum _ fun i _ => (NatNormal.expect_coord C.z hq i).1.const_mul (b i),
    (NatNormal.expect_one C.z hq).2, (NatNormal.expect_quad C.z hq Q 0).2, sumEll_z ts m.noise u u2 (q.mean C.z), ← hQ,
    ← hb, NatNormal.frob_m2 C.z hq, NatNormal.var_eq C.z hq, inv_symm hq, sub_zero]
  have : ∑ i, ∫ z, b i * (exp (q.logpdf C.z z) * z i) = b ⬝ᵥ q.mean C.z := by
    rw [dotProduct]
    exact Finset.sum_congr rfl fun i _ => by rw [integral_const_mul, (NatNormal.expect_coord C.z hq i).2]
  rw [this]
  ring

theorem misfitOf_expLogLik (h : m.Valid) (d : List (ℝ × ℝ)) (u : ι → ℝ) (u2 : Matrix ι ι ℝ) (z : κ → ℝ) (z2 : Matrix κ κ ℝ) :
    misfitOf m d u u2 z z2 = -(2 * m.noise) * expLogLik m d u u2 z z2 - m.noise * d.length * log (2 * π * m.noise) := by
  have := h.noise
  have e := expLogLik_noise (m := m) d m.noise u u2 z z2
  rw [withNoise_self] at e
  rw [e, noiseFit]
  field_simp
  ring

/-- The expected misfit given `u`. -/
theorem condMisfit_eq (h : m.Valid) (e d : List (ℝ × ℝ)) (u : ι → ℝ) :
    let q := qzOptimal m (constructDataTerms C m e) u
    misfitOf m d u (vecMulVec u u) (q.mean C.z) (q.m2 C.z) =
      (∫ z, Spec.misfit m d (u, z) * exp (logJoint m e u z)) / ∫ z, exp (logJoint m e u z) := by
  intro q
  have hq : q.prec.PosDef := qzOptimal_posDef C h e u
  obtain ⟨i1, e1⟩ := expect_expLogLik_z C h d hq u (vecMulVec u u)
  obtain ⟨i2, e2⟩ := NatNormal.expect_one C.z hq
  rw [integral_joint_z C h, eq_div_iff (exp_pos _).ne', misfitOf_expLogLik h, ← e1]
  have e : ∀ z, Spec.misfit m d (u, z) * exp (logJoint m e u z) = exp (logMargU C m e u) *
      (-(2 * m.noise) * (exp (q.logpdf C.z z) * expLogLik m d u (vecMulVec u u) z (vecMulVec z z)) -
        m.noise * d.length * log (2 * π * m.noise) * exp (q.logpdf C.z z)) := fun z => by
    rw [Spec.misfit, misfitOf_expLogLik h, logJoint_u C h, exp_add]
    ring
  simp only [e]
  rw [integral_const_mul, integral_sub (i1.const_mul _) (i2.const_mul _), integral_const_mul, integral_const_mul, e2]
  ring

/-- What structured predictions leave unexplained is the average over the samples of the expected misfit given the sample. -/
theorem unexplained_structured (h : m.Valid) (e d : List (ℝ × ℝ)) {us : List (ι → ℝ)} (hus : us ≠ []) :
    ∃ l, Structured.predict C m (some (constructDataTerms C m e)) (d.map Prod.fst) us = .ok l ∧
      Spec.unexplained m.noise d l = (us.map fun u => misfitOf m d u (vecMulVec u u)
        ((qzOptimal m (constructDataTerms C m e) u).mean C.z) ((qzOptimal m (constructDataTerms C m e) u).m2 C.z)).sum / us.length := by
  have hk0 : (us.length : ℝ) ≠ 0 := by exact_mod_cast fun e => hus (List.length_eq_zero_iff.1 e)
  refine ⟨_, structured_predict_map C m _ hus _, ?_⟩
  simp only [toMeanVar]
  rw [unexplained_map m.noise d fun x => (_, _)]
  obtain ⟨q, hq⟩ : ∃ q, q = qzOptimal m (constructDataTerms C m e) := ⟨_, rfl⟩
  rw [← hq]
  have hpt : ∀ u, misfitOf m d u (vecMulVec u u) ((q u).mean C.z) ((q u).m2 C.z) = (d.map fun p => p.2 ^ 2 -
      2 * p.2 * (ptMoments C m u (vecMulVec u u) ((q u).mean C.z) ((q u).m2 C.z) p.1).1 +
      (ptMoments C m u (vecMulVec u u) ((q u).mean C.z) ((q u).m2 C.z) p.1).2).sum := fun u => by
    have e1 := sumEll_noise C (m := m) d m.noise u (vecMulVec u u) ((q u).mean C.z) ((q u).m2 C.z)
    rw [sumEll_expLogLik C h] at e1
    rw [misfitOf_expLogLik h, e1, noiseFit]
    have := h.noise
    field_simp
    ring
  simp only [hpt]
  have : ∀ l : List (ι → ℝ), (l.map fun u => (d.map fun p => p.2 ^ 2 -
      2 * p.2 * (ptMoments C m u (vecMulVec u u) ((q u).mean C.z) ((q u).m2 C.z) p.1).1 +
      (ptMoments C m u (vecMulVec u u) ((q u).mean C.z) ((q u).m2 C.z) p.1).2).sum).sum =
      (d.map fun p => (l.length : ℝ) * p.2 ^ 2 - 2 * p.2 * (l.map fun u => (ptMoments C m u (vecMulVec u u) ((q u).mean C.z)
        ((q u).m2 C.z) p.1).1).sum + (l.map fun u => (ptMoments C m u (vecMulVec u u) ((q u).mean C.z)
        ((q u).m2 C.z) p.1).2).sum).sum := fun l => by
    induction l with
    | nil => simp
    | cons u l ih =>
      rw [List.map_cons, List.sum_cons, ih, ← List.sum_map_add]
      congr 1
      refine List.map_congr_left fun p _ => ?_
      rw [List.map_cons, List.map_cons, List.sum_cons, List.sum_cons, List.length_cons]
      push_cast
      ring
  rw [this us, div_eq_mul_inv, ← List.sum_map_mul_right]
  congr 1
  refine List.map_congr_left fun p _ => ?_
  field_simp

/-- The misfit to any data has an expectation under the posterior given any data. -/
theorem misfit_integrable (h : m.Valid) (e d : List (ℝ × ℝ)) : Integrable (Spec.misfit m d) (structuredPosterior m e) := by
  obtain ⟨hcont, ⟨c, k, hc, hb⟩, -, -⟩ := misfit_facts h d h.noise
  have := structuredPosterior_prob h e
  exact ((memLp_two_iff_integrable_sq hcont.measurable.aestronglyMeasurable).2
    (posterior_moment h e hcont.measurable hb)).integrable one_le_two

/-- **C168, C176** The expectation that the two properties speak about is what predictions show: with ever more sweeps of the sampler, what
the structured predictions leave unexplained of the observations, or of any other data, converges in mean square to the expected misfit
under the posterior, from every start. -/
theorem c168_consistent (h : m.Valid) (e d : List (ℝ × ℝ)) (x : (ι → ℝ) × (κ → ℝ)) (F : List (ι → ℝ) → ℝ)
    (hF : ∀ us ≠ [], ∀ l, Structured.predict C m (some (constructDataTerms C m e)) (d.map Prod.fst) us = .ok l →
      F us = Spec.unexplained m.noise d l) :
    Tendsto (fun n : ℕ => normalExpect n fun W => ENNReal.ofReal ((F ((Fit.gibbsLoop (gibbsU C m (constructDataTerms C m e) W)
      (gibbsZ C m (constructDataTerms C m e) W) none n 0 (0, x)).2.map Prod.fst) -
        ∫ x', Spec.misfit m d x' ∂structuredPosterior m e) ^ 2)) atTop (𝓝 0) := by
  obtain ⟨hcont, ⟨c, k, hc, hb⟩, -, -⟩ := misfit_facts h d h.noise
  have hint := misfit_integrable h e d
  obtain ⟨b, hb0, hg⟩ := condMean_le h e hcont hc hb
  obtain ⟨g, hg'⟩ : ∃ g : (ι → ℝ) → ℝ, ∀ u, g u = misfitOf m d u (vecMulVec u u)
        ((qzOptimal m (constructDataTerms C m e) u).mean C.z) ((qzOptimal m (constructDataTerms C m e) u).m2 C.z) := ⟨_, fun _ => rfl⟩
  have hge : ∀ u, g u = (∫ z, Spec.misfit m d (u, z) * exp (logJoint m e u z)) / ∫ z, exp (logJoint m e u z) := fun u => by
    rw [hg', condMisfit_eq C h]
  simp only [← hge] at hg
  obtain ⟨p1, p2⟩ := integral_structuredPosterior h e (Spec.misfit m d)
  obtain ⟨hm, hI⟩ := integral_condMean h e hcont (p1.1 hint) hge
  have hm' : Measurable fun x : (ι → ℝ) × (κ → ℝ) => g x.1 := hm.comp measurable_fst
  have hgb : ∀ x : (ι → ℝ) × (κ → ℝ), |g x.1| ≤ b * (1 + x.1 ⬝ᵥ x.1 + x.2 ⬝ᵥ x.2) ^ k := fun x => (hg x.1).trans (by
    have := dot_self_nonneg' x.1
    have := dot_self_nonneg' x.2
    exact mul_le_mul_of_nonneg_left (pow_le_pow_left₀ (by linarith) (by linarith) k) hb0)
  have hgi : Integrable (fun x => g x.1) (structuredPosterior m e) := by
    have := structuredPosterior_prob h e
    exact ((memLp_two_iff_integrable_sq hm'.aestronglyMeasurable).2 (posterior_moment h e hm' hgb)).integrable one_le_two
  have hlim := c161_polynomial C h e hm' hgb x
  rw [hI hgi, ← p2] at hlim
  refine hlim.congr' ?_
  filter_upwards [eventually_ge_atTop 1] with n hn
  refine congrArg (normalExpect n) (funext fun W => ?_)
  obtain ⟨xs, hxs⟩ : ∃ xs, xs = (Fit.gibbsLoop (gibbsU C m (constructDataTerms C m e) W)
    (gibbsZ C m (constructDataTerms C m e) W) none n 0 (0, x)).2 := ⟨_, rfl⟩
  have hlen : xs.length = n := by
    rw [hxs, c96_samples]
    simp
  rw [← hxs]
  have hne : xs.map Prod.fst ≠ [] := fun e => by
    have := congrArg List.length e
    rw [List.length_map, hlen] at this
    simp at this
    omega
  obtain ⟨l, hl, hu⟩ := unexplained_structured C h e d hne
  rw [hF _ hne l hl, hu, List.length_map, hlen, List.map_map]
  congr 5
  exact List.map_congr_left fun y _ => hg' y.1

theorem evidence_le_noiseFit (h : m.Valid) (d : List (ℝ × ℝ)) {r v : ℝ} (hr : ∀ x, r ≤ Spec.misfit m d x) (hv : 0 < v) :
    log (evidence (m.withNoise v) d) ≤ noiseFit d.length r v := by
  obtain ⟨Cu⟩ := cholOracle_nonempty (n := ι)
  obtain ⟨Cz⟩ := cholOracle_nonempty (n := κ)
  have hval := h.withNoise hv
  have h0 := Compare.evidence_le ⟨Cu, Cz⟩ h []
  simp only [List.length_nil, Nat.cast_zero, zero_mul] at h0
  have hle : evidence (m.withNoise v) d ≤ exp (noiseFit d.length r v) * evidence m [] := by
    unfold evidence
    rw [← integral_const_mul]
    refine integral_mono (joint_integrable hval d) ((joint_integrable h []).const_mul _) fun x => ?_
    beta_reduce
    rw [← exp_add, logJoint_noise]
    refine exp_le_exp.2 ?_
    have e : logJoint m [] x.1 x.2 = logPrior m.Ku x.1 + logPrior m.Kz x.2 := by simp [logJoint, expLogLik]
    have h3 : noiseFit d.length (Spec.misfit m d x) v ≤ noiseFit d.length r v := by
      unfold noiseFit
      have := div_le_div_of_nonneg_right (hr x) (show 0 ≤ 2 * v by positivity)
      linarith
    rw [e]
    linarith
  have := log_le_log (evidence_pos hval d) hle
  rw [log_mul (exp_pos _).ne' (evidence_pos h []).ne', log_exp] at this
  linarith

/-- **C168** A best noise exists for the evidence unless some signal fits the observations perfectly. -/
theorem c168_evidence_exists (h : m.Valid) (d : List (ℝ × ℝ)) (hd : d ≠ []) {r : ℝ} (hr0 : 0 < r) (hr : ∀ x, r ≤ Spec.misfit m d x) :
    ∃ v : ℝ, 0 < v ∧ (∀ w, 0 < w → log (evidence (m.withNoise w) d) ≤ log (evidence (m.withNoise v) d)) ∧
      Spec.LocallyBest (fun w => .ok (log (evidence ((m.withNoise v).withNoise w) d))) (m.withNoise v).noise := by
  obtain ⟨f, hf⟩ : ∃ f : ℝ → ℝ, f = fun v => log (evidence (m.withNoise v) d) := ⟨_, rfl⟩
  have hn : (0 : ℝ) < d.length := by exact_mod_cast List.length_pos_iff.2 hd
  obtain ⟨n, hn'⟩ : ∃ n : ℝ, n = d.length := ⟨_, rfl⟩
  rw [← hn'] at hn
  have hpi := pi_pos
  have hle : ∀ v, 0 < v → f v ≤ -(1 / 2) * n * log (2 * π * v) - r / (2 * v) := fun v hv => by
    rw [hf, hn']
    exact evidence_le_noiseFit h d hr hv
  have hcont : ∀ v, 0 < v → ContinuousAt f v := fun v hv => by
    rw [hf]
    exact (misfit_facts h d hv).2.2.2.continuousAt
  -- large noise
  obtain ⟨b, hb⟩ : ∃ b : ℝ, b = 1 + exp (2 * |f 1| / n) / (2 * π) := ⟨_, rfl⟩
  have hbig : ∀ v, b ≤ v → f v ≤ f 1 := fun v hv => by
    have hv0 : 0 < v := lt_of_lt_of_le (by rw [hb]; positivity) hv
    have h1 : exp (2 * |f 1| / n) ≤ 2 * π * v := by
      have : exp (2 * |f 1| / n) / (2 * π) ≤ v := by rw [hb] at hv; linarith
      rw [div_le_iff₀ (by positivity)] at this
      linarith
    have h2 := (le_log_iff_exp_le (by positivity)).2 h1
    rw [div_le_iff₀ hn] at h2
    have h3 : 0 ≤ r / (2 * v) := by positivity
    have := hle v hv0
    linarith [neg_abs_le (f 1)]
  -- little noise
  obtain ⟨c, hc⟩ : ∃ c : ℝ, c = r / (2 * n) := ⟨_, rfl⟩
  have hc0 : 0 < c := by rw [hc]; positivity
  obtain ⟨K, hK⟩ : ∃ K : ℝ, K = |f 1| + n / 2 * |log (2 * π * c)| + 1 := ⟨_, rfl⟩
  have hK0 : 0 < K := by rw [hK]; positivity
  obtain ⟨a, ha⟩ : ∃ a : ℝ, a = min 1 (r / (4 * K)) := ⟨_, rfl⟩
  have ha0 : 0 < a := by rw [ha]; exact lt_min one_pos (by positivity)
  have ha1 : a ≤ 1 := by rw [ha]; exact min_le_left _ _
  have hsmall : ∀ v, 0 < v → v ≤ a → f v ≤ f 1 := fun v hv hva => by
    have h1 : log (c / v) ≤ c / v - 1 := log_le_sub_one_of_pos (by positivity)
    have h2 : log (2 * π * v) = log (2 * π * c) - log (c / v) := by
      rw [← log_div (by positivity) (by positivity)]
      congr 1
      field_simp
    have h3 : n / 2 * (c / v) = r / (4 * v) := by
      rw [hc]
      field_simp
      ring
    have h4 : K ≤ r / (4 * v) := by
      have : v ≤ r / (4 * K) := hva.trans (by rw [ha]; exact min_le_right _ _)
      rw [le_div_iff₀ (by positivity)] at this ⊢
      linarith
    have h5 : r / (2 * v) = 2 * (r / (4 * v)) := by
      field_simp
      ring
    have h6 := hle v hv
    rw [h2, h5] at h6
    have h7 : n / 2 * log (c / v) ≤ n / 2 * (c / v - 1) := mul_le_mul_of_nonneg_left h1 (by positivity)
    have h8 : -(n / 2 * log (2 * π * c)) ≤ n / 2 * |log (2 * π * c)| := by
      have := mul_le_mul_of_nonneg_left (neg_abs_le (log (2 * π * c))) (show 0 ≤ n / 2 by positivity)
      linarith
    linarith [neg_abs_le (f 1)]
  have hb1 : 1 ≤ b := by
    rw [hb]
    have : 0 ≤ exp (2 * |f 1| / n) / (2 * π) := by positivity
    linarith
  obtain ⟨v, hv, hmax⟩ := (isCompact_Icc (a := a) (b := b)).exists_isMaxOn ⟨1, ha1, hb1⟩
    (f := f) fun w hw => (hcont w (ha0.trans_le hw.1)).continuousWithinAt
  have hv0 : 0 < v := ha0.trans_le hv.1
  have hall : ∀ w, 0 < w → f w ≤ f v := fun w hw => by
    have h1 : f 1 ≤ f v := hmax ⟨ha1, hb1⟩
    rcases le_total w a with h2 | h2
    · exact (hsmall w hw h2).trans h1
    · rcases le_total b w with h3 | h3
      · exact (hbig w h3).trans h1
      · exact hmax ⟨h2, h3⟩
  refine ⟨v, hv0, fun w hw => by simpa only [hf] using hall w hw, f v, by rw [hf]; rfl, ?_⟩
  exact (lt_mem_nhds hv0).mono fun w hw => ⟨f w, by rw [hf]; rfl, hall w hw⟩

/-- The hypotheses can be met. -/
example : ∃ v : ℝ, 0 < v ∧ 1 * v = ∫ x, Spec.misfit exInst [(0, 1)] x ∂structuredPosterior (exInst.withNoise v) [(0, 1)] := by
  obtain ⟨v, hv, -, hb⟩ := c168_evidence_exists exInst_valid [(0, 1)] (by simp) one_pos fun x => by
    simp [Spec.misfit, misfitOf, Spec.moments, exInst, Spec.inner, Matrix.mul_apply, vecMulVec_apply, dotProduct, mulVec]
    nlinarith [sq_nonneg (1 - x.1 0 * x.2 0), sq_nonneg (x.1 0), sq_nonneg (x.2 0)]
  have := c168_evidence (exInst_valid.withNoise hv) [(0, 1)] hb
  refine ⟨v, hv, ?_⟩
  simp only [List.length_singleton, Nat.cast_one] at this
  exact this

/-- Best mean-field approximations exist for every noise, so that the hypotheses can be met. -/
example (D : Chols (Fin 1) (Fin 1)) : ∃ s₁ s₂ : Posts (Fin 1) (Fin 1),
    Spec.unexplained 1 [(0, 1), (1, -1)] (MeanField.predict D (exInst.withNoise 1) s₁.condition [0, 1]) ≤
      Spec.unexplained 2 [(0, 1), (1, -1)] (MeanField.predict D (exInst.withNoise 2) s₂.condition [0, 1]) := by
  have best : ∀ v : ℝ, 0 < v → ∃ (s : Posts (Fin 1) (Fin 1)) (b : ℝ), s.qi = 0 ∧ s.Proper ∧
      MeanField.elbo D (exInst.withNoise v) s [(0, 1), (1, -1)] none = .ok b ∧ ∀ s' : Posts (Fin 1) (Fin 1), s'.qi = 0 → s'.Proper →
        ∀ a, MeanField.elbo D (exInst.withNoise v) s' [(0, 1), (1, -1)] none = .ok a → a ≤ b := fun v hv => by
    obtain ⟨p, b, hp, hb, hmax, -⟩ := c164_best D (exInst_valid.withNoise hv) [(0, 1), (1, -1)]
    exact ⟨⟨0, fun _ => p.u, fun _ => p.z⟩, b, rfl, hp, (hb _ rfl rfl rfl).1, fun s' h1 h2 a ha => hmax s' h1 h2 none a ha⟩
  obtain ⟨s₁, b₁, h1, g1, e1, m1⟩ := best 1 one_pos
  obtain ⟨s₂, b₂, h2, g2, e2, m2⟩ := best 2 two_pos
  exact ⟨s₁, s₂, (c176_mean_field D _ one_pos one_lt_two s₁ s₂ h1 h2 b₁ b₂ e1 e2 (m1 s₂ h2 g2) (m2 s₁ h1 g1)).1⟩

example : ∫ x, Spec.misfit exInst [(0, 1), (1, -1)] x ∂structuredPosterior (exInst.withNoise 1) [(0, 1), (1, -1)] ≤
    ∫ x, Spec.misfit exInst [(0, 1), (1, -1)] x ∂structuredPosterior (exInst.withNoise 2) [(0, 1), (1, -1)] :=
  c176_structured exInst_valid _ one_pos one_le_two

end Gpcm
