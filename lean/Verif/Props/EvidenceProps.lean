import Verif.Props.GibbsProps
import Mathlib.MeasureTheory.Integral.Pi

/-! # Property C97: the bounds and the evidence -/

set_option linter.unusedSectionVars false

open Matrix Real MeasureTheory

namespace Gpcm

variable {ι κ : Type} [Fintype ι] [DecidableEq ι] [Fintype κ] [DecidableEq κ]
variable (C : Chols ι κ) {m : Inst ι κ}

/-- The evidence: the integral of the joint density over both inducing variables. -/
noncomputable def evidence (m : Inst ι κ) (d : List (ℝ × ℝ)) : ℝ :=
  ∫ x : (ι → ℝ) × (κ → ℝ), exp (logJoint m d x.1 x.2)

theorem joint_integrable (h : m.Valid) (d : List (ℝ × ℝ)) :
    Integrable fun x : (ι → ℝ) × (κ → ℝ) => exp (logJoint m d x.1 x.2) := by
  refine ⟨(continuous_logJoint h d).rexp.aestronglyMeasurable, ?_⟩
  rw [hasFiniteIntegral_iff_ofReal (Filter.Eventually.of_forall fun _ => (exp_pos _).le)]
  exact lt_top_iff_ne_top.2 (joint_finite h d).2

theorem evidence_eq (h : m.Valid) (d : List (ℝ × ℝ)) :
    evidence m d = (∫⁻ x, joint m d x ∂(volume.prod volume)).toReal :=
  integral_eq_lintegral_of_nonneg_ae (Filter.Eventually.of_forall fun _ => (exp_pos _).le)
    (continuous_logJoint h d).rexp.aestronglyMeasurable

theorem evidence_pos (h : m.Valid) (d : List (ℝ × ℝ)) : 0 < evidence m d := by
  rw [evidence_eq h]
  exact ENNReal.toReal_pos (joint_finite h d).1 (joint_finite h d).2

/-- Integrating out `z`. -/
theorem integral_joint_z (h : m.Valid) (d : List (ℝ × ℝ)) (u : ι → ℝ) :
    ∫ z, exp (logJoint m d u z) = exp (logMargU C m d u) := by
  simp only [logJoint_u C h, exp_add]
  rw [integral_const_mul, (NatNormal.expect_one C.z (qzOptimal_posDef C h d u)).2, mul_one]

theorem integral_margU (h : m.Valid) (d : List (ℝ × ℝ)) :
    (Integrable fun u => exp (logMargU C m d u)) ∧ ∫ u, exp (logMargU C m d u) = evidence m d := by
  have hi := joint_integrable h d
  have h1 := hi.integral_prod_left
  have h2 := integral_prod _ hi
  simp only [integral_joint_z C h] at h1 h2
  exact ⟨h1, h2.symm⟩

theorem logZu_le (h : m.Valid) (d : List (ℝ × ℝ)) (u : ι → ℝ) :
    logZu C m (constructDataTerms C m d) u ≤ d.length * (-(1 / 2) * log (2 * π * m.noise)) := by
  obtain ⟨ho, hmax⟩ := c25_maximum C h d u
  have h1 := (hmax _ ho).2.2 rfl
  have h2 := c18_nonneg C.z ho (p := ⟨0, m.Kz⟩) h.Kz
  have h3 := expLogLik_le h d (u := u) (u2 := vecMulVec u u) (by rw [sub_self]; exact Matrix.PosSemidef.zero)
    (m2_sub_outer C.z ho)
  simp only at h1
  linarith

/-- The expectation of the expected log-likelihood over a normal `u`. -/
theorem expect_expLogLik (h : m.Valid) (d : List (ℝ × ℝ)) {q : NatNormal ι} (hq : q.prec.PosDef) (z : κ → ℝ)
    (z2 : Matrix κ κ ℝ) :
    (Integrable fun u => exp (q.logpdf C.u u) * expLogLik m d u (vecMulVec u u) z z2) ∧
    ∫ u, exp (q.logpdf C.u u) * expLogLik m d u (vecMulVec u u) z z2 =
      expLogLik m d (q.mean C.u) (q.m2 C.u) z z2 := by
  simp only [← sumEll_expLogLik C h]
  obtain ⟨ts, hts⟩ : ∃ ts, ts = constructDataTerms C m d := ⟨_, rfl⟩
  rw [← hts]
  obtain ⟨Q, hQ⟩ : ∃ Q, Q = uQuad ts z2 := ⟨_, rfl⟩
  obtain ⟨b, hb⟩ : ∃ b, b = ts.iUzSum *ᵥ z := ⟨_, rfl⟩
  have e : ∀ u, exp (q.logpdf C.u u) * sumEll ts m.noise u (vecMulVec u u) z z2 =
      (sumEll ts m.noise 0 0 z z2 * exp (q.logpdf C.u u) +
      -(1 / (2 * m.noise)) * (exp (q.logpdf C.u u) * ((u - 0) ⬝ᵥ (Q *ᵥ (u - 0))))) +
      (1 / m.noise) * ∑ i, b i * (exp (q.logpdf C.u u) * u i) := fun u => by
    rw [sumEll_u, frob_vecMulVec, ← hQ, ← hb, sub_zero]
    have : b ⬝ᵥ u * exp (q.logpdf C.u u) = ∑ i, b i * (exp (q.logpdf C.u u) * u i) := by
      rw [dotProduct, Finset.sum_mul]
      exact Finset.sum_congr rfl fun i _ => by ring
    rw [← this]
    ring
  have i1 := (NatNormal.expect_one C.u hq).1.const_mul (sumEll ts m.noise 0 0 z z2)
  have i2 := (NatNormal.expect_quad C.u hq Q 0).1.const_mul (-(1 / (2 * m.noise)))
  have i3 : Integrable fun u => (1 / m.noise) * ∑ i, b i * (exp (q.logpdf C.u u) * u i) :=
    (integrable_finsetSum _ fun i _ => (NatNormal.expect_coord C.u hq i).1.const_mul (b i)).const_mul _
  have i12 := i1.add i2
  simp only [e]
  refine ⟨i12.add i3, ?_⟩
  rw [integral_add (f := fun u => sumEll ts m.noise 0 0 z z2 * exp (q.logpdf C.u u) +
      -(1 / (2 * m.noise)) * (exp (q.logpdf C.u u) * ((u - 0) ⬝ᵥ (Q *ᵥ (u - 0))))) i12 i3,
    integral_add i1 i2, integral_const_mul, integral_const_mul, integral_const_mul,
    integral_finsetSum _ fun i _ => (NatNormal.expect_coord C.u hq i).1.const_mul (b i),
    (NatNormal.expect_one C.u hq).2, (NatNormal.expect_quad C.u hq Q 0).2, sumEll_u ts m.noise (q.mean C.u), ← hQ,
    ← hb, NatNormal.frob_m2 C.u hq, NatNormal.var_eq C.u hq, inv_symm hq, sub_zero]
  have : ∑ i, ∫ u, b i * (exp (q.logpdf C.u u) * u i) = b ⬝ᵥ q.mean C.u := by
    rw [dotProduct]
    exact Finset.sum_congr rfl fun i _ => by rw [integral_const_mul, (NatNormal.expect_coord C.u hq i).2]
  rw [this]
  ring

theorem measurable_logZu (h : m.Valid) (d : List (ℝ × ℝ)) : Measurable (logZu C m (constructDataTerms C m d)) := by
  have h1 : Measurable fun u => ∫⁻ z, joint m d (u, z) := (measurable_joint h d).lintegral_prod_right'
  have h2 := h1.ennreal_toReal.log
  have h3 : ∀ u, log (∫⁻ z, joint m d (u, z)).toReal - logPrior m.Ku u =
      logZu C m (constructDataTerms C m d) u := fun u => by
    rw [joint_marg_u C h, ENNReal.toReal_ofReal (exp_pos _).le, log_exp, logMargU, add_sub_cancel_left]
  have h4 := h2.sub (continuous_logPrior m.Ku).measurable
  simp only [Pi.sub_def, h3] at h4
  exact h4

theorem integrable_logZu (h : m.Valid) (d : List (ℝ × ℝ)) {q : NatNormal ι} (hq : q.prec.PosDef) :
    Integrable fun u => exp (q.logpdf C.u u) * logZu C m (constructDataTerms C m d) u := by
  obtain ⟨c, hc⟩ : ∃ c : ℝ, c = d.length * (-(1 / 2) * log (2 * π * m.noise)) := ⟨_, rfl⟩
  have p : (⟨0, m.Kz⟩ : NatNormal κ).prec.PosDef := h.Kz
  obtain ⟨qz, hqz⟩ : ∃ q : NatNormal κ, q = ⟨0, m.Kz⟩ := ⟨_, rfl⟩
  rw [← hqz] at p
  have i1 := (expect_expLogLik C h d hq (qz.mean C.z) (qz.m2 C.z)).1
  have i2 := (NatNormal.expect_one C.u hq).1
  have i3 := i1.norm.add (i2.const_mul |c|)
  have hm : Measurable fun u => exp (q.logpdf C.u u) := by
    have : ∀ u, q.logpdf C.u u = _ := fun u => NatNormal.logpdf_nat C.u hq u
    simp only [this]
    refine Continuous.measurable ?_
    refine (continuous_const.sub (continuous_const.mul (Continuous.sub ?_ ?_))).rexp
    · exact continuous_id.dotProduct (continuous_const.matrix_mulVec continuous_id)
    · exact continuous_const.mul (continuous_const.dotProduct continuous_id)
  refine i3.mono' (hm.mul (measurable_logZu C h d)).aestronglyMeasurable (Filter.Eventually.of_forall fun u => ?_)
  have h1 := logZu_le C h d u
  rw [← hc] at h1
  have h2 := ((c25_maximum C h d u).2 qz p).1
  simp only [hqz, kl_self C.z (q := ⟨0, m.Kz⟩) h.Kz, sub_zero] at h2
  rw [← hqz] at h2
  have h3 : |logZu C m (constructDataTerms C m d) u| ≤
      |expLogLik m d u (vecMulVec u u) (qz.mean C.z) (qz.m2 C.z)| + |c| := by
    rw [abs_le]
    constructor
    · linarith [neg_abs_le (expLogLik m d u (vecMulVec u u) (qz.mean C.z) (qz.m2 C.z)), abs_nonneg c]
    · linarith [le_abs_self c, abs_nonneg (expLogLik m d u (vecMulVec u u) (qz.mean C.z) (qz.m2 C.z))]
  simp only [norm_eq_abs, Pi.add_apply, abs_mul, abs_exp]
  nlinarith [exp_pos (q.logpdf C.u u)]

/-- The structured bound: the expectation of `log_Z_u` minus the divergence. -/
noncomputable def structuredBound (m : Inst ι κ) (d : List (ℝ × ℝ)) (q : NatNormal ι) : ℝ :=
  (∫ u, exp (q.logpdf C.u u) * logZu C m (constructDataTerms C m d) u) - q.kl C.u ⟨0, m.Ku⟩

/-- **C97** The structured bound is at most the logarithm of the evidence. -/
theorem c97_structured (h : m.Valid) (d : List (ℝ × ℝ)) (q : NatNormal ι) (hq : q.prec.PosDef) :
    structuredBound C m d q ≤ log (evidence m d) := by
  obtain ⟨k1, k2⟩ := c18_expectation C.u hq (p := ⟨0, m.Ku⟩) h.Ku
  obtain ⟨g1, g2⟩ := integral_margU C h d
  obtain ⟨o1, o2⟩ := NatNormal.expect_one C.u hq
  have i1 := integrable_logZu C h d hq
  have hZ := evidence_pos h d
  obtain ⟨Z, hZd⟩ : ∃ Z, Z = evidence m d := ⟨_, rfl⟩
  rw [structuredBound, k2, ← integral_sub i1 k1]
  rw [← hZd] at hZ g2 ⊢
  have hle : ∀ u, exp (q.logpdf C.u u) * logZu C m (constructDataTerms C m d) u -
      exp (q.logpdf C.u u) * (q.logpdf C.u u - NatNormal.logpdf C.u ⟨0, m.Ku⟩ u) ≤
      Z⁻¹ * exp (logMargU C m d u) + (log Z - 1) * exp (q.logpdf C.u u) := fun u => by
    obtain ⟨a, ha⟩ : ∃ a, a = logMargU C m d u - q.logpdf C.u u := ⟨_, rfl⟩
    have h1 : exp (q.logpdf C.u u) * logZu C m (constructDataTerms C m d) u -
        exp (q.logpdf C.u u) * (q.logpdf C.u u - NatNormal.logpdf C.u ⟨0, m.Ku⟩ u) = exp (q.logpdf C.u u) * a := by
      rw [ha, logMargU, logPrior_eq C.u h.Ku]
      ring
    have h2 : exp (logMargU C m d u) = exp (q.logpdf C.u u) * exp a := by
      rw [← exp_add, ha]
      congr 1
      ring
    have h3 : a ≤ exp a / Z - 1 + log Z := by
      have := log_le_sub_one_of_pos (div_pos (exp_pos a) hZ)
      rw [log_div (exp_pos a).ne' hZ.ne', log_exp] at this
      linarith
    rw [h1, h2]
    calc exp (q.logpdf C.u u) * a ≤ exp (q.logpdf C.u u) * (exp a / Z - 1 + log Z) :=
          mul_le_mul_of_nonneg_left h3 (exp_pos _).le
      _ = _ := by
        rw [div_eq_mul_inv]
        ring
  refine (integral_mono (i1.sub k1) ((g1.const_mul _).add (o1.const_mul _)) hle).trans (le_of_eq ?_)
  rw [integral_add' (g1.const_mul _) (o1.const_mul _), integral_const_mul, integral_const_mul, g2, o2,
    inv_mul_cancel₀ hZ.ne']
  ring

theorem meanFieldBound_le (h : m.Valid) (d : List (ℝ × ℝ)) {qu : NatNormal ι} {qz : NatNormal κ}
    (hu : qu.prec.PosDef) (hz : qz.prec.PosDef) :
    meanFieldBound C m (constructDataTerms C m d) ⟨0, m.Ku⟩ qu ⟨0, m.Kz⟩ qz ≤ structuredBound C m d qu := by
  rw [meanFieldBound_eq, sumEll_expLogLik C h, structuredBound]
  obtain ⟨e1, e2⟩ := expect_expLogLik C h d hu (qz.mean C.z) (qz.m2 C.z)
  obtain ⟨o1, o2⟩ := NatNormal.expect_one C.u hu
  have hle : ∀ u, exp (qu.logpdf C.u u) * expLogLik m d u (vecMulVec u u) (qz.mean C.z) (qz.m2 C.z) -
      qz.kl C.z ⟨0, m.Kz⟩ * exp (qu.logpdf C.u u) ≤
      exp (qu.logpdf C.u u) * logZu C m (constructDataTerms C m d) u := fun u => by
    have := mul_le_mul_of_nonneg_left ((c25_maximum C h d u).2 qz hz).1 (exp_pos (qu.logpdf C.u u)).le
    simp only at this
    linarith
  have := integral_mono (e1.sub (o1.const_mul _)) (integrable_logZu C h d hu) hle
  simp only [Pi.sub_apply] at this
  rw [integral_sub e1 (o1.const_mul _), integral_const_mul, o2, e2] at this
  linarith

/-- **C97** Every mean-field bound, collapsed or not, is at most the logarithm of the evidence; the
uncollapsed one is at most the structured bound with the same `q(u)`. -/
theorem c97_mean_field (h : m.Valid) (s : Posts ι κ) (hs : s.qi = 0) (d : List (ℝ × ℝ)) (hu : s.qU.prec.PosDef)
    (hz : s.qZ.prec.PosDef) (collapsed : Option String) (v : ℝ) (hv : MeanField.elbo C m s d collapsed = .ok v) :
    v ≤ log (evidence m d) ∧ (collapsed = none → v ≤ structuredBound C m d s.qU) := by
  have ep : s.pU m = ⟨0, m.Ku⟩ := if_pos hs
  have ez : s.pZ m = ⟨0, m.Kz⟩ := if_pos hs
  unfold MeanField.elbo at hv
  rw [ep, ez] at hv
  have hqz := qzOptimalMF_posDef C h d hu
  have hqu := quOptimalMF_posDef C h d hz
  cases collapsed with
  | none =>
    obtain rfl := Except.ok.inj hv
    have := meanFieldBound_le C h d hu hz
    exact ⟨this.trans (c97_structured C h d _ hu), fun _ => this⟩
  | some c =>
    refine ⟨?_, nofun⟩
    simp only at hv
    split_ifs at hv
    · obtain rfl := Except.ok.inj hv
      exact (meanFieldBound_le C h d hu hqz).trans (c97_structured C h d _ hu)
    · obtain rfl := Except.ok.inj hv
      exact (meanFieldBound_le C h d hqu hz).trans (c97_structured C h d _ hqu)

/-- Expectations of functions of one of several independent noise vectors. -/
theorem expect_one_of (k : ℕ) (j : Fin k) {g : (ι → ℝ) → ℝ} (hg : Integrable fun w => stdPdf w * g w) :
    (Integrable fun W : Fin k → ι → ℝ => (∏ i, stdPdf (W i)) * g (W j)) ∧
    ∫ W : Fin k → ι → ℝ, (∏ i, stdPdf (W i)) * g (W j) = ∫ w, stdPdf w * g w := by
  have e : ∀ W : Fin k → ι → ℝ, (∏ i, stdPdf (W i)) * g (W j) =
      ∏ i, (if i = j then fun w => stdPdf w * g w else stdPdf) (W i) := fun W => by
    rw [← Finset.mul_prod_erase _ _ (Finset.mem_univ j), ← Finset.mul_prod_erase _ _ (Finset.mem_univ j), if_pos rfl,
      mul_right_comm]
    congr 1
    exact Finset.prod_congr rfl fun i hi => by rw [if_neg (Finset.ne_of_mem_erase hi)]
  simp only [e]
  constructor
  · refine Integrable.fintype_prod fun i => ?_
    by_cases hi : i = j
    · rw [if_pos hi]
      exact hg
    · rw [if_neg hi]
      exact std_zeroth.1
  · rw [integral_fintype_prod_volume_eq_prod, ← Finset.mul_prod_erase _ _ (Finset.mem_univ j), if_pos rfl,
      Finset.prod_eq_one, mul_one]
    intro i hi
    rw [if_neg (Finset.ne_of_mem_erase hi)]
    exact std_zeroth.2

/-- **C97** The estimate of the structured bound is unbiased for every positive number of samples: averaged
over the noise of the samples, it is the structured bound. -/
theorem c97_unbiased (h : m.Valid) (s : Posts ι κ) (hs : s.qi = 0) (d : List (ℝ × ℝ)) (hu : s.qU.prec.PosDef)
    (k : ℕ) (hk : k ≠ 0) :
    ∃ v : (Fin k → ι → ℝ) → ℝ,
      (∀ W, elboCollapsedZ C m s d (List.ofFn fun i => s.qU.sample C.u (W i)) = .ok (v W)) ∧
      (Integrable fun W => (∏ i, stdPdf (W i)) * v W) ∧
      ∫ W, (∏ i, stdPdf (W i)) * v W = structuredBound C m d s.qU := by
  have ep : s.pU m = ⟨0, m.Ku⟩ := if_pos hs
  obtain ⟨L, hL⟩ : ∃ L, L = logZu C m (constructDataTerms C m d) := ⟨_, rfl⟩
  obtain ⟨D, hD⟩ : ∃ D, D = s.qU.kl C.u ⟨0, m.Ku⟩ := ⟨_, rfl⟩
  refine ⟨fun W => (∑ i, L (s.qU.sample C.u (W i))) / k - D, fun W => ?_, ?_⟩
  · rw [elboCollapsedZ, if_neg (by simpa using hk), ep, List.map_ofFn, List.sum_ofFn, List.length_ofFn, hL, hD]
    rfl
  · have hi : Integrable fun w => stdPdf w * L (s.qU.sample C.u w) :=
      (NatNormal.expect_sample C.u hu L).1.2 (by rw [hL]; exact integrable_logZu C h d hu)
    have e : ∀ W : Fin k → ι → ℝ, (∏ i, stdPdf (W i)) * ((∑ i, L (s.qU.sample C.u (W i))) / k - D) =
        (k : ℝ)⁻¹ * (∑ j, (∏ i, stdPdf (W i)) * L (s.qU.sample C.u (W j))) - D * ∏ i, stdPdf (W i) := fun W => by
      rw [← Finset.mul_sum, div_eq_inv_mul]
      ring
    have i1 := fun j => (expect_one_of k j (g := fun w => L (s.qU.sample C.u w)) hi)
    have i2 : (Integrable fun W : Fin k → ι → ℝ => ∏ i, stdPdf (W i)) ∧
        ∫ W : Fin k → ι → ℝ, ∏ i, stdPdf (W i) = 1 := by
      constructor
      · exact Integrable.fintype_prod fun i => std_zeroth.1
      · rw [integral_fintype_prod_volume_eq_prod]
        exact Finset.prod_eq_one fun i _ => std_zeroth.2
    have i3 := (integrable_finsetSum Finset.univ fun j _ => (i1 j).1).const_mul (k : ℝ)⁻¹
    simp only [e]
    refine ⟨i3.sub (i2.1.const_mul D), ?_⟩
    rw [integral_sub i3 (i2.1.const_mul D), integral_const_mul, integral_const_mul, i2.2,
      integral_finsetSum _ fun j _ => (i1 j).1]
    simp only [fun j => (i1 j).2]
    rw [Finset.sum_const, Finset.card_univ, Fintype.card_fin, nsmul_eq_mul,
      inv_mul_cancel_left₀ (by exact_mod_cast hk), (NatNormal.expect_sample C.u hu L).2, mul_one, structuredBound,
      hL, hD]

/-- **C97** The value of `elbo_gibbs` is the logarithm of the joint density with `z` integrated out, at the last
sample of `u`; so that its exponential integrates to the evidence. -/
theorem c97_gibbs (h : m.Valid) (s : Posts ι κ) (hs : s.qi = 0) (d : List (ℝ × ℝ))
    (W : ℕ → (ι → ℝ) × (κ → ℝ)) (k : ℕ) (x : (ι → ℝ) × (κ → ℝ)) :
    (elboGibbs C m s d W k x).2 = gibbsChain C m (constructDataTerms C m d) W x k ∧
    (elboGibbs C m s d W k x).1 = log (∫ z, exp (logJoint m d (elboGibbs C m s d W k x).2.1 z)) ∧
    ∫ u, (∫ z, exp (logJoint m d u z)) = evidence m d := by
  have ep : s.pU m = ⟨0, m.Ku⟩ := if_pos hs
  refine ⟨?_, ?_, ?_⟩
  · rw [elboGibbs]
    simp only
    rw [Fit.c34_elbo_gibbs, sweep_iterate]
  · rw [integral_joint_z C h, log_exp, logMargU, logPrior_eq C.u h.Ku, elboGibbs, ep]
    simp only
    ring
  · simp only [integral_joint_z C h]
    exact (integral_margU C h d).2

/-- The hypotheses are met by a concrete instance and state. -/
example (D : Chols (Fin 1) (Fin 1)) :
    ∃ v, MeanField.elbo D exInst (exPosts 0) [(0, 1), (2, 3)] none = .ok v ∧ v ≤ log (evidence exInst [(0, 1), (2, 3)]) :=
  ⟨_, rfl, (c97_mean_field D exInst_valid (exPosts 0) rfl _ Matrix.PosDef.one Matrix.PosDef.one none _ rfl).1⟩

end Gpcm
