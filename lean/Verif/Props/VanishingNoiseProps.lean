import Verif.Props.ObserveProps
import Verif.Props.BestProps
import Verif.Props.FarProps
import Verif.Props.LaterGradientProps

/-!
# Property C187: with vanishing noise, a model follows the data as closely as it can
-/

set_option linter.unusedSectionVars false

open Matrix Real MeasureTheory Filter Topology

namespace Gpcm

open Markov

section Laplace

variable {X : Type} [TopologicalSpace X] [MeasurableSpace X] [BorelSpace X] [Nonempty X] {μ : Measure X} [μ.IsOpenPosMeasure]
  {p f : X → ℝ}

theorem laplace_integrable (hp : Continuous p) (hp0 : ∀ x, 0 < p x) (hi : Integrable p μ) (hf : Continuous f) (hf0 : ∀ x, 0 ≤ f x)
    {v : ℝ} (hv : 0 < v) : Integrable (fun x => p x * exp (-(f x / (2 * v)))) μ ∧
      Integrable (fun x => f x * (p x * exp (-(f x / (2 * v))))) μ := by
  have hfv : ∀ x, 0 ≤ f x / (2 * v) := fun x => div_nonneg (hf0 x) (by linarith)
  refine ⟨hi.mono' (by fun_prop) (Eventually.of_forall fun x => ?_), (hi.const_mul (2 * v)).mono' (by fun_prop)
    (Eventually.of_forall fun x => ?_)⟩
  · rw [norm_of_nonneg (mul_nonneg (hp0 x).le (exp_pos _).le)]
    exact mul_le_of_le_one_right (hp0 x).le (exp_le_one_iff.2 (by linarith [hfv x]))
  · rw [norm_of_nonneg (mul_nonneg (hf0 x) (mul_nonneg (hp0 x).le (exp_pos _).le))]
    have h1 : f x / (2 * v) * exp (-(f x / (2 * v))) ≤ 1 := by
      rw [exp_neg, ← div_eq_mul_inv, div_le_one (exp_pos _)]
      linarith [add_one_le_exp (f x / (2 * v))]
    calc f x * (p x * exp (-(f x / (2 * v)))) = 2 * v * p x * (f x / (2 * v) * exp (-(f x / (2 * v)))) := by
          field_simp
      _ ≤ _ := mul_le_of_le_one_right (mul_nonneg (by linarith) (hp0 x).le) h1

/-- Gibbs' inequality. -/
theorem laplace_le (hp : Continuous p) (hp0 : ∀ x, 0 < p x) (hi : Integrable p μ) (h1 : ∫ x, p x ∂μ = 1) (hf : Continuous f)
    (hf0 : ∀ x, 0 ≤ f x) {v : ℝ} (hv : 0 < v) :
    0 < ∫ x, p x * exp (-(f x / (2 * v))) ∂μ ∧
    (∫ x, f x * (p x * exp (-(f x / (2 * v)))) ∂μ) / ∫ x, p x * exp (-(f x / (2 * v))) ∂μ ≤
      -(2 * v * log (∫ x, p x * exp (-(f x / (2 * v))) ∂μ)) := by
  obtain ⟨i1, i2⟩ := laplace_integrable hp hp0 hi hf hf0 hv
  have hZ : 0 < ∫ x, p x * exp (-(f x / (2 * v))) ∂μ := by
    rw [integral_pos_iff_support_of_nonneg (fun x => (mul_pos (hp0 x) (exp_pos _)).le) i1]
    have : Function.support (fun x => p x * exp (-(f x / (2 * v)))) = Set.univ :=
      Set.eq_univ_of_forall fun x => (mul_pos (hp0 x) (exp_pos _)).ne'
    rw [this]
    exact (Measure.measure_univ_pos.2 (NeZero.ne μ))
  obtain ⟨Z, hZe⟩ : ∃ Z, Z = ∫ x, p x * exp (-(f x / (2 * v))) ∂μ := ⟨_, rfl⟩
  rw [← hZe] at hZ ⊢
  refine ⟨hZ, ?_⟩
  have key : ∀ x, p x * exp (-(f x / (2 * v))) - Z * p x ≤
      -(1 / (2 * v)) * (f x * (p x * exp (-(f x / (2 * v))))) - log Z * (p x * exp (-(f x / (2 * v)))) := fun x => by
    obtain ⟨w, hw⟩ : ∃ w, w = exp (-(f x / (2 * v))) := ⟨_, rfl⟩
    have hw0 : 0 < w := hw ▸ exp_pos _
    have hl : log w = -(f x / (2 * v)) := by rw [hw, log_exp]
    have h2 : 1 - (w / Z)⁻¹ ≤ log (w / Z) := one_sub_inv_le_log_of_pos (div_pos hw0 hZ)
    rw [log_div hw0.ne' hZ.ne', hl, inv_div] at h2
    rw [← hw]
    have h3 := mul_le_mul_of_nonneg_left h2 (mul_pos (hp0 x) hw0).le
    have h4 : p x * w * (1 - Z / w) = p x * w - Z * p x := by field_simp
    rw [h4] at h3
    refine h3.trans (le_of_eq ?_)
    ring
  have h5 := integral_mono (i1.sub (hi.const_mul Z)) ((i2.const_mul _).sub (i1.const_mul _)) key
  simp only [Pi.sub_apply] at h5
  rw [integral_sub i1 (hi.const_mul Z), integral_sub (i2.const_mul _) (i1.const_mul _), integral_const_mul, integral_const_mul,
    integral_const_mul, h1, ← hZe, mul_one, sub_self] at h5
  rw [div_le_iff₀ hZ]
  have h6 := mul_le_mul_of_nonneg_left h5 (show 0 ≤ 2 * v by linarith)
  rw [mul_zero] at h6
  have h7 : 2 * v * (-(1 / (2 * v)) * (∫ x, f x * (p x * exp (-(f x / (2 * v)))) ∂μ) - log Z * Z) =
      -(∫ x, f x * (p x * exp (-(f x / (2 * v)))) ∂μ) - 2 * v * log Z * Z := by field_simp
  rw [h7] at h6
  linarith

/-- The expectation of a function under densities that concentrate where it is small tends to its infimum. -/
theorem laplace (hp : Continuous p) (hp0 : ∀ x, 0 < p x) (hi : Integrable p μ) (h1 : ∫ x, p x ∂μ = 1) (hf : Continuous f)
    (hf0 : ∀ x, 0 ≤ f x) :
    Tendsto (fun v : ℝ => (∫ x, f x * (p x * exp (-(f x / (2 * v)))) ∂μ) / ∫ x, p x * exp (-(f x / (2 * v))) ∂μ) (𝓝[>] 0)
      (𝓝 (⨅ x, f x)) := by
  have hbdd : BddBelow (Set.range f) := ⟨0, by rintro _ ⟨x, rfl⟩; exact hf0 x⟩
  obtain ⟨r, hr⟩ : ∃ r, r = ⨅ x, f x := ⟨_, rfl⟩
  have hrf : ∀ x, r ≤ f x := fun x => hr ▸ ciInf_le hbdd x
  rw [← hr]
  refine tendsto_order.2 ⟨fun b hb => ?_, fun b hb => ?_⟩
  · filter_upwards [self_mem_nhdsWithin] with v hv
    have hv : 0 < v := hv
    obtain ⟨i1, i2⟩ := laplace_integrable hp hp0 hi hf hf0 hv
    refine hb.trans_le ?_
    rw [le_div_iff₀ (laplace_le hp hp0 hi h1 hf hf0 hv).1, ← integral_const_mul]
    exact integral_mono (i1.const_mul r) i2 fun x => mul_le_mul_of_nonneg_right (hrf x) (mul_pos (hp0 x) (exp_pos _)).le
  · obtain ⟨c, hc1, hc2⟩ := exists_between hb
    obtain ⟨x0, hx0⟩ := exists_lt_of_ciInf_lt (hr ▸ hc1)
    obtain ⟨U, hU⟩ : ∃ U, U = {x | f x < c} := ⟨_, rfl⟩
    have hUo : IsOpen U := hU ▸ isOpen_lt hf continuous_const
    have hP : 0 < ∫ x in U, p x ∂μ := by
      rw [setIntegral_pos_iff_support_of_nonneg_ae (Eventually.of_forall fun x => (hp0 x).le) hi.integrableOn,
        show Function.support p = Set.univ from Set.eq_univ_of_forall fun x => (hp0 x).ne', Set.univ_inter]
      exact hUo.measure_pos μ ⟨x0, by rw [hU]; exact hx0⟩
    have hlim : Tendsto (fun v : ℝ => c - 2 * v * log (∫ x in U, p x ∂μ)) (𝓝[>] 0) (𝓝 c) := by
      have : Tendsto (fun v : ℝ => c - 2 * v * log (∫ x in U, p x ∂μ)) (𝓝 0) (𝓝 (c - 2 * 0 * log (∫ x in U, p x ∂μ))) :=
        Continuous.tendsto (by fun_prop) 0
      simp only [mul_zero, zero_mul, sub_zero] at this
      exact this.mono_left nhdsWithin_le_nhds
    filter_upwards [self_mem_nhdsWithin, hlim.eventually (gt_mem_nhds hc2)] with v hv hlt
    have hv : 0 < v := hv
    obtain ⟨i1, i2⟩ := laplace_integrable hp hp0 hi hf hf0 hv
    refine ((laplace_le hp hp0 hi h1 hf hf0 hv).2.trans ?_).trans_lt hlt
    have hZ : exp (-(c / (2 * v))) * ∫ x in U, p x ∂μ ≤ ∫ x, p x * exp (-(f x / (2 * v))) ∂μ := by
      rw [← integral_const_mul]
      refine (setIntegral_mono_on (hi.integrableOn.const_mul _) i1.integrableOn hUo.measurableSet fun x hx => ?_).trans
        (setIntegral_le_integral i1 (Eventually.of_forall fun x => (mul_pos (hp0 x) (exp_pos _)).le))
      rw [mul_comm]
      refine mul_le_mul_of_nonneg_left (exp_le_exp.2 (neg_le_neg ?_)) (hp0 x).le
      rw [hU] at hx
      exact div_le_div_of_nonneg_right (le_of_lt hx) (by linarith)
    have hlog := log_le_log (mul_pos (exp_pos _) hP) hZ
    rw [log_mul (exp_pos _).ne' hP.ne', log_exp] at hlog
    have := mul_le_mul_of_nonneg_left hlog (show 0 ≤ 2 * v by linarith)
    have e : 2 * v * (-(c / (2 * v)) + log (∫ x in U, p x ∂μ)) = -c + 2 * v * log (∫ x in U, p x ∂μ) := by field_simp
    rw [e] at this
    linarith

end Laplace

variable {ι κ : Type} [Fintype ι] [DecidableEq ι] [Fintype κ] [DecidableEq κ] (C : Chols ι κ) {m : Inst ι κ}

theorem misfit_nonneg (h : m.Valid) (d : List (ℝ × ℝ)) (x : (ι → ℝ) × (κ → ℝ)) : 0 ≤ Spec.misfit m d x := by
  have h0 : ∀ {n : Type} [Fintype n] (y : n → ℝ), (vecMulVec y y - vecMulVec y y).PosSemidef := fun y => by
    rw [sub_self]
    exact Matrix.PosSemidef.zero
  have h1 := expLogLik_le h d (h0 x.1) (h0 x.2)
  rw [expLogLik_misfit, noiseFit] at h1
  have h2 : 0 ≤ Spec.misfit m d x / (2 * m.noise) := by
    rw [Spec.misfit]
    linarith
  have := h.noise
  by_contra hc
  exact absurd (div_neg_of_neg_of_pos (not_le.1 hc) (by linarith : 0 < 2 * m.noise)) (not_lt.2 h2)

theorem integrable_logPrior {n : Type} [Fintype n] [DecidableEq n] {K : Matrix n n ℝ} (hK : K.PosDef) :
    Integrable fun x => exp (logPrior K x) := by
  obtain ⟨Cn⟩ := cholOracle_nonempty (n := n)
  simp only [logPrior_eq Cn hK]
  exact (NatNormal.expect_one Cn (d := ⟨0, K⟩) hK).1

/-- **C187** As the noise vanishes, the expected sum of squared differences between observations and signal, under the posterior from which
the structured scheme samples, tends to the smallest that any filter and excitation can achieve. -/
theorem c187_structured (h : m.Valid) (d : List (ℝ × ℝ)) :
    Tendsto (fun v => ∫ x, Spec.misfit m d x ∂structuredPosterior (m.withNoise v) d) (𝓝[>] 0) (𝓝 (⨅ x, Spec.misfit m d x)) := by
  have hc := (misfit_facts h d one_pos).1
  have hL := laplace (μ := (volume : Measure ((ι → ℝ) × (κ → ℝ)))) (p := fun x => exp (logPrior m.Ku x.1) * exp (logPrior m.Kz x.2))
    (((continuous_logPrior _).comp continuous_fst).rexp.mul ((continuous_logPrior _).comp continuous_snd).rexp)
    (fun x => mul_pos (exp_pos _) (exp_pos _)) ((integrable_logPrior h.Ku).mul_prod (integrable_logPrior h.Kz))
    (by
      rw [Measure.volume_eq_prod, integral_prod_mul (fun u => exp (logPrior m.Ku u)) (fun z => exp (logPrior m.Kz z)),
        integral_logPrior h.Ku, integral_logPrior h.Kz, one_mul]) hc (misfit_nonneg h d)
  refine hL.congr' ?_
  filter_upwards [self_mem_nhdsWithin] with v hv
  have hv : 0 < v := hv
  obtain ⟨k, hk⟩ : ∃ k : ℝ, k = exp (-(1 / 2) * d.length * log (2 * π * v)) := ⟨_, rfl⟩
  have hk0 : k ≠ 0 := hk ▸ (exp_pos _).ne'
  have e : ∀ x : (ι → ℝ) × (κ → ℝ), exp (logJoint (m.withNoise v) d x.1 x.2) =
      k * (exp (logPrior m.Ku x.1) * exp (logPrior m.Kz x.2) * exp (-(Spec.misfit m d x / (2 * v)))) := fun x => by
    rw [logJoint_noise, noiseFit, hk, ← exp_add, ← exp_add, ← exp_add]
    ring_nf
  rw [(integral_structuredPosterior (h.withNoise hv) d _).2, evidence]
  simp only [e, mul_left_comm _ k]
  rw [integral_const_mul, integral_const_mul, mul_div_mul_left _ _ hk0]

theorem condMisfit_tendsto (h : m.Valid) (d : List (ℝ × ℝ)) (u : ι → ℝ) :
    Tendsto (fun v => misfitOf m d u (vecMulVec u u) ((qzOptimal (m.withNoise v) (constructDataTerms C (m.withNoise v) d) u).mean C.z)
      ((qzOptimal (m.withNoise v) (constructDataTerms C (m.withNoise v) d) u).m2 C.z)) (𝓝[>] 0)
      (𝓝 (⨅ z, Spec.misfit m d (u, z))) := by
  have hc : Continuous fun z : κ → ℝ => Spec.misfit m d (u, z) := (misfit_facts h d one_pos).1.comp (by fun_prop)
  have hL := laplace (μ := (volume : Measure (κ → ℝ))) (p := fun z => exp (logPrior m.Kz z)) (continuous_logPrior _).rexp
    (fun x => exp_pos _) (integrable_logPrior h.Kz) (integral_logPrior h.Kz) hc (fun z => misfit_nonneg h d (u, z))
  refine hL.congr' ?_
  filter_upwards [self_mem_nhdsWithin] with v hv
  have hv : 0 < v := hv
  have e1 := condMisfit_eq C (h.withNoise hv) d d u
  refine Eq.trans ?_ e1.symm
  obtain ⟨k, hk⟩ : ∃ k : ℝ, k = exp (-(1 / 2) * d.length * log (2 * π * v) + logPrior m.Ku u) := ⟨_, rfl⟩
  have hk0 : k ≠ 0 := hk ▸ (exp_pos _).ne'
  have e : ∀ z : κ → ℝ, exp (logJoint (m.withNoise v) d u z) =
      k * (exp (logPrior m.Kz z) * exp (-(Spec.misfit m d (u, z) / (2 * v)))) := fun z => by
    have := logJoint_noise (m := m) d v (u, z)
    simp only at this
    rw [this, noiseFit, hk, ← exp_add, ← exp_add]
    ring_nf
  have e2 : ∀ z, Spec.misfit (m.withNoise v) d (u, z) = Spec.misfit m d (u, z) := fun z => rfl
  simp only [e, e2, mul_left_comm _ k]
  rw [integral_const_mul, integral_const_mul, mul_div_mul_left _ _ hk0]

/-- **C187** As the noise vanishes, the predictions of the structured scheme for given samples of the filter leave unexplained what no
excitation can explain given the filter, on average over the samples. -/
theorem c187_predict (h : m.Valid) (d : List (ℝ × ℝ)) {us : List (ι → ℝ)} (hus : us ≠ []) (l : ℝ → List (ℝ × ℝ))
    (hl : ∀ v > 0, Structured.predict C (m.withNoise v) (some (constructDataTerms C (m.withNoise v) d)) (d.map Prod.fst) us = .ok (l v)) :
    Tendsto (fun v => Spec.unexplained v d (l v)) (𝓝[>] 0) (𝓝 ((us.map fun u => ⨅ z, Spec.misfit m d (u, z)).sum / us.length)) := by
  refine ((tendsto_list_sum us fun u => condMisfit_tendsto C h d u).div_const (us.length : ℝ)).congr' ?_
  filter_upwards [self_mem_nhdsWithin] with v hv
  have hv : 0 < v := hv
  obtain ⟨l', e1, e2⟩ := unexplained_structured C (h.withNoise hv) d d hus
  rw [hl v hv] at e1
  rw [← Except.ok.inj e1] at e2
  exact e2.symm

/-- A bound on the log-likelihood for all inducing variables bounds its expectation. -/
theorem expLogLik_mean_le (h : m.Valid) (d : List (ℝ × ℝ)) {K : ℝ}
    (hK : ∀ u z, expLogLik m d u (vecMulVec u u) z (vecMulVec z z) ≤ K) {qu : NatNormal ι} (hu : qu.prec.PosDef) {qz : NatNormal κ}
    (hz : qz.prec.PosDef) : expLogLik m d (qu.mean C.u) (qu.m2 C.u) (qz.mean C.z) (qz.m2 C.z) ≤ K := by
  obtain ⟨o1, o2⟩ := NatNormal.expect_one C.u hu
  obtain ⟨p1, p2⟩ := NatNormal.expect_one C.z hz
  have h1 : ∀ u, expLogLik m d u (vecMulVec u u) (qz.mean C.z) (qz.m2 C.z) ≤ K := fun u => by
    obtain ⟨i, e⟩ := expect_expLogLik_z C h d hz u (vecMulVec u u)
    rw [← e, ← one_mul K, ← p2, ← integral_mul_const]
    exact integral_mono i (p1.mul_const K) fun z => mul_le_mul_of_nonneg_left (hK u z) (exp_pos _).le
  obtain ⟨i, e⟩ := expect_expLogLik C h d hu (qz.mean C.z) (qz.m2 C.z)
  rw [← e, ← one_mul K, ← o2, ← integral_mul_const]
  exact integral_mono i (o1.mul_const K) fun u => mul_le_mul_of_nonneg_left (h1 u) (exp_pos _).le

/-- Normal distributions that concentrate at a point. -/
theorem narrow_tendsto {n : Type} [Fintype n] [DecidableEq n] (Cn : CholOracle n) (x : n → ℝ) :
    (∀ k : ℕ, (⟨((k : ℝ) + 1) • x, ((k : ℝ) + 1) • 1⟩ : NatNormal n).prec.PosDef) ∧
      (∀ k : ℕ, (⟨((k : ℝ) + 1) • x, ((k : ℝ) + 1) • 1⟩ : NatNormal n).mean Cn = x) ∧
      Tendsto (fun k : ℕ => (⟨((k : ℝ) + 1) • x, ((k : ℝ) + 1) • 1⟩ : NatNormal n).m2 Cn) atTop (𝓝 (vecMulVec x x)) := by
  have hp : ∀ k : ℕ, (⟨((k : ℝ) + 1) • x, ((k : ℝ) + 1) • 1⟩ : NatNormal n).prec.PosDef := fun k =>
    Matrix.PosDef.one.smul (by positivity)
  have hk : ∀ k : ℕ, ((k : ℝ) + 1) ≠ 0 := fun k => by positivity
  have hinv : ∀ k : ℕ, (((k : ℝ) + 1) • (1 : Matrix n n ℝ))⁻¹ = ((k : ℝ) + 1)⁻¹ • 1 := fun k => by
    refine Matrix.inv_eq_left_inv ?_
    rw [smul_mul_smul_comm, inv_mul_cancel₀ (hk k), one_smul, mul_one]
  have hm : ∀ k : ℕ, (⟨((k : ℝ) + 1) • x, ((k : ℝ) + 1) • 1⟩ : NatNormal n).mean Cn = x := fun k => by
    rw [NatNormal.mean_eq Cn (hp k)]
    show (((k : ℝ) + 1) • (1 : Matrix n n ℝ))⁻¹ *ᵥ (((k : ℝ) + 1) • x) = x
    rw [hinv, smul_mulVec, one_mulVec, smul_smul, inv_mul_cancel₀ (hk k), one_smul]
  refine ⟨hp, hm, ?_⟩
  have e : ∀ k : ℕ, (⟨((k : ℝ) + 1) • x, ((k : ℝ) + 1) • 1⟩ : NatNormal n).m2 Cn =
      ((k : ℝ) + 1)⁻¹ • (1 : Matrix n n ℝ) + vecMulVec x x := fun k => by
    rw [NatNormal.m2_eq Cn (hp k), hm, NatNormal.var_eq Cn (hp k)]
    exact congrArg (· + vecMulVec x x) (hinv k)
  simp only [e]
  have h0 : Tendsto (fun k : ℕ => ((k : ℝ) + 1)⁻¹) atTop (𝓝 0) :=
    tendsto_inv_atTop_zero.comp (tendsto_atTop_add_const_right _ 1 tendsto_natCast_atTop_atTop)
  have := (h0.smul_const (1 : Matrix n n ℝ)).add_const (vecMulVec x x)
  simpa using this

theorem tendsto_pair {A B : Type} [TopologicalSpace A] [TopologicalSpace B] {F : A → B → ℝ} (hF : Continuous fun x : A × B => F x.1 x.2)
    {U : ℕ → A} {Z : ℕ → B} {a : A} {b : B} (hU : Tendsto U atTop (𝓝 a)) (hZ : Tendsto Z atTop (𝓝 b)) :
    Tendsto (fun k => F (U k) (Z k)) atTop (𝓝 (F a b)) :=
  (hF.tendsto (a, b)).comp (hU.prodMk_nhds hZ)

theorem misfitOf_continuous (m : Inst ι κ) (d : List (ℝ × ℝ)) (u : ι → ℝ) (z : κ → ℝ) :
    Continuous fun x : Matrix ι ι ℝ × Matrix κ κ ℝ => misfitOf m d u x.1 z x.2 := by
  unfold misfitOf
  refine continuous_list_sum d fun p _ => ?_
  simp only [Spec.moments, Spec.inner]
  fun_prop

/-- **C187** As the noise vanishes, what the predictions of best mean-field approximations leave unexplained tends to the smallest misfit
that any filter and excitation can achieve. -/
theorem c187_mean_field (h : m.Valid) (d : List (ℝ × ℝ)) (s : ℝ → Posts ι κ)
    (hs : ∀ v > 0, (s v).qi = 0 ∧ (s v).qU.prec.PosDef ∧ (s v).qZ.prec.PosDef)
    (hb : ∀ v > 0, ∀ (s' : Posts ι κ) (a b : ℝ), s'.qi = 0 → s'.qU.prec.PosDef → s'.qZ.prec.PosDef →
      MeanField.elbo C (m.withNoise v) s' d none = .ok a → MeanField.elbo C (m.withNoise v) (s v) d none = .ok b → a ≤ b) :
    Tendsto (fun v => Spec.unexplained v d (MeanField.predict C (m.withNoise v) (s v).condition (d.map Prod.fst))) (𝓝[>] 0)
      (𝓝 (⨅ x, Spec.misfit m d x)) := by
  have hbdd : BddBelow (Set.range (Spec.misfit m d)) := ⟨0, by rintro _ ⟨x, rfl⟩; exact misfit_nonneg h d x⟩
  obtain ⟨r, hr⟩ : ∃ r, r = ⨅ x, Spec.misfit m d x := ⟨_, rfl⟩
  have hrf : ∀ x, r ≤ Spec.misfit m d x := fun x => hr ▸ ciInf_le hbdd x
  rw [← hr]
  have eU : ∀ v > 0, Spec.unexplained v d (MeanField.predict C (m.withNoise v) (s v).condition (d.map Prod.fst)) =
      misfitOf m d ((s v).qU.mean C.u) ((s v).qU.m2 C.u) ((s v).qZ.mean C.z) ((s v).qZ.m2 C.z) := fun v hv =>
    unexplained_eq C (h.withNoise hv) (s v) d
  refine tendsto_order.2 ⟨fun b hlt => ?_, fun b hlt => ?_⟩
  · filter_upwards [self_mem_nhdsWithin] with v hv
    have hv : 0 < v := hv
    refine hlt.trans_le ?_
    rw [eU v hv]
    have h1 := expLogLik_mean_le C h d (K := noiseFit d.length r m.noise) (fun u z => by
      rw [expLogLik_misfit, noiseFit, noiseFit]
      have := div_le_div_of_nonneg_right (hrf (u, z)) (show 0 ≤ 2 * m.noise by linarith [h.noise])
      rw [Spec.misfit] at this
      simp only at this
      linarith) (hs v hv).2.1 (hs v hv).2.2
    rw [expLogLik_misfit, noiseFit, noiseFit] at h1
    have := h.noise
    exact (div_le_div_iff_of_pos_right (by linarith : 0 < 2 * m.noise)).1 (by linarith)
  · obtain ⟨c, hc1, hc2⟩ := exists_between hlt
    obtain ⟨x0, hx0⟩ := exists_lt_of_ciInf_lt (hr ▸ hc1)
    obtain ⟨pu, mu, tu⟩ := narrow_tendsto C.u x0.1
    obtain ⟨pz, mz, tz⟩ := narrow_tendsto C.z x0.2
    have ht : Tendsto (fun k : ℕ => misfitOf m d x0.1 ((⟨((k : ℝ) + 1) • x0.1, ((k : ℝ) + 1) • 1⟩ : NatNormal ι).m2 C.u) x0.2
        ((⟨((k : ℝ) + 1) • x0.2, ((k : ℝ) + 1) • 1⟩ : NatNormal κ).m2 C.z)) atTop (𝓝 (Spec.misfit m d x0)) :=
      tendsto_pair (F := fun a b => misfitOf m d x0.1 a x0.2 b) (misfitOf_continuous m d x0.1 x0.2) tu tz
    obtain ⟨k, hk⟩ := (ht.eventually (gt_mem_nhds hx0)).exists
    obtain ⟨qu, hqu⟩ : ∃ q : NatNormal ι, q = ⟨((k : ℝ) + 1) • x0.1, ((k : ℝ) + 1) • 1⟩ := ⟨_, rfl⟩
    obtain ⟨qz, hqz⟩ : ∃ q : NatNormal κ, q = ⟨((k : ℝ) + 1) • x0.2, ((k : ℝ) + 1) • 1⟩ := ⟨_, rfl⟩
    have mu := mu k
    have mz := mz k
    have pu := pu k
    have pz := pz k
    rw [← hqu] at mu pu hk
    rw [← hqz] at mz pz hk
    obtain ⟨D, hD⟩ : ∃ D, D = qu.kl C.u ⟨0, m.Ku⟩ + qz.kl C.z ⟨0, m.Kz⟩ := ⟨_, rfl⟩
    have hlim : Tendsto (fun v : ℝ => c + 2 * v * D) (𝓝[>] 0) (𝓝 c) := by
      have : Tendsto (fun v : ℝ => c + 2 * v * D) (𝓝 0) (𝓝 (c + 2 * 0 * D)) := Continuous.tendsto (by fun_prop) 0
      simp only [mul_zero, zero_mul, add_zero] at this
      exact this.mono_left nhdsWithin_le_nhds
    filter_upwards [self_mem_nhdsWithin, hlim.eventually (gt_mem_nhds hc2)] with v hv hlt'
    have hv : 0 < v := hv
    refine lt_of_le_of_lt ?_ hlt'
    rw [eU v hv]
    obtain ⟨h0, hu, hz⟩ := hs v hv
    have q := hb v hv ⟨0, fun _ => qu, fun _ => qz⟩ _ _ rfl pu pz (elbo_zero C (h.withNoise hv) _ rfl d)
      (elbo_zero C (h.withNoise hv) _ h0 d)
    have k1 : 0 ≤ (s v).qU.kl C.u ⟨0, m.Ku⟩ := c18_nonneg C.u hu h.Ku
    have k2 : 0 ≤ (s v).qZ.kl C.z ⟨0, m.Kz⟩ := c18_nonneg C.z hz h.Kz
    have e1 : (⟨0, fun _ => qu, fun _ => qz⟩ : Posts ι κ).qU = qu := rfl
    have e2 : (⟨0, fun _ => qu, fun _ => qz⟩ : Posts ι κ).qZ = qz := rfl
    rw [e1, e2, expLogLik_noise, expLogLik_noise, mu, mz, noiseFit, noiseFit] at q
    have q' : qu.kl C.u ⟨0, (m.withNoise v).Ku⟩ + qz.kl C.z ⟨0, (m.withNoise v).Kz⟩ = D := hD.symm
    have k1' : 0 ≤ (s v).qU.kl C.u ⟨0, (m.withNoise v).Ku⟩ := k1
    have k2' : 0 ≤ (s v).qZ.kl C.z ⟨0, (m.withNoise v).Kz⟩ := k2
    have q3 : misfitOf m d ((s v).qU.mean C.u) ((s v).qU.m2 C.u) ((s v).qZ.mean C.z) ((s v).qZ.m2 C.z) / (2 * v) ≤
        misfitOf m d x0.1 (qu.m2 C.u) x0.2 (qz.m2 C.z) / (2 * v) + D := by linarith
    have q4 := mul_le_mul_of_nonneg_left q3 (show 0 ≤ 2 * v by linarith)
    have hv2 : 2 * v ≠ 0 := by positivity
    rw [mul_add, mul_div_cancel₀ _ hv2, mul_div_cancel₀ _ hv2] at q4
    linarith

/-- Best mean-field approximations exist for every noise. -/
example (C : Chols (Fin 1) (Fin 1)) : ∃ s : ℝ → Posts (Fin 1) (Fin 1),
    Tendsto (fun v => Spec.unexplained v [(0, 1), (2, 3)] (MeanField.predict C (exInst.withNoise v) (s v).condition [0, 2])) (𝓝[>] 0)
      (𝓝 (⨅ x, Spec.misfit exInst [(0, 1), (2, 3)] x)) := by
  have hbest : ∀ v : ℝ, ∃ s : Posts (Fin 1) (Fin 1), 0 < v → (s.qi = 0 ∧ s.qU.prec.PosDef ∧ s.qZ.prec.PosDef) ∧
      ∀ (s' : Posts (Fin 1) (Fin 1)) (a b : ℝ), s'.qi = 0 → s'.qU.prec.PosDef → s'.qZ.prec.PosDef →
        MeanField.elbo C (exInst.withNoise v) s' [(0, 1), (2, 3)] none = .ok a →
        MeanField.elbo C (exInst.withNoise v) s [(0, 1), (2, 3)] none = .ok b → a ≤ b := fun v => by
    by_cases hv : 0 < v
    · obtain ⟨p, b, hp, h1, h2, -⟩ := c164_best C (exInst_valid.withNoise hv) [(0, 1), (2, 3)]
      refine ⟨⟨0, fun _ => p.u, fun _ => p.z⟩, fun _ => ⟨⟨rfl, hp⟩, fun s' a b' hs hu hz ha hb => ?_⟩⟩
      rw [(h1 _ rfl rfl rfl).1] at hb
      rw [← Except.ok.inj hb]
      exact h2 s' hs ⟨hu, hz⟩ none a ha
    · exact ⟨exPosts 0, fun h => absurd h hv⟩
  choose s hs using hbest
  exact ⟨s, c187_mean_field C exInst_valid [(0, 1), (2, 3)] s (fun v hv => (hs v hv).1) fun v hv => (hs v hv).2⟩

example : Tendsto (fun v => ∫ x, Spec.misfit exInst [(0, 1), (2, 3)] x ∂structuredPosterior (exInst.withNoise v) [(0, 1), (2, 3)]) (𝓝[>] 0)
    (𝓝 (⨅ x, Spec.misfit exInst [(0, 1), (2, 3)] x)) := c187_structured exInst_valid _

end Gpcm
