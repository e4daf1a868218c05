import Verif.Props.ContinuityProps
import Verif.Lemmas.RgpcmKernel
import Mathlib.Analysis.Calculus.ParametricIntegral
import Mathlib.MeasureTheory.Integral.IntegralEqImproper
import Mathlib.Analysis.SpecialFunctions.ExpDeriv
import Mathlib.Analysis.SpecialFunctions.Gaussian.GaussianIntegral

/-! # Lemmas for C189: increments of the signal -/

set_option linter.unusedSectionVars false

open Matrix Real MeasureTheory Filter Topology Set

namespace Gpcm

/-! ## Smooth filters -/

section gauss

variable {p : Spec.Params}

theorem mul_gauss_le {c : ℝ} (hc : 0 ≤ c) (x : ℝ) : |2 * c * x| * exp (-(c * x ^ 2)) ≤ 2 * √c := by
  have h1 : |√c * x| ≤ exp (c * x ^ 2) := by
    have h2 : c * x ^ 2 = |√c * x| ^ 2 := by rw [sq_abs, mul_pow, sq_sqrt hc]
    have h3 := add_one_le_exp (c * x ^ 2)
    nlinarith [sq_nonneg (|√c * x| - 1 / 2)]
  have h4 : |2 * c * x| = 2 * √c * |√c * x| := by
    rw [show 2 * c * x = 2 * √c * (√c * x) by
      rw [show 2 * √c * (√c * x) = 2 * (√c * √c) * x by ring, mul_self_sqrt hc], abs_mul,
      abs_of_nonneg (by positivity : 0 ≤ 2 * √c)]
  rw [h4, mul_assoc]
  refine mul_le_of_le_one_right (by positivity) ?_
  rw [exp_neg, ← div_eq_mul_inv]
  exact (div_le_one (exp_pos _)).2 h1

/-- The derivative of the covariance of the filter. -/
noncomputable def kH' (p : Spec.Params) (x u : ℝ) : ℝ := -(2 * p.alpha * x + 2 * p.gamma * (x - u)) * Spec.kH p x u

theorem hasDerivAt_kH (x u : ℝ) : HasDerivAt (fun x => Spec.kH p x u) (kH' p x u) x := by
  unfold Spec.kH kH' Spec.kH
  have h1 : HasDerivAt (fun x : ℝ => exp (-(p.alpha * x ^ 2))) (exp (-(p.alpha * x ^ 2)) * -(p.alpha * (2 * x))) x := by
    have := ((hasDerivAt_pow 2 x).const_mul p.alpha).neg.exp
    simpa using this
  have h2 : HasDerivAt (fun x : ℝ => exp (-(p.gamma * (x - u) ^ 2)))
      (exp (-(p.gamma * (x - u) ^ 2)) * -(p.gamma * (2 * (x - u)))) x := by
    have := ((((hasDerivAt_id x).sub_const u).pow 2).const_mul p.gamma).neg.exp
    simpa using this
  refine (((h1.const_mul (p.alphaT ^ 2)).mul_const (exp (-(p.alpha * u ^ 2)))).mul h2).congr_deriv ?_
  ring

variable (ha : 0 < p.alpha) (hγ : 0 ≤ p.gamma)
include ha hγ

theorem abs_kH'_le (x u : ℝ) : |kH' p x u| ≤ p.alphaT ^ 2 * (2 * √p.alpha + 2 * √p.gamma) := by
  unfold kH' Spec.kH
  have h1 := mul_gauss_le ha.le x
  have h2 := mul_gauss_le hγ (x - u)
  have e1 : exp (-(p.alpha * u ^ 2)) ≤ 1 := exp_le_one_iff.2 (by have := mul_nonneg ha.le (sq_nonneg u); linarith)
  have e2 : exp (-(p.alpha * x ^ 2)) ≤ 1 := exp_le_one_iff.2 (by have := mul_nonneg ha.le (sq_nonneg x); linarith)
  have e3 : exp (-(p.gamma * (x - u) ^ 2)) ≤ 1 := exp_le_one_iff.2 (by have := mul_nonneg hγ (sq_nonneg (x - u)); linarith)
  have p1 := exp_pos (-(p.alpha * u ^ 2))
  have p2 := exp_pos (-(p.alpha * x ^ 2))
  have p3 := exp_pos (-(p.gamma * (x - u) ^ 2))
  generalize exp (-(p.alpha * u ^ 2)) = A at *
  generalize exp (-(p.alpha * x ^ 2)) = B at *
  generalize exp (-(p.gamma * (x - u) ^ 2)) = D at *
  rw [abs_mul, abs_neg, abs_of_nonneg (by positivity : 0 ≤ p.alphaT ^ 2 * B * A * D)]
  have h3 := abs_add_le (2 * p.alpha * x) (2 * p.gamma * (x - u))
  calc _ ≤ (|2 * p.alpha * x| + |2 * p.gamma * (x - u)|) * (p.alphaT ^ 2 * B * A * D) :=
        mul_le_mul_of_nonneg_right h3 (by positivity)
    _ = p.alphaT ^ 2 * (A * (|2 * p.alpha * x| * B * D + |2 * p.gamma * (x - u)| * D * B)) := by ring
    _ ≤ p.alphaT ^ 2 * (1 * (2 * √p.alpha * 1 + 2 * √p.gamma * 1)) := by gcongr
    _ = _ := by ring

theorem integrable_kH (u : ℝ) : Integrable fun σ => Spec.kH p u σ := by
  refine ((integrable_exp_neg_mul_sq ha).const_mul (p.alphaT ^ 2)).mono' (by
    unfold Spec.kH
    exact Continuous.aestronglyMeasurable (by fun_prop)) (Eventually.of_forall fun σ => ?_)
  unfold Spec.kH
  have e1 : exp (-(p.alpha * u ^ 2)) ≤ 1 := exp_le_one_iff.2 (by have := mul_nonneg ha.le (sq_nonneg u); linarith)
  have e3 : exp (-(p.gamma * (u - σ) ^ 2)) ≤ 1 := exp_le_one_iff.2 (by have := mul_nonneg hγ (sq_nonneg (u - σ)); linarith)
  rw [norm_of_nonneg (by positivity), neg_mul]
  calc _ ≤ p.alphaT ^ 2 * 1 * exp (-(p.alpha * σ ^ 2)) * 1 := by gcongr
    _ = _ := by ring

/-- The derivative of the overlap of two filters on the half line. -/
theorem hasDerivAt_half (u v : ℝ) : HasDerivAt (fun s => ∫ σ in Ioi (0 : ℝ), Spec.kH p (s + σ) u * Spec.kH p v σ)
    (∫ σ in Ioi (0 : ℝ), kH' p σ u * Spec.kH p v σ) 0 := by
  have hi := integrable_kH ha hγ v
  have hb : ∀ x, |Spec.kH p x u| ≤ p.alphaT ^ 2 := fun x => by
    unfold Spec.kH
    rw [abs_of_nonneg (by positivity)]
    have e1 : exp (-(p.alpha * u ^ 2)) ≤ 1 := exp_le_one_iff.2 (by have := mul_nonneg ha.le (sq_nonneg u); linarith)
    have e2 : exp (-(p.alpha * x ^ 2)) ≤ 1 := exp_le_one_iff.2 (by have := mul_nonneg ha.le (sq_nonneg x); linarith)
    have e3 : exp (-(p.gamma * (x - u) ^ 2)) ≤ 1 := exp_le_one_iff.2 (by have := mul_nonneg hγ (sq_nonneg (x - u)); linarith)
    calc _ ≤ p.alphaT ^ 2 * 1 * 1 * 1 := by gcongr
      _ = _ := by ring
  have hc : ∀ s, Continuous fun σ => Spec.kH p (s + σ) u * Spec.kH p v σ := fun s => by
    unfold Spec.kH
    fun_prop
  have := hasDerivAt_integral_of_dominated_loc_of_deriv_le (μ := volume.restrict (Ioi (0 : ℝ))) (x₀ := (0 : ℝ)) (s := univ)
    (F := fun s σ => Spec.kH p (s + σ) u * Spec.kH p v σ) (F' := fun s σ => kH' p (s + σ) u * Spec.kH p v σ)
    (bound := fun σ => p.alphaT ^ 2 * (2 * √p.alpha + 2 * √p.gamma) * |Spec.kH p v σ|) univ_mem
    (Eventually.of_forall fun s => (hc s).aestronglyMeasurable) ?_ ?_ ?_ ?_ ?_
  · simpa using this.2
  · refine ((hi.norm.const_mul (p.alphaT ^ 2)).mono' (hc 0).aestronglyMeasurable
      (Eventually.of_forall fun σ => ?_)).integrableOn
    rw [norm_mul]
    exact mul_le_mul_of_nonneg_right (hb _) (norm_nonneg _)
  · refine Continuous.aestronglyMeasurable ?_
    unfold kH' Spec.kH
    fun_prop
  · refine Eventually.of_forall fun σ s _ => ?_
    rw [norm_mul]
    exact mul_le_mul_of_nonneg_right (abs_kH'_le ha hγ _ _) (norm_nonneg _)
  · exact (hi.norm.const_mul _).integrableOn
  · refine Eventually.of_forall fun σ s _ => ?_
    have := (hasDerivAt_kH (p := p) (s + σ) u).comp_add_const s σ
    exact this.mul_const _

theorem half_sum (u v : ℝ) : (∫ σ in Ioi (0 : ℝ), kH' p σ u * Spec.kH p v σ) + ∫ σ in Ioi (0 : ℝ), kH' p σ v * Spec.kH p u σ =
    -(Spec.kH p 0 u * Spec.kH p 0 v) := by
  have hs : ∀ x y, Spec.kH p x y = Spec.kH p y x := fun x y => by unfold Spec.kH; rw [show (x - y) ^ 2 = (y - x) ^ 2 by ring]; ring
  have hi : ∀ u v, Integrable (fun σ => kH' p σ u * Spec.kH p v σ) := fun u v => by
    refine ((integrable_kH ha hγ v).norm.const_mul (p.alphaT ^ 2 * (2 * √p.alpha + 2 * √p.gamma))).mono' (Continuous.aestronglyMeasurable (by
      unfold kH' Spec.kH
      fun_prop)) (Eventually.of_forall fun σ => ?_)
    rw [norm_mul]
    exact mul_le_mul_of_nonneg_right (abs_kH'_le ha hγ _ _) (norm_nonneg _)
  rw [← integral_add (hi u v).integrableOn (hi v u).integrableOn]
  have ht : ∀ w, Tendsto (fun σ => Spec.kH p σ w) atTop (𝓝 0) := fun w => by
    have h1 : Tendsto (fun σ : ℝ => exp (-(p.alpha * σ ^ 2))) atTop (𝓝 0) :=
      tendsto_exp_neg_atTop_nhds_zero.comp ((tendsto_pow_atTop two_ne_zero).const_mul_atTop ha)
    have h2 := h1.const_mul (p.alphaT ^ 2)
    rw [mul_zero] at h2
    refine squeeze_zero_norm (fun σ => ?_) h2
    unfold Spec.kH
    have e1 : exp (-(p.alpha * w ^ 2)) ≤ 1 := exp_le_one_iff.2 (by have := mul_nonneg ha.le (sq_nonneg w); linarith)
    have e3 : exp (-(p.gamma * (σ - w) ^ 2)) ≤ 1 := exp_le_one_iff.2 (by have := mul_nonneg hγ (sq_nonneg (σ - w)); linarith)
    rw [norm_of_nonneg (by positivity)]
    calc _ ≤ p.alphaT ^ 2 * exp (-(p.alpha * σ ^ 2)) * 1 * 1 := by gcongr
      _ = _ := by ring
  have hd : ∀ x ∈ Ici (0 : ℝ), HasDerivAt (fun σ => Spec.kH p σ u * Spec.kH p σ v)
      (kH' p x u * Spec.kH p v x + kH' p x v * Spec.kH p u x) x := fun x _ => by
    refine ((hasDerivAt_kH (p := p) x u).mul (hasDerivAt_kH (p := p) x v)).congr_deriv ?_
    rw [hs v x, hs u x]
    ring
  have hl : Tendsto (fun σ => Spec.kH p σ u * Spec.kH p σ v) atTop (𝓝 0) := by
    have := (ht u).mul (ht v)
    rwa [mul_zero] at this
  rw [integral_Ioi_of_hasDerivAt_of_tendsto' hd ((hi u v).add (hi v u)).integrableOn hl, zero_sub]

omit ha hγ in
theorem gate_half (hc : p.causal = true) {s : ℝ} (hs : 0 ≤ s) (f : ℝ → ℝ) :
    ∫ σ, Spec.gate p (s + σ) * Spec.gate p σ * f σ = ∫ σ in Ioi (0 : ℝ), f σ := by
  rw [← integral_Ici_eq_integral_Ioi, ← integral_indicator measurableSet_Ici]
  refine integral_congr_ae (Eventually.of_forall fun σ => ?_)
  simp only [Spec.gate, hc, true_and]
  by_cases h : σ < 0
  · rw [if_pos h, indicator_of_notMem (by simpa using h)]
    ring
  · rw [if_neg h, if_neg (by linarith), indicator_of_mem (by simpa using h)]
    ring

/-- The symmetrised slope at lag zero of a causal model. -/
theorem iux_slope (hc : p.causal = true) (u v : ℝ) :
    Tendsto (fun s => (Spec.iux p 0 0 u v + Spec.iux p 0 0 v u - (Spec.iux p s 0 u v + Spec.iux p s 0 v u)) / s) (𝓝[>] 0)
      (𝓝 (Spec.kH p 0 u * Spec.kH p 0 v)) := by
  have h1 := (hasDerivAt_half ha hγ u v).add (hasDerivAt_half ha hγ v u)
  rw [half_sum ha hγ, hasDerivAt_iff_tendsto_slope] at h1
  have h2 := (h1.mono_left (nhdsWithin_mono 0 fun x (hx : x ∈ Ioi (0 : ℝ)) => ne_of_gt hx)).neg
  rw [neg_neg] at h2
  refine h2.congr' (eventually_mem_nhdsWithin.mono fun s (hs : 0 < s) => ?_)
  have e : ∀ s, 0 ≤ s → ∀ u v, Spec.iux p s 0 u v = ∫ σ in Ioi (0 : ℝ), Spec.kH p (s + σ) u * Spec.kH p v σ := fun s hs u v => by
    rw [iux_lag, gate_half hc hs]
  beta_reduce
  rw [slope_def_field, e 0 le_rfl u v, e 0 le_rfl v u, e s hs.le u v, e s hs.le v u, sub_zero]
  simp only [Pi.add_apply]
  ring

theorem ihx_slope (hc : p.causal = true) :
    Tendsto (fun s => 2 * (Spec.ihx p 0 0 - Spec.ihx p s 0) / s) (𝓝[>] 0) (𝓝 (Spec.kH p 0 0)) := by
  obtain ⟨q, hq⟩ : ∃ q : Spec.Params, q = { p with alphaT := 1, gamma := 0 } := ⟨_, rfl⟩
  have qa : q.alpha = p.alpha := by rw [hq]
  have qg : q.gamma = 0 := by rw [hq]
  have qT : q.alphaT = 1 := by rw [hq]
  have h1 := hasDerivAt_half (p := q) (by rw [qa]; exact ha) qg.ge 0 0
  have h2 := half_sum (p := q) (by rw [qa]; exact ha) qg.ge 0 0
  have k0 : Spec.kH q 0 0 = 1 := by simp [Spec.kH, qT]
  rw [k0] at h2
  have hg : HasDerivAt (fun s : ℝ => p.alphaT ^ 2 * exp (-(p.gamma * s ^ 2))) 0 0 := by
    have := (((hasDerivAt_pow 2 (0 : ℝ)).const_mul p.gamma).neg.exp).const_mul (p.alphaT ^ 2)
    simpa using this
  have h3 := (hg.mul h1).const_mul (2 : ℝ)
  rw [hasDerivAt_iff_tendsto_slope] at h3
  have h4 := (h3.mono_left (nhdsWithin_mono 0 fun x (hx : x ∈ Ioi (0 : ℝ)) => ne_of_gt hx)).neg
  have e0 : Spec.kH p 0 0 = p.alphaT ^ 2 := by simp [Spec.kH]
  have e1 : -(2 * (0 * (∫ σ in Ioi (0 : ℝ), Spec.kH q (0 + σ) 0 * Spec.kH q 0 σ) +
      p.alphaT ^ 2 * exp (-(p.gamma * 0 ^ 2)) * ∫ σ in Ioi (0 : ℝ), kH' q σ 0 * Spec.kH q 0 σ)) = Spec.kH p 0 0 := by
    have : exp (-(p.gamma * 0 ^ 2)) = 1 := by simp
    rw [this, e0]
    linear_combination (-p.alphaT ^ 2) * h2
  rw [e1] at h4
  have e : ∀ s, 0 ≤ s → Spec.ihx p s 0 = p.alphaT ^ 2 * exp (-(p.gamma * s ^ 2)) *
      ∫ σ in Ioi (0 : ℝ), Spec.kH q (s + σ) 0 * Spec.kH q 0 σ := fun s hs => by
    rw [ihx_lag, gate_half hc hs, ← integral_const_mul]
    refine integral_congr_ae (Eventually.of_forall fun σ => ?_)
    simp only [Spec.kH, qT, qg, qa]
    simp only [zero_mul, neg_zero, exp_zero, mul_one, one_pow, one_mul, add_sub_cancel_right, ne_eq, OfNat.ofNat_ne_zero,
      not_false_eq_true, zero_pow, mul_zero]
    ring
  refine h4.congr' (eventually_mem_nhdsWithin.mono fun s (hs : 0 < s) => ?_)
  beta_reduce
  rw [slope_def_field, e 0 le_rfl, e s hs.le, sub_zero]
  simp only [Pi.mul_apply]
  ring

omit hγ in
/-- Without causality the overlaps are smooth functions of the lag. -/
theorem smooth_overlap (hg : 0 < p.alpha + p.gamma) (hc : p.causal = false) (u v : ℝ) :
    ContDiff ℝ ⊤ fun s => Spec.iux p s 0 u v := by
  have hA : -(2 * (p.alpha + p.gamma)) < 0 := by linarith
  have e : (fun s => Spec.iux p s 0 u v) = fun s => p.alphaT ^ 4 * exp (-(p.alpha * u ^ 2)) * exp (-(p.alpha * v ^ 2)) *
      (√(-π / -(2 * (p.alpha + p.gamma))) * exp (-((-(2 * p.alpha * s) - 2 * p.gamma * (s - u) + 2 * p.gamma * v) ^ 2) /
        (4 * -(2 * (p.alpha + p.gamma))) + (-(p.alpha * s ^ 2) - p.gamma * (s - u) ^ 2 - p.gamma * v ^ 2))) := by
    funext s
    rw [iux_lag, ← integral_exp_quad hA, ← integral_const_mul]
    refine integral_congr_ae (Eventually.of_forall fun σ => ?_)
    simp only [Spec.gate, hc, Bool.false_eq_true, false_and, if_false, one_mul, Spec.kH]
    rw [show -(2 * (p.alpha + p.gamma)) * σ ^ 2 + (-(2 * p.alpha * s) - 2 * p.gamma * (s - u) + 2 * p.gamma * v) * σ +
      (-(p.alpha * s ^ 2) - p.gamma * (s - u) ^ 2 - p.gamma * v ^ 2) = -(p.alpha * (s + σ) ^ 2) + -(p.gamma * (s + σ - u) ^ 2) +
        -(p.alpha * σ ^ 2) + -(p.gamma * (v - σ) ^ 2) by ring]
    simp only [exp_add]
    ring
  rw [e]
  fun_prop

omit hγ in
theorem smooth_power (hc : p.causal = false) : ContDiff ℝ ⊤ fun s => Spec.ihx p s 0 := by
  obtain ⟨q, hq⟩ : ∃ q : Spec.Params, q = { p with alphaT := 1, gamma := 0 } := ⟨_, rfl⟩
  have qa : q.alpha = p.alpha := by rw [hq]
  have qg : q.gamma = 0 := by rw [hq]
  have qT : q.alphaT = 1 := by rw [hq]
  have qc : q.causal = false := by rw [hq]; exact hc
  have h1 := smooth_overlap (p := q) (by rw [qa]; exact ha) (by rw [qa, qg]; linarith) qc 0 0
  have e : (fun s => Spec.ihx p s 0) = fun s => p.alphaT ^ 2 * exp (-(p.gamma * s ^ 2)) * Spec.iux q s 0 0 0 := by
    funext s
    rw [ihx_lag, iux_lag, ← integral_const_mul]
    refine integral_congr_ae (Eventually.of_forall fun σ => ?_)
    simp only [Spec.gate, hc, qc, Bool.false_eq_true, false_and, if_false, one_mul, Spec.kH, qT, qg, qa]
    simp only [zero_mul, neg_zero, exp_zero, mul_one, one_pow, one_mul, add_sub_cancel_right, ne_eq, OfNat.ofNat_ne_zero,
      not_false_eq_true, zero_pow, mul_zero]
    ring
  rw [e]
  exact (by fun_prop : ContDiff ℝ ⊤ fun s : ℝ => p.alphaT ^ 2 * exp (-(p.gamma * s ^ 2))).mul h1

end gauss

/-- An even function is flat at zero. -/
theorem even_flat {k : ℝ → ℝ} (he : ∀ x, k (-x) = k x) (hd : DifferentiableAt ℝ k 0) :
    Tendsto (fun s => (k 0 + k 0 - 2 * k s) / s) (𝓝[>] 0) (𝓝 0) := by
  have h0 : deriv k 0 = 0 := by
    have h1 := deriv_comp_neg k 0
    rw [funext he, neg_zero] at h1
    change deriv k 0 = _ at h1
    linarith
  have h2 := hd.hasDerivAt
  rw [h0, hasDerivAt_iff_tendsto_slope] at h2
  have h3 := (h2.mono_left (nhdsWithin_mono 0 fun x (hx : x ∈ Ioi (0 : ℝ)) => ne_of_gt hx)).const_mul (-2)
  rw [mul_zero] at h3
  refine h3.congr fun s => ?_
  rw [slope_def_field, sub_zero]
  ring

/-! ## Rough filters -/

namespace Rgpcm

open Spec.R

variable {p : Spec.R.Params}

theorem integrable_khu (ha : 0 < p.alpha) (hγ : 0 < p.gamma) (u : ℝ) : Integrable fun s => khu p s u :=
  (memLp_win ha).integrable_mul (memLp_smooth hγ u)

theorem exp_lip {x y : ℝ} (hx : x ≤ 0) (hy : y ≤ 0) : |exp x - exp y| ≤ |x - y| := by
  wlog h : x ≤ y generalizing x y
  · rw [abs_sub_comm, abs_sub_comm x]
    exact this hy hx (le_of_not_ge h)
  rw [abs_of_nonpos (by have := exp_le_exp.2 h; linarith), abs_of_nonpos (by linarith)]
  have h1 : exp x = exp y * exp (x - y) := by rw [← exp_add]; ring_nf
  have h2 := add_one_le_exp (x - y)
  have h3 : exp y ≤ 1 := exp_le_one_iff.2 hy
  have h4 := exp_pos y
  nlinarith

theorem kx_lip (h : 0 ≤ p.lam) (x y z : ℝ) : |kx p x z - kx p y z| ≤ p.lam * |x - y| := by
  unfold kx
  refine (exp_lip ?_ ?_).trans ?_
  · have := mul_nonneg h (abs_nonneg (x - z)); linarith
  · have := mul_nonneg h (abs_nonneg (y - z)); linarith
  · rw [show -(p.lam * |x - z|) - -(p.lam * |y - z|) = p.lam * (|y - z| - |x - z|) by ring, abs_mul, abs_of_nonneg h]
    refine mul_le_mul_of_nonneg_left ((abs_abs_sub_abs_le _ _).trans_eq ?_) h
    rw [show y - z - (x - z) = -(x - y) by ring, abs_neg]

/-- The overlap of two inducing variables is differentiable in the lag. -/
theorem differentiable_iuxR (ha : 0 < p.alpha) (hγ : 0 < p.gamma) (hl : 0 ≤ p.lam) (u v : ℝ) :
    DifferentiableAt ℝ (fun s => Spec.R.iux p s 0 u v) 0 := by
  have hi := (integrable_khu (p := p) ha hγ u).mul_prod (integrable_khu (p := p) ha hγ v)
  have hc : ∀ s, Continuous fun q : ℝ × ℝ => kx p (s - q.1) (0 - q.2) := fun s => by
    unfold kx
    fun_prop
  have hb : ∀ x y, ‖kx p x y‖ ≤ 1 := fun x y => by
    unfold kx
    rw [norm_of_nonneg (exp_pos _).le]
    exact exp_le_one_iff.2 (by have := mul_nonneg hl (abs_nonneg (x - y)); linarith)
  have hI : ∀ s, Integrable (fun q : ℝ × ℝ => khu p q.1 u * khu p q.2 v * kx p (s - q.1) (0 - q.2)) (volume.prod volume) := fun s =>
    hi.mul_bdd (c := 1) (hc s).aestronglyMeasurable (Eventually.of_forall fun q => hb _ _)
  have e : (fun s => Spec.R.iux p s 0 u v) = fun s => ∫ q : ℝ × ℝ, khu p q.1 u * khu p q.2 v * kx p (s - q.1) (0 - q.2)
      ∂(volume.prod volume) := by
    funext s
    rw [integral_prod _ (hI s)]
    rfl
  rw [e]
  have hne : ∀ᵐ q : ℝ × ℝ ∂(volume.prod volume), q.1 ≠ q.2 := by
    have hm : MeasurableSet {q : ℝ × ℝ | q.1 = q.2} := measurableSet_eq_fun measurable_fst measurable_snd
    rw [ae_iff]
    simp only [ne_eq, not_not]
    rw [Measure.measure_prod_null hm]
    refine Eventually.of_forall fun x => ?_
    have : Prod.mk x ⁻¹' {q : ℝ × ℝ | q.1 = q.2} = {x} := by
      ext y
      simp [eq_comm]
    beta_reduce
    rw [this]
    simp
  have := hasDerivAt_integral_of_dominated_loc_of_lip (μ := (volume.prod volume : Measure (ℝ × ℝ))) (x₀ := (0 : ℝ)) (s := univ)
    (F := fun s (q : ℝ × ℝ) => khu p q.1 u * khu p q.2 v * kx p (s - q.1) (0 - q.2))
    (F' := fun q => khu p q.1 u * khu p q.2 v * deriv (fun s => kx p (s - q.1) (0 - q.2)) 0)
    (bound := fun q => |khu p q.1 u * khu p q.2 v| * p.lam) univ_mem (Eventually.of_forall fun s => (hI s).aestronglyMeasurable)
    (hI 0) ?_ ?_ ?_ ?_
  · exact this.2.differentiableAt
  · refine hi.aestronglyMeasurable.mul ?_
    refine StronglyMeasurable.aestronglyMeasurable ?_
    have h1 : Measurable fun q : ℝ × ℝ => deriv (fun x => kx p x (0 - q.2)) (0 - q.1) := by
      have := measurable_deriv_with_param (𝕜 := ℝ) (f := fun (y : ℝ) (x : ℝ) => kx p x y) (by
        unfold Function.uncurry kx
        fun_prop)
      exact this.comp (by fun_prop : Measurable fun q : ℝ × ℝ => ((0 - q.2, 0 - q.1) : ℝ × ℝ))
    have e1 : (fun q : ℝ × ℝ => deriv (fun s => kx p (s - q.1) (0 - q.2)) 0) =
        fun q => deriv (fun x => kx p x (0 - q.2)) (0 - q.1) := by
      funext q
      rw [deriv_comp_sub_const (fun x => kx p x (0 - q.2))]
    rw [e1]
    exact h1.stronglyMeasurable
  · refine Eventually.of_forall fun q => ?_
    refine LipschitzOnWith.of_dist_le_mul fun x _ y _ => ?_
    rw [Real.dist_eq, Real.dist_eq, ← mul_sub, abs_mul]
    have h1 := kx_lip (p := p) hl (x - q.1) (y - q.1) (0 - q.2)
    rw [sub_sub_sub_cancel_right] at h1
    rw [Real.coe_nnabs, abs_of_nonneg (mul_nonneg (abs_nonneg _) hl), mul_assoc]
    exact mul_le_mul_of_nonneg_left h1 (abs_nonneg _)
  · exact hi.abs.mul_const _
  · filter_upwards [hne] with q hq
    have hd : DifferentiableAt ℝ (fun s => kx p (s - q.1) (0 - q.2)) 0 := by
      unfold kx
      have : (0 : ℝ) - q.1 - (0 - q.2) ≠ 0 := fun h => hq (by linarith)
      have h2 : DifferentiableAt ℝ (fun s : ℝ => |s - q.1 - (0 - q.2)|) 0 :=
        DifferentiableAt.comp (0 : ℝ) (g := fun x : ℝ => |x|) (f := fun s : ℝ => s - q.1 - (0 - q.2)) (differentiableAt_abs this) (by fun_prop)
      exact ((h2.const_mul p.lam).neg).exp
    exact hd.hasDerivAt.const_mul _

end Rgpcm

end Gpcm
