import Verif.Spec.Integrals
import Mathlib.Analysis.SpecialFunctions.Gaussian.GaussianIntegral
import Mathlib.MeasureTheory.Measure.Lebesgue.Integral
import Mathlib.MeasureTheory.Integral.Prod
import Mathlib.MeasureTheory.Integral.IntegralEqImproper

/-! # Gaussian integrals on the line and on the plane -/

open MeasureTheory Real

namespace Gpcm

theorem quad_complete {a : ℝ} (ha : a ≠ 0) (b c t : ℝ) :
    a * t ^ 2 + b * t + c = a * (t + b / (2 * a)) ^ 2 + (-(b ^ 2) / (4 * a) + c) := by
  field_simp
  ring

theorem exp_quad {a : ℝ} (ha : a ≠ 0) (b c t : ℝ) :
    exp (a * t ^ 2 + b * t + c) =
      exp (-(b ^ 2) / (4 * a) + c) * exp (-(-a) * (t + b / (2 * a)) ^ 2) := by
  rw [quad_complete ha, ← Real.exp_add]
  congr 1
  ring

theorem integrable_exp_quad {a : ℝ} (ha : a < 0) (b c : ℝ) :
    Integrable fun t : ℝ => exp (a * t ^ 2 + b * t + c) := by
  have h := (integrable_exp_neg_mul_sq (b := -a) (by linarith)).comp_add_right (b / (2 * a))
  refine (h.const_mul (exp (-(b ^ 2) / (4 * a) + c))).congr (Filter.Eventually.of_forall fun t => ?_)
  exact (exp_quad ha.ne b c t).symm

theorem integral_exp_quad {a : ℝ} (ha : a < 0) (b c : ℝ) :
    ∫ t : ℝ, exp (a * t ^ 2 + b * t + c) = √(-π / a) * exp (-(b ^ 2) / (4 * a) + c) := by
  have h1 : (fun t : ℝ => exp (a * t ^ 2 + b * t + c)) = fun t =>
      exp (-(b ^ 2) / (4 * a) + c) * exp (-(-a) * (t + b / (2 * a)) ^ 2) :=
    funext fun t => exp_quad ha.ne b c t
  rw [h1, integral_const_mul,
    integral_add_right_eq_self (fun t : ℝ => exp (-(-a) * t ^ 2)) (b / (2 * a)), integral_gaussian,
    mul_comm, show π / -a = -π / a by rw [div_neg, neg_div]]

/-- Not integrable unless the quadratic coefficient is negative. -/
theorem neg_of_integrable_exp_quad {a b c : ℝ}
    (h : Integrable fun t : ℝ => exp (a * t ^ 2 + b * t + c)) : a < 0 := by
  by_contra hna
  have ha : 0 ≤ a := not_lt.1 hna
  -- `f t + f (-t)` is at least `2 exp c`
  have h2 := h.add h.comp_neg
  have hconst : Integrable fun _ : ℝ => 2 * exp c := by
    refine h2.mono' (by fun_prop) (Filter.Eventually.of_forall fun t => ?_)
    rw [Real.norm_of_nonneg (by positivity)]
    simp only [Pi.add_apply]
    have e1 : exp (a * t ^ 2 + b * t + c) = exp (a * t ^ 2 + c) * exp (b * t) := by
      rw [← Real.exp_add]; congr 1; ring
    have e2 : exp (a * (-t) ^ 2 + b * (-t) + c) = exp (a * t ^ 2 + c) * exp (-(b * t)) := by
      rw [← Real.exp_add]; congr 1; ring
    rw [e1, e2, ← mul_add]
    have h3 : 2 ≤ exp (b * t) + exp (-(b * t)) := by
      have := Real.add_one_le_exp (b * t)
      have := Real.add_one_le_exp (-(b * t))
      linarith
    have h4 : exp c ≤ exp (a * t ^ 2 + c) := Real.exp_le_exp.2 (by nlinarith [sq_nonneg t])
    have h5 : 0 < exp c := Real.exp_pos c
    nlinarith [mul_le_mul h4 h3 (by norm_num) (by positivity)]
  rw [integrable_const_iff] at hconst
  rcases hconst with h0 | h0
  · have := Real.exp_pos c; linarith
  · simp [isFiniteMeasure_iff] at h0

theorem integrable_scaled_exp_quad {k a b c : ℝ} (hk : k ≠ 0)
    (h : Integrable fun t : ℝ => k * exp (a * t ^ 2 + b * t + c)) : a < 0 := by
  refine neg_of_integrable_exp_quad (b := b) (c := c) ?_
  refine (h.const_mul k⁻¹).congr (Filter.Eventually.of_forall fun t => ?_)
  simp only
  rw [← mul_assoc, inv_mul_cancel₀ hk, one_mul]

/-! ## Affine substitution on half lines -/

theorem integral_Iic_affine (f : ℝ → ℝ) {s : ℝ} (hs : 0 < s) (m b : ℝ) :
    ∫ t in Set.Iic b, f t = s * ∫ z in Set.Iic ((b - m) / s), f (m + s * z) := by
  rw [← integral_indicator measurableSet_Iic, ← integral_indicator measurableSet_Iic]
  have h1 : (Set.Iic ((b - m) / s)).indicator (fun z => f (m + s * z)) =
      fun z => (fun y => (Set.Iic b).indicator f (m + y)) (s * z) := by
    funext z
    by_cases hz : z ≤ (b - m) / s
    · have : m + s * z ≤ b := by
        rw [le_div_iff₀ hs] at hz; linarith
      simp [Set.indicator, hz, this]
    · have : ¬ (m + s * z ≤ b) := by
        intro h
        apply hz
        rw [le_div_iff₀ hs]; linarith
      simp [Set.indicator, hz, this]
  rw [h1, MeasureTheory.Measure.integral_comp_mul_left (fun y => (Set.Iic b).indicator f (m + y)) s,
    integral_add_left_eq_self (fun y => (Set.Iic b).indicator f y) m, abs_of_pos (inv_pos.2 hs),
    smul_eq_mul, ← mul_assoc, mul_inv_cancel₀ hs.ne', one_mul]

theorem integral_Iic_translate (f : ℝ → ℝ) (b : ℝ) :
    ∫ t in Set.Iic (0 : ℝ), f (t + b) = ∫ t in Set.Iic b, f t := by
  rw [integral_Iic_affine f one_pos b b]
  simp [add_comm]

theorem exp_sq_integrable : Integrable fun t : ℝ => exp (-t ^ 2) := by
  have := integrable_exp_neg_mul_sq (b := 1) one_pos
  simpa using this

theorem integral_Iic_exp_sq (b : ℝ) :
    ∫ t in Set.Iic b, exp (-t ^ 2) = √π / 2 * (1 + erf b) := by
  have h0 : ∫ t in Set.Iic (0 : ℝ), exp (-t ^ 2) = √π / 2 := by
    have h := integral_gaussian_Ioi 1
    have h2 := integral_comp_neg_Iic (0 : ℝ) fun t : ℝ => exp (-t ^ 2)
    simp only [neg_zero, even_two.neg_pow] at h2
    rw [h2]
    simpa using h
  have h1 := intervalIntegral.integral_Iic_sub_Iic (f := fun t : ℝ => exp (-t ^ 2)) (a := 0) (b := b)
    exp_sq_integrable.integrableOn exp_sq_integrable.integrableOn
  have h2 : ∫ t in Set.Iic b, exp (-t ^ 2) = √π / 2 + ∫ t in (0 : ℝ)..b, exp (-t ^ 2) := by
    linarith
  rw [h2, erf]
  have : √π ≠ 0 := by positivity
  field_simp

theorem erf_neg (x : ℝ) : erf (-x) = -erf x := by
  unfold erf
  have h := intervalIntegral.integral_comp_neg (a := (0 : ℝ)) (b := x) fun t : ℝ => exp (-t ^ 2)
  simp only [even_two.neg_pow, neg_zero] at h
  rw [intervalIntegral.integral_symm, ← h]
  ring

theorem integral_Iic_exp_quad {a : ℝ} (ha : a < 0) (b c : ℝ) :
    ∫ t in Set.Iic (0 : ℝ), exp (a * t ^ 2 + b * t + c) =
      0.5 * √(-π / a) * exp (-(b ^ 2) / (4 * a) + c) * (1 - erf (0.5 * b / √(-a))) := by
  have hna : 0 < -a := by linarith
  have hsq : 0 < √(-a) := Real.sqrt_pos.2 hna
  have hss : √(-a) ^ 2 = -a := Real.sq_sqrt hna.le
  have h1 : (fun t : ℝ => exp (a * t ^ 2 + b * t + c)) = fun t =>
      exp (-(b ^ 2) / (4 * a) + c) * exp (-(-a) * (t + b / (2 * a)) ^ 2) :=
    funext fun t => exp_quad ha.ne b c t
  rw [h1, integral_const_mul,
    integral_Iic_affine _ (inv_pos.2 hsq) (-(b / (2 * a))) 0]
  have h2 : (fun z : ℝ => exp (-(-a) * (-(b / (2 * a)) + (√(-a))⁻¹ * z + b / (2 * a)) ^ 2)) =
      fun z => exp (-z ^ 2) := by
    funext z
    congr 1
    have : -(b / (2 * a)) + (√(-a))⁻¹ * z + b / (2 * a) = (√(-a))⁻¹ * z := by ring
    have hane : a ≠ 0 := ha.ne
    rw [this, mul_pow, inv_pow, hss]
    field_simp
  rw [h2, integral_Iic_exp_sq]
  have h3 : (0 - -(b / (2 * a))) / (√(-a))⁻¹ = -(0.5 * b / √(-a)) := by
    have : a = -√(-a) ^ 2 := by rw [hss]; ring
    rw [eq_neg_iff_add_eq_zero]
    generalize √(-a) = r at this hsq
    subst this
    have hr : r ≠ 0 := hsq.ne'
    field_simp
    norm_num
    ring
  rw [h3, erf_neg]
  have h4 : √(-π / a) = √π / √(-a) := by
    rw [← Real.sqrt_div Real.pi_pos.le, div_neg, neg_div]
  rw [h4]
  have hne : √(-a) ≠ 0 := hsq.ne'
  field_simp
  ring

/-! ## The negative quadrant -/

section quadrant

variable {a11 a12 a22 : ℝ}

theorem integrable_biQuad (h11 : 0 < a11) (hdet : 0 < a11 * a22 - a12 ^ 2) (b1 b2 c : ℝ) :
    Integrable fun z : ℝ × ℝ => exp (biQuad a11 a12 a22 b1 b2 c z.1 z.2) := by
  have h22 : 0 < a22 := by
    by_contra h
    push Not at h
    nlinarith [sq_nonneg a12]
  have hsec : ∀ s : ℝ, (fun t : ℝ => exp (biQuad a11 a12 a22 b1 b2 c s t)) = fun t =>
      exp ((-a22 / 2) * t ^ 2 + (b2 - a12 * s) * t + (-a11 / 2 * s ^ 2 + b1 * s + c)) := by
    intro s; funext t; congr 1; unfold biQuad; ring
  rw [show (volume : Measure (ℝ × ℝ)) = volume.prod volume from rfl, integrable_prod_iff (by
    apply Continuous.aestronglyMeasurable
    unfold biQuad
    fun_prop)]
  constructor
  · refine Filter.Eventually.of_forall fun s => ?_
    simp only
    rw [hsec s]
    exact integrable_exp_quad (by linarith) _ _
  · have : (fun s : ℝ => ∫ t, ‖exp (biQuad a11 a12 a22 b1 b2 c s t)‖) = fun s =>
        √(-π / (-a22 / 2)) * exp ((-(a11 * a22 - a12 ^ 2) / (2 * a22)) * s ^ 2 +
          (b1 - a12 * b2 / a22) * s + (b2 ^ 2 / (2 * a22) + c)) := by
      funext s
      have hn : (fun t : ℝ => ‖exp (biQuad a11 a12 a22 b1 b2 c s t)‖) =
          fun t => exp (biQuad a11 a12 a22 b1 b2 c s t) :=
        funext fun t => Real.norm_of_nonneg (Real.exp_pos _).le
      rw [hn, hsec s, integral_exp_quad (by linarith)]
      congr 2
      field_simp
      ring
    rw [this]
    exact (integrable_exp_quad (div_neg_of_neg_of_pos (by linarith) (by linarith)) _ _).const_mul _

theorem integral_quadrant (h11 : 0 < a11) (h22 : 0 < a22) (hdet : 0 < a11 * a22 - a12 ^ 2)
    (b1 b2 c : ℝ) :
    let d := a11 * a22 - a12 ^ 2
    let i11 := a22 / d
    let i12 := -a12 / d
    let i22 := a11 / d
    let m1 := i11 * b1 + i12 * b2
    let m2 := i12 * b1 + i22 * b2
    ∫ s in Set.Iic (0 : ℝ), ∫ t in Set.Iic (0 : ℝ), exp (biQuad a11 a12 a22 b1 b2 c s t) =
      bvnCdf (-m1 / √i11) (-m2 / √i22) (i12 / √(i11 * i22)) *
        (2 * π / √d * exp (0.5 * (i11 * b1 ^ 2 + i22 * b2 ^ 2 + 2 * i12 * b1 * b2) + c)) := by
  intro d i11 i12 i22 m1 m2
  have hd : 0 < d := hdet
  have hi11 : 0 < i11 := div_pos h22 hd
  have hi22 : 0 < i22 := div_pos h11 hd
  have hs1 : 0 < √i11 := Real.sqrt_pos.2 hi11
  have hs2 : 0 < √i22 := Real.sqrt_pos.2 hi22
  set σ := √i11 with hσ
  set τ := √i22 with hτ
  have hσ2 : σ ^ 2 = i11 := Real.sq_sqrt hi11.le
  have hτ2 : τ ^ 2 = i22 := Real.sq_sqrt hi22.le
  have hst : √(i11 * i22) = σ * τ := Real.sqrt_mul hi11.le _
  rw [hst]
  set ρ := i12 / (σ * τ) with hρ
  have hρ1 : 1 - ρ ^ 2 = 1 / (i11 * i22 * d) := by
    rw [hρ, div_pow, mul_pow, hσ2, hτ2]
    simp only [i11, i22, i12]
    have : d ≠ 0 := hd.ne'
    have e : d = a11 * a22 - a12 ^ 2 := rfl
    field_simp
    rw [e]; ring
  have hpos : 0 < 1 - ρ ^ 2 := by rw [hρ1]; positivity
  -- substitute in both integrals
  rw [integral_Iic_affine _ hs1 m1 0]
  have hin : ∀ z : ℝ, ∫ t in Set.Iic (0 : ℝ), exp (biQuad a11 a12 a22 b1 b2 c (m1 + σ * z) t) =
      τ * ∫ w in Set.Iic ((0 - m2) / τ),
        exp (biQuad a11 a12 a22 b1 b2 c (m1 + σ * z) (m2 + τ * w)) := fun z =>
    integral_Iic_affine _ hs2 m2 0
  simp only [hin]
  -- the exponent after substitution
  set E := exp (0.5 * (i11 * b1 ^ 2 + i22 * b2 ^ 2 + 2 * i12 * b1 * b2) + c) with hE
  have hexp : ∀ z w : ℝ, exp (biQuad a11 a12 a22 b1 b2 c (m1 + σ * z) (m2 + τ * w)) =
      E * (2 * π * √(1 - ρ ^ 2)) * bvnDensity ρ z w := by
    intro z w
    have hne : 2 * π * √(1 - ρ ^ 2) ≠ 0 := by
      have := Real.sqrt_pos.2 hpos
      positivity
    have key : biQuad a11 a12 a22 b1 b2 c (m1 + σ * z) (m2 + τ * w) =
        (0.5 * (i11 * b1 ^ 2 + i22 * b2 ^ 2 + 2 * i12 * b1 * b2) + c) +
          -(z ^ 2 - 2 * ρ * z * w + w ^ 2) / (2 * (1 - ρ ^ 2)) := by
      have hq : -(z ^ 2 - 2 * ρ * z * w + w ^ 2) / (2 * (1 - ρ ^ 2)) =
          -(a11 * σ ^ 2 * z ^ 2 + 2 * a12 * (σ * τ) * z * w + a22 * τ ^ 2 * w ^ 2) / 2 := by
        rw [hρ1, hσ2, hτ2, hρ]
        have hστ : (σ * τ) ^ 2 = i11 * i22 := by rw [mul_pow, hσ2, hτ2]
        have hdne : d ≠ 0 := hd.ne'
        have hστne : σ * τ ≠ 0 := by positivity
        have h12 : i12 / (σ * τ) = i12 * (σ * τ) / (i11 * i22) := by
          rw [← hστ]; field_simp
        rw [h12]
        simp only [i11, i22, i12]
        field_simp
        ring
      rw [hq]
      have hdne : d ≠ 0 := hd.ne'
      have e1 : a11 * m1 + a12 * m2 = b1 := by
        simp only [m1, m2, i11, i12, i22]
        have e : d = a11 * a22 - a12 ^ 2 := rfl
        field_simp
        rw [e]; ring
      have e2 : a12 * m1 + a22 * m2 = b2 := by
        simp only [m1, m2, i11, i12, i22]
        have e : d = a11 * a22 - a12 ^ 2 := rfl
        field_simp
        rw [e]; ring
      have e3 : i11 * b1 ^ 2 + i22 * b2 ^ 2 + 2 * i12 * b1 * b2 = b1 * m1 + b2 * m2 := by
        simp only [m1, m2]; ring
      rw [e3, ← e1, ← e2]
      unfold biQuad
      ring
    rw [key, Real.exp_add, bvnDensity, hE]
    field_simp
  simp only [hexp, integral_const_mul, bvnCdf]
  have hsd : σ * τ * √(1 - ρ ^ 2) = 1 / √d := by
    rw [hρ1, ← hst, ← Real.sqrt_mul (by positivity), ← Real.sqrt_one,
      ← Real.sqrt_div (by norm_num), Real.sqrt_one]
    congr 1
    field_simp
  simp only [zero_sub]
  have : ∀ I : ℝ, σ * (τ * (E * (2 * π * √(1 - ρ ^ 2)) * I)) =
      (σ * τ * √(1 - ρ ^ 2)) * (I * (2 * π * E)) := fun I => by ring
  rw [this, hsd]
  ring

end quadrant

end Gpcm
