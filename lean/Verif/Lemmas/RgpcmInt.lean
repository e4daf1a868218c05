import Verif.Model.RGPCM
import Verif.Spec.RGPCM
import Mathlib.MeasureTheory.Integral.IntervalIntegral.FundThmCalculus
import Mathlib.MeasureTheory.Integral.DivergenceTheorem
import Mathlib.Analysis.SpecialFunctions.ExpDeriv
import Mathlib.Analysis.Calculus.Deriv.Abs
import Mathlib.Analysis.SpecialFunctions.Trigonometric.Deriv
import Mathlib.Analysis.SpecialFunctions.ImproperIntegrals

/-! # Closed forms of the integrals in the RGPCM -/

open MeasureTheory Real Set

namespace Gpcm.Rgpcm

/-- The fundamental theorem of calculus for a function with one kink. -/
theorem ftc_off {f f' : ℝ → ℝ} (z : ℝ) (hf : Continuous f) (hf' : Continuous f')
    (hd : ∀ x, x ≠ z → HasDerivAt f (f' x) x) (a b : ℝ) : ∫ x in a..b, f' x = f b - f a := by
  refine MeasureTheory.integral_eq_of_hasDerivAt_off_countable f f' (s := {z}) (by simp) hf.continuousOn ?_
    (hf'.intervalIntegrable a b)
  intro x hx
  exact hd x (fun h => hx.2 (by simpa using h))

/-! ## `integral_abcd` -/

/-- The integrand. -/
noncomputable def absE (c d x y : ℝ) : ℝ := exp (c * (x + y) - d * |x - y|)

theorem absE_le {c d x y : ℝ} (h : x ≤ y) : absE c d x y = exp ((c + d) * x + (c - d) * y) := by
  rw [absE, abs_of_nonpos (by linarith)]
  congr 1
  ring

theorem absE_ge {c d x y : ℝ} (h : y ≤ x) : absE c d x y = exp ((c - d) * x + (c + d) * y) := by
  rw [absE, abs_of_nonneg (by linarith)]
  congr 1
  ring

/-- Antiderivative in the second argument, times `c² - d²`. -/
noncomputable def absJ (c d x y : ℝ) : ℝ :=
  c * absE c d x y +
    d * (if x ≤ y then absE c d x y - exp (2 * c * x) else exp (2 * c * x) - absE c d x y)

theorem continuous_absE {α : Type*} [TopologicalSpace α] (c d : ℝ) {f g : α → ℝ} (hf : Continuous f)
    (hg : Continuous g) : Continuous fun t => absE c d (f t) (g t) := by
  unfold absE
  fun_prop

theorem continuous_absJ {α : Type*} [TopologicalSpace α] (c d : ℝ) {f g : α → ℝ} (hf : Continuous f)
    (hg : Continuous g) : Continuous fun t => absJ c d (f t) (g t) := by
  unfold absJ
  have h1 := continuous_absE c d hf hg
  refine (continuous_const.mul h1).add (continuous_const.mul ?_)
  refine Continuous.if_le (by fun_prop) (by fun_prop) hf hg ?_
  intro t ht
  rw [ht, absE_le le_rfl]
  ring_nf

theorem hasDerivAt_absJ (c d x : ℝ) {y : ℝ} (h : y ≠ x) :
    HasDerivAt (absJ c d x) ((c ^ 2 - d ^ 2) * absE c d x y) y := by
  rcases lt_or_gt_of_ne h with h | h
  · have hd : HasDerivAt (fun y => (c - d) * exp ((c - d) * x + (c + d) * y) + d * exp (2 * c * x))
        ((c ^ 2 - d ^ 2) * absE c d x y) y := by
      have h1 : HasDerivAt (fun y : ℝ => (c - d) * x + (c + d) * y) (c + d) y := by
        simpa using ((hasDerivAt_id y).const_mul (c + d)).const_add ((c - d) * x)
      have := (h1.exp.const_mul (c - d)).add_const (d * exp (2 * c * x))
      refine this.congr_deriv ?_
      rw [absE_ge h.le]
      ring
    refine hd.congr_of_eventuallyEq ?_
    filter_upwards [Iio_mem_nhds h] with z hz
    rw [absJ, if_neg (not_le.2 hz), absE_ge (le_of_lt hz)]
    ring
  · have hd : HasDerivAt (fun y => (c + d) * exp ((c + d) * x + (c - d) * y) - d * exp (2 * c * x))
        ((c ^ 2 - d ^ 2) * absE c d x y) y := by
      have h1 : HasDerivAt (fun y : ℝ => (c + d) * x + (c - d) * y) (c - d) y := by
        simpa using ((hasDerivAt_id y).const_mul (c - d)).const_add ((c + d) * x)
      have := (h1.exp.const_mul (c + d)).sub_const (d * exp (2 * c * x))
      refine this.congr_deriv ?_
      rw [absE_le h.le]
      ring
    refine hd.congr_of_eventuallyEq ?_
    filter_upwards [Ioi_mem_nhds h] with z hz
    rw [absJ, if_pos (le_of_lt hz), absE_le (le_of_lt hz)]
    ring

/-- Antiderivative of `absJ` in the first argument. -/
noncomputable def absP (c d x y : ℝ) : ℝ :=
  absE c d x y - d / (2 * c) * (exp (2 * c * min x y) - exp (2 * c * max x y))

theorem hasDerivAt_absP {c d : ℝ} (hc : c ≠ 0) {x y : ℝ} (h : x ≠ y) :
    HasDerivAt (fun x => absP c d x y) (absJ c d x y) x := by
  have he : HasDerivAt (fun x : ℝ => exp (2 * c * x)) (2 * c * exp (2 * c * x)) x := by
    have := ((hasDerivAt_id x).const_mul (2 * c)).exp
    simpa [mul_comm] using this
  rcases lt_or_gt_of_ne h with h | h
  · have hd : HasDerivAt (fun x => exp ((c + d) * x + (c - d) * y) -
        d / (2 * c) * (exp (2 * c * x) - exp (2 * c * y))) (absJ c d x y) x := by
      have h1 : HasDerivAt (fun x : ℝ => (c + d) * x + (c - d) * y) (c + d) x := by
        simpa using ((hasDerivAt_id x).const_mul (c + d)).add_const ((c - d) * y)
      have := h1.exp.sub ((he.sub_const (exp (2 * c * y))).const_mul (d / (2 * c)))
      refine this.congr_deriv ?_
      rw [absJ, if_pos h.le, absE_le h.le]
      field_simp
      ring
    refine hd.congr_of_eventuallyEq ?_
    filter_upwards [Iio_mem_nhds h] with z hz
    rw [absP, absE_le (le_of_lt hz), min_eq_left (le_of_lt hz), max_eq_right (le_of_lt hz)]
  · have hd : HasDerivAt (fun x => exp ((c - d) * x + (c + d) * y) -
        d / (2 * c) * (exp (2 * c * y) - exp (2 * c * x))) (absJ c d x y) x := by
      have h1 : HasDerivAt (fun x : ℝ => (c - d) * x + (c + d) * y) (c - d) x := by
        simpa using ((hasDerivAt_id x).const_mul (c - d)).add_const ((c + d) * y)
      have := h1.exp.sub ((he.const_sub (exp (2 * c * y))).const_mul (d / (2 * c)))
      refine this.congr_deriv ?_
      rw [absJ, if_neg (not_le.2 h), absE_ge h.le]
      field_simp
      ring
    refine hd.congr_of_eventuallyEq ?_
    filter_upwards [Ioi_mem_nhds h] with z hz
    rw [absP, absE_ge (le_of_lt hz), min_eq_right (le_of_lt hz), max_eq_left (le_of_lt hz)]

theorem inner_absE {c d : ℝ} (hcd : c ^ 2 - d ^ 2 ≠ 0) (x b₁ b₂ : ℝ) :
    ∫ y in b₁..b₂, absE c d x y = (absJ c d x b₂ - absJ c d x b₁) / (c ^ 2 - d ^ 2) := by
  rw [eq_div_iff hcd, mul_comm, ← intervalIntegral.integral_const_mul]
  exact ftc_off x (continuous_absJ c d continuous_const continuous_id)
    (continuous_const.mul (continuous_absE c d continuous_const continuous_id))
    (fun y hy => hasDerivAt_absJ c d x hy) b₁ b₂

/-- The double integral over any box. -/
theorem double_absE {c d : ℝ} (hc : c ≠ 0) (hcd : c ^ 2 - d ^ 2 ≠ 0) (a₁ a₂ b₁ b₂ : ℝ) :
    ∫ x in a₁..a₂, ∫ y in b₁..b₂, absE c d x y =
      (absP c d a₂ b₂ - absP c d a₁ b₂ - absP c d a₂ b₁ + absP c d a₁ b₁) / (c ^ 2 - d ^ 2) := by
  have hJ : ∀ b, Continuous fun x => absJ c d x b := fun b =>
    continuous_absJ c d continuous_id continuous_const
  have hP : ∀ b, Continuous fun x => absP c d x b := fun b => by
    have := continuous_absE c d continuous_id (continuous_const (y := b))
    unfold absP
    exact this.sub (by fun_prop)
  have h : ∀ b, ∫ x in a₁..a₂, absJ c d x b = absP c d a₂ b - absP c d a₁ b := fun b =>
    ftc_off b (hP b) (hJ b) (fun x hx => hasDerivAt_absP hc hx) a₁ a₂
  simp_rw [inner_absE hcd]
  rw [intervalIntegral.integral_div, intervalIntegral.integral_sub ((hJ _).intervalIntegrable _ _)
    ((hJ _).intervalIntegrable _ _), h, h]
  ring

/-- `integral_abcd` in terms of the antiderivative. -/
theorem integralAbcd_eq {c : ℝ} (hc : c ≠ 0) (a b d : ℝ) :
    RgpcmModel.integralAbcd a b c d =
      (absP c d a b - absP c d 0 b - absP c d a 0 + absP c d 0 0) / (c ^ 2 - d ^ 2) := by
  have hE0 : absE c d 0 0 = 1 := by simp [absE]
  have hEa : absE c d a 0 = exp (c * a - d * |a|) := by simp [absE]
  have hEb : absE c d 0 b = exp (c * b - d * |b|) := by simp [absE]
  have key : (if a * b ≥ 0 then (1 : ℝ) else 0) *
      (Real.sign a * d / c * (1 - exp (2 * c * Real.sign a * min |a| |b|))) =
      -(d / (2 * c) * (exp (2 * c * min a b) - exp (2 * c * max a b))) +
      d / (2 * c) * (exp (2 * c * min 0 b) - exp (2 * c * max 0 b)) +
      d / (2 * c) * (exp (2 * c * min a 0) - exp (2 * c * max a 0)) := by
    rcases lt_trichotomy a 0 with ha | ha | ha
    · rw [Real.sign_of_neg ha, min_eq_left ha.le, max_eq_right ha.le, abs_of_neg ha]
      rcases lt_or_ge 0 b with hb | hb
      · rw [if_neg (not_le.2 (mul_neg_of_neg_of_pos ha hb)), min_eq_left (ha.le.trans hb.le),
          max_eq_right (ha.le.trans hb.le), min_eq_left hb.le, max_eq_right hb.le]
        ring
      · rw [if_pos (mul_nonneg_of_nonpos_of_nonpos ha.le hb), abs_of_nonpos hb, min_eq_right hb,
          max_eq_left hb, min_neg_neg]
        have : min a b = a ∧ max a b = b ∨ min a b = b ∧ max a b = a := by
          rcases le_total a b with h | h
          · exact .inl ⟨min_eq_left h, max_eq_right h⟩
          · exact .inr ⟨min_eq_right h, max_eq_left h⟩
        rcases this with ⟨h1, h2⟩ | ⟨h1, h2⟩ <;> rw [h1, h2] <;> simp <;> field_simp <;> ring
    · subst ha
      simp
    · rw [Real.sign_of_pos ha, min_eq_right ha.le, max_eq_left ha.le, abs_of_pos ha]
      rcases lt_or_ge b 0 with hb | hb
      · rw [if_neg (not_le.2 (mul_neg_of_pos_of_neg ha hb)), min_eq_right (hb.le.trans ha.le),
          max_eq_left (hb.le.trans ha.le), min_eq_right hb.le, max_eq_left hb.le]
        ring
      · rw [if_pos (mul_nonneg ha.le hb), abs_of_nonneg hb, min_eq_left hb, max_eq_right hb]
        have : min a b = a ∧ max a b = b ∨ min a b = b ∧ max a b = a := by
          rcases le_total a b with h | h
          · exact .inl ⟨min_eq_left h, max_eq_right h⟩
          · exact .inr ⟨min_eq_right h, max_eq_left h⟩
        rcases this with ⟨h1, h2⟩ | ⟨h1, h2⟩ <;> rw [h1, h2] <;> simp <;> field_simp <;> ring
  have e : absE c d a b = exp (c * (a + b) - d * |a - b|) := rfl
  unfold RgpcmModel.integralAbcd
  simp only
  rw [key, ← e, ← hEa, ← hEb]
  unfold absP
  rw [hE0]
  simp only [min_self, max_self, sub_self, mul_zero, sub_zero]
  congr 1
  ring

theorem integralAbcdLu_eq {c : ℝ} (hc : c ≠ 0) (a₁ a₂ b₁ b₂ d : ℝ) :
    RgpcmModel.integralAbcdLu a₁ a₂ b₁ b₂ c d =
      (absP c d a₂ b₂ - absP c d a₁ b₂ - absP c d a₂ b₁ + absP c d a₁ b₁) / (c ^ 2 - d ^ 2) := by
  unfold RgpcmModel.integralAbcdLu
  simp only [integralAbcd_eq hc]
  ring

theorem absP_symm (c d x y : ℝ) : absP c d x y = absP c d y x := by
  unfold absP absE
  rw [min_comm, max_comm, abs_sub_comm, add_comm x y]

theorem absP_shift (c d x y s : ℝ) : absP c d (x - s) (y - s) = exp (-(2 * c * s)) * absP c d x y := by
  have h1 : absE c d (x - s) (y - s) = exp (-(2 * c * s)) * absE c d x y := by
    unfold absE
    rw [← exp_add, show x - s - (y - s) = x - y by ring]
    congr 1
    ring
  have h2 : ∀ z, exp (2 * c * (z - s)) = exp (-(2 * c * s)) * exp (2 * c * z) := fun z => by
    rw [← exp_add]
    congr 1
    ring
  unfold absP
  rw [h1, min_sub_sub_right, max_sub_sub_right, h2, h2]
  ring

/-! ## Waves against an exponential -/

/-- The integral of an exponential and a cosine. -/
theorem integral_exp_cos {k ω : ℝ} (h : k ^ 2 + ω ^ 2 ≠ 0) (a l t : ℝ) :
    ∫ τ in l..t, exp (-(k * (t - τ))) * cos (ω * (τ - a)) =
      (k * cos (ω * (t - a)) + ω * sin (ω * (t - a)) -
        exp (-(k * (t - l))) * (k * cos (ω * (l - a)) + ω * sin (ω * (l - a)))) / (k ^ 2 + ω ^ 2) := by
  have hd : ∀ τ ∈ uIcc l t, HasDerivAt (fun τ => exp (-(k * (t - τ))) *
      (k * cos (ω * (τ - a)) + ω * sin (ω * (τ - a))) / (k ^ 2 + ω ^ 2))
      (exp (-(k * (t - τ))) * cos (ω * (τ - a))) τ := by
    intro τ _
    have h1 : HasDerivAt (fun τ : ℝ => -(k * (t - τ))) k τ := by
      simpa using ((hasDerivAt_id τ).const_sub t).const_mul (-k)
    have h2 : HasDerivAt (fun τ : ℝ => ω * (τ - a)) ω τ := by
      simpa using ((hasDerivAt_id τ).sub_const a).const_mul ω
    have := (h1.exp.mul ((h2.cos.const_mul k).add (h2.sin.const_mul ω))).div_const (k ^ 2 + ω ^ 2)
    refine this.congr_deriv ?_
    rw [div_eq_iff h]
    simp only [Pi.add_apply]
    ring
  rw [intervalIntegral.integral_eq_sub_of_hasDerivAt hd
    (Continuous.intervalIntegrable (by fun_prop) _ _)]
  simp only [sub_self, mul_zero, neg_zero, exp_zero, one_mul]
  ring

/-- The integral of an exponential and a sine. -/
theorem integral_exp_sin {k ω : ℝ} (h : k ^ 2 + ω ^ 2 ≠ 0) (a l t : ℝ) :
    ∫ τ in l..t, exp (-(k * (t - τ))) * sin (ω * (τ - a)) =
      (k * sin (ω * (t - a)) - ω * cos (ω * (t - a)) -
        exp (-(k * (t - l))) * (k * sin (ω * (l - a)) - ω * cos (ω * (l - a)))) / (k ^ 2 + ω ^ 2) := by
  have hd : ∀ τ ∈ uIcc l t, HasDerivAt (fun τ => exp (-(k * (t - τ))) *
      (k * sin (ω * (τ - a)) - ω * cos (ω * (τ - a))) / (k ^ 2 + ω ^ 2))
      (exp (-(k * (t - τ))) * sin (ω * (τ - a))) τ := by
    intro τ _
    have h1 : HasDerivAt (fun τ : ℝ => -(k * (t - τ))) k τ := by
      simpa using ((hasDerivAt_id τ).const_sub t).const_mul (-k)
    have h2 : HasDerivAt (fun τ : ℝ => ω * (τ - a)) ω τ := by
      simpa using ((hasDerivAt_id τ).sub_const a).const_mul ω
    have := (h1.exp.mul ((h2.sin.const_mul k).sub (h2.cos.const_mul ω))).div_const (k ^ 2 + ω ^ 2)
    refine this.congr_deriv ?_
    rw [div_eq_iff h]
    simp only [Pi.sub_apply]
    ring
  rw [intervalIntegral.integral_eq_sub_of_hasDerivAt hd
    (Continuous.intervalIntegrable (by fun_prop) _ _)]
  simp only [sub_self, mul_zero, neg_zero, exp_zero, one_mul]
  ring

/-! ## The supports of the kernels -/

open Spec.R

variable (p : Params)

/-- An integral against the covariance of the filter and an inducing variable. -/
theorem integral_khu {u : ℝ} (hu : 0 ≤ u) (f : ℝ → ℝ) :
    ∫ s, khu p s u * f s =
      ∫ s in (0 : ℝ)..u, p.alphaT * p.gammaT * exp (-(p.alpha * s)) * exp (-(p.gamma * (u - s))) * f s := by
  rw [intervalIntegral.integral_of_le hu, ← integral_Icc_eq_integral_Ioc,
    ← integral_indicator measurableSet_Icc]
  congr 1
  funext s
  unfold khu win smooth
  by_cases h : s ∈ Icc 0 u
  · rw [indicator_of_mem h, if_pos h.1, if_pos h.2]
    ring
  · rw [indicator_of_notMem h]
    by_cases h0 : 0 ≤ s
    · rw [if_neg (fun h1 : s ≤ u => h ⟨h0, h1⟩)]
      ring
    · rw [if_neg h0]
      ring

/-- The covariance of the signal given the inducing variables of the filter, as a box integral. -/
theorem spec_iux_eq (t1 t2 : ℝ) {u1 u2 : ℝ} (h1 : 0 ≤ u1) (h2 : 0 ≤ u2) :
    Spec.R.iux p t1 t2 u1 u2 =
      p.alphaT ^ 2 * p.gammaT ^ 2 * exp (-p.gamma * (u1 + u2) + (p.gamma - p.alpha) * (t1 + t2)) *
      ∫ x in (-t1)..(u1 - t1), ∫ y in (-t2)..(u2 - t2), absE (p.gamma - p.alpha) p.lam x y := by
  unfold Spec.R.iux
  have e1 : ∀ s1, ∫ s2, khu p s1 u1 * khu p s2 u2 * kx p (t1 - s1) (t2 - s2) =
      khu p s1 u1 * ∫ s2 in (0 : ℝ)..u2, p.alphaT * p.gammaT * exp (-(p.alpha * s2)) *
        exp (-(p.gamma * (u2 - s2))) * kx p (t1 - s1) (t2 - s2) := fun s1 => by
    rw [← integral_khu p h2, ← integral_const_mul]
    congr 1
    funext s2
    ring
  simp_rw [e1]
  rw [integral_khu p h1, ← intervalIntegral.integral_const_mul]
  have e2 := intervalIntegral.integral_comp_sub_right (a := 0) (b := u1) (fun x =>
    p.alphaT ^ 2 * p.gammaT ^ 2 * exp (-p.gamma * (u1 + u2) + (p.gamma - p.alpha) * (t1 + t2)) *
    ∫ y in (-t2)..(u2 - t2), absE (p.gamma - p.alpha) p.lam x y) t1
  rw [zero_sub] at e2
  rw [← e2]
  refine intervalIntegral.integral_congr fun s1 _ => ?_
  have e3 := intervalIntegral.integral_comp_sub_right (a := 0) (b := u2) (fun y =>
    absE (p.gamma - p.alpha) p.lam (s1 - t1) y) t2
  rw [zero_sub] at e3
  rw [← e3, ← intervalIntegral.integral_const_mul, ← intervalIntegral.integral_const_mul]
  refine intervalIntegral.integral_congr fun s2 _ => ?_
  unfold kx absE
  rw [show t1 - s1 - (t2 - s2) = -(s1 - t1 - (s2 - t2)) by ring, abs_neg]
  have : exp (-p.gamma * (u1 + u2) + (p.gamma - p.alpha) * (t1 + t2)) *
      exp ((p.gamma - p.alpha) * (s1 - t1 + (s2 - t2)) - p.lam * |s1 - t1 - (s2 - t2)|) =
      exp (-(p.alpha * s1)) * exp (-(p.gamma * (u1 - s1))) * (exp (-(p.alpha * s2)) *
        exp (-(p.gamma * (u2 - s2)))) * exp (-(p.lam * |s1 - t1 - (s2 - t2)|)) := by
    simp only [← exp_add]
    congr 1
    ring
  linear_combination (-(p.alphaT ^ 2 * p.gammaT ^ 2)) * this

theorem continuous_wave (m : ℕ) : Continuous (wave p m) := by
  unfold wave
  split <;> fun_prop

theorem phi_inside (m : ℕ) {τ : ℝ} (ha : p.a ≤ τ) (hb : τ ≤ p.b) : phi p m τ = wave p m τ := by
  rw [phi, if_neg (not_lt.2 ha), if_pos hb]

theorem phi_before (m : ℕ) {τ : ℝ} (ha : τ < p.a) :
    phi p m τ = (if (m : ℤ) ≤ p.M then 1 else 0) * exp (-(p.lam * (p.a - τ))) := by
  rw [phi, if_pos ha]
  split <;> simp

/-- The mean of the signal given the inducing variables, as an integral over the support. -/
theorem spec_iuz_eq {t u : ℝ} (hu : 0 ≤ u) (ha : p.a ≤ t - u) (hb : t ≤ p.b) (m : ℕ) :
    Spec.R.iuz p t u m = p.alphaT * p.gammaT * exp (-p.gamma * u) *
      ∫ τ in (t - u)..t, exp (-((p.alpha - p.gamma) * (t - τ))) * wave p m τ := by
  unfold Spec.R.iuz
  have e := integral_sub_left_eq_self (fun s => khu p s u * phi p m (t - s)) volume t
  simp only [sub_sub_cancel] at e
  rw [e, integral_khu p hu, ← intervalIntegral.integral_const_mul]
  have e2 := intervalIntegral.integral_comp_sub_left (a := 0) (b := u) (fun τ =>
    p.alphaT * p.gammaT * exp (-p.gamma * u) * (exp (-((p.alpha - p.gamma) * (t - τ))) * wave p m τ)) t
  rw [sub_zero] at e2
  rw [← e2]
  refine intervalIntegral.integral_congr fun s hs => ?_
  rw [uIcc_of_le hu] at hs
  simp only [sub_sub_cancel]
  rw [phi_inside p m (by linarith [hs.2]) (by linarith [hs.1])]
  have : exp (-(p.alpha * s)) * exp (-(p.gamma * (u - s))) =
      exp (-p.gamma * u) * exp (-((p.alpha - p.gamma) * s)) := by
    simp only [← exp_add]
    congr 1
    ring
  linear_combination (p.alphaT * p.gammaT * wave p m (t - s)) * this

/-- The second moment of the signal given the inducing variables of the noise: the tail before `a` and the part
on `[a, t]`. -/
theorem spec_ihz_eq (hα : 0 < p.alpha) (hl : 0 < p.lam) {t : ℝ} (ha : p.a ≤ t) (hb : t ≤ p.b) (m n : ℕ) :
    Spec.R.ihz p t m n = p.alphaT ^ 2 *
      (((if (m : ℤ) ≤ p.M then 1 else 0) * (if (n : ℤ) ≤ p.M then 1 else 0)) *
          (exp (-(2 * p.alpha * (t - p.a))) / (2 * (p.alpha + p.lam))) +
        ∫ τ in p.a..t, exp (-(2 * p.alpha * (t - τ))) * (wave p m τ * wave p n τ)) := by
  obtain ⟨K, hK⟩ : ∃ K : ℝ, K = (if (m : ℤ) ≤ p.M then 1 else 0) * (if (n : ℤ) ≤ p.M then 1 else 0) :=
    ⟨_, rfl⟩
  rw [← hK]
  have hpos : 0 < 2 * (p.alpha + p.lam) := by positivity
  obtain ⟨F, hF⟩ : ∃ F : ℝ → ℝ, F = fun τ => p.alphaT ^ 2 * (exp (-(2 * p.alpha * (t - τ))) *
    (phi p m τ * phi p n τ)) := ⟨_, rfl⟩
  have e1 : Spec.R.ihz p t m n = ∫ τ in Iic t, F τ := by
    unfold Spec.R.ihz
    rw [← integral_indicator measurableSet_Iic]
    congr 1
    funext τ
    unfold win
    by_cases h : τ ∈ Iic t
    · rw [indicator_of_mem h, if_pos (sub_nonneg.2 h), hF]
      have : exp (-(2 * p.alpha * (t - τ))) = exp (-(p.alpha * (t - τ))) * exp (-(p.alpha * (t - τ))) := by
        rw [← exp_add]
        congr 1
        ring
      simp only [this]
      ring
    · rw [indicator_of_notMem h, if_neg (by simpa using h)]
      ring
  have htail : ∀ τ ∈ Iio p.a, F τ = p.alphaT ^ 2 * K * exp (-(2 * p.alpha * t + 2 * p.lam * p.a)) *
      exp (2 * (p.alpha + p.lam) * τ) := by
    intro τ hτ
    rw [hF]
    simp only
    rw [phi_before p m hτ, phi_before p n hτ, hK]
    have : exp (-(2 * p.alpha * (t - τ))) * (exp (-(p.lam * (p.a - τ))) * exp (-(p.lam * (p.a - τ)))) =
        exp (-(2 * p.alpha * t + 2 * p.lam * p.a)) * exp (2 * (p.alpha + p.lam) * τ) := by
      simp only [← exp_add]
      congr 1
      ring
    linear_combination (p.alphaT ^ 2 * ((if (m : ℤ) ≤ p.M then 1 else 0) *
      (if (n : ℤ) ≤ p.M then 1 else 0))) * this
  have hI1 : IntegrableOn F (Iic p.a) := by
    rw [integrableOn_Iic_iff_integrableOn_Iio]
    refine IntegrableOn.congr_fun ?_ (fun τ hτ => (htail τ hτ).symm) measurableSet_Iio
    exact ((integrableOn_exp_mul_Iic hpos p.a).mono_set Iio_subset_Iic_self).const_mul _
  have hmid : ∀ τ ∈ Ioc p.a t, F τ = p.alphaT ^ 2 * (exp (-(2 * p.alpha * (t - τ))) *
      (wave p m τ * wave p n τ)) := by
    intro τ hτ
    rw [hF]
    simp only
    rw [phi_inside p m hτ.1.le (hτ.2.trans hb), phi_inside p n hτ.1.le (hτ.2.trans hb)]
  have hcont : Continuous fun τ => p.alphaT ^ 2 * (exp (-(2 * p.alpha * (t - τ))) *
      (wave p m τ * wave p n τ)) := by
    have h1 := continuous_wave p m
    have h2 := continuous_wave p n
    fun_prop
  have hI2 : IntegrableOn F (Ioc p.a t) :=
    IntegrableOn.congr_fun (hcont.integrableOn_Ioc) (fun τ hτ => (hmid τ hτ).symm) measurableSet_Ioc
  have hI3 : IntegrableOn F (Iic t) := by
    rw [← Iic_union_Ioc_eq_Iic ha]
    exact hI1.union hI2
  have e2 := intervalIntegral.integral_Iic_sub_Iic hI1 hI3
  have e3 : ∫ τ in Iic p.a, F τ = p.alphaT ^ 2 * (K * (exp (-(2 * p.alpha * (t - p.a))) /
      (2 * (p.alpha + p.lam)))) := by
    rw [integral_Iic_eq_integral_Iio, setIntegral_congr_fun measurableSet_Iio htail, integral_const_mul,
      ← integral_Iic_eq_integral_Iio, integral_exp_mul_Iic hpos]
    have : exp (-(2 * p.alpha * t + 2 * p.lam * p.a)) * exp (2 * (p.alpha + p.lam) * p.a) =
        exp (-(2 * p.alpha * (t - p.a))) := by
      rw [← exp_add]
      congr 1
      ring
    rw [← this]
    ring
  rw [e1, eq_add_of_sub_eq e2, e3, intervalIntegral.integral_of_le ha,
    setIntegral_congr_fun measurableSet_Ioc hmid, integral_const_mul, intervalIntegral.integral_of_le ha]
  ring

end Gpcm.Rgpcm
