import Verif.Lemmas.GaussDense
import Mathlib.Analysis.SpecialFunctions.Gaussian.FourierTransform
import Mathlib.Analysis.Complex.ExponentialBounds
import Mathlib.Analysis.Real.Pi.Bounds

/-! # Helper lemmas: Gaussians on a grid as wide as its spacing leave a share of every wider Gaussian unexplained -/

open MeasureTheory Matrix Real Filter

namespace Gpcm

/-- The integral of a Gaussian against a wave. -/
theorem integral_gaussAt_cos {A : ℝ} (hA : 0 < A) (m K φ : ℝ) :
    (Integrable fun x => gaussAt A m x * cos (K * x + φ)) ∧
    ∫ x, gaussAt A m x * cos (K * x + φ) = √(π / A) * exp (-(K ^ 2 / (4 * A))) * cos (K * m + φ) := by
  have hb : (-(A : ℂ)).re < 0 := by simpa using hA
  have e : ∀ x : ℝ, gaussAt A m x * cos (K * x + φ) =
      (Complex.exp (-(A : ℂ) * x ^ 2 + (2 * A * m + K * Complex.I) * x + (-(A * m ^ 2) + φ * Complex.I))).re :=
    fun x => by
      have : -(A : ℂ) * x ^ 2 + (2 * A * m + K * Complex.I) * x + (-(A * m ^ 2) + φ * Complex.I) =
          ((-(A * (m - x) ^ 2) : ℝ) : ℂ) + ((K * x + φ : ℝ) : ℂ) * Complex.I := by
        push_cast
        ring
      rw [this, Complex.exp_add, ← Complex.ofReal_exp, Complex.re_ofReal_mul, Complex.exp_ofReal_mul_I_re]
      rfl
  have hi := integrable_cexp_quadratic' hb (2 * A * m + K * Complex.I) (-(A * m ^ 2) + φ * Complex.I)
  have hv := integral_cexp_quadratic hb (2 * A * m + K * Complex.I) (-(A * m ^ 2) + φ * Complex.I)
  simp only [e]
  refine ⟨hi.re, ?_⟩
  have h1 := integral_re hi
  simp only [RCLike.re_eq_complex_re] at h1
  rw [h1, hv]
  have hA' : (A : ℂ) ≠ 0 := by exact_mod_cast hA.ne'
  have e2 : (-(A * m ^ 2) + φ * Complex.I : ℂ) - (2 * A * m + K * Complex.I) ^ 2 / (4 * -(A : ℂ)) =
      ((-(K ^ 2 / (4 * A)) : ℝ) : ℂ) + ((K * m + φ : ℝ) : ℂ) * Complex.I := by
    push_cast
    field_simp
    linear_combination (K : ℂ) ^ 2 * Complex.I_sq
  have e3 : ((π : ℂ) / - -(A : ℂ)) ^ (1 / 2 : ℂ) = ((√(π / A) : ℝ) : ℂ) := by
    rw [neg_neg, sqrt_eq_rpow, Complex.ofReal_cpow (by positivity)]
    push_cast
    rfl
  rw [e2, e3, Complex.exp_add, ← Complex.ofReal_exp, ← mul_assoc, ← Complex.ofReal_mul, Complex.re_ofReal_mul,
    Complex.exp_ofReal_mul_I_re]

theorem gaussAt_mul {w b : ℝ} (h : 0 < w + b) (z c x : ℝ) : gaussAt w z x * gaussAt b c x =
    exp (-(w * b / (w + b) * (z - c) ^ 2)) * gaussAt (w + b) ((w * z + b * c) / (w + b)) x := by
  unfold gaussAt
  rw [← exp_add, ← exp_add]
  congr 1
  field_simp
  ring

/-- A wave of the frequency of the grid, made orthogonal to the Gaussians on the grid. -/
noncomputable def gapWave (b c x₀ h x : ℝ) : ℝ :=
  gaussAt b c x * (1 - exp (π + b * h ^ 2) *
    cos (2 * h * (π / h ^ 2 + b) * x + (-(2 * π * x₀ / h) - 2 * b * h * c)))

theorem memLp_gapWave {b : ℝ} (hb : 0 < b) (c x₀ h : ℝ) : MemLp (gapWave b c x₀ h) 2 := by
  have hc : Continuous (gapWave b c x₀ h) := by
    unfold gapWave gaussAt
    fun_prop
  refine (memLp_gauss hb (1 + exp (π + b * h ^ 2)) c).mono hc.aestronglyMeasurable
    (Eventually.of_forall fun x => ?_)
  unfold gapWave gaussAt
  rw [norm_mul, norm_mul, mul_comm]
  refine mul_le_mul_of_nonneg_right ?_ (norm_nonneg _)
  have h1 := abs_cos_le_one (2 * h * (π / h ^ 2 + b) * x + (-(2 * π * x₀ / h) - 2 * b * h * c))
  have h2 := exp_pos (π + b * h ^ 2)
  rw [norm_eq_abs, norm_eq_abs, abs_of_pos (show 0 < 1 + exp (π + b * h ^ 2) by linarith)]
  refine (abs_sub _ _).trans ?_
  rw [abs_one, abs_mul, abs_of_pos h2]
  nlinarith

theorem gapWave_orth {b : ℝ} (hb : 0 < b) (c x₀ : ℝ) {h : ℝ} (hh : h ≠ 0) (i : ℤ) :
    ∫ x, gaussAt (π / h ^ 2) (x₀ + i * h) x * gapWave b c x₀ h x = 0 := by
  have hh2 : 0 < h ^ 2 := by positivity
  have hw : 0 < π / h ^ 2 := by positivity
  obtain ⟨w, hwd⟩ : ∃ w, w = π / h ^ 2 := ⟨_, rfl⟩
  have hwh : w * h ^ 2 = π := by rw [hwd]; field_simp
  rw [← hwd] at hw ⊢
  have hA : 0 < w + b := by linarith
  obtain ⟨z, hz⟩ : ∃ z, z = x₀ + i * h := ⟨_, rfl⟩
  rw [← hz]
  obtain ⟨m, hm⟩ : ∃ m, m = (w * z + b * c) / (w + b) := ⟨_, rfl⟩
  have hmA : (w + b) * m = w * z + b * c := by rw [hm]; field_simp
  have e : ∀ x, gaussAt w z x * gapWave b c x₀ h x = exp (-(w * b / (w + b) * (z - c) ^ 2)) *
      (gaussAt (w + b) m x * cos (0 * x + 0) - exp (π + b * h ^ 2) *
        (gaussAt (w + b) m x * cos (2 * h * (w + b) * x + (-(2 * π * x₀ / h) - 2 * b * h * c)))) := fun x => by
    unfold gapWave
    rw [← hwd, ← mul_assoc, gaussAt_mul hA, ← hm]
    simp only [zero_mul, add_zero, cos_zero, mul_one]
    ring
  simp only [e]
  have i1 := integral_gaussAt_cos hA m 0 0
  have i2 := integral_gaussAt_cos hA m (2 * h * (w + b)) (-(2 * π * x₀ / h) - 2 * b * h * c)
  rw [integral_const_mul, integral_sub i1.1 (i2.1.const_mul _), integral_const_mul, i1.2, i2.2]
  have e1 : (2 * h * (w + b)) ^ 2 / (4 * (w + b)) = π + b * h ^ 2 := by
    rw [← hwh]
    field_simp
    ring
  have e2 : 2 * h * (w + b) * m + (-(2 * π * x₀ / h) - 2 * b * h * c) = i * (2 * π) := by
    have : 2 * π * x₀ / h = 2 * w * h * x₀ := by
      rw [← hwh]
      field_simp
    rw [this, mul_assoc (2 * h), hmA, hz, ← hwh]
    ring
  rw [e1, e2, cos_int_mul_two_pi]
  have e3 : exp (π + b * h ^ 2) * exp (-(π + b * h ^ 2)) = 1 := by rw [← exp_add, add_neg_cancel, exp_zero]
  have e4 : exp (-((0 : ℝ) ^ 2 / (4 * (w + b)))) * cos (0 * m + 0) = 1 := by simp
  have e5 : √(π / (w + b)) * exp (-((0 : ℝ) ^ 2 / (4 * (w + b)))) * cos (0 * m + 0) -
      exp (π + b * h ^ 2) * (√(π / (w + b)) * exp (-(π + b * h ^ 2)) * 1) = 0 := by
    linear_combination √(π / (w + b)) * e4 - √(π / (w + b)) * e3
  rw [e5, mul_zero]

theorem gapWave_bounds {b : ℝ} (hb : 0 < b) (c x₀ : ℝ) {h : ℝ} (hh : h ≠ 0) (hy : b * h ^ 2 ≤ 1) :
    49 / 50 * √(π / (2 * b)) ≤ ∫ x, gaussAt b c x * gapWave b c x₀ h x ∧
    ∫ x, gapWave b c x₀ h x * gapWave b c x₀ h x ≤ 2461 * √(π / (2 * b)) := by
  have hh2 : 0 < h ^ 2 := by positivity
  obtain ⟨w, hwd⟩ : ∃ w, w = π / h ^ 2 := ⟨_, rfl⟩
  have hwh : w * h ^ 2 = π := by rw [hwd]; field_simp
  have hw : 0 < w := by rw [hwd]; positivity
  obtain ⟨E, hE⟩ : ∃ E, E = exp (π + b * h ^ 2) := ⟨_, rfl⟩
  obtain ⟨K, hK⟩ : ∃ K, K = 2 * h * (w + b) := ⟨_, rfl⟩
  obtain ⟨φ, hφ⟩ : ∃ φ, φ = -(2 * π * x₀ / h) - 2 * b * h * c := ⟨_, rfl⟩
  obtain ⟨N, hN⟩ : ∃ N, N = √(π / (2 * b)) := ⟨_, rfl⟩
  have hN0 : 0 < N := by rw [hN]; positivity
  have hgw : ∀ x, gapWave b c x₀ h x = gaussAt b c x * (1 - E * cos (K * x + φ)) := fun x => by
    unfold gapWave
    rw [← hwd, ← hE, ← hK, ← hφ]
  have hsq : ∀ x, gaussAt b c x * gaussAt b c x = gaussAt (2 * b) c x := fun x => by
    unfold gaussAt
    rw [← exp_add]
    congr 1
    ring
  have hb2 : 0 < 2 * b := by linarith
  obtain ⟨i0, v0⟩ := integral_gaussAt_cos hb2 c 0 0
  obtain ⟨i1, v1⟩ := integral_gaussAt_cos hb2 c K φ
  obtain ⟨i2, v2⟩ := integral_gaussAt_cos hb2 c (2 * K) (2 * φ)
  simp only [zero_mul, add_zero, cos_zero, mul_one] at i0 v0
  rw [show -((0 : ℝ) ^ 2 / (4 * (2 * b))) = 0 by simp, exp_zero, mul_one, ← hN] at v0
  obtain ⟨q, hq⟩ : ∃ q, q = exp (-(K ^ 2 / (4 * (2 * b)))) := ⟨_, rfl⟩
  rw [← hN, ← hq] at v1
  rw [← hN, show exp (-((2 * K) ^ 2 / (4 * (2 * b)))) = q ^ 4 by
    rw [hq, ← exp_nat_mul]; congr 1; push_cast; ring] at v2
  have hq0 : 0 < q := by rw [hq]; exact exp_pos _
  have hE0 : 0 < E := by rw [hE]; exact exp_pos _
  have hq1 : q ≤ 1 := by
    rw [hq]
    refine exp_le_one_iff.2 ?_
    have : 0 ≤ K ^ 2 / (4 * (2 * b)) := by positivity
    linarith
  have hpi := pi_gt_three
  have hEq : E * q ≤ 1 / 50 := by
    have h1 : E * q ≤ exp (-4) := by
      rw [hE, hq, ← exp_add]
      refine exp_le_exp.2 ?_
      have hy0 : 0 < b * h ^ 2 := by positivity
      obtain ⟨y, hyd⟩ : ∃ y, y = b * h ^ 2 := ⟨_, rfl⟩
      rw [← hyd] at hy hy0
      have e : K ^ 2 / (4 * (2 * b)) = (π + y) ^ 2 / (2 * y) := by
        rw [hK, hyd, ← hwh]
        field_simp
        ring
      rw [← hyd, e]
      have : (π + y) ^ 2 / (2 * y) ≥ π + y + 4 := by
        rw [ge_iff_le, le_div_iff₀ (by linarith)]
        nlinarith
      linarith
    have h2 : exp (-4) ≤ 1 / 50 := by
      rw [exp_neg, inv_eq_one_div, one_div_le_one_div (exp_pos _) (by norm_num)]
      have h3 := exp_one_gt_d9
      have h4 : exp 4 = exp 1 ^ 4 := by rw [← exp_nat_mul]; norm_num
      rw [h4]
      calc (50 : ℝ) ≤ 2.7182818283 ^ 4 := by norm_num
        _ ≤ _ := by gcongr
    exact h1.trans h2
  have hE2 : E ^ 2 ≤ 4915 := by
    have h1 : (E ^ 2) ^ 2 ≤ exp 17 := by
      rw [hE, ← pow_mul, ← exp_nat_mul]
      refine exp_le_exp.2 ?_
      have := pi_lt_d2
      push_cast
      linarith
    have h3 := exp_one_lt_d9
    have h4 : exp 17 = exp 1 ^ 17 := by rw [← exp_nat_mul]; norm_num
    have h5 : exp 17 ≤ 4915 ^ 2 := by
      rw [h4]
      calc exp 1 ^ 17 ≤ (2.7182818286 : ℝ) ^ 17 := by gcongr
        _ ≤ _ := by norm_num
    exact le_of_sq_le_sq (h1.trans h5) (by norm_num)
  refine ⟨?_, ?_⟩
  · have e : ∀ x, gaussAt b c x * gapWave b c x₀ h x =
        gaussAt (2 * b) c x - E * (gaussAt (2 * b) c x * cos (K * x + φ)) := fun x => by
      rw [hgw, ← hsq]
      ring
    simp only [e]
    rw [integral_sub i0 (i1.const_mul E), integral_const_mul, v0, v1, ← hN]
    have hcos := cos_le_one (K * c + φ)
    have : E * q * cos (K * c + φ) ≤ 1 / 50 := by
      have : E * q * cos (K * c + φ) ≤ E * q * 1 := mul_le_mul_of_nonneg_left hcos (by positivity)
      linarith
    nlinarith
  · have e : ∀ x, gapWave b c x₀ h x * gapWave b c x₀ h x = (1 + E ^ 2 / 2) * gaussAt (2 * b) c x -
        2 * E * (gaussAt (2 * b) c x * cos (K * x + φ)) +
        E ^ 2 / 2 * (gaussAt (2 * b) c x * cos (2 * K * x + 2 * φ)) := fun x => by
      rw [hgw, ← hsq, show 2 * K * x + 2 * φ = 2 * (K * x + φ) by ring, cos_two_mul]
      ring
    simp only [e]
    rw [integral_add (f := fun x => (1 + E ^ 2 / 2) * gaussAt (2 * b) c x -
        2 * E * (gaussAt (2 * b) c x * cos (K * x + φ))) ((i0.const_mul _).sub (i1.const_mul _)) (i2.const_mul _),
      integral_sub (i0.const_mul _) (i1.const_mul _), integral_const_mul, integral_const_mul, integral_const_mul,
      v0, v1, v2, ← hN]
    have hc1 := neg_one_le_cos (K * c + φ)
    have hc2 := cos_le_one (2 * K * c + 2 * φ)
    have h1 : -(E * q * cos (K * c + φ)) ≤ 1 / 50 := by
      have : E * q * (-cos (K * c + φ)) ≤ E * q * 1 := mul_le_mul_of_nonneg_left (by linarith) (by positivity)
      linarith
    have h2 : E ^ 2 * q ^ 4 * cos (2 * K * c + 2 * φ) ≤ 1 := by
      have h3 : E ^ 2 * q ^ 4 ≤ 1 := by
        have : E ^ 2 * q ^ 4 = (E * q) ^ 2 * q ^ 2 := by ring
        rw [this]
        have h4 : (E * q) ^ 2 ≤ 1 := by
          have : 0 ≤ E * q := by positivity
          nlinarith
        have h5 : q ^ 2 ≤ 1 := by nlinarith
        nlinarith [sq_nonneg (E * q), sq_nonneg q]
      have : E ^ 2 * q ^ 4 * cos (2 * K * c + 2 * φ) ≤ E ^ 2 * q ^ 4 * 1 :=
        mul_le_mul_of_nonneg_left hc2 (by positivity)
      linarith
    have h6 : (1 + E ^ 2 / 2) * N - 2 * E * (N * q * cos (K * c + φ)) +
        E ^ 2 / 2 * (N * q ^ 4 * cos (2 * K * c + 2 * φ)) =
        N * (1 + E ^ 2 / 2 + 2 * -(E * q * cos (K * c + φ)) + E ^ 2 * q ^ 4 * cos (2 * K * c + 2 * φ) / 2) := by ring
    rw [h6, mul_comm (2461 : ℝ)]
    exact mul_le_mul_of_nonneg_left (by linarith) hN0.le

/-- Gaussians on a grid, as wide as its spacing, leave a share of every much wider Gaussian unexplained. -/
theorem gap_le {ι : Type} [Fintype ι] {b : ℝ} (hb : 0 < b) (c x₀ : ℝ) {h : ℝ} (hh : h ≠ 0) (hy : b * h ^ 2 ≤ 1)
    (i : ι → ℤ) (k v : ι → ℝ) (a : ℝ) : a ^ 2 * √(π / (2 * b)) / 3000 ≤
      ∫ x, (a * gaussAt b c x - ∑ j, v j * (k j * gaussAt (π / h ^ 2) (x₀ + i j * h) x)) ^ 2 := by
  have hw : 0 < π / h ^ 2 := by positivity
  have hβ : ∀ j, MemLp (fun x => k j * gaussAt (π / h ^ 2) (x₀ + i j * h) x) 2 := fun j =>
    (memLp_gaussAt hw _).const_mul _
  have hρ : MemLp (fun x => a * gaussAt b c x - ∑ j, v j * (k j * gaussAt (π / h ^ 2) (x₀ + i j * h) x)) 2 :=
    ((memLp_gaussAt hb c).const_mul a).sub (memLp_sum hβ v)
  have hg := memLp_gapWave hb c x₀ h
  obtain ⟨h1, h2⟩ := gapWave_bounds hb c x₀ hh hy
  obtain ⟨N, hN⟩ : ∃ N, N = √(π / (2 * b)) := ⟨_, rfl⟩
  rw [← hN] at h1 h2 ⊢
  have hN0 : 0 < N := by rw [hN]; positivity
  have horth : ∫ x, (a * gaussAt b c x - ∑ j, v j * (k j * gaussAt (π / h ^ 2) (x₀ + i j * h) x)) *
      gapWave b c x₀ h x = a * ∫ x, gaussAt b c x * gapWave b c x₀ h x := by
    have e : ∀ x, (a * gaussAt b c x - ∑ j, v j * (k j * gaussAt (π / h ^ 2) (x₀ + i j * h) x)) *
        gapWave b c x₀ h x = a * (gaussAt b c x * gapWave b c x₀ h x) -
          gapWave b c x₀ h x * ∑ j, v j * (k j * gaussAt (π / h ^ 2) (x₀ + i j * h) x) := fun x => by ring
    simp only [e]
    rw [integral_sub ((integrable_mul_L2 (memLp_gaussAt hb c) hg).const_mul a)
      (integrable_mul_L2 hg (memLp_sum hβ v)), integral_const_mul, integral_mul_sum hg hβ]
    have : ∀ j, ∫ x, gapWave b c x₀ h x * (k j * gaussAt (π / h ^ 2) (x₀ + i j * h) x) = 0 := fun j => by
      have := gapWave_orth hb c x₀ hh (i j)
      rw [← mul_zero (k j), ← this, ← integral_const_mul]
      congr 1
      funext x
      ring
    simp only [this, mul_zero, Finset.sum_const_zero, sub_zero]
  obtain ⟨l, hl⟩ : ∃ l : ℝ, l = a / 2500 := ⟨_, rfl⟩
  have h0 : 0 ≤ ∫ x, ((a * gaussAt b c x - ∑ j, v j * (k j * gaussAt (π / h ^ 2) (x₀ + i j * h) x)) -
      l * gapWave b c x₀ h x) ^ 2 := integral_nonneg fun x => sq_nonneg _
  have e : ∀ x, ((a * gaussAt b c x - ∑ j, v j * (k j * gaussAt (π / h ^ 2) (x₀ + i j * h) x)) -
      l * gapWave b c x₀ h x) ^ 2 =
      (a * gaussAt b c x - ∑ j, v j * (k j * gaussAt (π / h ^ 2) (x₀ + i j * h) x)) ^ 2 -
      2 * l * ((a * gaussAt b c x - ∑ j, v j * (k j * gaussAt (π / h ^ 2) (x₀ + i j * h) x)) * gapWave b c x₀ h x) +
      l ^ 2 * (gapWave b c x₀ h x * gapWave b c x₀ h x) := fun x => by ring
  simp only [e] at h0
  have i1 := hρ.integrable_sq
  have i2 := (integrable_mul_L2 hρ hg).const_mul (2 * l)
  rw [integral_add (f := fun x => (a * gaussAt b c x - ∑ j, v j * (k j * gaussAt (π / h ^ 2) (x₀ + i j * h) x)) ^ 2 -
      2 * l * ((a * gaussAt b c x - ∑ j, v j * (k j * gaussAt (π / h ^ 2) (x₀ + i j * h) x)) * gapWave b c x₀ h x))
      (i1.sub i2) ((integrable_mul_L2 hg hg).const_mul _), integral_sub i1 i2, integral_const_mul, integral_const_mul,
    horth] at h0
  have h3 : l ^ 2 * ∫ x, gapWave b c x₀ h x * gapWave b c x₀ h x ≤ l ^ 2 * (2461 * N) :=
    mul_le_mul_of_nonneg_left h2 (sq_nonneg l)
  have h4 : 2 * l * (a * (49 / 50 * N)) ≤ 2 * l * (a * ∫ x, gaussAt b c x * gapWave b c x₀ h x) := by
    have : 0 ≤ 2 * l * a := by rw [hl]; nlinarith [sq_nonneg a]
    nlinarith
  rw [hl] at h0 h3 h4
  nlinarith [mul_nonneg (sq_nonneg a) hN0.le]

end Gpcm
