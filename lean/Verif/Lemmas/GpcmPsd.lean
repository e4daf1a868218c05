import Verif.Lemmas.GpcmGrid
import Mathlib.LinearAlgebra.Matrix.PosDef
import Mathlib.Algebra.Order.Star.Real

/-! # Helper lemmas: explicit values and positivity of the GPCM integrals -/

open MeasureTheory Real

namespace Gpcm

/-- Gram matrices of square-integrable functions are positive semi-definite. -/
theorem gram_nonneg {n : ℕ} (f : Fin n → ℝ → ℝ) (hf : ∀ i j, Integrable fun τ => f i τ * f j τ)
    (c : Fin n → ℝ) : 0 ≤ ∑ i, ∑ j, c i * c j * ∫ τ, f i τ * f j τ := by
  have : ∑ i, ∑ j, c i * c j * ∫ τ, f i τ * f j τ = ∫ τ, (∑ i, c i * f i τ) ^ 2 := by
    have h : ∀ τ, (∑ i, c i * f i τ) ^ 2 = ∑ i, ∑ j, c i * c j * (f i τ * f j τ) := fun τ => by
      rw [sq, Finset.sum_mul_sum]
      exact Finset.sum_congr rfl fun i _ => Finset.sum_congr rfl fun j _ => by ring
    simp only [h]
    rw [integral_finsetSum _ fun i _ => integrable_finsetSum _ fun j _ => (hf i j).const_mul _]
    refine Finset.sum_congr rfl fun i _ => ?_
    rw [integral_finsetSum _ fun j _ => (hf i j).const_mul _]
    exact Finset.sum_congr rfl fun j _ => (integral_const_mul _ _).symm
  rw [this]
  exact integral_nonneg fun τ => sq_nonneg _

/-- A symmetric matrix with a nonnegative quadratic form. -/
theorem posSemidef_of {n : ℕ} {M : Matrix (Fin n) (Fin n) ℝ} (hs : ∀ i j, M i j = M j i)
    (h : ∀ c : Fin n → ℝ, 0 ≤ ∑ i, ∑ j, c i * c j * M i j) : M.PosSemidef := by
  refine Matrix.PosSemidef.of_dotProduct_mulVec_nonneg ?_ fun c => ?_
  · ext i j
    rw [Matrix.conjTranspose_apply, star_trivial, hs]
  · have := h c
    simp only [dotProduct, Matrix.mulVec, Finset.mul_sum, star_trivial]
    calc _ ≤ _ := this
      _ = _ := Finset.sum_congr rfl fun i _ => Finset.sum_congr rfl fun j _ => by ring

/-- The product of two Gaussians. -/
theorem gauss_prod {w : ℝ} (hw : 0 < w) (x y : ℝ) :
    (Integrable fun τ => exp (-(w * (x - τ) ^ 2)) * exp (-(w * (τ - y) ^ 2))) ∧
    ∫ τ, exp (-(w * (x - τ) ^ 2)) * exp (-(w * (τ - y) ^ 2)) =
      √(π / (2 * w)) * exp (-(w / 2 * (x - y) ^ 2)) := by
  have h : ∀ τ, exp (-(w * (x - τ) ^ 2)) * exp (-(w * (τ - y) ^ 2)) =
      exp (-(2 * w) * τ ^ 2 + 2 * w * (x + y) * τ + -(w * (x ^ 2 + y ^ 2))) := fun τ => by
    rw [← exp_add]
    congr 1
    ring
  simp only [h]
  refine ⟨integrable_exp_quad (by linarith) _ _, ?_⟩
  rw [integral_exp_quad (by linarith)]
  congr 2
  · rw [neg_div_neg_eq]
  · field_simp
    ring

theorem rpow_quarter_sq {x : ℝ} (hx : 0 ≤ x) : (x ^ (0.25 : ℝ)) ^ 2 = √x := by
  rw [sqrt_eq_rpow, ← rpow_natCast, ← rpow_mul hx]
  norm_num

theorem kz_eq (p : Spec.Params) (h : 0 < p.omega) (x y : ℝ) : Spec.kz p x y =
    p.omegaT ^ 2 * √(π / (2 * p.omega)) * exp (-(p.omega / 2 * (x - y) ^ 2)) := by
  unfold Spec.kz Spec.kXS
  have : ∀ τ, p.omegaT * exp (-(p.omega * (x - τ) ^ 2)) * (p.omegaT * exp (-(p.omega * (τ - y) ^ 2))) =
      p.omegaT ^ 2 * (exp (-(p.omega * (x - τ) ^ 2)) * exp (-(p.omega * (τ - y) ^ 2))) := fun τ => by ring
  simp only [this]
  rw [integral_const_mul, (gauss_prod h x y).2, mul_assoc]

theorem kz_psd (p : Spec.Params) (h : 0 < p.omega) {n : ℕ} (z : Fin n → ℝ) :
    (Matrix.of fun i j => Spec.kz p (z i) (z j)).PosSemidef := by
  refine posSemidef_of (fun i j => ?_) fun c => ?_
  · rw [Matrix.of_apply, Matrix.of_apply, kz_eq p h, kz_eq p h, ← neg_sub, neg_sq]
  · have hcomm : ∀ i j, Spec.kz p (z i) (z j) = ∫ τ, Spec.kXS p (z i) τ * Spec.kXS p (z j) τ := fun i j => by
      unfold Spec.kz
      congr 1
      funext τ
      congr 1
      unfold Spec.kXS
      rw [← neg_sub, neg_sq]
    simp only [Matrix.of_apply, hcomm]
    refine gram_nonneg (fun i τ => Spec.kXS p (z i) τ) (fun i j => ?_) c
    have := ((gauss_prod h (z i) (z j)).1.const_mul (p.omegaT ^ 2))
    refine this.congr (Filter.Eventually.of_forall fun τ => ?_)
    show p.omegaT ^ 2 * _ = Spec.kXS p (z i) τ * Spec.kXS p (z j) τ
    unfold Spec.kXS
    rw [← neg_sub (z j) τ, neg_sq]
    ring

theorem kH_symm (p : Spec.Params) (x y : ℝ) : Spec.kH p x y = Spec.kH p y x := by
  unfold Spec.kH
  rw [← neg_sub x y, neg_sq]
  ring

theorem kH_psd (p : Spec.Params) (h : 0 ≤ p.gamma) {n : ℕ} (u : Fin n → ℝ) :
    (Matrix.of fun i j => Spec.kH p (u i) (u j)).PosSemidef := by
  refine posSemidef_of (fun i j => kH_symm p _ _) fun c => ?_
  simp only [Matrix.of_apply]
  rcases h.eq_or_lt with h0 | h0
  · have : ∑ i, ∑ j, c i * c j * Spec.kH p (u i) (u j) =
        p.alphaT ^ 2 * (∑ i, c i * exp (-(p.alpha * u i ^ 2))) ^ 2 := by
      rw [sq (Finset.sum _ _), Finset.sum_mul_sum, Finset.mul_sum]
      refine Finset.sum_congr rfl fun i _ => ?_
      rw [Finset.mul_sum]
      refine Finset.sum_congr rfl fun j _ => ?_
      unfold Spec.kH
      rw [← h0, zero_mul, neg_zero, exp_zero]
      ring
    rw [this]
    positivity
  · have hw : 0 < 2 * p.gamma := by linarith
    have hk : ∀ i j, Spec.kH p (u i) (u j) = (√(π / (2 * (2 * p.gamma))))⁻¹ * p.alphaT ^ 2 *
        (exp (-(p.alpha * u i ^ 2)) * exp (-(p.alpha * u j ^ 2)) *
          ∫ τ, exp (-(2 * p.gamma * (u i - τ) ^ 2)) * exp (-(2 * p.gamma * (u j - τ) ^ 2))) := fun i j => by
      have h1 : ∀ τ, (u j - τ) ^ 2 = (τ - u j) ^ 2 := fun τ => by ring
      simp only [h1]
      rw [(gauss_prod hw _ _).2]
      have h2 : √(π / (2 * (2 * p.gamma))) ≠ 0 := (sqrt_pos.2 (by positivity)).ne'
      unfold Spec.kH
      rw [show 2 * p.gamma / 2 = p.gamma by ring]
      field_simp
    have hint := gram_nonneg (fun i τ => exp (-(2 * p.gamma * (u i - τ) ^ 2))) (fun i j => by
      have h1 : ∀ τ, (u j - τ) ^ 2 = (τ - u j) ^ 2 := fun τ => by ring
      simp only [h1]
      exact (gauss_prod hw _ _).1) (fun i => c i * exp (-(p.alpha * u i ^ 2)))
    have : ∑ i, ∑ j, c i * c j * Spec.kH p (u i) (u j) =
        (√(π / (2 * (2 * p.gamma))))⁻¹ * p.alphaT ^ 2 *
          ∑ i, ∑ j, c i * exp (-(p.alpha * u i ^ 2)) * (c j * exp (-(p.alpha * u j ^ 2))) *
            ∫ τ, exp (-(2 * p.gamma * (u i - τ) ^ 2)) * exp (-(2 * p.gamma * (u j - τ) ^ 2)) := by
      rw [Finset.mul_sum]
      refine Finset.sum_congr rfl fun i _ => ?_
      rw [Finset.mul_sum]
      refine Finset.sum_congr rfl fun j _ => ?_
      rw [hk]
      ring
    rw [this]
    positivity

theorem ihx_diag (p : Spec.Params) (h : 0 < p.alpha) (t : ℝ) : Spec.ihx p t t =
    p.alphaT ^ 2 * (√(π / (2 * p.alpha)) * if p.causal then 1 / 2 else 1) := by
  have hk : ∀ τ, Spec.kH p (t - τ) (t - τ) = p.alphaT ^ 2 * exp (-(2 * p.alpha) * (τ - t) ^ 2) := fun τ => by
    rw [kH_eq]
    congr 2
    ring
  have hfull : ∫ τ, p.alphaT ^ 2 * exp (-(2 * p.alpha) * (τ - t) ^ 2) =
      p.alphaT ^ 2 * √(π / (2 * p.alpha)) := by
    rw [integral_const_mul]
    congr 1
    have := integral_sub_right_eq_self (μ := volume) (fun τ : ℝ => exp (-(2 * p.alpha) * τ ^ 2)) t
    rw [this, integral_gaussian]
  cases hc : p.causal
  · unfold Spec.ihx
    simp only [gate_acausal hc, one_mul, hk, hfull]
    simp
  · unfold Spec.ihx
    rw [integral_gate2 hc, min_self]
    simp only [hk]
    rw [← integral_Iic_translate, integral_const_mul]
    simp only [add_sub_cancel_right]
    have := integral_Iic_exp_quad (a := -(2 * p.alpha)) (by linarith) 0 0
    simp only [zero_mul, add_zero] at this
    rw [this]
    simp only [ne_eq, OfNat.ofNat_ne_zero, not_false_eq_true, zero_pow, neg_zero, zero_div,
      exp_zero, mul_zero, mul_one, neg_div_neg_eq, if_true]
    have : erf 0 = 0 := by
      have := erf_neg 0
      rw [neg_zero] at this
      linarith
    rw [this]
    ring

end Gpcm
