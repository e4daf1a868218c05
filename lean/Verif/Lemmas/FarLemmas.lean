import Verif.Lemmas.GpcmInt
import Verif.Model.Approx
import Verif.Lemmas.ApproxLemmas
import Mathlib.Analysis.SpecialFunctions.Gaussian.GaussianIntegral
import Mathlib.Analysis.SpecialFunctions.Gaussian.PoissonSummation

/-! # Helper lemmas: the integrals of the GPCM far away, and the predictions that follow from them -/

open MeasureTheory Real Filter Topology Matrix

namespace Gpcm

/-! ## Gaussian bounds -/

theorem tendsto_gauss {e : ℝ} (he : 0 < e) (z : ℝ) : Tendsto (fun t : ℝ => exp (-e * (t - z) ^ 2)) (cocompact ℝ) (𝓝 0) := by
  have h := tendsto_rpow_abs_mul_exp_neg_mul_sq_cocompact he 0
  simp only [rpow_zero, one_mul] at h
  exact h.comp (Homeomorph.subRight z).isClosedEmbedding.tendsto_cocompact

theorem gauss_pair_le {e : ℝ} (he : 0 < e) (a b τ : ℝ) : exp (-e * (a - τ) ^ 2) * exp (-e * (b - τ) ^ 2) ≤
    exp (-(e / 4) * (a - b) ^ 2) * exp (-(e / 2) * (b - τ) ^ 2) := by
  rw [← exp_add, ← exp_add, exp_le_exp]
  have h : (a - b) ^ 2 ≤ 2 * (a - τ) ^ 2 + 2 * (b - τ) ^ 2 := by nlinarith [sq_nonneg (a - τ + (b - τ))]
  nlinarith [mul_le_mul_of_nonneg_left h he.le, mul_nonneg he.le (sq_nonneg (a - τ))]

theorem integrable_gauss_sub {e : ℝ} (he : 0 < e) (b : ℝ) : Integrable fun τ : ℝ => exp (-e * (b - τ) ^ 2) :=
  (integrable_exp_neg_mul_sq he).comp_sub_left b

/-- An integral of something that is bounded by two Gaussians is small if these are far apart. -/
theorem abs_integral_gauss_le {e K : ℝ} (he : 0 < e) (hK : 0 ≤ K) {a b : ℝ} {F : ℝ → ℝ}
    (hF : ∀ τ, |F τ| ≤ K * (exp (-e * (a - τ) ^ 2) * exp (-e * (b - τ) ^ 2))) :
    |∫ τ, F τ| ≤ K * √(π / (e / 2)) * exp (-(e / 4) * (a - b) ^ 2) := by
  have h : ∀ τ, ‖F τ‖ ≤ K * exp (-(e / 4) * (a - b) ^ 2) * exp (-(e / 2) * (b - τ) ^ 2) := fun τ => by
    refine (hF τ).trans ?_
    rw [mul_assoc]
    exact mul_le_mul_of_nonneg_left (gauss_pair_le he a b τ) hK
  have hi := (integrable_gauss_sub (half_pos he) b).const_mul (K * exp (-(e / 4) * (a - b) ^ 2))
  refine (norm_integral_le_of_norm_le hi (Eventually.of_forall h)).trans_eq ?_
  rw [integral_const_mul, integral_sub_left_eq_self (fun x => exp (-(e / 2) * x ^ 2)) volume b, integral_gaussian]
  ring

section
variable (p : Spec.Params)

theorem abs_gate_le (x : ℝ) : |Spec.gate p x| ≤ 1 := by
  unfold Spec.gate
  split <;> simp

theorem gauss_mono {d e : ℝ} (h : e ≤ d) (x : ℝ) : exp (-d * x ^ 2) ≤ exp (-e * x ^ 2) := by
  rw [exp_le_exp]
  nlinarith [mul_le_mul_of_nonneg_right h (sq_nonneg x)]

variable {p} {e : ℝ} (h1 : e ≤ p.alpha) (h2 : e ≤ p.alpha + 2 * p.gamma)
include h1 h2

theorem abs_kH_le (x y : ℝ) : |Spec.kH p x y| ≤ p.alphaT ^ 2 * (exp (-e * x ^ 2) * exp (-e * y ^ 2)) := by
  rw [kH_eq, abs_of_nonneg (by positivity), ← exp_add]
  refine mul_le_mul_of_nonneg_left (exp_le_exp.2 ?_) (by positivity)
  rcases le_total 0 p.gamma with h | h
  · nlinarith [mul_nonneg h (sq_nonneg (x - y)), mul_le_mul_of_nonneg_right h1 (add_nonneg (sq_nonneg x) (sq_nonneg y))]
  · nlinarith [mul_nonneg_of_nonpos_of_nonpos h (neg_nonpos.2 (sq_nonneg (x + y))),
      mul_le_mul_of_nonneg_right h2 (add_nonneg (sq_nonneg x) (sq_nonneg y))]

theorem abs_kH_le' (he : 0 < e) (x y : ℝ) : |Spec.kH p x y| ≤ p.alphaT ^ 2 * exp (-e * x ^ 2) := by
  refine (abs_kH_le h1 h2 x y).trans (mul_le_mul_of_nonneg_left ?_ (by positivity))
  refine mul_le_of_le_one_right (exp_pos _).le (exp_le_one_iff.2 ?_)
  nlinarith [mul_nonneg he.le (sq_nonneg y)]

omit h1 h2 in
theorem abs_kXS_le (h3 : e ≤ p.omega) (x y : ℝ) : |Spec.kXS p x y| ≤ |p.omegaT| * exp (-e * (x - y) ^ 2) := by
  rw [kXS_eq, abs_mul, abs_of_nonneg (exp_pos _).le]
  exact mul_le_mul_of_nonneg_left (gauss_mono h3 _) (abs_nonneg _)

theorem abs_ihx_le (he : 0 < e) (t1 t2 : ℝ) :
    |Spec.ihx p t1 t2| ≤ p.alphaT ^ 2 * √(π / (e / 2)) * exp (-(e / 4) * (t1 - t2) ^ 2) := by
  refine abs_integral_gauss_le he (by positivity) fun τ => ?_
  rw [abs_mul, abs_mul]
  exact (mul_le_of_le_one_left (abs_nonneg _) (mul_le_one₀ (abs_gate_le p _) (abs_nonneg _) (abs_gate_le p _))).trans
    (abs_kH_le h1 h2 _ _)

theorem abs_iux_le (he : 0 < e) (t1 t2 u1 u2 : ℝ) : |Spec.iux p t1 t2 u1 u2| ≤
    p.alphaT ^ 2 * p.alphaT ^ 2 * √(π / (e / 2)) * exp (-(e / 4) * (t1 - t2) ^ 2) := by
  refine abs_integral_gauss_le he (by positivity) fun τ => ?_
  rw [abs_mul, abs_mul, abs_mul]
  refine (mul_le_of_le_one_left (by positivity) (mul_le_one₀ (abs_gate_le p _) (abs_nonneg _) (abs_gate_le p _))).trans ?_
  have e1 := abs_kH_le' h1 h2 he (t1 - τ) u1
  have e2 := abs_kH_le' h1 h2 he (t2 - τ) u2
  have e3 : Spec.kH p u2 (t2 - τ) = Spec.kH p (t2 - τ) u2 := by rw [kH_eq, kH_eq]; ring_nf
  rw [e3]
  calc _ ≤ _ := mul_le_mul e1 e2 (abs_nonneg _) (by positivity)
    _ = _ := by ring

theorem abs_iuz_le (h3 : e ≤ p.omega) (he : 0 < e) (t u z : ℝ) : |Spec.iuz p t u z| ≤
    p.alphaT ^ 2 * |p.omegaT| * √(π / (e / 2)) * exp (-(e / 4) * (t - z) ^ 2) := by
  refine abs_integral_gauss_le he (by positivity) fun τ => ?_
  rw [abs_mul, abs_mul]
  refine (mul_le_of_le_one_left (by positivity) (abs_gate_le p _)).trans ?_
  have e1 := abs_kH_le' h1 h2 he (t - τ) u
  have e2 := abs_kXS_le h3 τ z
  rw [show (τ - z) ^ 2 = (z - τ) ^ 2 by ring] at e2
  calc _ ≤ _ := mul_le_mul e1 e2 (abs_nonneg _) (by positivity)
    _ = _ := by ring

theorem abs_ihz_le (h3 : e ≤ p.omega) (he : 0 < e) (t z1 z2 : ℝ) : |Spec.ihz p t z1 z2| ≤
    p.alphaT ^ 2 * |p.omegaT| * |p.omegaT| * √(π / (e / 2)) * exp (-(e / 4) * (t - z2) ^ 2) * √(π / (e / 2)) *
      exp (-(e / 4) * (t - z1) ^ 2) := by
  refine abs_integral_gauss_le he (by positivity) fun τ₁ => ?_
  refine (abs_integral_gauss_le (K := p.alphaT ^ 2 * |p.omegaT| * |p.omegaT| *
    (exp (-e * (t - τ₁) ^ 2) * exp (-e * (z1 - τ₁) ^ 2))) (a := t) (b := z2) he (by positivity) fun τ₂ => ?_).trans_eq (by ring)
  rw [abs_mul, abs_mul, abs_mul, abs_mul]
  refine (mul_le_of_le_one_left (by positivity) (mul_le_one₀ (abs_gate_le p _) (abs_nonneg _) (abs_gate_le p _))).trans ?_
  have e1 := abs_kH_le h1 h2 (t - τ₁) (t - τ₂)
  have e2 := abs_kXS_le h3 τ₁ z1
  have e3 := abs_kXS_le h3 z2 τ₂
  rw [show (τ₁ - z1) ^ 2 = (z1 - τ₁) ^ 2 by ring] at e2
  calc _ ≤ _ := mul_le_mul (mul_le_mul e1 e2 (abs_nonneg _) (by positivity)) e3 (abs_nonneg _) (by positivity)
    _ = _ := by ring

end

/-! ## Predictions -/

variable {ι κ : Type} [Fintype ι] [DecidableEq ι] [Fintype κ] [DecidableEq κ] (C : Chols ι κ) (m : Inst ι κ)

/-- If the inducing variables of the noise say nothing about the signal far away, then the moments of the signal
approach those given the filter. -/
theorem ptMoments_tendsto {l : Filter ℝ} {k : ℝ} (hx : ∀ t, m.iHx t t = k) (hz : Tendsto m.iHz l (𝓝 0))
    (hu : Tendsto m.iUz l (𝓝 0)) (u : ι → ℝ) (u2 : Matrix ι ι ℝ) (z : κ → ℝ) (z2 : Matrix κ κ ℝ) :
    Tendsto (ptMoments C m u u2 z z2) l (𝓝 (0, frob m.iUx u2 + (k - frob (m.KuInv C) m.iUx))) := by
  have hF : Continuous fun q : Matrix κ κ ℝ × Matrix ι κ ℝ =>
      (u ⬝ᵥ (q.2 *ᵥ z), frob (m.iUx - q.2 * m.KzInv C * q.2ᵀ) u2 + frob (q.1 - q.2ᵀ * m.KuInv C * q.2) z2 +
        (k - frob (m.KuInv C) m.iUx - frob (m.KzInv C) q.1 + frob (m.KuInv C) (q.2 * m.KzInv C * q.2ᵀ)) +
        frob u2 (q.2 * z2 * q.2ᵀ)) := by
    unfold frob
    fun_prop
  have := (hF.tendsto (0, 0)).comp (hz.prodMk_nhds hu)
  refine (this.congr fun t => ?_).trans_eq ?_
  · simp only [Function.comp_apply, ptMoments, ptA, ptB, ptC, hx]
  · simp [frob]

omit [DecidableEq ι] [DecidableEq κ] in
theorem foldl_add_pairs (l : List (ℝ × ℝ)) (a : ℝ × ℝ) :
    l.foldl (· + ·) a = (a.1 + (l.map Prod.fst).sum, a.2 + (l.map Prod.snd).sum) := by
  induction l generalizing a with
  | nil => simp
  | cons b l ih => simp [ih, add_assoc]

end Gpcm
