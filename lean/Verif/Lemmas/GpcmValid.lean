import Verif.Lemmas.GramLemmas
import Verif.Lemmas.GpcmPsd
import Mathlib.LinearAlgebra.LinearIndependent.Basic
import Mathlib.MeasureTheory.Measure.OpenPos

/-! # Helper lemmas: the GPCM's integrals as inner products of square-integrable functions -/

open MeasureTheory Matrix Real

namespace Gpcm

/-! ## Independence of Gaussians -/

theorem gram_posDef {ι : Type} [Fintype ι] {f : ι → ℝ → ℝ} (hf : ∀ i, MemLp (f i) 2)
    (hc : ∀ i, Continuous (f i)) (hl : ∀ v : ι → ℝ, (∀ s, ∑ i, v i * f i s = 0) → v = 0) :
    (gram volume f f).PosDef := by
  refine PosDef.of_dotProduct_mulVec_pos ?_ fun v hv => ?_
  · rw [IsHermitian, conjTranspose_eq_transpose_of_trivial, gram_transpose]
  · rw [star_trivial, ← integral_sum_mul_sum hf hf]
    have h0 : ∀ s, 0 ≤ (∑ i, v i * f i s) * ∑ i, v i * f i s := fun s => mul_self_nonneg _
    refine (integral_nonneg h0).lt_of_ne fun h => hv (hl v fun s => ?_)
    have h1 := (integral_eq_zero_iff_of_nonneg h0
      (integrable_mul_L2 (memLp_sum hf v) (memLp_sum hf v))).1 h.symm
    have hcs : Continuous fun s => ∑ i, v i * f i s :=
      continuous_finsetSum _ fun i _ => (hc i).const_mul _
    have h2 := Continuous.ae_eq_iff_eq volume (hcs.mul hcs) continuous_const |>.1 h1
    exact mul_self_eq_zero.1 (congrFun h2 s)

/-- Multiples of exponentials with distinct rates are linearly independent. -/
theorem exp_independent {ι : Type} [Fintype ι] {x : ι → ℝ} (hx : Function.Injective x) {v : ι → ℝ}
    (h : ∀ s : ℝ, ∑ i, v i * exp (x i * s) = 0) : v = 0 := by
  let χ : ι → (Multiplicative ℝ →* ℝ) := fun i =>
    { toFun := fun s => exp (x i * s.toAdd)
      map_one' := by simp
      map_mul' := fun a b => by simp [mul_add, exp_add] }
  have hχ : Function.Injective χ := fun i j hij => by
    have := DFunLike.congr_fun hij (Multiplicative.ofAdd 1)
    have : exp (x i * 1) = exp (x j * 1) := this
    exact hx (by simpa using this)
  have hl := (linearIndependent_monoidHom (Multiplicative ℝ) ℝ).comp χ hχ
  rw [Fintype.linearIndependent_iff] at hl
  funext i
  refine hl v ?_ i
  funext s
  have := h s.toAdd
  simpa [Finset.sum_apply, χ] using this

theorem gauss_independent {ι : Type} [Fintype ι] {w : ℝ} (hw : 0 < w) {x : ι → ℝ}
    (hx : Function.Injective x) {k : ι → ℝ} (hk : ∀ i, k i ≠ 0) {v : ι → ℝ}
    (h : ∀ s : ℝ, ∑ i, v i * (k i * exp (-(w * (x i - s) ^ 2))) = 0) : v = 0 := by
  have h1 := exp_independent (x := fun i => 2 * w * x i)
    (fun i j hij => hx (mul_left_cancel₀ (by positivity) hij))
    (v := fun i => v i * k i * exp (-(w * x i ^ 2))) fun s => by
      have h2 := h s
      have h3 : ∑ i, v i * k i * exp (-(w * x i ^ 2)) * exp (2 * w * x i * s) =
          exp (w * s ^ 2) * ∑ i, v i * (k i * exp (-(w * (x i - s) ^ 2))) := by
        rw [Finset.mul_sum]
        refine Finset.sum_congr rfl fun i _ => ?_
        rw [show -(w * (x i - s) ^ 2) = -(w * x i ^ 2) + 2 * w * x i * s - w * s ^ 2 by ring, exp_sub, exp_add]
        field_simp
      rw [h3, h2, mul_zero]
  funext i
  have h4 : v i * k i * exp (-(w * x i ^ 2)) = 0 := congrFun h1 i
  have := (mul_eq_zero.1 h4).resolve_right (exp_ne_zero _)
  exact (mul_eq_zero.1 this).resolve_right (hk i)

theorem memLp_gauss {w : ℝ} (hw : 0 < w) (k x : ℝ) :
    MemLp (fun s => k * exp (-(w * (x - s) ^ 2))) 2 := by
  have hc : Continuous fun s => k * exp (-(w * (x - s) ^ 2)) := by fun_prop
  rw [memLp_two_iff_integrable_sq hc.aestronglyMeasurable]
  refine (((gauss_prod hw x x).1).const_mul (k ^ 2)).congr (Filter.Eventually.of_forall fun s => ?_)
  show k ^ 2 * (exp (-(w * (x - s) ^ 2)) * exp (-(w * (s - x) ^ 2))) = (k * exp (-(w * (x - s) ^ 2))) ^ 2
  rw [← neg_sub x s, neg_sq]
  ring

/-! ## The functions -/

variable (p : Spec.Params)

/-- Scale of the functions that factor the covariance of the filter. -/
noncomputable def factScale : ℝ := p.alphaT * (4 * p.gamma / π) ^ (0.25 : ℝ)

theorem factScale_sq (h : 0 < p.gamma) : factScale p ^ 2 * √(π / (2 * (2 * p.gamma))) = p.alphaT ^ 2 := by
  unfold factScale
  rw [mul_pow, rpow_quarter_sq (by positivity), mul_assoc, ← sqrt_mul (by positivity),
    show 4 * p.gamma / π * (π / (2 * (2 * p.gamma))) = 1 by field_simp; norm_num, sqrt_one, mul_one]

/-- The factor of the filter at time `x`. -/
noncomputable def factU (x s : ℝ) : ℝ :=
  factScale p * exp (-(p.alpha * x ^ 2)) * exp (-(2 * p.gamma * (x - s) ^ 2))

/-- The factor of the signal at time `t`. -/
noncomputable def factF (t τ s : ℝ) : ℝ := Spec.gate p (t - τ) * factU p (t - τ) s

variable {p}

theorem memLp_factU (h : 0 < p.gamma) (x : ℝ) : MemLp (factU p x) 2 :=
  memLp_gauss (by linarith) _ x

theorem integral_factU (h : 0 < p.gamma) (x y : ℝ) : ∫ s, factU p x s * factU p y s = Spec.kH p x y := by
  have h1 : ∀ s, factU p x s * factU p y s = factScale p ^ 2 * exp (-(p.alpha * x ^ 2)) *
      exp (-(p.alpha * y ^ 2)) * (exp (-(2 * p.gamma * (x - s) ^ 2)) * exp (-(2 * p.gamma * (s - y) ^ 2))) :=
    fun s => by
      unfold factU
      rw [← neg_sub s y, neg_sq]
      ring
  simp only [h1]
  rw [integral_const_mul, (gauss_prod (by linarith) x y).2]
  unfold Spec.kH
  rw [← factScale_sq p h, show 2 * p.gamma / 2 = p.gamma by ring]
  ring

theorem gate_sq (x : ℝ) : Spec.gate p x * Spec.gate p x = Spec.gate p x := by
  unfold Spec.gate
  split_ifs <;> simp

theorem measurable_gate : Measurable (Spec.gate p) := by
  unfold Spec.gate
  refine Measurable.ite ?_ measurable_const measurable_const
  by_cases h : p.causal = true
  · simp only [h, true_and]
    exact measurableSet_Iio
  · simp [h]

theorem gate_abs_le (x : ℝ) : |Spec.gate p x| ≤ 1 := by
  unfold Spec.gate
  split_ifs <;> simp

theorem continuous_factU : Continuous fun q : ℝ × ℝ => factU p q.1 q.2 := by
  unfold factU
  fun_prop

theorem measurable_factF (t : ℝ) : Measurable fun q : ℝ × ℝ => factF p t q.1 q.2 := by
  have h2 : Measurable fun q : ℝ × ℝ => Spec.gate p (t - q.1) :=
    measurable_gate.comp (measurable_const.sub measurable_fst)
  have h3 : Continuous fun q : ℝ × ℝ => factU p (t - q.1) q.2 := by
    unfold factU
    fun_prop
  exact Measurable.mul h2 h3.measurable

theorem integral_factF_factU (h : 0 < p.gamma) (t τ u : ℝ) :
    ∫ s, factF p t τ s * factU p u s = Spec.gate p (t - τ) * Spec.kH p (t - τ) u := by
  unfold factF
  simp only [mul_assoc]
  rw [integral_const_mul, integral_factU h]

theorem integral_factF (h : 0 < p.gamma) (t t' τ τ' : ℝ) : ∫ s, factF p t τ s * factF p t' τ' s =
    Spec.gate p (t - τ) * Spec.gate p (t' - τ') * Spec.kH p (t - τ) (t' - τ') := by
  have h1 : ∀ s, factF p t τ s * factF p t' τ' s = Spec.gate p (t - τ) * Spec.gate p (t' - τ') *
      (factU p (t - τ) s * factU p (t' - τ') s) := fun s => by
    unfold factF
    ring
  simp only [h1]
  rw [integral_const_mul, integral_factU h]

theorem kH_diag_integrable (ha : 0 < p.alpha) (t : ℝ) : Integrable fun τ => Spec.kH p (t - τ) (t - τ) := by
  have := (gauss_prod ha t t).1.const_mul (p.alphaT ^ 2)
  refine this.congr (Filter.Eventually.of_forall fun τ => ?_)
  show p.alphaT ^ 2 * (exp (-(p.alpha * (t - τ) ^ 2)) * exp (-(p.alpha * (τ - t) ^ 2))) = _
  unfold Spec.kH
  rw [← neg_sub t τ, neg_sq]
  simp
  ring

theorem biL2_factF (ha : 0 < p.alpha) (h : 0 < p.gamma) (t : ℝ) : BiL2 volume volume (factF p t) where
  prod := by
    have hr : ∀ τ, MemLp (factF p t τ) 2 := fun τ => (memLp_factU h _).const_mul _
    have hm := (measurable_factF (p := p) t).aestronglyMeasurable (μ := volume.prod volume)
    rw [memLp_two_iff_integrable_sq hm]
    rw [integrable_prod_iff ((measurable_factF t).pow_const 2).aestronglyMeasurable]
    refine ⟨Filter.Eventually.of_forall fun τ => (hr τ).integrable_sq, ?_⟩
    have h1 : ∀ τ, ∫ s, ‖factF p t τ s ^ 2‖ = Spec.gate p (t - τ) * Spec.kH p (t - τ) (t - τ) := fun τ => by
      rw [← gate_sq, ← integral_factF h]
      congr 1
      funext s
      rw [Real.norm_of_nonneg (sq_nonneg _), sq]
    simp only [h1]
    refine (kH_diag_integrable ha t).bdd_mul (c := 1)
      (measurable_gate.comp (measurable_const.sub measurable_id)).aestronglyMeasurable
      (Filter.Eventually.of_forall fun τ => ?_)
    exact gate_abs_le _
  right := fun τ => (memLp_factU h _).const_mul _
  left := fun s => by
    have hm : Measurable fun τ => factF p t τ s :=
      (measurable_factF (p := p) t).comp (measurable_id.prodMk (measurable_const (a := s)))
    refine (memLp_gauss ha (factScale p) t).mono hm.aestronglyMeasurable
      (Filter.Eventually.of_forall fun τ => ?_)
    unfold factF factU
    rw [Real.norm_eq_abs, Real.norm_eq_abs, abs_mul, abs_mul, abs_of_pos (exp_pos (-(2 * p.gamma * _)))]
    have h1 := gate_abs_le (p := p) (t - τ)
    have h2 : exp (-(2 * p.gamma * (t - τ - s) ^ 2)) ≤ 1 := exp_le_one_iff.2 (by
      have : 0 ≤ 2 * p.gamma * (t - τ - s) ^ 2 := by positivity
      linarith)
    have h3 := abs_nonneg (factScale p * exp (-(p.alpha * (t - τ) ^ 2)))
    have h4 := (exp_pos (-(2 * p.gamma * (t - τ - s) ^ 2))).le
    calc _ ≤ 1 * (|factScale p * exp (-(p.alpha * (t - τ) ^ 2))| * 1) := by gcongr
      _ = _ := by ring

/-! ## The matrices -/

variable {m n : ℕ} (u : Fin m → ℝ) (z : Fin n → ℝ)

theorem memLp_kXS (h : 0 < p.omega) (z : ℝ) : MemLp (fun τ => Spec.kXS p τ z) 2 := by
  have := memLp_gauss h p.omegaT z
  unfold Spec.kXS
  have e : ∀ τ, (τ - z) ^ 2 = (z - τ) ^ 2 := fun τ => by ring
  simpa only [e] using this

theorem kXS_symm (x y : ℝ) : Spec.kXS p x y = Spec.kXS p y x := by
  unfold Spec.kXS
  rw [← neg_sub y x, neg_sq]

theorem gram_kz : gram volume (fun j τ => Spec.kXS p τ (z j)) (fun j τ => Spec.kXS p τ (z j)) =
    .of fun i j => Spec.kz p (z i) (z j) := by
  ext i j
  show ∫ τ, _ = Spec.kz p (z i) (z j)
  unfold Spec.kz
  simp only [kXS_symm (p := p) (z i)]

theorem gram_ku (h : 0 < p.gamma) : gram volume (fun i => factU p (u i)) (fun i => factU p (u i)) =
    .of fun i j => Spec.kH p (u i) (u j) := by
  ext i j
  exact integral_factU h _ _

theorem ku_posDef (h : 0 < p.gamma) (hk : p.alphaT ≠ 0) (hu : Function.Injective u) :
    (Matrix.of fun i j => Spec.kH p (u i) (u j)).PosDef := by
  rw [← gram_ku u h]
  refine gram_posDef (fun i => memLp_factU h _) (fun i => ?_) fun v hv => ?_
  · exact continuous_factU.comp (continuous_const.prodMk continuous_id)
  · refine gauss_independent (w := 2 * p.gamma) (by linarith) hu
      (k := fun i => factScale p * exp (-(p.alpha * u i ^ 2))) (fun i => ?_) hv
    have : factScale p ≠ 0 := mul_ne_zero hk (rpow_pos_of_pos (by positivity) _).ne'
    exact mul_ne_zero this (exp_ne_zero _)

theorem kz_posDef (h : 0 < p.omega) (hk : p.omegaT ≠ 0) (hz : Function.Injective z) :
    (Matrix.of fun i j => Spec.kz p (z i) (z j)).PosDef := by
  rw [← gram_kz z]
  refine gram_posDef (fun i => memLp_kXS h _) (fun i => ?_) fun v hv => ?_
  · unfold Spec.kXS
    fun_prop
  · refine gauss_independent h hz (k := fun _ => p.omegaT) (fun i => hk) fun s => ?_
    rw [← hv s]
    refine Finset.sum_congr rfl fun i _ => ?_
    rw [kXS_symm]
    rfl

theorem gram_iux (h : 0 < p.gamma) (t : ℝ) :
    gram volume (fun i τ => ∫ s, factF p t τ s * factU p (u i) s)
      (fun i τ => ∫ s, factF p t τ s * factU p (u i) s) = .of fun i j => Spec.iux p t t (u i) (u j) := by
  ext i j
  show ∫ τ, _ = Spec.iux p t t (u i) (u j)
  unfold Spec.iux
  congr 1
  funext τ
  beta_reduce
  rw [integral_factF_factU h, integral_factF_factU h, kH_symm p (u j)]
  ring

theorem gram_iuz (h : 0 < p.gamma) (t : ℝ) :
    gram volume (fun i τ => ∫ s, factF p t τ s * factU p (u i) s) (fun j τ => Spec.kXS p τ (z j)) =
      .of fun i j => Spec.iuz p t (u i) (z j) := by
  ext i j
  show ∫ τ, _ = Spec.iuz p t (u i) (z j)
  unfold Spec.iuz
  congr 1
  funext τ
  beta_reduce
  rw [integral_factF_factU h]
  ring

theorem gram_ihz (ha : 0 < p.alpha) (h : 0 < p.gamma) (ho : 0 < p.omega) (t : ℝ) :
    gram volume (fun j s => ∫ τ, factF p t τ s * Spec.kXS p τ (z j))
      (fun j s => ∫ τ, factF p t τ s * Spec.kXS p τ (z j)) = .of fun i j => Spec.ihz p t (z i) (z j) := by
  ext i j
  show ∫ s, _ = Spec.ihz p t (z i) (z j)
  have hF := biL2_factF ha h t
  rw [← hF.fubini (hF.swap.memLp_integral (memLp_kXS ho (z j))) (memLp_kXS ho (z i))]
  unfold Spec.ihz
  congr 1
  funext τ₁
  have e : ∫ s, factF p t τ₁ s * ∫ τ, factF p t τ s * Spec.kXS p τ (z j) =
      ∫ τ₂, (∫ s, factF p t τ₂ s * factF p t τ₁ s) * Spec.kXS p τ₂ (z j) := by
    rw [hF.fubini (hF.right τ₁) (memLp_kXS ho (z j))]
    congr 1
    funext s
    ring
  rw [e, ← integral_mul_const]
  congr 1
  funext τ₂
  rw [integral_factF h, kXS_symm (z j), kH_symm p (t - τ₂)]
  ring

theorem ihx_factF (h : 0 < p.gamma) (t : ℝ) : ∫ τ, ∫ s, factF p t τ s ^ 2 = Spec.ihx p t t := by
  unfold Spec.ihx
  congr 1
  funext τ
  rw [← integral_factF h]
  simp only [sq]

end Gpcm
