import Verif.Model.Normal
import Mathlib.Probability.Distributions.Gaussian.Real
import Mathlib.MeasureTheory.Integral.Pi
import Mathlib.MeasureTheory.Measure.Lebesgue.Basic
import Mathlib.Analysis.Matrix.PosDef

/-! # Helper lemmas: Gaussian integrals over `ℝⁿ` -/

open Matrix Real MeasureTheory ProbabilityTheory

namespace Gpcm

variable {n : Type} [Fintype n] [DecidableEq n]

/-- The density of a standard normal vector. -/
noncomputable def stdPdf (z : n → ℝ) : ℝ := ∏ i, gaussianPDFReal 0 1 (z i)

omit [DecidableEq n] in
theorem stdPdf_eq (z : n → ℝ) :
    stdPdf z = exp (-(Fintype.card n * log (2 * π)) / 2) * exp (-(1 / 2) * (z ⬝ᵥ z)) := by
  have h : ∀ t : ℝ, gaussianPDFReal 0 1 t = exp (-log (2 * π) / 2) * exp (-(1 / 2) * (t * t)) := fun t => by
    rw [gaussianPDFReal_def]
    simp only [NNReal.coe_one, mul_one, sub_zero]
    congr 1
    · rw [sqrt_eq_rpow, rpow_def_of_pos (by positivity), ← exp_neg]
      congr 1
      ring
    · congr 1
      ring
  unfold stdPdf
  simp only [h]
  rw [Finset.prod_mul_distrib, Finset.prod_const, ← exp_sum, ← exp_nat_mul, dotProduct, Finset.mul_sum,
    Finset.card_univ]
  congr 2
  ring

/-- The moments of one coordinate. -/
theorem std_moments :
    (Integrable fun t : ℝ => gaussianPDFReal 0 1 t) ∧ (Integrable fun t : ℝ => t * gaussianPDFReal 0 1 t) ∧
    (Integrable fun t : ℝ => t * t * gaussianPDFReal 0 1 t) ∧ ∫ t, gaussianPDFReal 0 1 t = 1 ∧
    ∫ t, t * gaussianPDFReal 0 1 t = 0 ∧ ∫ t, t * t * gaussianPDFReal 0 1 t = 1 := by
  have hd : gaussianReal 0 1 = volume.withDensity (gaussianPDF 0 1) :=
    gaussianReal_of_var_ne_zero 0 one_ne_zero
  have hI : ∀ f : ℝ → ℝ, Integrable f (gaussianReal 0 1) →
      Integrable fun t => f t * gaussianPDFReal 0 1 t := fun f hf => by
    rw [hd, integrable_withDensity_iff (measurable_gaussianPDF 0 1)
      (Filter.Eventually.of_forall fun _ => gaussianPDF_lt_top)] at hf
    simpa [toReal_gaussianPDF] using hf
  have hE : ∀ f : ℝ → ℝ, ∫ t, f t ∂gaussianReal 0 1 = ∫ t, f t * gaussianPDFReal 0 1 t := fun f => by
    rw [integral_gaussianReal_eq_integral_smul one_ne_zero]
    simp only [smul_eq_mul, mul_comm]
  have h2 : MemLp id 2 (gaussianReal 0 1) := memLp_id_gaussianReal 2
  have i1 : Integrable (fun t : ℝ => t) (gaussianReal 0 1) := h2.integrable (by norm_num)
  have i2 : Integrable (fun t : ℝ => t * t) (gaussianReal 0 1) := by
    have := h2.integrable_sq
    simpa [sq] using this
  refine ⟨integrable_gaussianPDFReal 0 1, hI _ i1, hI _ i2, integral_gaussianPDFReal_eq_one 0 one_ne_zero,
    ?_, ?_⟩
  · rw [← hE]
    exact integral_id_gaussianReal
  · rw [← hE]
    have := variance_fun_id_gaussianReal (μ := 0) (v := 1)
    rw [variance_eq_integral (by fun_prop)] at this
    simpa [integral_id_gaussianReal, sq] using this

/-- Mixed second moments of a standard normal vector. -/
theorem std_second (i j : n) :
    (Integrable fun z : n → ℝ => z i * z j * stdPdf z) ∧
    ∫ z : n → ℝ, z i * z j * stdPdf z = if i = j then 1 else 0 := by
  obtain ⟨h0, h1, h2, m0, m1, m2⟩ := std_moments
  obtain ⟨f, hf⟩ : ∃ f : n → ℝ → ℝ, f = fun k t =>
    (if i = k then t else 1) * (if j = k then t else 1) * gaussianPDFReal 0 1 t := ⟨_, rfl⟩
  have hz : (fun z : n → ℝ => z i * z j * stdPdf z) = fun z => ∏ k, f k (z k) := by
    funext z
    simp only [hf]
    rw [Finset.prod_mul_distrib, Finset.prod_mul_distrib, Finset.prod_ite_eq, Finset.prod_ite_eq]
    simp [stdPdf]
  have hint : ∀ k, Integrable (f k) := fun k => by
    rw [hf]
    by_cases hi : i = k <;> by_cases hj : j = k <;> simp only [hi, hj, if_true, if_false, one_mul, mul_one]
    · exact h2
    · exact h1
    · exact h1
    · exact h0
  rw [hz]
  refine ⟨Integrable.fintype_prod hint, ?_⟩
  rw [integral_fintype_prod_volume_eq_prod]
  by_cases hij : i = j
  · subst hij
    rw [if_pos rfl]
    refine Finset.prod_eq_one fun k _ => ?_
    rw [hf]
    by_cases hi : i = k <;> simp [hi, m0, m2]
  · rw [if_neg hij]
    refine Finset.prod_eq_zero (Finset.mem_univ i) ?_
    rw [hf]
    simp [Ne.symm hij, m1]

theorem std_first (i : n) :
    (Integrable fun z : n → ℝ => z i * stdPdf z) ∧ ∫ z : n → ℝ, z i * stdPdf z = 0 := by
  obtain ⟨h0, h1, h2, m0, m1, m2⟩ := std_moments
  obtain ⟨f, hf⟩ : ∃ f : n → ℝ → ℝ, f = fun k t =>
    (if i = k then t else 1) * gaussianPDFReal 0 1 t := ⟨_, rfl⟩
  have hz : (fun z : n → ℝ => z i * stdPdf z) = fun z => ∏ k, f k (z k) := by
    funext z
    simp only [hf]
    rw [Finset.prod_mul_distrib, Finset.prod_ite_eq]
    simp [stdPdf]
  have hint : ∀ k, Integrable (f k) := fun k => by
    rw [hf]
    by_cases hi : i = k <;> simp only [hi, if_true, if_false, one_mul]
    · exact h1
    · exact h0
  rw [hz]
  refine ⟨Integrable.fintype_prod hint, ?_⟩
  rw [integral_fintype_prod_volume_eq_prod]
  refine Finset.prod_eq_zero (Finset.mem_univ i) ?_
  rw [hf]
  simp [m1]

omit [DecidableEq n] in
theorem std_zeroth :
    (Integrable fun z : n → ℝ => stdPdf z) ∧ ∫ z : n → ℝ, stdPdf z = 1 := by
  obtain ⟨h0, h1, h2, m0, m1, m2⟩ := std_moments
  refine ⟨Integrable.fintype_prod fun _ => h0, ?_⟩
  unfold stdPdf
  rw [integral_fintype_prod_volume_eq_prod (fun _ : n => gaussianPDFReal 0 1)]
  exact Finset.prod_eq_one fun k _ => m0

/-- Change of variables by an affine map. -/
theorem integral_affine {S : Matrix n n ℝ} (hS : S.det ≠ 0) (m : n → ℝ) (f : (n → ℝ) → ℝ) :
    (Integrable (fun z => f (m + S *ᵥ z)) ↔ Integrable f) ∧
    ∫ z, f (m + S *ᵥ z) = |S.det|⁻¹ * ∫ x, f x := by
  have hmap := Real.map_matrix_volume_pi_eq_smul_volume_pi hS
  obtain ⟨e, he⟩ : ∃ e : (n → ℝ) ≃L[ℝ] (n → ℝ), ∀ z, e z = S *ᵥ z := by
    have h1 : S * S⁻¹ = 1 := Matrix.mul_nonsing_inv S hS.isUnit
    have h2 : S⁻¹ * S = 1 := Matrix.nonsing_inv_mul S hS.isUnit
    refine ⟨(Matrix.toLin'OfInv h2 h1).toContinuousLinearEquiv, fun z => ?_⟩
    show (Matrix.toLin'OfInv h2 h1) z = _
    rfl
  have hemb : MeasurableEmbedding (fun z : n → ℝ => S *ᵥ z) := by
    have : (fun z : n → ℝ => S *ᵥ z) = e := funext fun z => (he z).symm
    rw [this]
    exact e.toHomeomorph.measurableEmbedding
  have hmap' : Measure.map (fun z : n → ℝ => S *ᵥ z) volume =
      ENNReal.ofReal |(S.det)⁻¹| • volume := hmap
  have h0 : ENNReal.ofReal |(S.det)⁻¹| ≠ 0 := by
    rw [Ne, ENNReal.ofReal_eq_zero, not_le]
    exact abs_pos.2 (inv_ne_zero hS)
  constructor
  · have h1 : Integrable (fun z => f (m + S *ᵥ z)) ↔
        Integrable (fun x => f (m + x)) (Measure.map (fun z : n → ℝ => S *ᵥ z) volume) :=
      (hemb.integrable_map_iff (μ := volume) (g := fun x => f (m + x))).symm
    rw [h1, hmap', integrable_smul_measure h0 ENNReal.ofReal_ne_top]
    constructor
    · intro h
      have := h.comp_add_left (-m)
      simpa using this
    · exact fun h => h.comp_add_left m
  · have h1 := hemb.integral_map (μ := volume) (fun x => f (m + x))
    rw [← h1, hmap', integral_smul_measure, integral_add_left_eq_self f m,
      ENNReal.toReal_ofReal (abs_nonneg _), abs_inv, smul_eq_mul]

end Gpcm
