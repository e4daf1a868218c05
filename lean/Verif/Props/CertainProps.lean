import Verif.Props.GapProps
import Verif.Props.MoreDataProps
import Mathlib.MeasureTheory.Function.L1Space.Integrable

/-! # Property C198: the mean-field scheme is the more certain one -/

set_option linter.unusedSectionVars false

open Matrix Real MeasureTheory

namespace Gpcm

section
variable {n p : Type} [Fintype n] [DecidableEq n] [Fintype p] [DecidableEq p]

theorem inv_quad {A : Matrix n n ℝ} (hA : A.PosDef) (a y : n → ℝ) :
    2 * (y ⬝ᵥ a) - y ⬝ᵥ (A *ᵥ y) ≤ a ⬝ᵥ (A⁻¹ *ᵥ a) ∧
      2 * ((A⁻¹ *ᵥ a) ⬝ᵥ a) - (A⁻¹ *ᵥ a) ⬝ᵥ (A *ᵥ (A⁻¹ *ᵥ a)) = a ⬝ᵥ (A⁻¹ *ᵥ a) := by
  have e : A *ᵥ (A⁻¹ *ᵥ a) = a := by rw [mulVec_mulVec, mul_nonsing_inv _ (posDef_isUnit_det hA), one_mulVec]
  have hs : ∀ x y : n → ℝ, x ⬝ᵥ (A *ᵥ y) = y ⬝ᵥ (A *ᵥ x) := fun x y => by
    rw [dotProduct_mulVec, ← mulVec_transpose, posDef_symm hA, dotProduct_comm]
  have h := hA.posSemidef.dotProduct_mulVec_nonneg (y - A⁻¹ *ᵥ a)
  rw [star_trivial, mulVec_sub, e, sub_dotProduct, dotProduct_sub, dotProduct_sub, hs (A⁻¹ *ᵥ a) y, e, dotProduct_comm (A⁻¹ *ᵥ a) a] at h
  rw [e, dotProduct_comm (A⁻¹ *ᵥ a) a]
  exact ⟨by linarith, by ring⟩

/-- The inverse of an average is at most the average of the inverses, for matrices that are affine in the products of the variables. -/
theorem inv_average {μ : Measure (p → ℝ)} [IsProbabilityMeasure μ] {K : Matrix n n ℝ} (hK : K.PosDef) {P : (p → ℝ) → Matrix n n ℝ}
    (hP : ∀ u, (P u).PosDef) (hle : ∀ u, (P u - K).PosSemidef) (hc : Continuous P) {Q : Matrix n n ℝ} (hQ : Q.PosDef)
    (hi : ∀ i j, Integrable (fun u : p → ℝ => u i * u j) μ)
    (hq : ∀ y : n → ℝ, ∃ (c : ℝ) (W : Matrix p p ℝ), (∀ u, y ⬝ᵥ (P u *ᵥ y) = c + frob W (vecMulVec u u)) ∧
      y ⬝ᵥ (Q *ᵥ y) = c + frob W (.of fun i j => ∫ u, u i * u j ∂μ)) (a : n → ℝ) :
    Integrable (fun u => a ⬝ᵥ ((P u)⁻¹ *ᵥ a)) μ ∧ a ⬝ᵥ (Q⁻¹ *ᵥ a) ≤ ∫ u, a ⬝ᵥ ((P u)⁻¹ *ᵥ a) ∂μ := by
  have hb : ∀ u, a ⬝ᵥ ((P u)⁻¹ *ᵥ a) ≤ a ⬝ᵥ (K⁻¹ *ᵥ a) := fun u => by
    have := (inv_antitone hK (hP u) (hle u)).dotProduct_mulVec_nonneg a
    rw [star_trivial, sub_mulVec, dotProduct_sub] at this
    linarith
  have h0 : ∀ u, 0 ≤ a ⬝ᵥ ((P u)⁻¹ *ᵥ a) := fun u => by
    simpa using (hP u).inv.posSemidef.dotProduct_mulVec_nonneg a
  have hcont : Continuous fun u => a ⬝ᵥ ((P u)⁻¹ *ᵥ a) := by
    have : Continuous fun u => (P u)⁻¹ := continuous_iff_continuousAt.2 fun u =>
      (continuousAt_inv (hP u)).comp hc.continuousAt
    exact continuous_const.dotProduct (this.matrix_mulVec continuous_const)
  have i1 : Integrable (fun u => a ⬝ᵥ ((P u)⁻¹ *ᵥ a)) μ :=
    (integrable_const (a ⬝ᵥ (K⁻¹ *ᵥ a))).mono' hcont.aestronglyMeasurable
      (Filter.Eventually.of_forall fun u => by rw [norm_of_nonneg (h0 u)]; exact hb u)
  refine ⟨i1, ?_⟩
  obtain ⟨y, hy⟩ : ∃ y, y = Q⁻¹ *ᵥ a := ⟨_, rfl⟩
  obtain ⟨c, W, h1, h2⟩ := hq y
  have i2 : Integrable (fun u : p → ℝ => frob W (vecMulVec u u)) μ := by
    simp only [frob, vecMulVec_apply]
    exact integrable_finsetSum _ fun i _ => integrable_finsetSum _ fun j _ => (hi i j).const_mul _
  have e2 : ∫ u, frob W (vecMulVec u u) ∂μ = frob W (.of fun i j => ∫ u, u i * u j ∂μ) := by
    simp only [frob, vecMulVec_apply, of_apply]
    rw [integral_finsetSum _ fun i _ => integrable_finsetSum _ fun j _ => (hi i j).const_mul (W i j)]
    refine Finset.sum_congr rfl fun i _ => ?_
    rw [integral_finsetSum _ fun j _ => (hi i j).const_mul (W i j)]
    exact Finset.sum_congr rfl fun j _ => integral_const_mul _ _
  have h3 := (inv_quad hQ a a).2
  rw [← hy, h2] at h3
  rw [← hy, ← h3]
  have i3 : Integrable (fun u => 2 * (y ⬝ᵥ a) - (c + frob W (vecMulVec u u))) μ :=
    (integrable_const _).sub ((integrable_const c).add i2)
  have h4 : ∫ u, (2 * (y ⬝ᵥ a) - (c + frob W (vecMulVec u u))) ∂μ = 2 * (y ⬝ᵥ a) - (c + frob W (.of fun i j => ∫ u, u i * u j ∂μ)) := by
    have i4 : Integrable (fun u => c + frob W (vecMulVec u u)) μ := (integrable_const c).add i2
    rw [integral_sub (integrable_const _) i4, integral_add (integrable_const _) i2, e2]
    simp
  rw [← h4]
  refine integral_mono i3 i1 fun u => ?_
  have := (inv_quad (hP u) a y).1
  rw [h1] at this
  exact this

/-- The spread of a linear combination around any number is at least its variance. -/
theorem spread_ge (Cn : CholOracle n) {q : NatNormal n} (hq : q.prec.PosDef) (a : n → ℝ) (c : ℝ) :
    ENNReal.ofReal (a ⬝ᵥ (q.prec⁻¹ *ᵥ a)) ≤ ∫⁻ z, ENNReal.ofReal (exp (q.logpdf Cn z) * (a ⬝ᵥ z - c) ^ 2) := by
  by_cases ha : a ⬝ᵥ a = 0
  · rw [dotProduct_self_eq_zero.1 ha]
    simp
  · obtain ⟨h1, h2⟩ := NatNormal.expect_quad Cn hq (vecMulVec a a) ((c / (a ⬝ᵥ a)) • a)
    have e : ∀ x : n → ℝ, x ⬝ᵥ (vecMulVec a a *ᵥ x) = (a ⬝ᵥ x) ^ 2 := fun x => by
      rw [vecMulVec_mulVec, dotProduct_comm x]
      simp [dotProduct_comm, sq, smul_dotProduct]
    have e2 : ∀ z : n → ℝ, a ⬝ᵥ (z - (c / (a ⬝ᵥ a)) • a) = a ⬝ᵥ z - c := fun z => by
      rw [dotProduct_sub, dotProduct_smul, smul_eq_mul, div_mul_cancel₀ _ ha]
    simp only [e, e2] at h1 h2
    rw [← ofReal_integral_eq_lintegral_ofReal h1 (Filter.Eventually.of_forall fun z => mul_nonneg (exp_pos _).le (sq_nonneg _)), h2]
    refine ENNReal.ofReal_le_ofReal ?_
    have : (vecMulVec a a * (q.var Cn)ᵀ).trace = a ⬝ᵥ (q.prec⁻¹ *ᵥ a) := by
      rw [NatNormal.var_eq Cn hq, inv_symm hq, trace_mul_comm, ← frob_vecMulVec, frob_eq_trace]
      congr 2
      ext i j
      simp [vecMulVec_apply, mul_comm]
    rw [this]
    linarith [sq_nonneg (a ⬝ᵥ q.mean Cn - c)]

end

variable {ι κ : Type} [Fintype ι] [DecidableEq ι] [Fintype κ] [DecidableEq κ]
variable (C : Chols ι κ) {m : Inst ι κ}

theorem frob_scale {α β : Type} [Fintype α] [Fintype β] (c : ℝ) (X Y : Matrix α β ℝ) : frob (c • X) Y = c * frob X Y := by
  simp only [frob, Matrix.smul_apply, smul_eq_mul, Finset.mul_sum, mul_assoc]

theorem zQuad_affine (ts : DataTerms ι κ) (y : κ → ℝ) :
    ∃ W : Matrix ι ι ℝ, ∀ u2, y ⬝ᵥ (zQuad ts u2 *ᵥ y) = y ⬝ᵥ (ts.BSum *ᵥ y) + frob W u2 := by
  have : ∀ l : List (Matrix ι κ ℝ), ∃ W : Matrix ι ι ℝ, ∀ u2, y ⬝ᵥ ((l.map fun I => Iᵀ * u2 * I).sum *ᵥ y) = frob W u2 := fun l => by
    induction l with
    | nil => exact ⟨0, fun u2 => by simp [frob]⟩
    | cons I l ih =>
      obtain ⟨W, hW⟩ := ih
      refine ⟨vecMulVec (I *ᵥ y) (I *ᵥ y) + W, fun u2 => ?_⟩
      rw [List.map_cons, List.sum_cons, add_mulVec, dotProduct_add, hW, frob_add_left, frob_comm (vecMulVec _ _), frob_vecMulVec,
        Matrix.mul_assoc, ← mulVec_mulVec, ← mulVec_mulVec, dotProduct_mulVec, ← mulVec_transpose, transpose_transpose]
  obtain ⟨W, hW⟩ := this ts.iUz
  exact ⟨W, fun u2 => by rw [zQuad, add_mulVec, dotProduct_add, hW]⟩

theorem uQuad_affine (ts : DataTerms ι κ) (y : ι → ℝ) :
    ∃ W : Matrix κ κ ℝ, ∀ z2, y ⬝ᵥ (uQuad ts z2 *ᵥ y) = y ⬝ᵥ (ts.ASum *ᵥ y) + frob W z2 := by
  have : ∀ l : List (Matrix ι κ ℝ), ∃ W : Matrix κ κ ℝ, ∀ z2, y ⬝ᵥ ((l.map fun I => I * z2 * Iᵀ).sum *ᵥ y) = frob W z2 := fun l => by
    induction l with
    | nil => exact ⟨0, fun u2 => by simp [frob]⟩
    | cons I l ih =>
      obtain ⟨W, hW⟩ := ih
      refine ⟨vecMulVec (Iᵀ *ᵥ y) (Iᵀ *ᵥ y) + W, fun z2 => ?_⟩
      rw [List.map_cons, List.sum_cons, add_mulVec, dotProduct_add, hW, frob_add_left, frob_comm (vecMulVec _ _), frob_vecMulVec,
        Matrix.mul_assoc, ← mulVec_mulVec, ← mulVec_mulVec, dotProduct_mulVec, ← mulVec_transpose]
  obtain ⟨W, hW⟩ := this ts.iUz
  exact ⟨W, fun u2 => by rw [uQuad, add_mulVec, dotProduct_add, hW]⟩

theorem continuous_precZ (ts : DataTerms ι κ) : Continuous fun u => (qzOptimal m ts u).prec := by
  rw [show (fun u => (qzOptimal m ts u).prec) = fun u => m.Kz + (1 / m.noise) • zQuad ts (vecMulVec u u) from
    funext fun u => by rw [qzOptimal_eq]; rfl]
  have hl : ∀ l : List (Matrix ι κ ℝ), Continuous fun u : ι → ℝ => (l.map fun I => Iᵀ * vecMulVec u u * I).sum := fun l => by
    induction l with
    | nil => simpa using continuous_const
    | cons I l ih =>
      simp only [List.map_cons, List.sum_cons]
      exact ((continuous_const.matrix_mul (continuous_id.matrix_vecMulVec continuous_id)).matrix_mul continuous_const).add ih
  have h2 : Continuous fun u : ι → ℝ => zQuad ts (vecMulVec u u) := continuous_const.add (hl ts.iUz)
  exact continuous_const.add (show Continuous fun u : ι → ℝ => (1 / m.noise) • zQuad ts (vecMulVec u u) from h2.const_smul (1 / m.noise))

theorem continuous_precU (ts : DataTerms ι κ) : Continuous fun z => (quOptimal m ts z).prec := by
  rw [show (fun z => (quOptimal m ts z).prec) = fun z => m.Ku + (1 / m.noise) • uQuad ts (vecMulVec z z) from
    funext fun z => by rw [quOptimal_eq]; rfl]
  have hl : ∀ l : List (Matrix ι κ ℝ), Continuous fun z : κ → ℝ => (l.map fun I => I * vecMulVec z z * Iᵀ).sum := fun l => by
    induction l with
    | nil => simpa using continuous_const
    | cons I l ih =>
      simp only [List.map_cons, List.sum_cons]
      exact ((continuous_const.matrix_mul (continuous_id.matrix_vecMulVec continuous_id)).matrix_mul continuous_const).add ih
  have h2 : Continuous fun z : κ → ℝ => uQuad ts (vecMulVec z z) := continuous_const.add (hl ts.iUz)
  exact continuous_const.add (show Continuous fun z : κ → ℝ => (1 / m.noise) • uQuad ts (vecMulVec z z) from h2.const_smul (1 / m.noise))

/-- **C198** The variance that the mean-field update gives to a linear combination of the inducing variables of the excitation is at most the
average of the variances given the filter, for every distribution of the filter with the second moments that the update uses. So it is at
most the variance of the linear combination when first the filter and then the excitation given the filter are drawn. -/
theorem c198_excitation (h : m.Valid) (d : List (ℝ × ℝ)) {q : NatNormal ι} (hq : q.prec.PosDef) (μ : Measure (ι → ℝ))
    [IsProbabilityMeasure μ] (hi : ∀ i j, Integrable (fun u : ι → ℝ => u i * u j) μ) (hm : ∀ i j, q.m2 C.u i j = ∫ u, u i * u j ∂μ)
    (a : κ → ℝ) :
    a ⬝ᵥ ((qzOptimalMF C m (constructDataTerms C m d) q).var C.z *ᵥ a) ≤
      ∫ u, a ⬝ᵥ ((qzOptimal m (constructDataTerms C m d) u).var C.z *ᵥ a) ∂μ ∧
    ∀ c : ℝ, ENNReal.ofReal (a ⬝ᵥ ((qzOptimalMF C m (constructDataTerms C m d) q).var C.z *ᵥ a)) ≤
      ∫⁻ u, ∫⁻ z, ENNReal.ofReal (exp ((qzOptimal m (constructDataTerms C m d) u).logpdf C.z z) * (a ⬝ᵥ z - c) ^ 2) ∂volume ∂μ := by
  obtain ⟨ts, hts⟩ : ∃ ts, ts = constructDataTerms C m d := ⟨_, rfl⟩
  have hP : ∀ u, (qzOptimal m ts u).prec.PosDef := fun u => hts ▸ qzOptimal_posDef C h d u
  have hQ : (qzOptimalMF C m ts q).prec.PosDef := hts ▸ qzOptimalMF_posDef C h d hq
  have hM : q.m2 C.u = .of fun i j => ∫ u, u i * u j ∂μ := by
    ext i j
    exact hm i j
  rw [← hts]
  simp only [NatNormal.var_eq C.z (hP _), NatNormal.var_eq C.z hQ]
  have key := inv_average (μ := μ) (K := m.Kz) h.Kz hP (fun u => ?_) (continuous_precZ ts) hQ hi (fun y => ?_) a
  · refine ⟨key.2, fun c => (ENNReal.ofReal_le_ofReal key.2).trans ?_⟩
    rw [ofReal_integral_eq_lintegral_ofReal key.1 (Filter.Eventually.of_forall fun u => by
      simpa using (hP u).inv.posSemidef.dotProduct_mulVec_nonneg a)]
    exact lintegral_mono fun u => spread_ge C.z (hP u) a c
  · rw [qzOptimal_eq]
    simp only [NatNormal.tilt, add_sub_cancel_left]
    rw [hts]
    exact (zQuad_psd (BSum_psd C h d) (outer_psd u)).smul (one_div_pos.2 h.noise).le
  · obtain ⟨W, hW⟩ := zQuad_affine ts y
    have e : ∀ u2, y ⬝ᵥ ((m.Kz + (1 / m.noise) • zQuad ts u2) *ᵥ y) =
        (y ⬝ᵥ (m.Kz *ᵥ y) + 1 / m.noise * (y ⬝ᵥ (ts.BSum *ᵥ y))) + frob ((1 / m.noise) • W) u2 := fun u2 => by
      rw [add_mulVec, dotProduct_add, smul_mulVec, dotProduct_smul, hW, smul_eq_mul, frob_scale]
      ring
    refine ⟨y ⬝ᵥ (m.Kz *ᵥ y) + 1 / m.noise * (y ⬝ᵥ (ts.BSum *ᵥ y)), (1 / m.noise) • W, fun u => ?_, ?_⟩
    · rw [qzOptimal_eq]
      exact e _
    · rw [qzOptimalMF_eq, ← hM]
      exact e _

/-- **C198** The same with the roles of the filter and the excitation exchanged. -/
theorem c198_filter (h : m.Valid) (d : List (ℝ × ℝ)) {q : NatNormal κ} (hq : q.prec.PosDef) (μ : Measure (κ → ℝ))
    [IsProbabilityMeasure μ] (hi : ∀ i j, Integrable (fun z : κ → ℝ => z i * z j) μ) (hm : ∀ i j, q.m2 C.z i j = ∫ z, z i * z j ∂μ)
    (a : ι → ℝ) :
    a ⬝ᵥ ((quOptimalMF C m (constructDataTerms C m d) q).var C.u *ᵥ a) ≤
      ∫ z, a ⬝ᵥ ((quOptimal m (constructDataTerms C m d) z).var C.u *ᵥ a) ∂μ ∧
    ∀ c : ℝ, ENNReal.ofReal (a ⬝ᵥ ((quOptimalMF C m (constructDataTerms C m d) q).var C.u *ᵥ a)) ≤
      ∫⁻ z, ∫⁻ u, ENNReal.ofReal (exp ((quOptimal m (constructDataTerms C m d) z).logpdf C.u u) * (a ⬝ᵥ u - c) ^ 2) ∂volume ∂μ := by
  obtain ⟨ts, hts⟩ : ∃ ts, ts = constructDataTerms C m d := ⟨_, rfl⟩
  have hP : ∀ z, (quOptimal m ts z).prec.PosDef := fun z => hts ▸ quOptimal_posDef C h d z
  have hQ : (quOptimalMF C m ts q).prec.PosDef := hts ▸ quOptimalMF_posDef C h d hq
  have hM : q.m2 C.z = .of fun i j => ∫ z, z i * z j ∂μ := by
    ext i j
    exact hm i j
  rw [← hts]
  simp only [NatNormal.var_eq C.u (hP _), NatNormal.var_eq C.u hQ]
  have key := inv_average (μ := μ) (K := m.Ku) h.Ku hP (fun z => ?_) (continuous_precU ts) hQ hi (fun y => ?_) a
  · refine ⟨key.2, fun c => (ENNReal.ofReal_le_ofReal key.2).trans ?_⟩
    rw [ofReal_integral_eq_lintegral_ofReal key.1 (Filter.Eventually.of_forall fun z => by
      simpa using (hP z).inv.posSemidef.dotProduct_mulVec_nonneg a)]
    exact lintegral_mono fun z => spread_ge C.u (hP z) a c
  · rw [quOptimal_eq]
    simp only [NatNormal.tilt, add_sub_cancel_left]
    rw [hts]
    exact (uQuad_psd (ASum_psd C h d) (outer_psd z)).smul (one_div_pos.2 h.noise).le
  · obtain ⟨W, hW⟩ := uQuad_affine ts y
    have e : ∀ z2, y ⬝ᵥ ((m.Ku + (1 / m.noise) • uQuad ts z2) *ᵥ y) =
        (y ⬝ᵥ (m.Ku *ᵥ y) + 1 / m.noise * (y ⬝ᵥ (ts.ASum *ᵥ y))) + frob ((1 / m.noise) • W) z2 := fun z2 => by
      rw [add_mulVec, dotProduct_add, smul_mulVec, dotProduct_smul, hW, smul_eq_mul, frob_scale]
      ring
    refine ⟨y ⬝ᵥ (m.Ku *ᵥ y) + 1 / m.noise * (y ⬝ᵥ (ts.ASum *ᵥ y)), (1 / m.noise) • W, fun z => ?_, ?_⟩
    · rw [quOptimal_eq]
      exact e _
    · rw [quOptimalMF_eq, ← hM]
      exact e _

/-- Averages with respect to a positive density. -/
theorem dens_average {p : Type} [Fintype p] {f : (p → ℝ) → ℝ} (hc : Continuous f) (h0 : ∀ u, 0 < f u) (hi : Integrable f) (h1 : ∫ u, f u = 1) :
    ∃ μ : Measure (p → ℝ), IsProbabilityMeasure μ ∧ (∀ g : (p → ℝ) → ℝ, Integrable (fun u => f u * g u) → Integrable g μ) ∧
      (∀ g : (p → ℝ) → ℝ, ∫ u, g u ∂μ = ∫ u, f u * g u) ∧
      ∀ g : (p → ℝ) → ENNReal, ∫⁻ u, g u ∂μ = ∫⁻ u, ENNReal.ofReal (f u) * g u := by
  have hm : Measurable fun u => ENNReal.ofReal (f u) := hc.measurable.ennreal_ofReal
  have hf : ∀ᵐ u ∂(volume : Measure (p → ℝ)), ENNReal.ofReal (f u) < ⊤ := Filter.Eventually.of_forall fun u => ENNReal.ofReal_lt_top
  refine ⟨volume.withDensity fun u => ENNReal.ofReal (f u), ⟨?_⟩, fun g hg => ?_, fun g => ?_, fun g => ?_⟩
  · rw [withDensity_apply _ MeasurableSet.univ, setLIntegral_univ,
      ← ofReal_integral_eq_lintegral_ofReal hi (Filter.Eventually.of_forall fun u => (h0 u).le), h1, ENNReal.ofReal_one]
  · rw [integrable_withDensity_iff_integrable_smul' hm hf]
    simpa only [ENNReal.toReal_ofReal (h0 _).le, smul_eq_mul] using hg
  · rw [integral_withDensity_eq_integral_toReal_smul hm hf]
    simp only [ENNReal.toReal_ofReal (h0 _).le, smul_eq_mul]
  · exact lintegral_withDensity_eq_lintegral_mul_non_measurable _ hm hf _

/-- **C198** With the same posterior of the filter, the mean-field scheme is at least as certain about the excitation as the structured scheme. -/
theorem c198_schemes (h : m.Valid) (d : List (ℝ × ℝ)) {q : NatNormal ι} (hq : q.prec.PosDef) (a : κ → ℝ) :
    a ⬝ᵥ ((qzOptimalMF C m (constructDataTerms C m d) q).var C.z *ᵥ a) ≤
      ∫ u, exp (q.logpdf C.u u) * (a ⬝ᵥ ((qzOptimal m (constructDataTerms C m d) u).var C.z *ᵥ a)) ∧
    ∀ c : ℝ, ENNReal.ofReal (a ⬝ᵥ ((qzOptimalMF C m (constructDataTerms C m d) q).var C.z *ᵥ a)) ≤
      ∫⁻ u, ENNReal.ofReal (exp (q.logpdf C.u u)) *
        ∫⁻ z, ENNReal.ofReal (exp ((qzOptimal m (constructDataTerms C m d) u).logpdf C.z z) * (a ⬝ᵥ z - c) ^ 2) := by
  obtain ⟨o1, o2⟩ := NatNormal.expect_one C.u hq
  obtain ⟨μ, hμ, m1, m2, m3⟩ := dens_average (continuous_logpdf C.u hq).rexp (fun u => exp_pos _) o1 o2
  have hp := NatNormal.expect_prod C.u hq 0
  simp only [Pi.zero_apply, sub_zero] at hp
  obtain ⟨k1, k2⟩ := c198_excitation C h d hq μ (fun i j => m1 _ (hp i j).1)
    (fun i j => by rw [m2, (hp i j).2, NatNormal.m2_eq C.u hq]; rfl) a
  rw [m2] at k1
  simp only [m3] at k2
  exact ⟨k1, k2⟩

/-- **C198** With the exact second moments of the filter, the update is at least as certain about the excitation as the exact posterior. -/
theorem c198_exact (h : m.Valid) (d : List (ℝ × ℝ)) {q : NatNormal ι} (hq : q.prec.PosDef)
    (hm : ∀ i j, q.m2 C.u i j = ∫ u, Spec.posteriorU m d u * (u i * u j)) (a : κ → ℝ) (c : ℝ) :
    ENNReal.ofReal (a ⬝ᵥ ((qzOptimalMF C m (constructDataTerms C m d) q).var C.z *ᵥ a)) ≤
      ∫⁻ x, ENNReal.ofReal (Spec.posterior m d x * (a ⬝ᵥ x.2 - c) ^ 2) := by
  have hZ := evidence_pos h d
  obtain ⟨-, f2, -, f4, -, f6, -, f8, -, -⟩ := single_facts C h d hq
  obtain ⟨μ, hμ, m1, m2, m3⟩ := dens_average f2 f4 f6 f8
  have hK : (⟨0, m.Ku⟩ : NatNormal ι).prec.PosDef := h.Ku
  have hp := NatNormal.expect_prod C.u hK 0
  simp only [Pi.zero_apply, sub_zero] at hp
  have hb : ∀ u, Spec.posteriorU m d u ≤ exp (d.length * (-(1 / 2) * log (2 * π * m.noise))) / evidence m d *
      exp (NatNormal.logpdf C.u ⟨0, m.Ku⟩ u) := fun u => by
    rw [posteriorU_eq C h, logMargU, exp_add, logPrior_eq C.u h.Ku, div_mul_eq_mul_div, mul_comm]
    exact div_le_div_of_nonneg_right (mul_le_mul_of_nonneg_right (exp_le_exp.2 (logZu_le C h d u)) (exp_pos _).le) hZ.le
  have hi : ∀ i j, Integrable fun u => Spec.posteriorU m d u * (u i * u j) := fun i j => by
    refine (((hp i j).1.norm).const_mul (exp (d.length * (-(1 / 2) * log (2 * π * m.noise))) / evidence m d)).mono'
      (f2.mul ((continuous_apply i).mul (continuous_apply j))).aestronglyMeasurable (Filter.Eventually.of_forall fun u => ?_)
    rw [norm_mul (Spec.posteriorU m d u), norm_of_nonneg (f4 u).le, norm_mul (exp _), norm_of_nonneg (exp_pos _).le, ← mul_assoc]
    exact mul_le_mul_of_nonneg_right (hb u) (norm_nonneg _)
  obtain ⟨-, k2⟩ := c198_excitation C h d hq μ (fun i j => m1 _ (hi i j)) (fun i j => by rw [m2, hm]) a
  refine (k2 c).trans (le_of_eq ?_)
  rw [m3, Measure.volume_eq_prod, lintegral_prod _ (by
    refine Measurable.aemeasurable (Measurable.ennreal_ofReal ?_)
    exact (((continuous_logJoint h d).rexp.div_const _).mul (((continuous_const.dotProduct continuous_snd).sub continuous_const).pow 2)).measurable)]
  refine lintegral_congr fun u => ?_
  rw [← lintegral_const_mul' _ _ ENNReal.ofReal_ne_top]
  refine lintegral_congr fun z => ?_
  rw [← ENNReal.ofReal_mul (f4 u).le, posteriorU_eq C h, Spec.posterior, logJoint_u C h, exp_add]
  congr 1
  ring

/-- A concrete instance: a filter that is uncertain and an observation. -/
example (D : Chols (Fin 1) (Fin 1)) (a : Fin 1 → ℝ) :
    a ⬝ᵥ ((qzOptimalMF D exInst (constructDataTerms D exInst [(0, 1)]) ⟨fun _ => 1, 1⟩).var D.z *ᵥ a) ≤
      ∫ u, exp (NatNormal.logpdf D.u ⟨fun _ => 1, 1⟩ u) * (a ⬝ᵥ ((qzOptimal exInst (constructDataTerms D exInst [(0, 1)]) u).var D.z *ᵥ a)) :=
  (c198_schemes D exInst_valid _ (q := ⟨fun _ => 1, 1⟩) Matrix.PosDef.one a).1

/-- Without observations the prior has the exact second moments. -/
example (D : Chols (Fin 1) (Fin 1)) (i j : Fin 1) :
    NatNormal.m2 D.u ⟨0, 1⟩ i j = ∫ u, Spec.posteriorU exInst [] u * (u i * u j) := by
  have hp := NatNormal.expect_prod D.u (d := ⟨0, 1⟩) Matrix.PosDef.one 0 i j
  simp only [Pi.zero_apply, sub_zero] at hp
  rw [NatNormal.m2_eq D.u (d := ⟨0, 1⟩) Matrix.PosDef.one]
  refine hp.2.symm.trans (integral_congr_ae (Filter.Eventually.of_forall fun u => ?_))
  have e := (c197_no_data D exInst_valid ⟨0, fun _ => ⟨0, 1⟩, fun _ => ⟨0, 1⟩⟩ rfl Matrix.PosDef.one Matrix.PosDef.one rfl).1
  have h1 := (NatNormal.expect_one D.z (d := ⟨0, 1⟩) Matrix.PosDef.one).2
  simp only [Spec.posteriorU, Spec.posterior, e, div_one, logJoint, logPrior_eq D.u exInst_valid.Ku, logPrior_eq D.z exInst_valid.Kz, expLogLik,
    List.map_nil, List.sum_nil, add_zero, exp_add]
  rw [integral_const_mul]
  exact congrArg (· * (u i * u j)) (by rw [show exInst.Kz = 1 from rfl, h1, mul_one]; rfl)

end Gpcm
