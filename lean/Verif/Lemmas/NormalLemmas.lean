import Verif.Lemmas.GaussMulti
import Mathlib.Analysis.Matrix.Spectrum

/-! # Helper lemmas: normal distributions with natural parameters -/

open Matrix Real MeasureTheory

namespace Gpcm

variable {n : Type} [Fintype n] [DecidableEq n]

/-! ## Factors -/

theorem cholsolve_eq {m : Type} (C : CholOracle n) {A : Matrix n n ℝ} (hA : A.PosDef)
    (b : Matrix n m ℝ) : cholsolve (C.chol A) b = A⁻¹ * b := by
  unfold cholsolve
  rw [← Matrix.mul_assoc, ← Matrix.mul_inv_rev, C.spec A hA]

theorem cholsolveVec_eq (C : CholOracle n) {A : Matrix n n ℝ} (hA : A.PosDef) (b : n → ℝ) :
    cholsolveVec (C.chol A) b = A⁻¹ *ᵥ b := by
  unfold cholsolveVec
  rw [mulVec_mulVec, ← Matrix.mul_inv_rev, C.spec A hA]

theorem pdInv_eq (C : CholOracle n) {A : Matrix n n ℝ} (hA : A.PosDef) : pdInv C A = A⁻¹ := by
  unfold pdInv
  rw [cholsolve_eq C hA, Matrix.mul_one]

theorem chol_det (C : CholOracle n) {A : Matrix n n ℝ} (hA : A.PosDef) :
    (C.chol A).det ^ 2 = A.det ∧ (C.chol A).det ≠ 0 := by
  have h := congrArg Matrix.det (C.spec A hA)
  rw [det_mul, det_transpose] at h
  refine ⟨by rw [sq, h], fun h0 => ?_⟩
  rw [h0, zero_mul] at h
  exact hA.det_pos.ne h

omit [Fintype n] [DecidableEq n] in
theorem posDef_symm {A : Matrix n n ℝ} (hA : A.PosDef) : Aᵀ = A := by
  have := hA.isHermitian.eq
  rwa [conjTranspose_eq_transpose_of_trivial] at this

theorem posDef_isUnit_det {A : Matrix n n ℝ} (hA : A.PosDef) : IsUnit A.det := hA.det_pos.ne'.isUnit

theorem inv_symm {A : Matrix n n ℝ} (hA : A.PosDef) : A⁻¹ᵀ = A⁻¹ := by
  rw [transpose_nonsing_inv, posDef_symm hA]

omit [DecidableEq n] in
theorem dot_symm {A : Matrix n n ℝ} (hA : Aᵀ = A) (x y : n → ℝ) : x ⬝ᵥ (A *ᵥ y) = y ⬝ᵥ (A *ᵥ x) := by
  rw [dotProduct_mulVec, ← mulVec_transpose, hA, dotProduct_comm]

namespace NatNormal

variable (C : CholOracle n)

theorem mean_eq {d : NatNormal n} (h : d.prec.PosDef) : d.mean C = d.prec⁻¹ *ᵥ d.lam :=
  cholsolveVec_eq C h _

theorem var_eq {d : NatNormal n} (h : d.prec.PosDef) : d.var C = d.prec⁻¹ := pdInv_eq C h

theorem prec_mul_mean {d : NatNormal n} (h : d.prec.PosDef) : d.prec *ᵥ d.mean C = d.lam := by
  rw [mean_eq C h, mulVec_mulVec, mul_nonsing_inv _ (posDef_isUnit_det h), one_mulVec]

theorem m2_eq {d : NatNormal n} (h : d.prec.PosDef) :
    d.m2 C = d.var C + vecMulVec (d.mean C) (d.mean C) := by
  unfold m2
  rw [cholsolve_eq C h, cholsolve_eq C h, var_eq C h, mean_eq C h, transpose_mul, inv_symm h,
    transpose_add, posDef_symm h, Matrix.add_mul, Matrix.mul_add,
    mul_nonsing_inv _ (posDef_isUnit_det h), Matrix.mul_one]
  congr 1
  rw [transpose_vecMulVec, vecMulVec_mul, mul_vecMulVec]
  congr 1
  rw [← mulVec_transpose, inv_symm h]

/-- The linear part of `sample`. -/
noncomputable def samplePart (d : NatNormal n) : Matrix n n ℝ := d.prec⁻¹ * C.chol d.prec

theorem sample_eq {d : NatNormal n} (h : d.prec.PosDef) (z : n → ℝ) :
    d.sample C z = d.mean C + d.samplePart C *ᵥ z := by
  unfold sample samplePart
  rw [cholsolveVec_eq C h, mulVec_add, mulVec_mulVec, mean_eq C h, add_comm]

theorem samplePart_mul {d : NatNormal n} (h : d.prec.PosDef) :
    d.samplePart C * (d.samplePart C)ᵀ = d.var C := by
  unfold samplePart
  rw [transpose_mul, inv_symm h, var_eq C h, Matrix.mul_assoc, ← Matrix.mul_assoc (C.chol d.prec),
    C.spec _ h, mul_nonsing_inv _ (posDef_isUnit_det h), Matrix.mul_one]

theorem samplePart_det {d : NatNormal n} (h : d.prec.PosDef) :
    (d.samplePart C).det ≠ 0 ∧ |(d.samplePart C).det| = exp (-(log d.prec.det) / 2) := by
  have h1 := congrArg Matrix.det (samplePart_mul C h)
  rw [det_mul, det_transpose, var_eq C h, det_nonsing_inv, Ring.inverse_eq_inv', ← sq] at h1
  have h2 := h.det_pos
  have h3 : (d.samplePart C).det ≠ 0 := fun h0 => by
    rw [h0] at h1
    have : 0 < d.prec.det⁻¹ := inv_pos.2 h2
    simp at h1
    linarith [h1]
  refine ⟨h3, ?_⟩
  rw [← sqrt_sq_eq_abs, h1, sqrt_eq_rpow, rpow_def_of_pos (inv_pos.2 h2), log_inv]
  congr 1
  ring

theorem samplePart_quad {d : NatNormal n} (h : d.prec.PosDef) (z : n → ℝ) :
    (d.samplePart C *ᵥ z) ⬝ᵥ (d.prec *ᵥ (d.samplePart C *ᵥ z)) = z ⬝ᵥ z := by
  unfold samplePart
  rw [mulVec_mulVec, ← Matrix.mul_assoc, mul_nonsing_inv _ (posDef_isUnit_det h), Matrix.one_mul,
    dotProduct_comm, dotProduct_mulVec, ← mulVec_transpose]
  rw [show (d.prec⁻¹ * C.chol d.prec)ᵀ *ᵥ C.chol d.prec *ᵥ z =
    ((d.prec⁻¹ * C.chol d.prec)ᵀ * C.chol d.prec) *ᵥ z from mulVec_mulVec _ _ _]
  have : (d.prec⁻¹ * C.chol d.prec)ᵀ * C.chol d.prec = 1 := by
    rw [transpose_mul, inv_symm h, Matrix.mul_assoc]
    have h1 : C.chol d.prec * (C.chol d.prec)ᵀ = d.prec := C.spec _ h
    have h2 : (C.chol d.prec) * ((C.chol d.prec)ᵀ * d.prec⁻¹) = 1 := by
      rw [← Matrix.mul_assoc, h1, mul_nonsing_inv _ (posDef_isUnit_det h)]
    rw [← Matrix.mul_assoc]
    exact mul_eq_one_comm.1 h2
  rw [this, one_mulVec]

theorem logpdf_eq (d : NatNormal n) (x : n → ℝ) : d.logpdf C x =
    log d.prec.det / 2 + -(Fintype.card n * log (2 * π)) / 2 +
      -(1 / 2) * ((x - d.mean C) ⬝ᵥ (d.prec *ᵥ (x - d.mean C))) := by
  simp only [logpdf]
  have : ∑ i, (d.prec *ᵥ (x - d.mean C)) i * (x - d.mean C) i =
      (x - d.mean C) ⬝ᵥ (d.prec *ᵥ (x - d.mean C)) := by
    rw [dotProduct_comm]
    rfl
  rw [this]
  ring

theorem density_sample {d : NatNormal n} (h : d.prec.PosDef) (z : n → ℝ) :
    |(d.samplePart C).det| * exp (d.logpdf C (d.mean C + d.samplePart C *ᵥ z)) = stdPdf z := by
  rw [(samplePart_det C h).2, logpdf_eq, add_sub_cancel_left, samplePart_quad C h, stdPdf_eq, ← exp_add,
    ← exp_add]
  congr 1
  ring

/-- Expectations under the density are expectations of the sampler. -/
theorem expect_sample {d : NatNormal n} (h : d.prec.PosDef) (f : (n → ℝ) → ℝ) :
    (Integrable (fun z => stdPdf z * f (d.sample C z)) ↔ Integrable fun x => exp (d.logpdf C x) * f x) ∧
    ∫ z, stdPdf z * f (d.sample C z) = ∫ x, exp (d.logpdf C x) * f x := by
  obtain ⟨h0, -⟩ := samplePart_det C h
  have h1 := integral_affine h0 (d.mean C) fun x => exp (d.logpdf C x) * f x
  have h2 : ∀ z, stdPdf z * f (d.sample C z) = |(d.samplePart C).det| *
      (exp (d.logpdf C (d.mean C + d.samplePart C *ᵥ z)) * f (d.mean C + d.samplePart C *ᵥ z)) := fun z => by
    rw [← mul_assoc, density_sample C h, sample_eq C h]
  simp only [h2]
  constructor
  · rw [← h1.1]
    exact integrable_const_mul_iff (abs_pos.2 h0).ne'.isUnit _
  · rw [integral_const_mul, h1.2, ← mul_assoc, mul_inv_cancel₀ (abs_pos.2 h0).ne', one_mul]

end NatNormal

/-- Products of affine functions of a standard normal vector. -/
theorem std_quad (α β : ℝ) (a b : n → ℝ) :
    (Integrable fun z : n → ℝ => stdPdf z * ((α + a ⬝ᵥ z) * (β + b ⬝ᵥ z))) ∧
    ∫ z : n → ℝ, stdPdf z * ((α + a ⬝ᵥ z) * (β + b ⬝ᵥ z)) = α * β + a ⬝ᵥ b := by
  have e : ∀ z : n → ℝ, stdPdf z * ((α + a ⬝ᵥ z) * (β + b ⬝ᵥ z)) =
      α * β * stdPdf z + ∑ k, (α * b k + β * a k) * (z k * stdPdf z) +
        ∑ k, ∑ l, a k * b l * (z k * z l * stdPdf z) := fun z => by
    have h1 : ∑ k, (α * b k + β * a k) * (z k * stdPdf z) =
        stdPdf z * (α * (b ⬝ᵥ z) + β * (a ⬝ᵥ z)) := by
      simp only [dotProduct, Finset.mul_sum, ← Finset.sum_add_distrib]
      exact Finset.sum_congr rfl fun k _ => by ring
    have h2 : ∑ k, ∑ l, a k * b l * (z k * z l * stdPdf z) = stdPdf z * ((a ⬝ᵥ z) * (b ⬝ᵥ z)) := by
      simp only [dotProduct, Finset.sum_mul_sum]
      rw [Finset.mul_sum]
      simp only [Finset.mul_sum]
      exact Finset.sum_congr rfl fun k _ => Finset.sum_congr rfl fun l _ => by ring
    rw [h1, h2]
    ring
  have i0 := (std_zeroth (n := n)).1.const_mul (α * β)
  have i1 : Integrable fun z : n → ℝ => ∑ k, (α * b k + β * a k) * (z k * stdPdf z) :=
    integrable_finsetSum _ fun k _ => (std_first k).1.const_mul _
  have i2 : Integrable fun z : n → ℝ => ∑ k, ∑ l, a k * b l * (z k * z l * stdPdf z) :=
    integrable_finsetSum _ fun k _ => integrable_finsetSum _ fun l _ => (std_second k l).1.const_mul _
  simp only [e]
  refine ⟨(i0.add i1).add i2, ?_⟩
  rw [integral_add (f := fun z : n → ℝ => α * β * stdPdf z + ∑ k, (α * b k + β * a k) * (z k * stdPdf z))
    (i0.add i1) i2, integral_add i0 i1, integral_const_mul, std_zeroth.2,
    integral_finsetSum _ fun k _ => (std_first k).1.const_mul _,
    integral_finsetSum _ fun k _ => integrable_finsetSum _ fun l _ => (std_second k l).1.const_mul _]
  have s1 : ∀ k, ∫ z : n → ℝ, (α * b k + β * a k) * (z k * stdPdf z) = 0 := fun k => by
    rw [integral_const_mul, (std_first k).2, mul_zero]
  have s2 : ∀ k, ∫ z : n → ℝ, ∑ l, a k * b l * (z k * z l * stdPdf z) = a k * b k := fun k => by
    rw [integral_finsetSum _ fun l _ => (std_second k l).1.const_mul _]
    simp only [integral_const_mul, (std_second k _).2]
    simp
  simp only [s1, s2]
  simp [dotProduct]

namespace NatNormal

variable (C : CholOracle n)

/-- Expected products of shifted coordinates. -/
theorem expect_prod {d : NatNormal n} (h : d.prec.PosDef) (a : n → ℝ) (i j : n) :
    (Integrable fun x => exp (d.logpdf C x) * ((x i - a i) * (x j - a j))) ∧
    ∫ x, exp (d.logpdf C x) * ((x i - a i) * (x j - a j)) =
      d.var C i j + (d.mean C i - a i) * (d.mean C j - a j) := by
  obtain ⟨h1, h2⟩ := expect_sample C h fun x => (x i - a i) * (x j - a j)
  have e : ∀ z k, d.sample C z k - a k = (d.mean C k - a k) + d.samplePart C k ⬝ᵥ z := fun z k => by
    rw [sample_eq C h]
    simp only [Pi.add_apply, mulVec]
    ring
  simp only [e] at h1 h2
  have q := std_quad (d.mean C i - a i) (d.mean C j - a j) (d.samplePart C i) (d.samplePart C j)
  refine ⟨h1.1 q.1, ?_⟩
  rw [← h2, q.2, ← samplePart_mul C h]
  rw [add_comm]
  rfl

theorem expect_one {d : NatNormal n} (h : d.prec.PosDef) :
    (Integrable fun x => exp (d.logpdf C x)) ∧ ∫ x, exp (d.logpdf C x) = 1 := by
  obtain ⟨h1, h2⟩ := expect_sample C h fun _ => 1
  simp only [mul_one] at h1 h2
  exact ⟨h1.1 std_zeroth.1, by rw [← h2, std_zeroth.2]⟩

theorem expect_coord {d : NatNormal n} (h : d.prec.PosDef) (i : n) :
    (Integrable fun x => exp (d.logpdf C x) * x i) ∧ ∫ x, exp (d.logpdf C x) * x i = d.mean C i := by
  obtain ⟨h1, h2⟩ := expect_sample C h fun x => x i
  have q := std_quad (d.mean C i) 1 (d.samplePart C i) 0
  simp only [zero_dotProduct, add_zero, mul_one, dotProduct_zero] at q
  have e : ∀ z, d.sample C z i = d.mean C i + d.samplePart C i ⬝ᵥ z := fun z => by
    rw [sample_eq C h]
    rfl
  simp only [e] at h1 h2
  exact ⟨h1.1 q.1, by rw [← h2, q.2]⟩

/-- Expected quadratic form. -/
theorem expect_quad {d : NatNormal n} (h : d.prec.PosDef) (Q : Matrix n n ℝ) (a : n → ℝ) :
    (Integrable fun x => exp (d.logpdf C x) * ((x - a) ⬝ᵥ (Q *ᵥ (x - a)))) ∧
    ∫ x, exp (d.logpdf C x) * ((x - a) ⬝ᵥ (Q *ᵥ (x - a))) =
      (Q * (d.var C)ᵀ).trace + (d.mean C - a) ⬝ᵥ (Q *ᵥ (d.mean C - a)) := by
  have e : ∀ x : n → ℝ, exp (d.logpdf C x) * ((x - a) ⬝ᵥ (Q *ᵥ (x - a))) =
      ∑ i, ∑ j, Q i j * (exp (d.logpdf C x) * ((x i - a i) * (x j - a j))) := fun x => by
    simp only [dotProduct, mulVec, Finset.mul_sum, Pi.sub_apply]
    exact Finset.sum_congr rfl fun i _ => Finset.sum_congr rfl fun j _ => by ring
  have hi := fun i j => (expect_prod C h a i j).1
  simp only [e]
  refine ⟨integrable_finsetSum _ fun i _ => integrable_finsetSum _ fun j _ => (hi i j).const_mul _, ?_⟩
  rw [integral_finsetSum _ fun i _ => integrable_finsetSum _ fun j _ => (hi i j).const_mul (Q i j)]
  have s2 : ∀ i, ∫ x : n → ℝ, ∑ j, Q i j * (exp (d.logpdf C x) * ((x i - a i) * (x j - a j))) =
      ∑ j, Q i j * (d.var C i j + (d.mean C i - a i) * (d.mean C j - a j)) := fun i => by
    rw [integral_finsetSum _ fun j _ => (hi i j).const_mul (Q i j)]
    simp only [integral_const_mul, (expect_prod C h a _ _).2]
  simp only [s2]
  simp only [dotProduct, mulVec, trace, diag_apply, mul_apply, transpose_apply, Finset.mul_sum,
    ← Finset.sum_add_distrib, Pi.sub_apply]
  exact Finset.sum_congr rfl fun i _ => Finset.sum_congr rfl fun j _ => by ring

/-! ## The Kullback-Leibler divergence -/

/-- The matrix `ratioᵀ ratio` in `kl`. -/
noncomputable def ratio (q p : NatNormal n) : Matrix n n ℝ := (C.chol q.prec)⁻¹ * C.chol p.prec

theorem kl_def (q p : NatNormal n) : q.kl C p =
    1 / 2 * (((ratio C q p)ᵀ * ratio C q p).trace - log ((ratio C q p)ᵀ * ratio C q p).det +
      (q.mean C - p.mean C) ⬝ᵥ (p.prec *ᵥ (q.mean C - p.mean C)) - Fintype.card n) := by
  have h1 : ∑ i, ∑ j, ratio C q p i j ^ 2 = ((ratio C q p)ᵀ * ratio C q p).trace := by
    simp only [trace, diag_apply, mul_apply, transpose_apply]
    rw [Finset.sum_comm]
    exact Finset.sum_congr rfl fun i _ => Finset.sum_congr rfl fun j _ => by ring
  rw [← h1, dotProduct_comm]
  unfold kl ratio dotProduct
  norm_num

theorem ratio_det {q p : NatNormal n} (hq : q.prec.PosDef) (hp : p.prec.PosDef) :
    (ratio C q p).det ≠ 0 ∧ ((ratio C q p)ᵀ * ratio C q p).det = p.prec.det / q.prec.det := by
  have h1 := chol_det C hq
  have h2 := chol_det C hp
  have h3 : (ratio C q p).det = (C.chol p.prec).det / (C.chol q.prec).det := by
    unfold ratio
    rw [det_mul, det_nonsing_inv, Ring.inverse_eq_inv', div_eq_inv_mul]
  refine ⟨?_, ?_⟩
  · rw [h3]
    exact div_ne_zero h2.2 h1.2
  · rw [det_mul, det_transpose, ← sq, h3, div_pow, h1.1, h2.1]

theorem ratio_trace {q p : NatNormal n} (hq : q.prec.PosDef) (hp : p.prec.PosDef) :
    ((ratio C q p)ᵀ * ratio C q p).trace = (p.prec * q.var C).trace := by
  unfold ratio
  rw [var_eq C hq, transpose_mul, Matrix.mul_assoc, trace_mul_comm, Matrix.mul_assoc, Matrix.mul_assoc,
    C.spec _ hp, ← Matrix.mul_assoc, trace_mul_comm, transpose_nonsing_inv, ← Matrix.mul_inv_rev,
    C.spec _ hq]

/-- The textbook formula. -/
theorem kl_formula {q p : NatNormal n} (hq : q.prec.PosDef) (hp : p.prec.PosDef) : q.kl C p =
    1 / 2 * ((p.prec * q.var C).trace - log p.prec.det + log q.prec.det +
      (q.mean C - p.mean C) ⬝ᵥ (p.prec *ᵥ (q.mean C - p.mean C)) - Fintype.card n) := by
  rw [kl_def, ratio_trace C hq hp, (ratio_det C hq hp).2, log_div hp.det_pos.ne' hq.det_pos.ne']
  ring

theorem ratio_posDef {q p : NatNormal n} (hq : q.prec.PosDef) (hp : p.prec.PosDef) :
    ((ratio C q p)ᵀ * ratio C q p).PosDef := by
  have := Matrix.PosDef.conjTranspose_mul_self (ratio C q p)
    (Matrix.mulVec_injective_iff_isUnit.2
      ((Matrix.isUnit_iff_isUnit_det _).2 (ratio_det C hq hp).1.isUnit))
  rwa [conjTranspose_eq_transpose_of_trivial] at this

/-- The trace exceeds the log-determinant by at least the dimension. -/
theorem trace_log_det {M : Matrix n n ℝ} (hM : M.PosDef) :
    0 ≤ M.trace - log M.det - Fintype.card n ∧
      (M.trace - log M.det - Fintype.card n = 0 → M = 1) := by
  have h1 := hM.isHermitian.trace_eq_sum_eigenvalues
  have h2 := hM.isHermitian.det_eq_prod_eigenvalues
  simp only [RCLike.ofReal_real_eq_id, id_eq] at h1 h2
  have hpos := hM.eigenvalues_pos
  have h3 : M.trace - log M.det - Fintype.card n =
      ∑ i, (hM.isHermitian.eigenvalues i - log (hM.isHermitian.eigenvalues i) - 1) := by
    rw [h1, h2, log_prod (fun i _ => (hpos i).ne'), Finset.sum_sub_distrib, Finset.sum_sub_distrib]
    simp
  have h4 : ∀ i, 0 ≤ hM.isHermitian.eigenvalues i - log (hM.isHermitian.eigenvalues i) - 1 := fun i => by
    linarith [log_le_sub_one_of_pos (hpos i)]
  rw [h3]
  refine ⟨Finset.sum_nonneg fun i _ => h4 i, fun h0 => ?_⟩
  have h5 := (Finset.sum_eq_zero_iff_of_nonneg fun i _ => h4 i).1 h0
  have h6 : ∀ i, hM.isHermitian.eigenvalues i = 1 := fun i => by
    by_contra hne
    have := log_lt_sub_one_of_pos (hpos i) hne
    have := h5 i (Finset.mem_univ i)
    linarith
  rw [hM.isHermitian.spectral_theorem]
  have : (RCLike.ofReal ∘ hM.isHermitian.eigenvalues : n → ℝ) = fun _ => 1 := by
    funext i
    simp [h6]
  rw [this, diagonal_one, map_one]

end NatNormal

end Gpcm
