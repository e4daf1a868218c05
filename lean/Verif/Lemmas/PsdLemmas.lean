import Verif.Model.ClosestPsd
import Mathlib.LinearAlgebra.Matrix.PosDef
import Mathlib.Tactic.Linarith
import Mathlib.Tactic.Ring
import Mathlib.Tactic.NormNum

/-! # Helper lemmas for `closest_psd` -/

open Matrix

namespace Gpcm.Util

variable {n : ℕ} {a : Matrix (Fin n) (Fin n) ℝ} {d : Svd n}

theorem symPart_isSymm (a : Matrix (Fin n) (Fin n) ℝ) : (symPart a).IsSymm := by
  unfold symPart Matrix.IsSymm
  rw [transpose_smul, transpose_add, transpose_transpose, add_comm]

theorem symPart_of_isSymm (h : a.IsSymm) : symPart a = a := by
  unfold symPart
  rw [h.eq, ← two_smul ℝ a, smul_smul]
  norm_num

/-- Column of a matrix. -/
def colv (m : Matrix (Fin n) (Fin n) ℝ) (i : Fin n) : Fin n → ℝ := fun r => m r i

theorem mulVec_colv (a m : Matrix (Fin n) (Fin n) ℝ) (i : Fin n) :
    a *ᵥ colv m i = colv (a * m) i := rfl

theorem colv_mul_diagonal (m : Matrix (Fin n) (Fin n) ℝ) (s : Fin n → ℝ) (i : Fin n) :
    colv (m * diagonal s) i = s i • colv m i := by
  ext r
  simp [colv, mul_diagonal, mul_comm]

theorem IsSvd.u_orth' (h : IsSvd a d) : d.u * d.uᵀ = 1 := mul_eq_one_comm.1 h.u_orth

theorem IsSvd.v_orth' (h : IsSvd a d) : d.v * d.vᵀ = 1 := mul_eq_one_comm.1 h.v_orth

theorem IsSvd.mul_v (h : IsSvd a d) : a * d.v = d.u * diagonal d.s := by
  rw [h.eq, Matrix.mul_assoc, h.v_orth, Matrix.mul_one]

theorem IsSvd.mul_u (h : IsSvd a d) (hs : a.IsSymm) : a * d.u = d.v * diagonal d.s := by
  have : a = d.v * diagonal d.s * d.uᵀ := by
    rw [← hs.eq]
    nth_rewrite 1 [h.eq]
    rw [transpose_mul, transpose_mul, transpose_transpose, diagonal_transpose, Matrix.mul_assoc]
  nth_rewrite 1 [this]
  rw [Matrix.mul_assoc, h.u_orth, Matrix.mul_one]

/-- The sum of a pair of singular vectors is an eigenvector. -/
theorem IsSvd.plus (h : IsSvd a d) (hs : a.IsSymm) (i : Fin n) :
    a *ᵥ (colv d.u i + colv d.v i) = d.s i • (colv d.u i + colv d.v i) := by
  rw [mulVec_add, mulVec_colv, mulVec_colv, h.mul_v, h.mul_u hs, colv_mul_diagonal,
    colv_mul_diagonal, smul_add, add_comm]

/-- The difference of a pair of singular vectors is an eigenvector with the opposite eigenvalue. -/
theorem IsSvd.minus (h : IsSvd a d) (hs : a.IsSymm) (i : Fin n) :
    a *ᵥ (colv d.u i - colv d.v i) = (-d.s i) • (colv d.u i - colv d.v i) := by
  rw [mulVec_sub, mulVec_colv, mulVec_colv, h.mul_v, h.mul_u hs, colv_mul_diagonal,
    colv_mul_diagonal, neg_smul, smul_sub, neg_sub]

theorem IsSvd.u_dot (h : IsSvd a d) (i : Fin n) : colv d.u i ⬝ᵥ colv d.u i = 1 := by
  have := congrFun (congrFun h.u_orth i) i
  simpa [Matrix.mul_apply, colv, dotProduct] using this

theorem uv_diag (d : Svd n) (i : Fin n) : (d.uᵀ * d.v) i i = colv d.u i ⬝ᵥ colv d.v i := by
  simp [Matrix.mul_apply, colv, dotProduct]

/-- Every singular pair is a pair of equal or opposite vectors, unless the singular value is zero. -/
def Aligned (d : Svd n) : Prop :=
  ∀ i, d.s i ≠ 0 → colv d.v i = colv d.u i ∨ colv d.v i = -colv d.u i

/-- The eigenvalue that belongs to a singular pair. -/
noncomputable def lam (d : Svd n) (i : Fin n) : ℝ := (d.uᵀ * d.v) i i * d.s i

theorem Aligned.col (hA : Aligned d) (h : IsSvd a d) (i : Fin n) :
    d.s i • colv d.v i = lam d i • colv d.u i := by
  unfold lam
  rw [uv_diag]
  by_cases hs : d.s i = 0
  · simp [hs]
  · rcases hA i hs with hv | hv
    · rw [hv, h.u_dot, one_mul]
    · rw [hv, dotProduct_neg, h.u_dot]
      simp

theorem Aligned.vs (hA : Aligned d) (h : IsSvd a d) : d.v * diagonal d.s = d.u * diagonal (lam d) := by
  ext r i
  have := congrFun (hA.col h i) r
  rw [mul_diagonal, mul_diagonal]
  simpa [colv, mul_comm] using this

/-- The spectral decomposition that an aligned singular value decomposition amounts to. -/
theorem Aligned.spectral (hA : Aligned d) (h : IsSvd a d) :
    a = d.u * diagonal (lam d) * d.uᵀ := by
  have e : diagonal d.s * d.vᵀ = diagonal (lam d) * d.uᵀ := by
    have := congrArg transpose (hA.vs h)
    rwa [transpose_mul, transpose_mul, diagonal_transpose, diagonal_transpose] at this
  rw [h.eq, Matrix.mul_assoc, e, ← Matrix.mul_assoc]

theorem Aligned.newS_col (hA : Aligned d) (h : IsSvd a d) (inv : Bool) (i : Fin n) :
    newS d inv i • colv d.v i = newS d inv i • colv d.u i := by
  by_cases h0 : newS d inv i = 0
  · simp [h0]
  · have hpos : 0 < (d.uᵀ * d.v) i i * d.s i := by
      by_contra hc
      apply h0
      unfold newS
      rw [max_eq_right (not_lt.1 hc)]
      cases inv <;> simp
    have hs : d.s i ≠ 0 := fun hs => by simp [hs] at hpos
    rcases hA i hs with hv | hv
    · rw [hv]
    · rw [uv_diag, hv, dotProduct_neg, h.u_dot] at hpos
      have := h.nonneg i
      linarith

theorem Aligned.out (hA : Aligned d) (h : IsSvd a d) (inv : Bool) :
    d.u * diagonal (newS d inv) * d.vᵀ = d.u * diagonal (newS d inv) * d.uᵀ := by
  have e : d.v * diagonal (newS d inv) = d.u * diagonal (newS d inv) := by
    ext r i
    have := congrFun (hA.newS_col h inv i) r
    rw [mul_diagonal, mul_diagonal]
    simpa [colv, mul_comm] using this
  have := congrArg transpose e
  rw [transpose_mul, transpose_mul, diagonal_transpose] at this
  rw [Matrix.mul_assoc, this, ← Matrix.mul_assoc]

/-- Sum of squares of the entries. -/
def frobSq (m : Matrix (Fin n) (Fin n) ℝ) : ℝ := ∑ i, ∑ j, m i j ^ 2

theorem frobSq_trace (m : Matrix (Fin n) (Fin n) ℝ) : frobSq m = trace (mᵀ * m) := by
  unfold frobSq
  simp only [trace, diag, Matrix.mul_apply, transpose_apply]
  rw [Finset.sum_comm]
  simp only [sq]

theorem frobSq_conj (m u : Matrix (Fin n) (Fin n) ℝ) (hu : uᵀ * u = 1) :
    frobSq (uᵀ * m * u) = frobSq m := by
  have hu' : u * uᵀ = 1 := mul_eq_one_comm.1 hu
  rw [frobSq_trace, frobSq_trace, transpose_mul, transpose_mul, transpose_transpose]
  have : uᵀ * (mᵀ * u) * (uᵀ * m * u) = uᵀ * (mᵀ * (u * uᵀ) * m) * u := by
    simp only [Matrix.mul_assoc]
  rw [this, hu', Matrix.mul_one, trace_mul_comm, ← Matrix.mul_assoc, hu', Matrix.one_mul]

/-- Keeping the non-negative eigenvalues gives the nearest positive semi-definite matrix. -/
theorem nearest_of_spectral {u : Matrix (Fin n) (Fin n) ℝ} {l : Fin n → ℝ} (hu : uᵀ * u = 1)
    {p : Matrix (Fin n) (Fin n) ℝ} (hp : p.PosSemidef) :
    frobSq (u * diagonal l * uᵀ - u * diagonal (fun i => max (l i) 0) * uᵀ) ≤
      frobSq (u * diagonal l * uᵀ - p) := by
  rw [← frobSq_conj _ u hu, ← frobSq_conj (u * diagonal l * uᵀ - p) u hu]
  have e : ∀ x : Fin n → ℝ, uᵀ * (u * diagonal x * uᵀ) * u = diagonal x := fun x => by
    have : uᵀ * (u * diagonal x * uᵀ) * u = (uᵀ * u) * diagonal x * (uᵀ * u) := by
      simp only [Matrix.mul_assoc]
    rw [this, hu, Matrix.one_mul, Matrix.mul_one]
  rw [Matrix.mul_sub, Matrix.sub_mul, Matrix.mul_sub, Matrix.sub_mul, e, e]
  have hq : ∀ i, 0 ≤ (uᵀ * p * u) i i := fun i => by
    have := (hp.conjTranspose_mul_mul_same u)
    rw [conjTranspose_eq_transpose_of_trivial] at this
    exact this.diag_nonneg
  generalize uᵀ * p * u = q at hq
  unfold frobSq
  have h1 : ∀ i, ∑ j, (diagonal l - diagonal (fun i => max (l i) 0)) i j ^ 2 = (l i - max (l i) 0) ^ 2 :=
    fun i => by
      rw [Finset.sum_eq_single i]
      · simp
      · intro j _ hj
        simp [Ne.symm hj]
      · simp
  refine Finset.sum_le_sum fun i _ => ?_
  rw [h1]
  refine le_trans ?_ (Finset.single_le_sum (f := fun j => (diagonal l - q) i j ^ 2)
    (fun j _ => sq_nonneg _) (Finset.mem_univ i))
  simp only [Matrix.sub_apply, diagonal_apply_eq]
  rcases le_total 0 (l i) with hl | hl
  · rw [max_eq_left hl, sub_self]
    nlinarith [sq_nonneg (l i - q i i)]
  · rw [max_eq_right hl]
    nlinarith [hq i]

/-- Distances to a matrix and to its symmetric part differ by a constant on symmetric matrices. -/
theorem frobSq_sub_symPart (a : Matrix (Fin n) (Fin n) ℝ) {p : Matrix (Fin n) (Fin n) ℝ}
    (hp : p.IsSymm) : frobSq (a - p) = frobSq (symPart a - p) + frobSq (a - symPart a) := by
  have hps : ∀ i j, p i j = p j i := fun i j => by
    conv_lhs => rw [← hp.eq]
    rfl
  have hx : ∑ i, ∑ j, (symPart a - p) i j * (a - symPart a) i j = 0 := by
    have hneg : ∑ i, ∑ j, (symPart a - p) i j * (a - symPart a) i j =
        -∑ i, ∑ j, (symPart a - p) i j * (a - symPart a) i j := by
      conv_lhs => rw [Finset.sum_comm]
      rw [← Finset.sum_neg_distrib]
      refine Finset.sum_congr rfl fun i _ => ?_
      rw [← Finset.sum_neg_distrib]
      refine Finset.sum_congr rfl fun j _ => ?_
      simp only [symPart, Matrix.sub_apply, Matrix.smul_apply, Matrix.add_apply, transpose_apply, smul_eq_mul, hps j i]
      ring
    linarith
  have hsum : frobSq (a - p) = frobSq (symPart a - p) + frobSq (a - symPart a) +
      2 * ∑ i, ∑ j, (symPart a - p) i j * (a - symPart a) i j := by
    unfold frobSq
    rw [Finset.mul_sum, ← Finset.sum_add_distrib, ← Finset.sum_add_distrib]
    refine Finset.sum_congr rfl fun i _ => ?_
    rw [Finset.mul_sum, ← Finset.sum_add_distrib, ← Finset.sum_add_distrib]
    refine Finset.sum_congr rfl fun j _ => ?_
    simp only [Matrix.sub_apply]
    ring
  rw [hsum, hx]
  ring

/-- For a positive semi-definite matrix left and right singular vectors agree. -/
theorem IsSvd.eq_of_posSemidef (h : IsSvd a d) (ha : a.PosSemidef) (i : Fin n) (hi : d.s i ≠ 0) :
    colv d.v i = colv d.u i := by
  have hs : a.IsSymm := by
    have := ha.isHermitian
    rwa [IsHermitian, conjTranspose_eq_transpose_of_trivial] at this
  have hpos : 0 < d.s i := lt_of_le_of_ne (h.nonneg i) (Ne.symm hi)
  have hm := h.minus hs i
  set m := colv d.u i - colv d.v i with hmdef
  have h1 : 0 ≤ m ⬝ᵥ (a *ᵥ m) := by
    have := ha.dotProduct_mulVec_nonneg m
    simpa using this
  rw [hm, dotProduct_smul, smul_eq_mul] at h1
  have h2 : 0 ≤ m ⬝ᵥ m := Finset.sum_nonneg fun i _ => mul_self_nonneg _
  have h3 : m ⬝ᵥ m = 0 := by nlinarith
  have h4 : m = 0 := by
    rw [← dotProduct_self_eq_zero]
    exact h3
  rw [hmdef] at h4
  exact (sub_eq_zero.1 h4).symm

end Gpcm.Util
