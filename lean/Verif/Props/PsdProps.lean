import Verif.Lemmas.PsdLemmas
import Mathlib.Analysis.Calculus.FDeriv.Symmetric
import Mathlib.Analysis.Calculus.FDeriv.Mul
import Mathlib.Analysis.Calculus.ContDiff.Basic
import Mathlib.LinearAlgebra.Matrix.Notation
import Mathlib.Tactic.FinCases
import Mathlib.Algebra.Order.Star.Real

/-!
# Properties C49, C50, C57, C88: `closest_psd`, `hessian`, `laplace_approximation`

`svd` is an arbitrary function; the theorems only assume that what it returns for the matrix at hand
is *some* singular value decomposition.
-/

open Matrix

namespace Gpcm.Util

variable {n : ℕ} {a : Matrix (Fin n) (Fin n) ℝ} {svd : Matrix (Fin n) (Fin n) ℝ → Svd n}

theorem isSymm_of_posSemidef (h : a.PosSemidef) : a.IsSymm := by
  have := h.isHermitian
  rwa [IsHermitian, conjTranspose_eq_transpose_of_trivial] at this

/-! ## C49 -/

/-- **C49.** Positive semi-definite matrices are left unchanged, whatever singular value
decomposition is used. -/
theorem c49_unchanged (hsvd : IsSvd a (svd a)) (ha : a.PosSemidef) : closestPsd svd a false = a := by
  have hs := symPart_of_isSymm (isSymm_of_posSemidef ha)
  have hA : Aligned (svd a) := fun i hi => .inl (hsvd.eq_of_posSemidef ha i hi)
  unfold closestPsd
  simp only [hs]
  rw [hA.out hsvd]
  conv_rhs => rw [hA.spectral hsvd]
  congr 3
  funext i
  unfold newS lam
  simp only [Bool.false_eq_true, if_false]
  rw [uv_diag]
  by_cases hi : (svd a).s i = 0
  · simp [hi]
  · rw [hsvd.eq_of_posSemidef ha i hi, hsvd.u_dot, one_mul, max_eq_left (hsvd.nonneg i)]

theorem posSemidef_s_pos (ha : a.PosDef) {d : Svd n} (h : IsSvd a d) (i : Fin n) : 0 < d.s i := by
  refine lt_of_le_of_ne (h.nonneg i) fun h0 => ?_
  have h1 : colv (a * d.v) i = colv (d.u * diagonal d.s) i := by rw [h.mul_v]
  rw [colv_mul_diagonal, ← h0, zero_smul, ← mulVec_colv] at h1
  have h2 : colv d.v i ≠ 0 := fun hz => by
    have := congrFun (congrFun h.v_orth i) i
    rw [Matrix.mul_apply] at this
    have hz' : ∀ r, d.v r i = 0 := fun r => congrFun hz r
    simp [hz'] at this
  have h3 := ha.dotProduct_mulVec_pos h2
  rw [h1] at h3
  simp at h3

/-- **C49.** With `inv=True` the result is the inverse of a positive-definite matrix. -/
theorem c49_inverse (hsvd : IsSvd a (svd a)) (ha : a.PosDef) :
    a * closestPsd svd a true = 1 ∧ closestPsd svd a true = a⁻¹ := by
  have hps := ha.posSemidef
  have hs := symPart_of_isSymm (isSymm_of_posSemidef hps)
  have hA : Aligned (svd a) := fun i hi => .inl (hsvd.eq_of_posSemidef hps i hi)
  have hl : ∀ i, lam (svd a) i = (svd a).s i := fun i => by
    unfold lam
    rw [uv_diag, hsvd.eq_of_posSemidef hps i (posSemidef_s_pos ha hsvd i).ne', hsvd.u_dot, one_mul]
  have hn : ∀ i, newS (svd a) true i = ((svd a).s i)⁻¹ := fun i => by
    have h1 := hl i
    unfold lam at h1
    unfold newS
    rw [h1, max_eq_left (hsvd.nonneg i)]
    simp [(posSemidef_s_pos ha hsvd i).ne']
  have key : a * closestPsd svd a true = 1 := by
    unfold closestPsd
    simp only [hs]
    rw [hA.out hsvd]
    have ea := hA.spectral hsvd
    generalize svd a = d at *
    rw [ea]
    have : d.u * diagonal (lam d) * d.uᵀ * (d.u * diagonal (newS d true) * d.uᵀ) =
        d.u * (diagonal (lam d) * (d.uᵀ * d.u) * diagonal (newS d true)) * d.uᵀ := by
      simp only [Matrix.mul_assoc]
    rw [this, hsvd.u_orth, Matrix.mul_one, diagonal_mul_diagonal]
    have h1 : (fun i => lam d i * newS d true i) = fun _ => 1 := by
      funext i
      rw [hl, hn, mul_inv_cancel₀ (posSemidef_s_pos ha hsvd i).ne']
    rw [h1, diagonal_one, Matrix.mul_one, hsvd.u_orth']
  exact ⟨key, (inv_eq_right_inv key).symm⟩

/-! ## C50 -/

/-- A valid decomposition of `diag(1, -1)`. -/
noncomputable def badSvd : Svd 2 where
  u := !![4 / 5, -3 / 5; 3 / 5, 4 / 5]
  s := fun _ => 1
  v := !![4 / 5, -3 / 5; -3 / 5, -4 / 5]

theorem badSvd_isSvd : IsSvd !![1, 0; 0, -1] badSvd where
  u_orth := by
    ext i j
    fin_cases i <;> fin_cases j <;> norm_num [badSvd, Matrix.mul_apply, Fin.sum_univ_two]
  v_orth := by
    ext i j
    fin_cases i <;> fin_cases j <;> norm_num [badSvd, Matrix.mul_apply, Fin.sum_univ_two]
  nonneg _ := by norm_num [badSvd]
  eq := by
    ext i j
    simp only [Matrix.mul_apply, Fin.sum_univ_two, diagonal_apply, transpose_apply]
    fin_cases i <;> fin_cases j <;> norm_num [badSvd]

/-- **C50 is false** in general: for `diag(1, -1)` there are valid decompositions for which the
result is not even symmetric. The cause is a pair of opposite eigenvalues, for which left and right
singular vectors need not be parallel. -/
theorem c50_false : ∃ (svd : Matrix (Fin 2) (Fin 2) ℝ → Svd 2) (a : Matrix (Fin 2) (Fin 2) ℝ),
    IsSvd (symPart a) (svd (symPart a)) ∧ ¬ (closestPsd svd a false).PosSemidef := by
  have hsym : (!![1, 0; 0, -1] : Matrix (Fin 2) (Fin 2) ℝ).IsSymm := by
    ext i j
    fin_cases i <;> fin_cases j <;> rfl
  refine ⟨fun _ => badSvd, !![1, 0; 0, -1], ?_, fun h => ?_⟩
  · rw [symPart_of_isSymm hsym]
    exact badSvd_isSvd
  · have := congrFun (congrFun (isSymm_of_posSemidef h) 0) 1
    simp only [closestPsd, newS, Matrix.mul_apply, Fin.sum_univ_two, diagonal_apply,
      transpose_apply] at this
    norm_num [badSvd] at this

/-- **C50, partial**: if no non-zero number and its negative are both eigenvalues of the symmetric
part, the result is positive semi-definite and nearest to the symmetric part, and also to the matrix
itself, among all positive semi-definite matrices, whatever singular value decomposition is used.
The full statement has no condition on the eigenvalues; `c50_false` shows that it is needed. -/
theorem c50_closest_partial (hsvd : IsSvd (symPart a) (svd (symPart a)))
    (hev : ∀ (l : ℝ) (x y : Fin n → ℝ), l ≠ 0 → x ≠ 0 → y ≠ 0 → symPart a *ᵥ x = l • x →
      symPart a *ᵥ y ≠ (-l) • y) :
    (closestPsd svd a false).PosSemidef ∧ ∀ p : Matrix (Fin n) (Fin n) ℝ, p.PosSemidef →
      frobSq (symPart a - closestPsd svd a false) ≤ frobSq (symPart a - p) ∧
      frobSq (a - closestPsd svd a false) ≤ frobSq (a - p) := by
  have hs := symPart_isSymm a
  have hA : Aligned (svd (symPart a)) := by
    intro i hi
    by_contra hc
    rw [not_or] at hc
    refine hev _ _ _ hi ?_ ?_ (hsvd.plus hs i) (hsvd.minus hs i)
    · intro h0
      exact hc.2 (eq_neg_of_add_eq_zero_right h0)
    · intro h0
      exact hc.1 (sub_eq_zero.1 h0).symm
  have hn : newS (svd (symPart a)) false = fun i => max (lam (svd (symPart a)) i) 0 := by
    funext i
    unfold newS lam
    simp
  have e1 : closestPsd svd a false = (svd (symPart a)).u *
      diagonal (fun i => max (lam (svd (symPart a)) i) 0) * (svd (symPart a)).uᵀ := by
    unfold closestPsd
    simp only
    rw [hA.out hsvd, hn]
  have hpsd : (closestPsd svd a false).PosSemidef := by
    rw [e1]
    have := (PosSemidef.diagonal (n := Fin n) (d := fun i => max (lam (svd (symPart a)) i) 0)
      (fun i => le_max_right _ _)).mul_mul_conjTranspose_same (svd (symPart a)).u
    rwa [conjTranspose_eq_transpose_of_trivial] at this
  refine ⟨hpsd, fun p hp => ?_⟩
  have key : frobSq (symPart a - closestPsd svd a false) ≤ frobSq (symPart a - p) := by
    rw [e1]
    have := nearest_of_spectral (l := lam (svd (symPart a))) hsvd.u_orth hp
    rwa [← hA.spectral hsvd] at this
  refine ⟨key, ?_⟩
  rw [frobSq_sub_symPart a (isSymm_of_posSemidef hpsd),
    frobSq_sub_symPart a (isSymm_of_posSemidef hp)]
  linarith

/-- A singular value decomposition of a diagonal matrix. -/
noncomputable def diagSvd (l : Fin n → ℝ) : Svd n where
  u := 1
  s := fun i => |l i|
  v := diagonal fun i => if 0 ≤ l i then 1 else -1

theorem diagSvd_isSvd (l : Fin n → ℝ) : IsSvd (diagonal l) (diagSvd l) where
  u_orth := by simp [diagSvd]
  v_orth := by
    simp only [diagSvd, diagonal_transpose, diagonal_mul_diagonal]
    rw [← diagonal_one]
    congr 1
    funext i
    split <;> norm_num
  nonneg _ := abs_nonneg _
  eq := by
    simp only [diagSvd, diagonal_transpose, Matrix.one_mul, diagonal_mul_diagonal]
    congr 1
    funext i
    split
    · rw [abs_of_nonneg ‹_›, mul_one]
    · rw [abs_of_neg (not_le.1 ‹_›)]
      ring

/-- `diag(3, 1)` is positive definite and satisfies the hypotheses of C49; its decomposition is not
the trivial one. -/
example : closestPsd (fun _ => diagSvd ![3, 1]) (diagonal ![3, 1]) true = (diagonal ![3, 1])⁻¹ :=
  (c49_inverse (svd := fun _ => diagSvd ![3, 1]) (diagSvd_isSvd _)
    (PosDef.diagonal fun i => by fin_cases i <;> norm_num)).2

/-- `diag(2, -1)` satisfies the hypotheses of `c50_closest_partial`. -/
example : (closestPsd (fun _ => diagSvd ![2, -1]) (diagonal ![2, -1]) false).PosSemidef := by
  have hs : symPart (diagonal ![(2 : ℝ), -1]) = diagonal ![2, -1] :=
    symPart_of_isSymm (isSymm_diagonal _)
  refine (c50_closest_partial (svd := fun _ => diagSvd ![2, -1]) ?_ ?_).1
  · rw [hs]; exact diagSvd_isSvd _
  · rw [hs]
    intro l x y hl hx hy h1 h2
    have a0 := congrFun h1 0
    have a1 := congrFun h1 1
    have b0 := congrFun h2 0
    have b1 := congrFun h2 1
    simp [mulVec_diagonal] at a0 a1 b0 b1
    have hx' : x 0 ≠ 0 ∨ x 1 ≠ 0 := by
      by_contra hc
      push Not at hc
      exact hx (by ext i; fin_cases i <;> simp [hc.1, hc.2])
    have hy' : y 0 ≠ 0 ∨ y 1 ≠ 0 := by
      by_contra hc
      push Not at hc
      exact hy (by ext i; fin_cases i <;> simp [hc.1, hc.2])
    have c1 : l = 2 ∨ l = -1 := by
      rcases hx' with h | h
      · left; exact ((a0.resolve_right h)).symm
      · right; exact (mul_right_cancel₀ h (by linarith : l * x 1 = -1 * x 1))
    have c2 : l = -2 ∨ l = 1 := by
      rcases hy' with h | h
      · left; exact mul_right_cancel₀ h (by linarith : l * y 0 = -2 * y 0)
      · right; exact mul_right_cancel₀ h (by linarith : l * y 1 = 1 * y 1)
    rcases c1 with rfl | rfl <;> rcases c2 with h | h <;> norm_num at h

/-! ## C57 -/

variable {jac2 : (n : ℕ) → (Fin n → ℝ) → Matrix (Fin n) (Fin n) ℝ}

/-- **C57.** Everything but a column vector is rejected with `ValueError`. -/
theorem c57_rejects (x : Tensor) :
    hessian jac2 x = .error .valueError ↔ ¬ ∃ m, x.shape = [m, 1] := by
  unfold hessian
  rcases x with ⟨shape, data⟩
  match shape with
  | [] => simp
  | [m] => simp
  | [m, k] => by_cases h : k = 1 <;> simp [h]
  | _ :: _ :: _ :: _ => simp

/-- **C57.** For a column vector the result is square of the right size and symmetric, whatever
automatic differentiation returns. -/
theorem c57_symmetric {m : ℕ} (data : List ℝ) :
    ∃ H : Matrix (Fin m) (Fin m) ℝ, hessian jac2 ⟨[m, 1], data⟩ = .ok ⟨m, H⟩ ∧ H.IsSymm :=
  ⟨symPart (jac2 m fun i => data.getD i 0), by simp [hessian], symPart_isSymm _⟩

/-- Second partial derivatives. -/
noncomputable def secondPartial (f : (Fin n → ℝ) → ℝ) (x : Fin n → ℝ) (j i : Fin n) : ℝ :=
  fderiv ℝ (fun y => fderiv ℝ f y (Pi.single j 1)) x (Pi.single i 1)

theorem secondPartial_symm {f : (Fin n → ℝ) → ℝ} {x : Fin n → ℝ} (hf : ContDiffAt ℝ 2 f x)
    (i j : Fin n) : secondPartial f x i j = secondPartial f x j i := by
  have hd : DifferentiableAt ℝ (fderiv ℝ f) x :=
    (hf.fderiv_right (m := 1) (by norm_num)).differentiableAt (by norm_num)
  have hsym : IsSymmSndFDerivAt ℝ f x := hf.isSymmSndFDerivAt (by simp)
  have e : ∀ i j : Fin n, secondPartial f x i j =
      fderiv ℝ (fderiv ℝ f) x (Pi.single j 1) (Pi.single i 1) := by
    intro i j
    unfold secondPartial
    rw [fderiv_clm_apply hd (differentiableAt_const _)]
    simp
  rw [e, e, hsym]

/-- **C57.** If automatic differentiation is exact, the result is the Hessian: symmetrising changes
nothing. -/
theorem c57_exact {m : ℕ} (data : List ℝ) {f : (Fin m → ℝ) → ℝ}
    (hf : ContDiffAt ℝ 2 f fun i : Fin m => data.getD i 0)
    (hj : ∀ i j, jac2 m (fun i => data.getD i 0) i j =
      secondPartial f (fun i : Fin m => data.getD i 0) i j) :
    hessian jac2 ⟨[m, 1], data⟩ =
      .ok ⟨m, Matrix.of fun i j => secondPartial f (fun i : Fin m => data.getD i 0) i j⟩ := by
  have hm : jac2 m (fun i => data.getD i 0) =
      Matrix.of fun i j => secondPartial f (fun i : Fin m => data.getD i 0) i j := by
    ext i j
    exact hj i j
  have hs : (Matrix.of fun i j => secondPartial f (fun i : Fin m => data.getD i 0) i j).IsSymm := by
    ext i j
    exact secondPartial_symm hf j i
  simp only [hessian, List.length_cons, List.length_nil, List.getElem?_cons_succ,
    List.getElem?_cons_zero, List.headD_cons]
  rw [if_neg (by simp), hm, symPart_of_isSymm hs]

/-- A function to which C57 applies. -/
example : ∃ jac2 : (n : ℕ) → (Fin n → ℝ) → Matrix (Fin n) (Fin n) ℝ,
    hessian jac2 ⟨[2, 1], [1, 2]⟩ =
      .ok ⟨2, Matrix.of fun i j => secondPartial (fun x => x 0 * x 1) (fun i => [1, 2].getD i 0) i j⟩ :=
  ⟨fun n x => Matrix.of fun i j => secondPartial (fun x => if h : 1 < n then x ⟨0, by omega⟩ * x ⟨1, h⟩
    else 0) x i j, c57_exact [1, 2] (by fun_prop) fun i j => by simp⟩

/-! ## C88 -/

/-- **C88.** The Laplace approximation is centred at the point the optimiser returns. If automatic
differentiation is exact there and the negative Hessian is positive definite, its variance is the
inverse of the negative Hessian. -/
theorem c88_laplace {f : (Fin n → ℝ) → ℝ} {jac : (Fin n → ℝ) → Matrix (Fin n) (Fin n) ℝ}
    {opt : (Fin n → ℝ) → Fin n → ℝ} {x : Fin n → ℝ} (hf : ContDiffAt ℝ 2 f (opt x))
    (hj : ∀ i j, jac (opt x) i j = secondPartial f (opt x) i j)
    (hpd : (-Matrix.of fun i j => secondPartial f (opt x) i j).PosDef)
    (hsvd : ∀ b, b = (-Matrix.of fun i j => secondPartial f (opt x) i j) → IsSvd b (svd b)) :
    laplace svd jac opt x = (opt x, (-Matrix.of fun i j => secondPartial f (opt x) i j)⁻¹) := by
  have hm : jac (opt x) = Matrix.of fun i j => secondPartial f (opt x) i j := by
    ext i j
    exact hj i j
  have hs : (Matrix.of fun i j => secondPartial f (opt x) i j).IsSymm := by
    ext i j
    exact secondPartial_symm hf j i
  unfold laplace
  rw [hm, symPart_of_isSymm hs, (c49_inverse (hsvd _ rfl) hpd).2]

/-- **C88.** At a point that is not a maximum in any direction (positive semi-definite Hessian) the
variance is zero rather than negative. -/
theorem c88_negative {jac : (Fin n → ℝ) → Matrix (Fin n) (Fin n) ℝ}
    {opt : (Fin n → ℝ) → Fin n → ℝ} {x : Fin n → ℝ} (hpd : (symPart (jac (opt x))).PosSemidef)
    (hsvd : ∀ b, b = -symPart (jac (opt x)) → IsSvd b (svd b)) :
    (laplace svd jac opt x).2 = 0 := by
  have hsy : (-symPart (jac (opt x))).IsSymm := (symPart_isSymm _).neg
  have h := hsvd _ rfl
  unfold laplace closestPsd
  simp only [symPart_of_isSymm hsy]
  have hn : newS (svd (-symPart (jac (opt x)))) true = 0 := by
    funext i
    have hneg : (((svd (-symPart (jac (opt x)))).uᵀ * (svd (-symPart (jac (opt x)))).v) i i) *
        (svd (-symPart (jac (opt x)))).s i ≤ 0 := by
      by_cases hi : (svd (-symPart (jac (opt x)))).s i = 0
      · simp [hi]
      · have hp := h.plus hsy i
        rw [uv_diag]
        generalize svd (-symPart (jac (opt x))) = d at *
        have hpos : 0 < d.s i := lt_of_le_of_ne (h.nonneg i) (Ne.symm hi)
        set m := colv d.u i + colv d.v i with hmdef
        have h1 : 0 ≤ m ⬝ᵥ (symPart (jac (opt x)) *ᵥ m) := by
          have := hpd.dotProduct_mulVec_nonneg m
          simpa using this
        have h2 : symPart (jac (opt x)) *ᵥ m = -(d.s i • m) := by
          rw [← hp, neg_mulVec, neg_neg]
        rw [h2, dotProduct_neg, dotProduct_smul, smul_eq_mul] at h1
        have h3 : 0 ≤ m ⬝ᵥ m := Finset.sum_nonneg fun i _ => mul_self_nonneg _
        have h4 : m ⬝ᵥ m = 0 := by nlinarith
        have h5 : m = 0 := dotProduct_self_eq_zero.1 h4
        have h6 : colv d.v i = -colv d.u i := by
          rw [hmdef] at h5
          exact eq_neg_of_add_eq_zero_right h5
        rw [h6, dotProduct_neg, h.u_dot]
        linarith
    unfold newS
    rw [max_eq_right hneg]
    simp
  rw [hn]
  simp

end Gpcm.Util
