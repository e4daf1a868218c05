import Verif.Model.RgpcmSample
import Verif.Lemmas.RgpcmKernel
import Verif.Props.SampleProps
import Verif.Props.RgpcmValidProps
import Verif.Props.RGPCMKernelProps

/-! # Properties C99 and C100: samples from the RGPCM -/

open MeasureTheory Matrix Real

namespace Gpcm

open Rgpcm RgpcmModel

/-- The entries of the sampled kernel matrix. -/
noncomputable def RgpcmModel.kernelMat (g : RgpcmModel) (C : CholOracle (Fin g.tU.length)) (t : List ℝ)
    (u : Fin g.tU.length → ℝ) : Matrix (Fin t.length) (Fin t.length) ℝ :=
  .of fun i j => kernelEntry C g.computeKu (Spec.R.ihx (specOf g) (t.get i) (t.get j))
    (.of fun a b => Spec.R.iux (specOf g) (t.get i) (t.get j) (g.tU.get b) (g.tU.get a)) u

variable {g : RgpcmModel}

theorem RgpcmModel.kernelApprox_lists (h : g.Regular) (C : CholOracle (Fin g.tU.length))
    (t1 t2 : List ℝ) (u : Fin g.tU.length → ℝ) : g.kernelApprox C t1 t2 u =
      .ok (t1.map fun a => t2.map fun b => kernelEntry C g.computeKu (Spec.R.ihx (specOf g) a b)
        (.of fun i j => Spec.R.iux (specOf g) a b (g.tU.get j) (g.tU.get i)) u) := by
  unfold RgpcmModel.kernelApprox
  refine mapE_eq_map fun a _ => mapE_eq_map fun b _ => ?_
  rw [matE_ok (M := .of fun i j => Spec.R.iux (specOf g) a b (g.tU.get j) (g.tU.get i)) fun i j =>
    c69_transposed_partial g h.ne h.ne_sq a b (h.tU_pos _ (g.tU.get_mem i)) (h.tU_pos _ (g.tU.get_mem j))]
  rw [c63_covariance_rgpcm h.alpha]
  rfl

theorem RgpcmModel.kernelApprox_rows (h : g.Regular) (C : CholOracle (Fin g.tU.length))
    (t : List ℝ) (u : Fin g.tU.length → ℝ) : g.kernelApprox C t t u = .ok (rows (g.kernelMat C t u)) := by
  rw [kernelApprox_lists h, map_rows]
  rfl

theorem RgpcmModel.kernelMat_posDef (h : g.Regular) (hα : g.alphaT ≠ 0)
    (C : CholOracle (Fin g.tU.length)) {t : List ℝ} (ht : t.Nodup) (u : Fin g.tU.length → ℝ) :
    (g.kernelMat C t u).PosDef := by
  have hK : g.computeKu.PosDef := c74_posDef h.gamma h.gammaT h.tU
  have hKu : g.computeKu = .of fun i j => Spec.R.ku (specOf g) (g.tU.get i) (g.tU.get j) := by
    ext i j
    exact c74_covariance h.gamma i j
  have hKi : ∀ a b, g.computeKu⁻¹ a b = g.computeKu⁻¹ b a := fun a b => by
    have := congrFun (congrFun (inv_symm (A := g.computeKu) hK) b) a
    exact this
  have e : ∀ i j, g.kernelMat C t u i j = Spec.R.ihx (specOf g) (t.get i) (t.get j) -
      Spec.inner g.computeKu⁻¹ (.of fun a b => Spec.R.iux (specOf g) (t.get i) (t.get j) (g.tU.get a) (g.tU.get b))
      + (g.computeKu⁻¹ *ᵥ u) ⬝ᵥ ((Matrix.of fun a b => Spec.R.iux (specOf g) (t.get i) (t.get j) (g.tU.get a)
        (g.tU.get b)) *ᵥ (g.computeKu⁻¹ *ᵥ u)) := fun i j => by
    show kernelEntry C _ _ _ u = _
    rw [← (c41_symmetric_part C _ _ _ u).1, c41_formula C hK]
    congr 1
    · congr 1
      simp only [trace, diag, Matrix.mul_apply, Spec.inner]
      rw [Finset.sum_comm]
      exact Finset.sum_congr rfl fun a _ => Finset.sum_congr rfl fun b _ => by rw [hKi]; rfl
    · rw [dot_symm (inv_symm (A := g.computeKu) hK), dotProduct_comm]
      rfl
  have hsymm : ∀ i j, g.kernelMat C t u i j = g.kernelMat C t u j i := fun i j => by
    obtain ⟨k, hk, hkk⟩ := c67_stationary_rgpcm g h.ne h.ne_sq C u
    have := (kernelApprox_rows h C t u).symm.trans (hkk t t)
    rw [map_rows] at this
    have := rows_injective (Except.ok.inj this)
    rw [this]
    simp only [of_apply]
    rw [← hk, neg_sub]
  refine PosDef.of_dotProduct_mulVec_pos ?_ fun v hv => ?_
  · ext i j
    rw [conjTranspose_apply, star_trivial, hsymm]
  · have := kernel_posDefR (p := specOf g) h.alpha h.lam h.gamma hα h.gammaT (List.nodup_iff_injective_get.1 h.tU)
      (List.nodup_iff_injective_get.1 ht) (g.computeKu⁻¹ *ᵥ u) hKu hK rfl v hv
    simp only [← e] at this
    simp only [dotProduct, mulVec, Finset.mul_sum, star_trivial]
    calc _ < _ := this
      _ = _ := Finset.sum_congr rfl fun i _ => Finset.sum_congr rfl fun j _ => by ring

/-! ## C99 -/

/-- **C99** (RGPCM) At distinct times the approximate kernel matrix is positive definite, for all values of the
inducing variables. -/
theorem c99_posDef_rgpcm (h : g.Regular) (hα : g.alphaT ≠ 0)
    (C : CholOracle (Fin g.tU.length)) (t : List ℝ) (ht : t.Nodup) (u : Fin g.tU.length → ℝ) :
    ∃ M : Matrix (Fin t.length) (Fin t.length) ℝ, g.kernelApprox C t t u = .ok (rows M) ∧ M.PosDef :=
  ⟨_, kernelApprox_rows h C t u, kernelMat_posDef h hα C ht u⟩

/-- **C99** (RGPCM) So projecting it onto the positive semi-definite matrices does nothing. -/
theorem c99_projection_rgpcm (h : g.Regular) (hα : g.alphaT ≠ 0)
    (C : CholOracle (Fin g.tU.length)) (t : List ℝ) (ht : t.Nodup) (u : Fin g.tU.length → ℝ)
    (svd : Matrix (Fin t.length) (Fin t.length) ℝ → Util.Svd t.length) (hsvd : ∀ a, a.PosSemidef → Util.IsSvd a (svd a))
    (K : List (List ℝ)) (hK : g.kernelApprox C t t u = .ok K) :
    Util.closestPsd svd (toMatrix t.length K) false = toMatrix t.length K := by
  rw [kernelApprox_rows h] at hK
  obtain rfl := Except.ok.inj hK
  rw [toMatrix_rows]
  have hp := (kernelMat_posDef h hα C ht u).posSemidef
  exact Util.c49_unchanged (hsvd _ hp) hp

/-- **C99** (RGPCM) With normalisation it is a positive definite matrix with ones on the whole diagonal; the
division never fails. -/
theorem c99_correlation_rgpcm (h : g.Regular) (hα : g.alphaT ≠ 0)
    (C : CholOracle (Fin g.tU.length)) (t : List ℝ) (ht : t.Nodup) (h0 : t ≠ []) (u : Fin g.tU.length → ℝ)
    (K : List (List ℝ)) (hK : g.kernelApprox C t t u = .ok K) :
    ∃ M : Matrix (Fin t.length) (Fin t.length) ℝ, sampleKernel K true = .ok (rows M) ∧ M.PosDef ∧
      ∀ i, M i i = 1 := by
  have hp := kernelMat_posDef h hα C ht u
  obtain ⟨k, -, hk⟩ := c67_stationary_rgpcm g h.ne h.ne_sq C u
  have hdiag : ∀ i j, g.kernelMat C t u i i = g.kernelMat C t u j j := by
    have := (kernelApprox_rows h C t u).symm.trans (hk t t)
    rw [map_rows] at this
    have := rows_injective (Except.ok.inj this)
    intro i j
    rw [this]
    simp
  have hlen : 0 < t.length := List.length_pos_iff.2 h0
  have hpos : 0 < g.kernelMat C t u ⟨0, hlen⟩ ⟨0, hlen⟩ := hp.diag_pos
  rw [kernelApprox_rows h] at hK
  obtain rfl := Except.ok.inj hK
  refine ⟨_, sampleKernel_rows hlen hpos.ne', hp.smul (inv_pos.2 hpos), fun i => ?_⟩
  rw [Matrix.smul_apply, hdiag i ⟨0, hlen⟩, smul_eq_mul, inv_mul_cancel₀ hpos.ne']

/-! ## C100 -/

/-- **C100** (RGPCM) The approximate kernel, averaged over the prior of the inducing variables, is the covariance
of the process. -/
theorem c100_kernel_mean_rgpcm (h : g.Regular) (C : CholOracle (Fin g.tU.length)) (a b : ℝ) :
    ∃ k : (Fin g.tU.length → ℝ) → ℝ,
      (∀ w, g.kernelApprox C [a] [b] (C.chol g.computeKu *ᵥ w) = .ok [[k w]]) ∧
      StdMean k (Spec.R.ihx (specOf g) a b) := by
  have hK : g.computeKu.PosDef := c74_posDef h.gamma h.gammaT h.tU
  refine ⟨_, fun w => ?_, kernelEntry_mean C hK _
    (.of fun i j => Spec.R.iux (specOf g) a b (g.tU.get j) (g.tU.get i))⟩
  rw [kernelApprox_lists h]
  rfl

theorem RgpcmModel.sample_ok (h : g.Regular) (hα : g.alphaT ≠ 0)
    (Cu : CholOracle (Fin g.tU.length)) (t : List ℝ) (ht : t.Nodup) (Ct : CholOracle (Fin t.length))
    (svd : Matrix (Fin t.length) (Fin t.length) ℝ → Util.Svd t.length) (hsvd : ∀ a, a.PosSemidef → Util.IsSvd a (svd a))
    (normalise : Bool) (h0 : normalise = true → t ≠ []) (w : Fin g.tU.length → ℝ) :
    ∃ M : Matrix (Fin t.length) (Fin t.length) ℝ, M.PosDef ∧
      (normalise = true → ∀ i, M i i = 1) ∧
      (normalise = false → M = g.kernelMat Cu t (Cu.chol g.computeKu *ᵥ w)) ∧
      ∀ e d, g.sample Cu t Ct svd normalise w e d =
        .ok (rows M, fun i => (Ct.chol M *ᵥ e) i + √g.noise * d i) := by
  obtain ⟨M, h1, h2, h3, h4⟩ : ∃ M : Matrix (Fin t.length) (Fin t.length) ℝ,
      sampleKernel (rows (g.kernelMat Cu t (Cu.chol g.computeKu *ᵥ w))) normalise = .ok (rows M) ∧ M.PosDef ∧
      (normalise = true → ∀ i, M i i = 1) ∧
      (normalise = false → M = g.kernelMat Cu t (Cu.chol g.computeKu *ᵥ w)) := by
    cases normalise with
    | false => exact ⟨_, rfl, kernelMat_posDef h hα Cu ht _, nofun, fun _ => rfl⟩
    | true =>
      obtain ⟨M, h1, h2, h3⟩ := c99_correlation_rgpcm h hα Cu t ht (h0 rfl) _ _
        (kernelApprox_rows h Cu t (Cu.chol g.computeKu *ᵥ w))
      exact ⟨M, h1, h2, fun _ => h3, nofun⟩
  refine ⟨M, h2, h3, h4, fun e d => ?_⟩
  unfold RgpcmModel.sample
  dsimp only
  rw [kernelApprox_rows h]
  simp only [bind1_val]
  rw [h1]
  simp only [bind1_val]
  rw [toMatrix_rows, Util.c49_unchanged (hsvd _ h2.posSemidef) h2.posSemidef]

/-- **C100** (RGPCM) Sampling succeeds at distinct times. Given the sampled kernel matrix, the observations have
mean zero and the kernel matrix plus the noise as covariance. -/
theorem c100_conditional_rgpcm (h : g.Regular) (hα : g.alphaT ≠ 0)
    (Cu : CholOracle (Fin g.tU.length)) (t : List ℝ) (ht : t.Nodup) (Ct : CholOracle (Fin t.length))
    (svd : Matrix (Fin t.length) (Fin t.length) ℝ → Util.Svd t.length) (hsvd : ∀ a, a.PosSemidef → Util.IsSvd a (svd a))
    (normalise : Bool) (h0 : normalise = true → t ≠ []) (w : Fin g.tU.length → ℝ) :
    ∃ (M : Matrix (Fin t.length) (Fin t.length) ℝ) (y : (Fin t.length → ℝ) → (Fin t.length → ℝ) → Fin t.length → ℝ),
      (∀ e d, g.sample Cu t Ct svd normalise w e d = .ok (rows M, y e d)) ∧ M.PosDef ∧
      (normalise = true → ∀ i, M i i = 1) ∧
      (∀ i, ∃ A, (∀ e, StdMean (fun d => y e d i) (A e)) ∧ StdMean A 0) ∧
      ∀ i j, ∃ A, (∀ e, StdMean (fun d => y e d i * y e d j) (A e)) ∧
        StdMean A (M i j + if i = j then g.noise else 0) := by
  obtain ⟨M, h1, h2, -, h4⟩ := sample_ok h hα Cu t ht Ct svd hsvd normalise h0 w
  refine ⟨M, _, h4, h1, h2, fun i => ?_, fun i j => ?_⟩
  · obtain ⟨a, b, -⟩ := observe_mean (Ct.chol M) h.noise.le i i
    exact ⟨_, a, b⟩
  · obtain ⟨-, -, a, b⟩ := observe_mean (Ct.chol M) h.noise.le i j
    rw [Ct.spec M h1] at b
    exact ⟨_, a, b⟩

/-- **C100** (RGPCM) Averaged also over the sampled kernel, the covariance of the observations is the covariance
of the process plus the noise. -/
theorem c100_marginal_rgpcm (h : g.Regular) (hα : g.alphaT ≠ 0)
    (Cu : CholOracle (Fin g.tU.length)) (t : List ℝ) (ht : t.Nodup) (Ct : CholOracle (Fin t.length))
    (svd : Matrix (Fin t.length) (Fin t.length) ℝ → Util.Svd t.length) (hsvd : ∀ a, a.PosSemidef → Util.IsSvd a (svd a)) :
    ∃ (K : (Fin g.tU.length → ℝ) → List (List ℝ))
      (y : (Fin g.tU.length → ℝ) → (Fin t.length → ℝ) → (Fin t.length → ℝ) → Fin t.length → ℝ),
      (∀ w e d, g.sample Cu t Ct svd false w e d = .ok (K w, y w e d)) ∧
      ∀ i j, ∃ (A : _ → _ → ℝ) (B : _ → ℝ), (∀ w e, StdMean (fun d => y w e d i * y w e d j) (A w e)) ∧ (∀ w, StdMean (A w) (B w)) ∧
        StdMean B (Spec.R.ihx (specOf g) (t.get i) (t.get j) + if i = j then g.noise else 0) := by
  have hK : g.computeKu.PosDef := c74_posDef h.gamma h.gammaT h.tU
  obtain ⟨M, hM⟩ : ∃ M, M = fun w => g.kernelMat Cu t (Cu.chol g.computeKu *ᵥ w) := ⟨_, rfl⟩
  have hs : ∀ w e d, g.sample Cu t Ct svd false w e d =
      .ok (rows (M w), fun i => (Ct.chol (M w) *ᵥ e) i + √g.noise * d i) := fun w e d => by
    obtain ⟨M', -, -, h3, h4⟩ := sample_ok h hα Cu t ht Ct svd hsvd false nofun w
    rw [h4, h3 rfl, hM]
  have hpd : ∀ w, (M w).PosDef := fun w => by
    rw [hM]
    exact kernelMat_posDef h hα Cu ht _
  refine ⟨_, _, hs, fun i j => ⟨_, _, fun w e => (observe_mean (Ct.chol (M w)) h.noise.le i j).2.2.1 e,
    fun w => (observe_mean (Ct.chol (M w)) h.noise.le i j).2.2.2, ?_⟩⟩
  have h1 := kernelEntry_mean Cu hK (Spec.R.ihx (specOf g) (t.get i) (t.get j))
    (.of fun a b => Spec.R.iux (specOf g) (t.get i) (t.get j) (g.tU.get b) (g.tU.get a))
  have h2 := std_linear (n := Fin g.tU.length) (if i = j then g.noise else 0) 0
  simp only [zero_dotProduct, add_zero] at h2
  have e : ∀ w, (Ct.chol (M w) * (Ct.chol (M w))ᵀ) i j = kernelEntry Cu g.computeKu
      (Spec.R.ihx (specOf g) (t.get i) (t.get j)) (.of fun a b => Spec.R.iux (specOf g) (t.get i) (t.get j) (g.tU.get b)
        (g.tU.get a)) (Cu.chol g.computeKu *ᵥ w) := fun w => by
    rw [Ct.spec _ (hpd w), hM]
    rfl
  unfold StdMean
  simp only [e, mul_add]
  refine ⟨h1.1.add h2.1, ?_⟩
  rw [integral_add h1.1 h2.1, h1.2, h2.2]

/-- Everything that is assumed can be had at the same time, here with three times. -/
example : exRgpcm.Regular ∧ exRgpcm.alphaT ≠ 0 ∧ ([0, 1, 3] : List ℝ).Nodup ∧ ([0, 1, 3] : List ℝ) ≠ [] := by
  refine ⟨?_, by norm_num [exRgpcm], by norm_num, List.cons_ne_nil _ _⟩
  constructor <;> norm_num [exRgpcm]

end Gpcm
