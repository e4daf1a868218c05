import Verif.Model.Sample
import Verif.Lemmas.KernelPsd
import Verif.Props.ValidProps
import Verif.Props.PsdProps

/-! # Properties C99 and C100: samples from the GPCM and the CGPCM -/

open MeasureTheory Matrix Real

namespace Gpcm

variable (R : Runtime ℝ)

/-- The entries of the sampled kernel matrix. -/
noncomputable def GpcmModel.kernelMat (g : GpcmModel) (C : CholOracle (Fin g.tU.length)) (t : List ℝ)
    (u : Fin g.tU.length → ℝ) : Matrix (Fin t.length) (Fin t.length) ℝ :=
  .of fun i j => kernelEntry C g.specInst.Ku (Spec.ihx g.params (t.get i) (t.get j))
    (.of fun a b => Spec.iux g.params (t.get i) (t.get j) (g.tU.get a) (g.tU.get b)) u

theorem GpcmModel.kernelApprox_rows (g : GpcmModel) (hm : g.Moderate) (C : CholOracle (Fin g.tU.length))
    (t : List ℝ) (u : Fin g.tU.length → ℝ) : g.kernelApprox R C t t u = .ok (rows (g.kernelMat C t u)) := by
  rw [g.kernelApprox_eq R hm, Gpcm.kernelApprox, map_rows]
  rfl

theorem toMatrix_rows {n : ℕ} (M : Matrix (Fin n) (Fin n) ℝ) : toMatrix n (rows M) = M := by
  ext i j
  simp [toMatrix, rows, List.getD_eq_getElem?_getD]

theorem GpcmModel.kernelMat_posDef (g : GpcmModel) (hm : g.Moderate) (hγ : 0 < g.gamma) (hu : g.tU.Nodup)
    (C : CholOracle (Fin g.tU.length)) {t : List ℝ} (ht : t.Nodup) (u : Fin g.tU.length → ℝ) :
    (g.kernelMat C t u).PosDef := by
  have ha : 0 < g.params.alpha := by have := hm.alpha_lo; show 0 < g.alpha; linarith
  have hγ' : 0 < g.params.gamma := hγ
  have hK : g.specInst.Ku.PosDef := ku_posDef g.tU.get hγ' hm.alphaT (List.nodup_iff_injective_get.1 hu)
  have hKi : ∀ a b, g.specInst.Ku⁻¹ a b = g.specInst.Ku⁻¹ b a := fun a b => by
    have := congrFun (congrFun (inv_symm (A := g.specInst.Ku) hK) b) a
    exact this
  have e : ∀ i j, g.kernelMat C t u i j = Spec.ihx g.params (t.get i) (t.get j) -
      Spec.inner g.specInst.Ku⁻¹ (.of fun a b => Spec.iux g.params (t.get i) (t.get j) (g.tU.get a) (g.tU.get b))
      + (g.specInst.Ku⁻¹ *ᵥ u) ⬝ᵥ ((Matrix.of fun a b => Spec.iux g.params (t.get i) (t.get j) (g.tU.get a)
        (g.tU.get b)) *ᵥ (g.specInst.Ku⁻¹ *ᵥ u)) := fun i j => by
    show kernelEntry C _ _ _ u = _
    rw [c41_formula C hK]
    congr 1
    · congr 1
      simp only [trace, diag, Matrix.mul_apply, Spec.inner]
      rw [Finset.sum_comm]
      exact Finset.sum_congr rfl fun a _ => Finset.sum_congr rfl fun b _ => by rw [hKi]
    · rw [dot_symm (inv_symm (A := g.specInst.Ku) hK), dotProduct_comm]
  have hsymm : ∀ i j, g.kernelMat C t u i j = g.kernelMat C t u j i := fun i j => by
    show kernelEntry C _ _ _ u = kernelEntry C _ _ _ u
    rw [spec_ihx_symm, ← (c41_symmetric_part C _ _ _ u).1]
    congr 1
    ext a b
    exact spec_iux_symm g.params (t.get j) (t.get i) (g.tU.get b) (g.tU.get a)
  refine PosDef.of_dotProduct_mulVec_pos ?_ fun v hv => ?_
  · ext i j
    rw [conjTranspose_apply, star_trivial, hsymm]
  · have := kernel_posDef ha hγ' hm.alphaT (List.nodup_iff_injective_get.1 hu)
      (List.nodup_iff_injective_get.1 ht) (g.specInst.Ku⁻¹ *ᵥ u) (Ku := g.specInst.Ku) rfl rfl v hv
    simp only [← e] at this
    simp only [dotProduct, mulVec, Finset.mul_sum, star_trivial]
    calc _ < _ := this
      _ = _ := Finset.sum_congr rfl fun i _ => Finset.sum_congr rfl fun j _ => by ring

/-! ## C99 -/

/-- **C99** At distinct times the approximate kernel matrix is positive definite, for all values of the
inducing variables. -/
theorem c99_posDef (g : GpcmModel) (hm : g.Moderate) (hγ : 0 < g.gamma) (hu : g.tU.Nodup)
    (C : CholOracle (Fin g.tU.length)) (t : List ℝ) (ht : t.Nodup) (u : Fin g.tU.length → ℝ) :
    ∃ M : Matrix (Fin t.length) (Fin t.length) ℝ, g.kernelApprox R C t t u = .ok (rows M) ∧ M.PosDef :=
  ⟨_, g.kernelApprox_rows R hm C t u, g.kernelMat_posDef hm hγ hu C ht u⟩

/-- **C99** So projecting it onto the positive semi-definite matrices does nothing. -/
theorem c99_projection (g : GpcmModel) (hm : g.Moderate) (hγ : 0 < g.gamma) (hu : g.tU.Nodup)
    (C : CholOracle (Fin g.tU.length)) (t : List ℝ) (ht : t.Nodup) (u : Fin g.tU.length → ℝ)
    (svd : Matrix (Fin t.length) (Fin t.length) ℝ → Util.Svd t.length) (hsvd : ∀ a, a.PosSemidef → Util.IsSvd a (svd a))
    (K : List (List ℝ)) (hK : g.kernelApprox R C t t u = .ok K) :
    Util.closestPsd svd (toMatrix t.length K) false = toMatrix t.length K := by
  rw [g.kernelApprox_rows R hm] at hK
  obtain rfl := Except.ok.inj hK
  rw [toMatrix_rows]
  have hp := (g.kernelMat_posDef hm hγ hu C ht u).posSemidef
  exact Util.c49_unchanged (hsvd _ hp) hp

theorem sampleKernel_rows {n : ℕ} {M : Matrix (Fin n) (Fin n) ℝ} (h0 : 0 < n) (hM : M ⟨0, h0⟩ ⟨0, h0⟩ ≠ 0) :
    sampleKernel (rows M) true = .ok (rows ((M ⟨0, h0⟩ ⟨0, h0⟩)⁻¹ • M)) := by
  obtain ⟨n, rfl⟩ : ∃ k, n = k + 1 := ⟨n - 1, by omega⟩
  have e : rows M = (M 0 0 :: List.ofFn fun j : Fin n => M 0 j.succ) ::
      List.ofFn fun i : Fin n => List.ofFn fun j => M i.succ j := by
    unfold rows
    rw [List.ofFn_succ]
    congr 1
    rw [List.ofFn_succ]
  have hM : M 0 0 ≠ 0 := hM
  unfold sampleKernel
  rw [if_pos rfl]
  conv_lhs => rw [e]
  dsimp only
  rw [if_neg hM, ← e]
  congr 1
  unfold rows
  simp only [List.map_ofFn]
  congr 1
  funext i
  rw [Function.comp_apply, List.map_ofFn]
  congr 1
  funext j
  show M i j / M 0 0 = (M 0 0)⁻¹ * M i j
  rw [div_eq_inv_mul]

/-- **C99** With normalisation it is a positive definite matrix with ones on the whole diagonal; the
division never fails. -/
theorem c99_correlation (g : GpcmModel) (hm : g.Moderate) (hγ : 0 < g.gamma) (hu : g.tU.Nodup)
    (C : CholOracle (Fin g.tU.length)) (t : List ℝ) (ht : t.Nodup) (h0 : t ≠ []) (u : Fin g.tU.length → ℝ)
    (K : List (List ℝ)) (hK : g.kernelApprox R C t t u = .ok K) :
    ∃ M : Matrix (Fin t.length) (Fin t.length) ℝ, sampleKernel K true = .ok (rows M) ∧ M.PosDef ∧
      ∀ i, M i i = 1 := by
  have hp := g.kernelMat_posDef hm hγ hu C ht u
  obtain ⟨k, -, hk⟩ := c67_stationary R g hm C u
  have hdiag : ∀ i j, g.kernelMat C t u i i = g.kernelMat C t u j j := by
    have := (g.kernelApprox_rows R hm C t u).symm.trans (hk t t)
    rw [map_rows] at this
    have := rows_injective (Except.ok.inj this)
    intro i j
    rw [this]
    simp
  have hlen : 0 < t.length := List.length_pos_iff.2 h0
  have hpos : 0 < g.kernelMat C t u ⟨0, hlen⟩ ⟨0, hlen⟩ := hp.diag_pos
  rw [g.kernelApprox_rows R hm] at hK
  obtain rfl := Except.ok.inj hK
  refine ⟨_, sampleKernel_rows hlen hpos.ne', hp.smul (inv_pos.2 hpos), fun i => ?_⟩
  rw [Matrix.smul_apply, hdiag i ⟨0, hlen⟩, smul_eq_mul, inv_mul_cancel₀ hpos.ne']

/-! ## C100 -/

variable {n : Type} [Fintype n] [DecidableEq n]

theorem std_linear (α : ℝ) (a : n → ℝ) : (Integrable fun z : n → ℝ => stdPdf z * (α + a ⬝ᵥ z)) ∧
    ∫ z : n → ℝ, stdPdf z * (α + a ⬝ᵥ z) = α := by
  have := std_quad α 1 a 0
  simpa using this

theorem std_form (S : Matrix n n ℝ) : (Integrable fun z : n → ℝ => stdPdf z * (z ⬝ᵥ (S *ᵥ z))) ∧
    ∫ z : n → ℝ, stdPdf z * (z ⬝ᵥ (S *ᵥ z)) = S.trace := by
  have h := fun i j => std_quad (0 : ℝ) 0 (Pi.single i 1 : n → ℝ) (Pi.single j 1)
  simp only [zero_add, single_one_dotProduct, mul_zero] at h
  have e : ∀ z : n → ℝ, stdPdf z * (z ⬝ᵥ (S *ᵥ z)) = ∑ i, ∑ j, S i j * (stdPdf z * (z i * z j)) := fun z => by
    simp only [dotProduct, mulVec, Finset.mul_sum]
    exact Finset.sum_congr rfl fun i _ => Finset.sum_congr rfl fun j _ => by ring
  simp only [e]
  have hi : ∀ i j, Integrable fun z : n → ℝ => S i j * (stdPdf z * (z i * z j)) := fun i j =>
    (h i j).1.const_mul _
  refine ⟨integrable_finsetSum _ fun i _ => integrable_finsetSum _ fun j _ => hi i j, ?_⟩
  rw [integral_finsetSum _ fun i _ => integrable_finsetSum _ fun j _ => hi i j]
  refine Finset.sum_congr rfl fun i _ => ?_
  rw [integral_finsetSum _ fun j _ => hi i j]
  simp only [integral_const_mul, (h i _).2]
  simp [Pi.single_apply]

/-- The average over independent standard normal random numbers exists and has the given value. -/
def StdMean (f : (n → ℝ) → ℝ) (v : ℝ) : Prop :=
  (Integrable fun z => stdPdf z * f z) ∧ ∫ z, stdPdf z * f z = v

theorem kernelEntry_mean (C : CholOracle n) {Ku : Matrix n n ℝ} (h : Ku.PosDef) (ihx : ℝ) (I : Matrix n n ℝ) :
    StdMean (fun w => kernelEntry C Ku ihx I (C.chol Ku *ᵥ w)) ihx := by
  obtain ⟨S, hS⟩ : ∃ S, S = (C.chol Ku)⁻¹ * I * ((C.chol Ku)⁻¹)ᵀ := ⟨_, rfl⟩
  have hdet : IsUnit (C.chol Ku).det := by
    have h1 := congrArg det (C.spec Ku h)
    rw [det_mul] at h1
    refine isUnit_iff_ne_zero.2 fun h0 => ?_
    rw [h0, zero_mul] at h1
    exact h.det_pos.ne h1
  have e : ∀ w, kernelEntry C Ku ihx I (C.chol Ku *ᵥ w) = (ihx - S.trace) + w ⬝ᵥ (S *ᵥ w) := fun w => by
    unfold kernelEntry
    simp only
    rw [mulVec_mulVec, nonsing_inv_mul _ hdet, one_mulVec, ← hS]
    ring
  have h1 := std_linear (n := n) (ihx - S.trace) 0
  simp only [zero_dotProduct, add_zero] at h1
  have h2 := std_form S
  unfold StdMean
  simp only [e, mul_add]
  refine ⟨h1.1.add h2.1, ?_⟩
  rw [integral_add h1.1 h2.1, h1.2, h2.2]
  ring

/-- **C100** The approximate kernel, averaged over the prior of the inducing variables, is the covariance of
the process. -/
theorem c100_kernel_mean (g : GpcmModel) (hm : g.Moderate) (hγ : 0 < g.gamma) (hu : g.tU.Nodup)
    (C : CholOracle (Fin g.tU.length)) (Ku : Matrix (Fin g.tU.length) (Fin g.tU.length) ℝ)
    (hKu : g.computeKu R = .ok (rows Ku)) (a b : ℝ) :
    ∃ k : (Fin g.tU.length → ℝ) → ℝ,
      (∀ w, g.kernelApprox R C [a] [b] (C.chol Ku *ᵥ w) = .ok [[k w]]) ∧
      StdMean k (Spec.ihx g.params a b) := by
  obtain rfl := rows_injective (Except.ok.inj (hKu.symm.trans (g.specInst_isInst R hm).Ku))
  have hK : g.specInst.Ku.PosDef := ku_posDef g.tU.get hγ hm.alphaT (List.nodup_iff_injective_get.1 hu)
  refine ⟨_, fun w => ?_, kernelEntry_mean C hK _
    (.of fun i j => Spec.iux g.params a b (g.tU.get i) (g.tU.get j))⟩
  rw [g.kernelApprox_eq R hm]
  rfl

theorem observe_mean (L : Matrix n n ℝ) {s : ℝ} (hs : 0 ≤ s) (i j : n) :
    (∀ e, StdMean (fun d => (L *ᵥ e) i + √s * d i) ((L *ᵥ e) i)) ∧
    StdMean (fun e => (L *ᵥ e) i) 0 ∧
    (∀ e, StdMean (fun d => ((L *ᵥ e) i + √s * d i) * ((L *ᵥ e) j + √s * d j))
      ((L *ᵥ e) i * (L *ᵥ e) j + if i = j then s else 0)) ∧
    StdMean (fun e => (L *ᵥ e) i * (L *ᵥ e) j + if i = j then s else 0)
      ((L * Lᵀ) i j + if i = j then s else 0) := by
  have hd : ∀ (i : n) (d : n → ℝ), √s * d i = (√s • Pi.single i 1) ⬝ᵥ d := fun i d => by
    rw [smul_dotProduct, single_one_dotProduct, smul_eq_mul]
  refine ⟨fun e => ?_, ?_, fun e => ?_, ?_⟩
  · simp only [hd]
    exact std_linear _ _
  · have := std_linear 0 (L i)
    simp only [zero_add] at this
    exact this
  · simp only [hd]
    have := std_quad ((L *ᵥ e) i) ((L *ᵥ e) j) (√s • Pi.single i 1 : n → ℝ) (√s • Pi.single j 1)
    refine ⟨this.1, this.2.trans ?_⟩
    congr 1
    rw [smul_dotProduct, dotProduct_smul, single_one_dotProduct, smul_eq_mul, smul_eq_mul, ← mul_assoc,
      mul_self_sqrt hs, Pi.single_apply, mul_ite, mul_one, mul_zero]
  · have h1 := std_quad 0 0 (L i) (L j)
    simp only [zero_add, mul_zero] at h1
    have h2 := std_linear (n := n) (if i = j then s else 0) 0
    simp only [zero_dotProduct, add_zero] at h2
    unfold StdMean
    simp only [mul_add]
    refine ⟨h1.1.add h2.1, ?_⟩
    have := integral_add h1.1 h2.1
    rw [h1.2, h2.2] at this
    exact this

theorem GpcmModel.sample_ok (g : GpcmModel) (hm : g.Moderate) (hγ : 0 < g.gamma) (hu : g.tU.Nodup)
    (Cu : CholOracle (Fin g.tU.length)) (t : List ℝ) (ht : t.Nodup) (Ct : CholOracle (Fin t.length))
    (svd : Matrix (Fin t.length) (Fin t.length) ℝ → Util.Svd t.length) (hsvd : ∀ a, a.PosSemidef → Util.IsSvd a (svd a))
    (normalise : Bool) (h0 : normalise = true → t ≠ []) (w : Fin g.tU.length → ℝ) :
    ∃ M : Matrix (Fin t.length) (Fin t.length) ℝ, M.PosDef ∧
      (normalise = true → ∀ i, M i i = 1) ∧
      (normalise = false → M = g.kernelMat Cu t (Cu.chol g.specInst.Ku *ᵥ w)) ∧
      ∀ e d, g.sample R Cu t Ct svd normalise w e d =
        .ok (rows M, fun i => (Ct.chol M *ᵥ e) i + √g.noise * d i) := by
  obtain ⟨M, h1, h2, h3, h4⟩ : ∃ M : Matrix (Fin t.length) (Fin t.length) ℝ,
      sampleKernel (rows (g.kernelMat Cu t (Cu.chol g.specInst.Ku *ᵥ w))) normalise = .ok (rows M) ∧ M.PosDef ∧
      (normalise = true → ∀ i, M i i = 1) ∧
      (normalise = false → M = g.kernelMat Cu t (Cu.chol g.specInst.Ku *ᵥ w)) := by
    cases normalise with
    | false => exact ⟨_, rfl, g.kernelMat_posDef hm hγ hu Cu ht _, nofun, fun _ => rfl⟩
    | true =>
      obtain ⟨M, h1, h2, h3⟩ := c99_correlation R g hm hγ hu Cu t ht (h0 rfl) _ _
        (g.kernelApprox_rows R hm Cu t (Cu.chol g.specInst.Ku *ᵥ w))
      exact ⟨M, h1, h2, fun _ => h3, nofun⟩
  refine ⟨M, h2, h3, h4, fun e d => ?_⟩
  unfold GpcmModel.sample
  rw [matE_ok (M := g.specInst.Ku) fun i j => kuEntry_eq g _ _]
  simp only [bind1_val]
  rw [g.kernelApprox_rows R hm]
  simp only [bind1_val]
  rw [h1]
  simp only [bind1_val]
  rw [toMatrix_rows, Util.c49_unchanged (hsvd _ h2.posSemidef) h2.posSemidef]

/-- **C100** Sampling succeeds at distinct times. Given the sampled kernel matrix, the observations have mean
zero and the kernel matrix plus the noise as covariance. -/
theorem c100_conditional (g : GpcmModel) (hm : g.Moderate) (hγ : 0 < g.gamma) (hn : 0 ≤ g.noise) (hu : g.tU.Nodup)
    (Cu : CholOracle (Fin g.tU.length)) (t : List ℝ) (ht : t.Nodup) (Ct : CholOracle (Fin t.length))
    (svd : Matrix (Fin t.length) (Fin t.length) ℝ → Util.Svd t.length) (hsvd : ∀ a, a.PosSemidef → Util.IsSvd a (svd a))
    (normalise : Bool) (h0 : normalise = true → t ≠ []) (w : Fin g.tU.length → ℝ) :
    ∃ (M : Matrix (Fin t.length) (Fin t.length) ℝ) (y : (Fin t.length → ℝ) → (Fin t.length → ℝ) → Fin t.length → ℝ),
      (∀ e d, g.sample R Cu t Ct svd normalise w e d = .ok (rows M, y e d)) ∧ M.PosDef ∧
      (normalise = true → ∀ i, M i i = 1) ∧
      (∀ i, ∃ A, (∀ e, StdMean (fun d => y e d i) (A e)) ∧ StdMean A 0) ∧
      ∀ i j, ∃ A, (∀ e, StdMean (fun d => y e d i * y e d j) (A e)) ∧
        StdMean A (M i j + if i = j then g.noise else 0) := by
  obtain ⟨M, h1, h2, -, h4⟩ := g.sample_ok R hm hγ hu Cu t ht Ct svd hsvd normalise h0 w
  refine ⟨M, _, h4, h1, h2, fun i => ?_, fun i j => ?_⟩
  · obtain ⟨a, b, -⟩ := observe_mean (Ct.chol M) hn i i
    exact ⟨_, a, b⟩
  · obtain ⟨-, -, a, b⟩ := observe_mean (Ct.chol M) hn i j
    rw [Ct.spec M h1] at b
    exact ⟨_, a, b⟩

/-- **C100** Averaged also over the sampled kernel, the covariance of the observations is the covariance of the
process plus the noise. -/
theorem c100_marginal (g : GpcmModel) (hm : g.Moderate) (hγ : 0 < g.gamma) (hn : 0 ≤ g.noise) (hu : g.tU.Nodup)
    (Cu : CholOracle (Fin g.tU.length)) (t : List ℝ) (ht : t.Nodup) (Ct : CholOracle (Fin t.length))
    (svd : Matrix (Fin t.length) (Fin t.length) ℝ → Util.Svd t.length) (hsvd : ∀ a, a.PosSemidef → Util.IsSvd a (svd a)) :
    ∃ (K : (Fin g.tU.length → ℝ) → List (List ℝ))
      (y : (Fin g.tU.length → ℝ) → (Fin t.length → ℝ) → (Fin t.length → ℝ) → Fin t.length → ℝ),
      (∀ w e d, g.sample R Cu t Ct svd false w e d = .ok (K w, y w e d)) ∧
      ∀ i j, ∃ (A : _ → _ → ℝ) (B : _ → ℝ), (∀ w e, StdMean (fun d => y w e d i * y w e d j) (A w e)) ∧ (∀ w, StdMean (A w) (B w)) ∧
        StdMean B (Spec.ihx g.params (t.get i) (t.get j) + if i = j then g.noise else 0) := by
  have hK : g.specInst.Ku.PosDef := ku_posDef g.tU.get hγ hm.alphaT (List.nodup_iff_injective_get.1 hu)
  obtain ⟨M, hM⟩ : ∃ M, M = fun w => g.kernelMat Cu t (Cu.chol g.specInst.Ku *ᵥ w) := ⟨_, rfl⟩
  have hs : ∀ w e d, g.sample R Cu t Ct svd false w e d =
      .ok (rows (M w), fun i => (Ct.chol (M w) *ᵥ e) i + √g.noise * d i) := fun w e d => by
    obtain ⟨M', -, -, h3, h4⟩ := g.sample_ok R hm hγ hu Cu t ht Ct svd hsvd false nofun w
    rw [h4, h3 rfl, hM]
  have hpd : ∀ w, (M w).PosDef := fun w => by
    rw [hM]
    exact g.kernelMat_posDef hm hγ hu Cu ht _
  refine ⟨_, _, hs, fun i j => ⟨_, _, fun w e => (observe_mean (Ct.chol (M w)) hn i j).2.2.1 e,
    fun w => (observe_mean (Ct.chol (M w)) hn i j).2.2.2, ?_⟩⟩
  have h1 := kernelEntry_mean Cu hK (Spec.ihx g.params (t.get i) (t.get j))
    (.of fun a b => Spec.iux g.params (t.get i) (t.get j) (g.tU.get a) (g.tU.get b))
  have h2 := std_linear (n := Fin g.tU.length) (if i = j then g.noise else 0) 0
  simp only [zero_dotProduct, add_zero] at h2
  have e : ∀ w, (Ct.chol (M w) * (Ct.chol (M w))ᵀ) i j = kernelEntry Cu g.specInst.Ku
      (Spec.ihx g.params (t.get i) (t.get j)) (.of fun a b => Spec.iux g.params (t.get i) (t.get j) (g.tU.get a)
        (g.tU.get b)) (Cu.chol g.specInst.Ku *ᵥ w) := fun w => by
    rw [Ct.spec _ (hpd w), hM]
    rfl
  unfold StdMean
  simp only [e, mul_add]
  refine ⟨h1.1.add h2.1, ?_⟩
  rw [integral_add h1.1 h2.1, h1.2, h2.2]

/-- Positive semi-definite matrices have singular value decompositions. -/
theorem exists_psd_svd (k : ℕ) : ∃ svd : Matrix (Fin k) (Fin k) ℝ → Util.Svd k,
    ∀ a, a.PosSemidef → Util.IsSvd a (svd a) := by
  classical
  have h : ∀ a : Matrix (Fin k) (Fin k) ℝ, ∃ d, a.PosSemidef → Util.IsSvd a d := fun a => by
    by_cases ha : a.PosSemidef
    · have hs := ha.isHermitian.spectral_theorem
      obtain ⟨U, hU⟩ : ∃ U, U = ha.isHermitian.eigenvectorUnitary := ⟨_, rfl⟩
      have h1 : (U : Matrix (Fin k) (Fin k) ℝ)ᵀ * U = 1 := by
        have := (mem_unitaryGroup_iff'.1 U.2)
        rwa [star_eq_conjTranspose, conjTranspose_eq_transpose_of_trivial] at this
      refine ⟨⟨U, ha.isHermitian.eigenvalues, U⟩, fun _ => ⟨h1, h1, ha.eigenvalues_nonneg, ?_⟩⟩
      rw [Unitary.conjStarAlgAut_apply, ← hU, star_eq_conjTranspose,
        conjTranspose_eq_transpose_of_trivial] at hs
      exact hs
    · exact ⟨⟨0, 0, 0⟩, fun h => absurd h ha⟩
  choose f hf using h
  exact ⟨f, hf⟩

/-- Everything that is assumed can be had at the same time, here with three times. -/
example (causal : Bool) : ∃ g : GpcmModel, g.Moderate ∧ 0 < g.gamma ∧ 0 < g.noise ∧ g.tU.Nodup ∧ g.causal = causal ∧
    ([0, 1, 3] : List ℝ).Nodup := by
  obtain ⟨g, hg, hm, -, -, hc, hγ, ht⟩ := witness_moderate causal
  refine ⟨g, hm, hγ, ?_, ?_, hc, by norm_num⟩
  · obtain ⟨-, -, -, -, -, -, -, -, hn, -⟩ := GpcmModel.new_ok hg
    rw [hn]
    norm_num [witnessArgs]
  · rw [ht]
    cases causal <;> norm_num

end Gpcm
