import Verif.Model.Kernel
import Verif.Props.GPCMIntProps
import Verif.Props.PredictProps

/-! # Properties C41, C42, C67 and C89: sampled kernels -/

open Matrix Real MeasureTheory

namespace Gpcm

variable {ι : Type} [Fintype ι] [DecidableEq ι]

/-! ## C41 -/

/-- **C41** An entry of the approximation is the conditional expectation. -/
theorem c41_formula (C : CholOracle ι) {Ku : Matrix ι ι ℝ} (h : Ku.PosDef) (ihx : ℝ)
    (Iux : Matrix ι ι ℝ) (u : ι → ℝ) : kernelEntry C Ku ihx Iux u =
      ihx - (Ku⁻¹ * Iux).trace + u ⬝ᵥ (Ku⁻¹ *ᵥ (Iux *ᵥ (Ku⁻¹ *ᵥ u))) := by
  have hinv : ((C.chol Ku)⁻¹)ᵀ * (C.chol Ku)⁻¹ = Ku⁻¹ := by
    rw [transpose_nonsing_inv, ← Matrix.mul_inv_rev, C.spec Ku h]
  unfold kernelEntry
  simp only
  have h1 : ((C.chol Ku)⁻¹ * Iux * ((C.chol Ku)⁻¹)ᵀ).trace = (Ku⁻¹ * Iux).trace := by
    rw [trace_mul_comm, ← Matrix.mul_assoc, hinv]
  have h2 : ((C.chol Ku)⁻¹ *ᵥ u) ⬝ᵥ (((C.chol Ku)⁻¹ * Iux * ((C.chol Ku)⁻¹)ᵀ) *ᵥ ((C.chol Ku)⁻¹ *ᵥ u)) =
      u ⬝ᵥ (Ku⁻¹ *ᵥ (Iux *ᵥ (Ku⁻¹ *ᵥ u))) := by
    rw [← hinv, dotProduct_comm, dotProduct_mulVec, ← mulVec_transpose, dotProduct_comm]
    simp only [mulVec_mulVec, Matrix.mul_assoc]
  rw [h1, h2]
  ring

/-- **C41** All entries. -/
theorem c41_matrix (C : CholOracle ι) {Ku : Matrix ι ι ℝ} (h : Ku.PosDef) (ihx : ℝ → ℝ → ℝ)
    (Iux : ℝ → ℝ → Matrix ι ι ℝ) (t1 t2 : List ℝ) (u : ι → ℝ) :
    kernelApprox C Ku ihx Iux t1 t2 u = t1.map fun a => t2.map fun b =>
      ihx a b - (Ku⁻¹ * Iux a b).trace + u ⬝ᵥ (Ku⁻¹ *ᵥ (Iux a b *ᵥ (Ku⁻¹ *ᵥ u))) := by
  unfold kernelApprox
  simp only [c41_formula C h]

/-- **C41** Only the symmetric part of `I_ux` matters, for every factor. -/
theorem c41_symmetric_part (C : CholOracle ι) (Ku : Matrix ι ι ℝ) (ihx : ℝ) (Iux : Matrix ι ι ℝ)
    (u : ι → ℝ) : kernelEntry C Ku ihx Iuxᵀ u = kernelEntry C Ku ihx Iux u ∧
      kernelEntry C Ku ihx ((1 / 2 : ℝ) • (Iux + Iuxᵀ)) u = kernelEntry C Ku ihx Iux u := by
  have h1 : ∀ S : Matrix ι ι ℝ, (S * Iuxᵀ * Sᵀ).trace = (S * Iux * Sᵀ).trace := fun S => by
    rw [← trace_transpose, transpose_mul, transpose_mul, transpose_transpose, transpose_transpose,
      Matrix.mul_assoc]
  have h2 : ∀ (S : Matrix ι ι ℝ) (x : ι → ℝ), x ⬝ᵥ ((S * Iuxᵀ * Sᵀ) *ᵥ x) = x ⬝ᵥ ((S * Iux * Sᵀ) *ᵥ x) :=
    fun S x => by
      rw [dotProduct_mulVec, ← mulVec_transpose, dotProduct_comm, transpose_mul, transpose_mul,
        transpose_transpose, transpose_transpose, Matrix.mul_assoc]
  constructor
  · simp only [kernelEntry, h1, h2]
  · simp only [kernelEntry, Matrix.mul_smul, Matrix.smul_mul, Matrix.mul_add, Matrix.add_mul, trace_smul,
      trace_add, h1, smul_mulVec, add_mulVec, dotProduct_smul, dotProduct_add, h2, smul_eq_mul]
    ring

/-- **C41** What the approximations call with whitened samples: the inverses cancel. -/
theorem c41_whitened (C : CholOracle ι) {Ku : Matrix ι ι ℝ} (h : Ku.PosDef) (ihx : ℝ → ℝ → ℝ)
    (Iux : ℝ → ℝ → Matrix ι ι ℝ) (tk : List ℝ) (u : ι → ℝ) :
    sampleKernelAt C Ku ihx Iux tk u = tk.map fun a =>
      ihx a 0 - (Ku⁻¹ * Iux a 0).trace + u ⬝ᵥ (Iux a 0 *ᵥ u) := by
  unfold sampleKernelAt kernelApprox
  simp only [c41_formula C h, List.map_cons, List.map_nil]
  have hu : Ku⁻¹ *ᵥ (Ku *ᵥ u) = u := by
    rw [mulVec_mulVec, nonsing_inv_mul _ (posDef_isUnit_det h), one_mulVec]
  have : ∀ M : Matrix ι ι ℝ, (Ku *ᵥ u) ⬝ᵥ (Ku⁻¹ *ᵥ (M *ᵥ (Ku⁻¹ *ᵥ (Ku *ᵥ u)))) = u ⬝ᵥ (M *ᵥ u) := fun M => by
    rw [hu, dot_symm (inv_symm h), hu, dotProduct_comm]
  simp only [this]
  induction tk with
  | nil => rfl
  | cons a l ih => rw [List.map_cons, List.flatten_cons, ih]; rfl

example (C : CholOracle (Fin 2)) : kernelEntry C exNormal.prec 1 0 ![1, 2] = 1 := by
  rw [c41_formula C exNormal_posDef]
  simp

/-! ## C42 -/

/-- **C42** The normalised kernel matrix has a one in its corner, and the ratios of entries are kept. -/
theorem c42_unit (K : List (List ℝ)) (k : ℝ) (r : List ℝ) (rs : List (List ℝ)) (hK : K = (k :: r) :: rs)
    (hk : k ≠ 0) : ∃ N, sampleKernel K true = .ok N ∧ (∃ r' rs', N = (1 :: r') :: rs') ∧
      N.map (fun r => r.map fun x => k * x) = K := by
  subst hK
  refine ⟨_, by simp only [sampleKernel, if_true]; rw [if_neg hk],
    ⟨r.map (fun x => x / k), rs.map fun r => r.map fun x => x / k, by simp [div_self hk]⟩, ?_⟩
  have : ∀ x : ℝ, k * (x / k) = x := fun x => by field_simp
  simp only [List.map_map, Function.comp_def, this, List.map_id']

/-- **C42** Without normalisation the matrix is returned as is. -/
theorem c42_off (K : List (List ℝ)) : sampleKernel K false = .ok K := rfl

example : sampleKernel [[2, 1], [1, 2]] true = .ok [[1, 1 / 2], [1 / 2, 1]] := by
  simp [sampleKernel]

/-! ## C67 -/

theorem spec_ihx_shift (p : Spec.Params) (t1 t2 s : ℝ) : Spec.ihx p (t1 + s) (t2 + s) = Spec.ihx p t1 t2 := by
  unfold Spec.ihx
  rw [← integral_add_right_eq_self (fun τ => Spec.gate p (t1 + s - τ) * Spec.gate p (t2 + s - τ) *
    Spec.kH p (t1 + s - τ) (t2 + s - τ)) s]
  simp only [add_sub_add_right_eq_sub]

theorem spec_ihx_symm (p : Spec.Params) (t1 t2 : ℝ) : Spec.ihx p t2 t1 = Spec.ihx p t1 t2 := by
  unfold Spec.ihx
  congr 1
  funext τ
  rw [kH_symm]
  ring

theorem spec_iux_shift (p : Spec.Params) (t1 t2 s u1 u2 : ℝ) :
    Spec.iux p (t1 + s) (t2 + s) u1 u2 = Spec.iux p t1 t2 u1 u2 := by
  unfold Spec.iux
  rw [← integral_add_right_eq_self (fun τ => Spec.gate p (t1 + s - τ) * Spec.gate p (t2 + s - τ) *
    (Spec.kH p (t1 + s - τ) u1 * Spec.kH p u2 (t2 + s - τ))) s]
  simp only [add_sub_add_right_eq_sub]

theorem spec_iux_symm (p : Spec.Params) (t1 t2 u1 u2 : ℝ) :
    Spec.iux p t2 t1 u1 u2 = Spec.iux p t1 t2 u2 u1 := by
  unfold Spec.iux
  congr 1
  funext τ
  rw [kH_symm p (t2 - τ), kH_symm p u2]
  ring

theorem matE_ok {n : ℕ} {f : Fin n → Fin n → Except PyErr ℝ} {M : Matrix (Fin n) (Fin n) ℝ}
    (h : ∀ i j, f i j = .ok (M i j)) : matE f = .ok M := by
  unfold matE
  rw [mapE_eq_map (g := fun i => (List.finRange n).map fun j => M i j)
    fun i _ => mapE_eq_map fun j _ => h i j]
  show Except.ok _ = _
  congr 1
  ext i j
  simp [List.getD_eq_getElem?_getD]

variable (R : Runtime ℝ)

/-- The kernel matrix of the GPCM in terms of the specified integrals. -/
theorem GpcmModel.kernelApprox_eq (g : GpcmModel) (hm : g.Moderate) (C : CholOracle (Fin g.tU.length))
    (t1 t2 : List ℝ) (u : Fin g.tU.length → ℝ) : g.kernelApprox R C t1 t2 u =
      .ok (Gpcm.kernelApprox C (.of fun i j => Spec.kH g.params (g.tU.get i) (g.tU.get j))
        (Spec.ihx g.params) (fun a b => .of fun i j => Spec.iux g.params a b (g.tU.get i) (g.tU.get j))
        t1 t2 u) := by
  unfold GpcmModel.kernelApprox Gpcm.kernelApprox
  rw [matE_ok (M := .of fun i j => Spec.kH g.params (g.tU.get i) (g.tU.get j))
    fun i j => kuEntry_eq g _ _]
  refine mapE_eq_map fun a _ => mapE_eq_map fun b _ => ?_
  rw [c65_i_hx R g hm, matE_ok (M := .of fun i j => Spec.iux g.params a b (g.tU.get i) (g.tU.get j))
    fun i j => iuxEntry_eq g hm.alphaT hm.iux _ _ _ _]
  rfl

/-- **C67** (GPCM and CGPCM) Shifting both inputs does not change the sampled kernel. -/
theorem c67_shift (g : GpcmModel) (hm : g.Moderate) (C : CholOracle (Fin g.tU.length))
    (t1 t2 : List ℝ) (s : ℝ) (u : Fin g.tU.length → ℝ) :
    g.kernelApprox R C (t1.map (· + s)) (t2.map (· + s)) u = g.kernelApprox R C t1 t2 u := by
  rw [g.kernelApprox_eq R hm, g.kernelApprox_eq R hm]
  simp only [Gpcm.kernelApprox, List.map_map, Function.comp_def, spec_ihx_shift, spec_iux_shift]

/-- **C67** (GPCM and CGPCM) The sampled kernel is symmetric. -/
theorem c67_symmetric (g : GpcmModel) (hm : g.Moderate) (C : CholOracle (Fin g.tU.length))
    (a b : ℝ) (u : Fin g.tU.length → ℝ) : g.kernelApprox R C [a] [b] u = g.kernelApprox R C [b] [a] u := by
  rw [g.kernelApprox_eq R hm, g.kernelApprox_eq R hm]
  simp only [Gpcm.kernelApprox, List.map_cons, List.map_nil]
  rw [spec_ihx_symm, ← (c41_symmetric_part C _ _ _ u).1]
  congr 5
  ext i j
  simp [spec_iux_symm g.params b a]

/-- **C67** (GPCM and CGPCM) For every sample of `u` there is an even function of the lag that gives the
kernel matrix for all inputs. -/
theorem c67_stationary (g : GpcmModel) (hm : g.Moderate) (C : CholOracle (Fin g.tU.length))
    (u : Fin g.tU.length → ℝ) : ∃ k : ℝ → ℝ, (∀ x, k (-x) = k x) ∧ ∀ t1 t2,
      g.kernelApprox R C t1 t2 u = .ok (t1.map fun a => t2.map fun b => k (a - b)) := by
  obtain ⟨e, he⟩ : ∃ e : ℝ → ℝ → ℝ, e = fun a b =>
      kernelEntry C (.of fun i j => Spec.kH g.params (g.tU.get i) (g.tU.get j)) (Spec.ihx g.params a b)
        (.of fun i j => Spec.iux g.params a b (g.tU.get i) (g.tU.get j)) u := ⟨_, rfl⟩
  have hshift : ∀ a b s, e (a + s) (b + s) = e a b := fun a b s => by
    simp only [he, spec_ihx_shift, spec_iux_shift]
  have hsymm : ∀ a b, e a b = e b a := fun a b => by
    simp only [he]
    rw [spec_ihx_symm, ← (c41_symmetric_part C _ _ _ u).1]
    congr 1
    ext i j
    simp [spec_iux_symm g.params b a]
  refine ⟨fun x => e x 0, fun x => ?_, fun t1 t2 => ?_⟩
  · show e (-x) 0 = e x 0
    rw [← hshift (-x) 0 x, neg_add_cancel, zero_add, hsymm]
  · rw [g.kernelApprox_eq R hm]
    have : ∀ a b, e (a - b) 0 = e a b := fun a b => by rw [← hshift (a - b) 0 b, sub_add_cancel, zero_add]
    simp only [this]
    simp only [he]
    rfl

example : ∃ g : GpcmModel, g.Moderate ∧ g.causal = true ∧ g.tU.length = 5 := by
  obtain ⟨g, -, hm, -, -, hc, -, ht⟩ := witness_moderate true
  exact ⟨g, hm, hc, by rw [ht]; rfl⟩

/-! ## C89 -/

/-- **C89** The kernel of `k_h()` is the covariance used in the integrals divided by `alpha_t ** 2`, with
the causality constraint on both inputs. -/
theorem c89_ratio_partial (g : GpcmModel) (hγ : 0 < g.gamma) (x y : ℝ) :
    g.alphaT ^ 2 * g.filterKernel x y =
      Spec.gate g.params x * Spec.gate g.params y * Spec.kH g.params x y := by
  have hs : √(1 / (2 * g.gamma)) ^ 2 = 1 / (2 * g.gamma) := sq_sqrt (by positivity)
  have e : -(1 / 2) * ((x - y) / √(1 / (2 * g.gamma))) ^ 2 = -(g.gamma * (x - y) ^ 2) := by
    rw [div_pow, hs]
    field_simp
  have hg : ∀ t : ℝ, (if g.causal = true then (if 0 ≤ t then (1 : ℝ) else 0) else 1) =
      Spec.gate g.params t := fun t => by
    unfold Spec.gate GpcmModel.params
    by_cases hc : g.causal = true <;> by_cases ht : 0 ≤ t <;> simp [hc, ht]
  simp only [GpcmModel.filterKernel, Spec.kH, e, hg]
  show g.alphaT ^ 2 * (_ * (exp (-g.alpha * x ^ 2) * exp (-g.alpha * y ^ 2)) * _) =
    _ * (g.alphaT ^ 2 * exp (-(g.alpha * x ^ 2)) * exp (-(g.alpha * y ^ 2)) * exp (-(g.gamma * (x - y) ^ 2)))
  rw [neg_mul, neg_mul]
  ring

/-- **C89 is false**: for a freshly constructed model the kernel of `k_h()` and the covariance used in
the integrals differ at the origin. -/
theorem c89_false : ∃ (a : GpcmArgs) (g : GpcmModel), GpcmModel.new a = .ok g ∧ g.Moderate ∧ 0 < g.gamma ∧
    g.kuEntry R 0 0 ≠ .ok (g.filterKernel 0 0) := by
  obtain ⟨g, h, hm, -, -, hc, hγ, -⟩ := witness_moderate true
  refine ⟨_, g, h, hm, hγ, fun e => ?_⟩
  rw [kuEntry_eq] at e
  have e := Except.ok.inj e
  have h1 := c89_ratio_partial g hγ 0 0
  have hg : Spec.gate g.params 0 = 1 := by simp [Spec.gate]
  rw [hg, one_mul, one_mul, ← e] at h1
  have hk : Spec.kH g.params 0 0 = g.alphaT ^ 2 := by simp [Spec.kH, GpcmModel.params]
  rw [hk] at h1
  have h2 : g.alphaT ^ 2 = 1 := by
    have : g.alphaT ^ 2 ≠ 0 := pow_ne_zero 2 hm.alphaT
    exact mul_left_cancel₀ this (by rw [h1, mul_one])
  obtain ⟨ha, -, -, -, -, hat, -⟩ := GpcmModel.new_ok h
  have ha' : scaleToFactor 1 = g.alpha := Except.ok.inj ha
  have ha0 : 0 < g.alpha := by linarith [hm.alpha_lo]
  rw [hat] at h2
  have h3 : initAlphaT { witnessArgs true 1 1 with nU := some 3 } g.alpha =
      (8 * g.alpha / π) ^ (0.25 : ℝ) := rfl
  rw [h3, rpow_quarter_sq (by positivity), ← ha'] at h2
  unfold scaleToFactor at h2
  rw [show 8 * (π / 2 / (2 * 1 ^ 2)) / π = 2 by field_simp; norm_num] at h2
  have := sq_sqrt (show (0 : ℝ) ≤ 2 by norm_num)
  rw [h2] at this
  norm_num at this

end Gpcm
