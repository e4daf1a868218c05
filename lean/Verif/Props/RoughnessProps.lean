import Verif.Lemmas.Roughness
import Verif.Props.FilterProps
import Verif.Props.RgpcmSampleProps

/-!
# C189: the GPCM models smooth signals, the CGPCM and the RGPCM rough ones

The kernel that `kernel_approx` (model.py:203-226) computes for a sample of the filter is the covariance of the signal
given that sample. How it behaves for short lags decides how rough the signal is.
-/

set_option linter.unusedSectionVars false

open Matrix Real MeasureTheory Filter Topology Set

namespace Gpcm

namespace Spec

/-- The expected squared increment `E (f(s) - f(0))²` of a stationary signal with covariance `k` is, for short times `s`,
`c` times `s`. For `c = 0` increments are smaller than those of a random walk; for `c > 0` the signal is as rough as a
random walk. -/
def Increments (k : ℝ → ℝ) (c : ℝ) : Prop := Tendsto (fun s => (k 0 + k 0 - 2 * k s) / s) (𝓝[>] 0) (𝓝 c)

/-- The kernel matrices are those of the function `k` of the lag. -/
def KernelOf (K : List ℝ → List ℝ → Except PyErr (List (List ℝ))) (k : ℝ → ℝ) : Prop :=
  ∀ t1 t2, K t1 t2 = .ok (t1.map fun a => t2.map fun b => k (a - b))

end Spec

section algebra

variable {ι : Type} [Fintype ι] [DecidableEq ι]

/-- A sampled kernel is a symmetric linear functional of the overlaps. -/
theorem kernelEntry_sum (C : CholOracle ι) {Ku : Matrix ι ι ℝ} (h : Ku.PosDef) (x : ℝ) (I : Matrix ι ι ℝ) (u : ι → ℝ) :
    kernelEntry C Ku x I u =
      x - ∑ i, ∑ j, (Ku⁻¹ i j - (Ku⁻¹ *ᵥ u) i * (Ku⁻¹ *ᵥ u) j) * I i j := by
  rw [c41_formula C h]
  obtain ⟨w, hw⟩ : ∃ w, w = Ku⁻¹ *ᵥ u := ⟨_, rfl⟩
  rw [dot_symm (inv_symm h), ← hw]
  have e1 : (Ku⁻¹ * I).trace = ∑ i, ∑ j, Ku⁻¹ i j * I i j := by
    simp only [trace, diag_apply, mul_apply]
    rw [Finset.sum_comm]
    refine Finset.sum_congr rfl fun i _ => Finset.sum_congr rfl fun j _ => ?_
    rw [← congrFun (congrFun (inv_symm h) i) j, transpose_apply]
  have e2 : (I *ᵥ w) ⬝ᵥ w = ∑ i, ∑ j, w i * w j * I i j := by
    simp only [dotProduct, mulVec, Finset.sum_mul]
    refine Finset.sum_congr rfl fun i _ => Finset.sum_congr rfl fun j _ => ?_
    ring
  simp only [sub_mul, Finset.sum_sub_distrib]
  rw [← e1, ← e2]
  ring

theorem increments_sum (C : CholOracle ι) {Ku : Matrix ι ι ℝ} (h : Ku.PosDef) (x : ℝ → ℝ) (I : ℝ → Matrix ι ι ℝ) (u : ι → ℝ)
    (s : ℝ) : kernelEntry C Ku (x 0) (I 0) u + kernelEntry C Ku (x 0) (I 0) u - 2 * kernelEntry C Ku (x s) (I s) u =
      2 * (x 0 - x s) - ∑ i, ∑ j, (Ku⁻¹ i j - (Ku⁻¹ *ᵥ u) i * (Ku⁻¹ *ᵥ u) j) *
        (I 0 i j + I 0 j i - (I s i j + I s j i)) := by
  obtain ⟨B, hB⟩ : ∃ B : ι → ι → ℝ, B = fun i j => Ku⁻¹ i j - (Ku⁻¹ *ᵥ u) i * (Ku⁻¹ *ᵥ u) j := ⟨_, rfl⟩
  have hs : ∀ i j, B i j = B j i := fun i j => by
    rw [hB]
    beta_reduce
    rw [← congrFun (congrFun (inv_symm h) i) j, transpose_apply]
    ring
  have e : ∀ i j, Ku⁻¹ i j - (Ku⁻¹ *ᵥ u) i * (Ku⁻¹ *ᵥ u) j = B i j := fun i j => by rw [hB]
  simp only [kernelEntry_sum C h, e]
  have h2 : ∀ M : Matrix ι ι ℝ, ∑ i, ∑ j, B i j * M j i = ∑ i, ∑ j, B i j * M i j := fun M => by
    rw [Finset.sum_comm]
    refine Finset.sum_congr rfl fun i _ => Finset.sum_congr rfl fun j _ => ?_
    rw [hs]
  have h3 : ∑ i, ∑ j, B i j * (I 0 i j + I 0 j i - (I s i j + I s j i)) =
      2 * ∑ i, ∑ j, B i j * I 0 i j - 2 * ∑ i, ∑ j, B i j * I s i j := by
    simp only [mul_add, mul_sub, Finset.sum_add_distrib, Finset.sum_sub_distrib, h2]
    ring
  rw [h3]
  ring

end algebra

/-! ## The GPCM -/

variable (R : Runtime ℝ)

theorem GpcmModel.kernel_of (g : GpcmModel) (hm : g.Moderate) (C : CholOracle (Fin g.tU.length)) (u : Fin g.tU.length → ℝ) :
    Spec.KernelOf (fun t1 t2 => g.kernelApprox R C t1 t2 u) fun s =>
      kernelEntry C (.of fun i j => Spec.kH g.params (g.tU.get i) (g.tU.get j)) (Spec.ihx g.params s 0)
        (.of fun i j => Spec.iux g.params s 0 (g.tU.get i) (g.tU.get j)) u := by
  obtain ⟨k, -, hk⟩ := c67_stationary R g hm C u
  intro t1 t2
  beta_reduce
  rw [hk]
  congr 1
  refine List.map_congr_left fun a _ => List.map_congr_left fun b _ => ?_
  have h6 := (g.kernelApprox_eq R hm C [a - b] [0] u).symm.trans (hk [a - b] [0])
  have h7 := Except.ok.inj h6
  simp only [Gpcm.kernelApprox, List.map_cons, List.map_nil, List.cons.injEq, and_true, sub_zero] at h7
  exact h7.symm

theorem Spec.KernelOf.unique {K : List ℝ → List ℝ → Except PyErr (List (List ℝ))} {k k' : ℝ → ℝ} (h : Spec.KernelOf K k)
    (h' : Spec.KernelOf K k') : k = k' := by
  funext s
  have := (h [s] [0]).symm.trans (h' [s] [0])
  simpa using this

/-- **C189** (GPCM) For every sample of the filter the covariance of the signal is infinitely differentiable, and squared
increments are smaller than the time they take. -/
theorem c189_gpcm (g : GpcmModel) (hm : g.Moderate) (hc : g.causal = false) (hγ : 0 < g.gamma) (hu : g.tU.Nodup)
    (C : CholOracle (Fin g.tU.length)) (u : Fin g.tU.length → ℝ) {k : ℝ → ℝ}
    (hk : Spec.KernelOf (fun t1 t2 => g.kernelApprox R C t1 t2 u) k) : ContDiff ℝ ⊤ k ∧ Spec.Increments k 0 := by
  have ha : 0 < g.params.alpha := lt_of_lt_of_le (by norm_num) hm.alpha_lo
  have hγ' : 0 < g.params.gamma := hγ
  have hK := ku_posDef (p := g.params) g.tU.get hγ hm.alphaT (List.nodup_iff_injective_get.1 hu)
  have hs : ContDiff ℝ ⊤ k := by
    rw [hk.unique (g.kernel_of R hm C u)]
    simp only [kernelEntry_sum C hK, of_apply]
    refine (smooth_power ha hc).sub (ContDiff.sum fun i _ => ContDiff.sum fun j _ => ?_)
    exact contDiff_const.mul (smooth_overlap ha (by linarith) hc _ _)
  refine ⟨hs, ?_⟩
  obtain ⟨k', he, hk'⟩ := c67_stationary R g hm C u
  rw [hk.unique hk'] at hs ⊢
  exact even_flat he (hs.differentiable (by simp) 0)

/-! ## The CGPCM -/

/-- **C189** (CGPCM) For every sample of the filter expected squared increments of the signal are proportional to the time
they take, with the second moment of the filter at lag zero as the factor. -/
theorem c189_cgpcm (g : GpcmModel) (hm : g.Moderate) (hc : g.causal = true) (hγ : 0 < g.gamma) (hu : g.tU.Nodup)
    (C : CholOracle (Fin g.tU.length)) (u : Fin g.tU.length → ℝ) {k : ℝ → ℝ}
    (hk : Spec.KernelOf (fun t1 t2 => g.kernelApprox R C t1 t2 u) k) :
    Spec.Increments k (Spec.filterMean (Spec.kH g.params) g.tU.get
        ((Matrix.of fun i j => Spec.kH g.params (g.tU.get i) (g.tU.get j))⁻¹ *ᵥ u) 0 ^ 2 +
      Spec.filterCov (Spec.kH g.params) g.tU.get 0 0 0) := by
  have ha : 0 < g.params.alpha := lt_of_lt_of_le (by norm_num) hm.alpha_lo
  have hK := ku_posDef (p := g.params) g.tU.get hγ hm.alphaT (List.nodup_iff_injective_get.1 hu)
  rw [hk.unique (g.kernel_of R hm C u)]
  unfold Spec.Increments
  beta_reduce
  have h1 := ihx_slope (p := g.params) ha hγ.le hc
  have h2 := tendsto_finsetSum Finset.univ fun i (_ : i ∈ (Finset.univ : Finset (Fin g.tU.length))) =>
    tendsto_finsetSum Finset.univ fun j (_ : j ∈ (Finset.univ : Finset (Fin g.tU.length))) =>
      (iux_slope (p := g.params) ha hγ.le hc (g.tU.get i) (g.tU.get j)).const_mul
        ((Matrix.of fun i j => Spec.kH g.params (g.tU.get i) (g.tU.get j))⁻¹ i j -
          ((Matrix.of fun i j => Spec.kH g.params (g.tU.get i) (g.tU.get j))⁻¹ *ᵥ u) i *
          ((Matrix.of fun i j => Spec.kH g.params (g.tU.get i) (g.tU.get j))⁻¹ *ᵥ u) j)
  refine ((h1.sub h2).congr fun s => ?_).trans_eq ?_
  · rw [increments_sum C hK (fun s => Spec.ihx g.params s 0)
      (fun s => .of fun i j => Spec.iux g.params s 0 (g.tU.get i) (g.tU.get j)), sub_div, Finset.sum_div]
    congr 1
    refine Finset.sum_congr rfl fun i _ => ?_
    rw [Finset.sum_div]
    refine Finset.sum_congr rfl fun j _ => ?_
    simp only [of_apply]
    rw [mul_div_assoc]
  · congr 1
    unfold Spec.filterMean Spec.filterCov
    simp only [Matrix.zero_apply, mul_zero, zero_mul, Finset.sum_const_zero, add_zero]
    rw [sq, Finset.sum_mul_sum]
    simp only [sub_mul, Finset.sum_sub_distrib]
    rw [sub_sub_eq_add_sub, add_comm, add_sub_assoc]
    congr 1
    · refine Finset.sum_congr rfl fun i _ => Finset.sum_congr rfl fun j _ => ?_
      ring
    · congr 1
      refine Finset.sum_congr rfl fun i _ => Finset.sum_congr rfl fun j _ => ?_
      rw [kH_symm g.params _ 0]
      ring

/-- **C189** (CGPCM) The factor is the squared value of the filter at lag zero if the sample determines it, and positive
otherwise. -/
theorem c189_factor (g : GpcmModel) (hm : g.Moderate) (hγ : 0 < g.gamma) (hu : g.tU.Nodup) (u : Fin g.tU.length → ℝ) :
    (∀ i, g.tU.get i = 0 → Spec.filterMean (Spec.kH g.params) g.tU.get
        ((Matrix.of fun i j => Spec.kH g.params (g.tU.get i) (g.tU.get j))⁻¹ *ᵥ u) 0 ^ 2 +
      Spec.filterCov (Spec.kH g.params) g.tU.get 0 0 0 = u i ^ 2) ∧
    ((∀ i, g.tU.get i ≠ 0) → 0 < Spec.filterMean (Spec.kH g.params) g.tU.get
        ((Matrix.of fun i j => Spec.kH g.params (g.tU.get i) (g.tU.get j))⁻¹ *ᵥ u) 0 ^ 2 +
      Spec.filterCov (Spec.kH g.params) g.tU.get 0 0 0) := by
  have hinj := List.nodup_iff_injective_get.1 hu
  have hK := ku_posDef (p := g.params) g.tU.get hγ hm.alphaT hinj
  refine ⟨fun i hi => ?_, fun h => ?_⟩
  · obtain ⟨K, hKe⟩ : ∃ K, K = Matrix.of fun i j => Spec.kH g.params (g.tU.get i) (g.tU.get j) := ⟨_, rfl⟩
    rw [← hKe] at hK
    have e1 : ∀ v : Fin g.tU.length → ℝ, ∑ a, Spec.kH g.params 0 (g.tU.get a) * (K⁻¹ *ᵥ v) a = v i := fun v => by
      have : K *ᵥ (K⁻¹ *ᵥ v) = v := by rw [mulVec_mulVec, mul_nonsing_inv _ (posDef_isUnit_det hK), one_mulVec]
      have := congrFun this i
      rw [← hi]
      conv at this => lhs; rw [hKe]
      rw [← this, hKe]
      rfl
    have e2 : ∑ a, ∑ b, Spec.kH g.params 0 (g.tU.get a) * K⁻¹ a b * Spec.kH g.params (g.tU.get b) 0 = Spec.kH g.params 0 0 := by
      have := e1 fun b => Spec.kH g.params (g.tU.get b) 0
      rw [hi] at this
      rw [← this]
      refine Finset.sum_congr rfl fun a _ => ?_
      simp only [mulVec, dotProduct, Finset.mul_sum, mul_assoc]
    unfold Spec.filterMean Spec.filterCov
    rw [← hKe, e1, e2]
    simp
  · exact add_pos_of_nonneg_of_pos (sq_nonneg _) (filterResidual_pos hγ hm.alphaT hinj h)

/-! ## The RGPCM -/

open Rgpcm RgpcmModel

/-- **C189** (RGPCM) Expected squared increments of the signal are proportional to the time they take, with a factor that
does not depend on the sample of the filter: twice the decay of the noise times the prior power of the signal. -/
theorem c189_rgpcm {g : RgpcmModel} (h : g.Regular) (C : CholOracle (Fin g.tU.length)) (u : Fin g.tU.length → ℝ) {k : ℝ → ℝ}
    (hk : Spec.KernelOf (fun t1 t2 => g.kernelApprox C t1 t2 u) k) :
    Spec.Increments k (2 * g.lam * (g.alphaT ^ 2 / (2 * g.alpha))) := by
  have hK : g.computeKu.PosDef := c74_posDef h.gamma h.gammaT h.tU
  obtain ⟨k', he, hk'⟩ := c67_stationary_rgpcm g h.ne h.ne_sq C u
  obtain rfl := hk.unique hk'
  have e : ∀ s, k s = g.ihx s 0 - ∑ i, ∑ j, (g.computeKu⁻¹ i j - (g.computeKu⁻¹ *ᵥ u) i * (g.computeKu⁻¹ *ᵥ u) j) *
      Spec.R.iux (specOf g) s 0 (g.tU.get j) (g.tU.get i) := fun s => by
    have h1 := Except.ok.inj ((hk [s] [0]).symm.trans (kernelApprox_lists h C [s] [0] u))
    simp only [List.map_cons, List.map_nil, List.cons.injEq, and_true, sub_zero] at h1
    rw [h1, kernelEntry_sum C hK, c63_covariance_rgpcm h.alpha]
    rfl
  obtain ⟨G, hG⟩ : ∃ G : ℝ → ℝ, G = fun s => ∑ i, ∑ j, (g.computeKu⁻¹ i j - (g.computeKu⁻¹ *ᵥ u) i * (g.computeKu⁻¹ *ᵥ u) j) *
      Spec.R.iux (specOf g) s 0 (g.tU.get j) (g.tU.get i) := ⟨_, rfl⟩
  have e' : ∀ s, k s = g.ihx s 0 - G s := fun s => by rw [hG]; exact e s
  have hev : ∀ s, g.ihx (-s) 0 = g.ihx s 0 := fun s => by simp [RgpcmModel.ihx]
  have hGe : ∀ s, G (-s) = G s := fun s => by
    have h1 := e' s
    have h2 := e' (-s)
    rw [he, hev] at h2
    linarith
  have hGd : DifferentiableAt ℝ G 0 := by
    rw [hG]
    refine DifferentiableAt.fun_sum fun i _ => DifferentiableAt.fun_sum fun j _ => ?_
    exact (differentiable_iuxR (p := specOf g) h.alpha h.gamma h.lam.le _ _).const_mul _
  have h1 := even_flat hGe hGd
  have h2 : HasDerivAt (fun s : ℝ => g.alphaT ^ 2 / (2 * g.alpha) * exp (-g.lam * s)) (g.alphaT ^ 2 / (2 * g.alpha) * -g.lam) 0 := by
    have := (((hasDerivAt_id (0 : ℝ)).const_mul (-g.lam)).exp).const_mul (g.alphaT ^ 2 / (2 * g.alpha))
    simpa using this
  rw [hasDerivAt_iff_tendsto_slope] at h2
  have h3 := (h2.mono_left (nhdsWithin_mono 0 fun x (hx : x ∈ Ioi (0 : ℝ)) => ne_of_gt hx)).const_mul (-2)
  refine ((h3.sub h1).congr' (eventually_mem_nhdsWithin.mono fun s (hs : 0 < s) => ?_)).trans_eq (by congr 1; ring)
  beta_reduce
  rw [slope_def_field, e', e']
  simp only [RgpcmModel.ihx, sub_zero, abs_of_pos hs, abs_zero]
  ring

/-- **C189** The kernels exist: for every sample there is exactly one function of the lag. -/
theorem c189_exists (g : GpcmModel) (hm : g.Moderate) (C : CholOracle (Fin g.tU.length)) (u : Fin g.tU.length → ℝ) :
    ∃! k : ℝ → ℝ, Spec.KernelOf (fun t1 t2 => g.kernelApprox R C t1 t2 u) k := by
  obtain ⟨k, -, hk⟩ := c67_stationary R g hm C u
  exact ⟨k, hk, fun k' hk' => Spec.KernelOf.unique hk' hk⟩

theorem c189_exists_rgpcm {g : RgpcmModel} (h : g.Regular) (C : CholOracle (Fin g.tU.length)) (u : Fin g.tU.length → ℝ) :
    ∃! k : ℝ → ℝ, Spec.KernelOf (fun t1 t2 => g.kernelApprox C t1 t2 u) k := by
  obtain ⟨k, -, hk⟩ := c67_stationary_rgpcm g h.ne h.ne_sq C u
  exact ⟨k, hk, fun k' hk' => Spec.KernelOf.unique hk' hk⟩

/-- A CGPCM and a sample for which the signal is rough, and one for which it is not. -/
example : ∃ g : GpcmModel, g.causal = true ∧ ∀ C : CholOracle (Fin g.tU.length), ∃ (u v : Fin g.tU.length → ℝ) (k l : ℝ → ℝ),
    Spec.KernelOf (fun t1 t2 => g.kernelApprox R C t1 t2 u) k ∧ Spec.KernelOf (fun t1 t2 => g.kernelApprox R C t1 t2 v) l ∧
      Spec.Increments k 4 ∧ Spec.Increments l 0 := by
  obtain ⟨g, -, hm, -, -, hc, hγ, hU⟩ := witness_moderate true
  refine ⟨g, hc, fun C => ?_⟩
  rw [if_pos rfl] at hU
  have hu : g.tU.Nodup := by rw [hU]; norm_num
  obtain ⟨i, hi⟩ : ∃ i : Fin g.tU.length, g.tU.get i = 0 := List.mem_iff_get.1 (by rw [hU]; simp)
  obtain ⟨k, hk, -⟩ := c189_exists R g hm C fun _ => 2
  obtain ⟨l, hl, -⟩ := c189_exists R g hm C fun _ => 0
  have h1 := c189_cgpcm R g hm hc hγ hu C _ hk
  have h2 := c189_cgpcm R g hm hc hγ hu C _ hl
  rw [(c189_factor g hm hγ hu _).1 i hi] at h1 h2
  exact ⟨_, _, k, l, hk, hl, by norm_num at h1; exact h1, by norm_num at h2; exact h2⟩

/-- A GPCM and an RGPCM to which the theorems apply. -/
example : (∃ g : GpcmModel, g.Moderate ∧ 0 < g.gamma ∧ g.tU.Nodup ∧ g.causal = false) ∧ exRgpcm.Regular := by
  obtain ⟨g, -, hm, -, -, hc, hγ, ht⟩ := witness_moderate false
  refine ⟨⟨g, hm, hγ, ?_, hc⟩, ?_⟩
  · rw [ht]
    norm_num
  · constructor <;> norm_num [exRgpcm]

end Gpcm
