import Verif.Model.Scripts
import Verif.Props.FilterProps
import Verif.Props.SampleProps
import Verif.Spec.Kernel

/-! # Properties C131 to C133: the toy experiments and the interpolation between filters -/

open Matrix Real

namespace Gpcm.Scripts

/-! ## C131 -/

theorem eqKernel_posDef {n : ℕ} {x : Fin n → ℝ} (hx : Function.Injective x) :
    (Matrix.of fun i j => eqKernel (x i) (x j)).PosDef := by
  have h := ku_posDef (p := ⟨false, 0, 1, 1 / 2, 1, 1⟩) x (by norm_num) (by norm_num) hx
  convert h using 1
  ext i j
  simp [eqKernel, Spec.kH]

/-- A kernel times two functions without common zero. -/
theorem timesFn_posDef {ι : Type} [Fintype ι] {k : ℝ → ℝ → ℝ} {x : ι → ℝ}
    (hk : (Matrix.of fun i j => k (x i) (x j)).PosDef) {f g : ℝ → ℝ} (h : ∀ t, f t ≠ 0 ∨ g t ≠ 0) :
    (Matrix.of fun i j => timesFn f k (x i) (x j) + timesFn g k (x i) (x j)).PosDef := by
  classical
  refine PosDef.of_dotProduct_mulVec_pos ?_ fun v hv => ?_
  · ext i j
    have := congrFun (congrFun hk.1 i) j
    simp only [conjTranspose_apply, of_apply, star_trivial] at this ⊢
    simp only [timesFn, this]
    ring
  · have e : star v ⬝ᵥ ((Matrix.of fun i j => timesFn f k (x i) (x j) + timesFn g k (x i) (x j)) *ᵥ v) =
        star (fun i => f (x i) * v i) ⬝ᵥ ((Matrix.of fun i j => k (x i) (x j)) *ᵥ fun i => f (x i) * v i) +
        star (fun i => g (x i) * v i) ⬝ᵥ ((Matrix.of fun i j => k (x i) (x j)) *ᵥ fun i => g (x i) * v i) := by
      simp only [dotProduct, mulVec, star_trivial, of_apply, timesFn, Finset.mul_sum, ← Finset.sum_add_distrib]
      exact Finset.sum_congr rfl fun i _ => Finset.sum_congr rfl fun j _ => by ring
    rw [e]
    obtain ⟨i, hi⟩ := Function.ne_iff.1 hv
    rcases h (x i) with hf | hg
    · exact add_pos_of_pos_of_nonneg (hk.dotProduct_mulVec_pos fun h0 => by
        exact hi ((mul_eq_zero.1 (congrFun h0 i)).resolve_left hf)) (hk.posSemidef.dotProduct_mulVec_nonneg _)
    · exact add_pos_of_nonneg_of_pos (hk.posSemidef.dotProduct_mulVec_nonneg _) (hk.dotProduct_mulVec_pos fun h0 => by
        exact hi ((mul_eq_zero.1 (congrFun h0 i)).resolve_left hg))

theorem sin_or_cos (t : ℝ) : sin t ≠ 0 ∨ cos t ≠ 0 := by
  by_contra h
  push Not at h
  have := sin_sq_add_cos_sq t
  rw [h.1, h.2] at this
  norm_num at this

/-- **C131** The sum of the products of the toy experiments is a stationary kernel: a cosine of the lag times the
exponentiated quadratic. -/
theorem c131_stationary (x y : ℝ) :
    smkPaperKernel x y = cos (π * (x - y)) * exp (-(1 / 2) * (x - y) ^ 2) ∧
      smkKernel x y = cos (2 * π * (x - y)) * exp (-(1 / 2) * (x - y) ^ 2) := by
  constructor
  · rw [show π * (x - y) = π * x - π * y by ring, cos_sub]
    simp only [smkPaperKernel, timesFn, eqKernel]
    ring
  · rw [show 2 * π * (x - y) = 2 * π * x - 2 * π * y by ring, cos_sub]
    simp only [smkKernel, timesFn, eqKernel, stretch, div_one]
    ring

/-- **C131** At distinct times the kernels are positive definite. -/
theorem c131_posDef {n : ℕ} {x : Fin n → ℝ} (hx : Function.Injective x) :
    (Matrix.of fun i j => smkPaperKernel (x i) (x j)).PosDef ∧ (Matrix.of fun i j => smkKernel (x i) (x j)).PosDef := by
  constructor
  · exact timesFn_posDef (eqKernel_posDef hx) fun t => sin_or_cos _
  · refine timesFn_posDef (k := stretch 1 eqKernel) ?_ fun t => (sin_or_cos _).symm
    simpa only [stretch, div_one] using eqKernel_posDef hx

/-- **C131** What the paper compares a predicted kernel with is the kernel as a function of the lag; it is one at zero
and at most one elsewhere. -/
theorem c131_row (tK : List ℝ) : smkPaperRow tK = tK.map (fun τ => cos (π * τ) * exp (-(1 / 2) * τ ^ 2)) ∧
    (∀ x y, smkPaperKernel x y = smkPaperKernel (x - y) 0) ∧ smkPaperKernel 0 0 = 1 ∧
      ∀ τ, |smkPaperKernel τ 0| ≤ 1 := by
  refine ⟨List.map_congr_left fun τ _ => by rw [(c131_stationary _ _).1, sub_zero], fun x y => ?_, ?_, fun τ => ?_⟩
  · rw [(c131_stationary _ _).1, (c131_stationary _ _).1, sub_zero]
  · rw [(c131_stationary _ _).1]
    simp
  · rw [(c131_stationary _ _).1, abs_mul, abs_of_pos (exp_pos _)]
    exact mul_le_one₀ (abs_cos_le_one _) (exp_pos _).le (exp_le_one_iff.2 (by nlinarith [sq_nonneg (τ - 0)]))

/-- Three distinct times, at one of which the sine is zero and at another the cosine. -/
example : Function.Injective (![0, 1 / 2, 3] : Fin 3 → ℝ) ∧ sin (π * 0) = 0 ∧ cos (π * (1 / 2)) = 0 := by
  refine ⟨fun i j h => ?_, by simp, by rw [mul_one_div]; exact cos_pi_div_two⟩
  fin_cases i <;> fin_cases j <;> first | rfl | (norm_num at h)

/-! ## C132 -/

section
variable {ι : Type}

/-- **C132** A loop that ends returns the first draw that meets its exit condition, whatever comes later. -/
theorem c132_first (again : (ι → ℝ) → Prop) [DecidablePred again] (u v : ι → ℝ) (draws : List (ι → ℝ)) :
    drawWhile again u draws = some v ↔
      ∃ pre post, u :: draws = pre ++ v :: post ∧ ¬again v ∧ ∀ w ∈ pre, again w := by
  induction draws generalizing u with
  | nil =>
    by_cases h : again u
    · simp only [drawWhile, if_pos h, reduceCtorEq, false_iff]
      rintro ⟨pre, post, he, hv, hp⟩
      rcases pre with _ | ⟨w, pre⟩
      · exact hv ((List.cons.inj he).1 ▸ h)
      · simp at he
    · simp only [drawWhile, if_neg h, Option.some.injEq]
      constructor
      · rintro rfl
        exact ⟨[], [], rfl, h, by simp⟩
      · rintro ⟨pre, post, he, hv, hp⟩
        rcases pre with _ | ⟨w, pre⟩
        · exact (List.cons.inj he).1
        · simp at he
  | cons d ds ih =>
    by_cases h : again u
    · simp only [drawWhile, if_pos h, ih]
      constructor
      · rintro ⟨pre, post, he, hv, hp⟩
        exact ⟨u :: pre, post, by rw [he]; rfl, hv, by simpa [h] using hp⟩
      · rintro ⟨pre, post, he, hv, hp⟩
        rcases pre with _ | ⟨w, pre⟩
        · exact absurd ((List.cons.inj he).1 ▸ h) hv
        · exact ⟨pre, post, (List.cons.inj he).2, hv, fun w hw => hp w (List.mem_cons_of_mem _ hw)⟩
    · simp only [drawWhile, if_neg h, Option.some.injEq]
      constructor
      · rintro rfl
        exact ⟨[], d :: ds, rfl, h, by simp⟩
      · rintro ⟨pre, post, he, hv, hp⟩
        rcases pre with _ | ⟨w, pre⟩
        · exact (List.cons.inj he).1
        · exact absurd (hp u (by rw [(List.cons.inj he).1]; simp)) h

/-- **C132** The values that are interpolated are samples of the inducing variables: one is close to zero at the third
inducing point and the other is large there. -/
theorem c132_samples (o : ι) (draws : List (ι → ℝ)) (v : ι → ℝ) :
    (drawSmooth o draws = some v → v ∈ draws ∧ |v o| ≤ 1e-2) ∧
      (drawRough o draws = some v → v ∈ draws ∧ 0.5 ≤ v o) := by
  constructor
  · intro h
    obtain ⟨pre, post, he, hv, hp⟩ := (c132_first _ _ _ _).1 h
    refine ⟨?_, not_lt.1 hv⟩
    rcases pre with _ | ⟨w, pre⟩
    · rw [← (List.cons.inj he).1] at hv
      norm_num at hv
    · rw [(List.cons.inj he).2]
      simp
  · intro h
    obtain ⟨pre, post, he, hv, hp⟩ := (c132_first _ _ _ _).1 h
    refine ⟨?_, not_lt.1 hv⟩
    rcases pre with _ | ⟨w, pre⟩
    · rw [← (List.cons.inj he).1] at hv
      norm_num at hv
    · rw [(List.cons.inj he).2]
      simp

theorem condMean_mix {κ : Type} [Fintype ι] [DecidableEq ι] (ε : ℝ) (k : ℝ → ℝ → ℝ) (tU : ι → ℝ) (tH : κ → ℝ)
    (u1 u2 : ι → ℝ) (c : ℝ) :
    mix c (condMean ε k tU tH u1) (condMean ε k tU tH u2) = condMean ε k tU tH (mix c u1 u2) := by
  have e : ∀ {α : Type} (a b : α → ℝ), mix c a b = c • b + (1 - c) • a := fun a b => by
    funext i
    simp [mix]
  rw [e, e, condMean, condMean, condMean, mulVec_add, mulVec_smul, mulVec_smul, mulVec_add, mulVec_smul, mulVec_smul]

end

/-- **C132** (`_partial`: what is not true is `c132_refuted`.) For all samples and all weights, an iteration succeeds. The
kernel is the first row of the correlation matrix of the approximate kernel for the interpolated inducing variables, the
function has that correlation matrix, and the filter is the one that the code computes for the interpolated inducing
variables. -/
theorem c132_partial (R : Runtime ℝ) (g : GpcmModel) (hm : g.Moderate) (hγ : 0 < g.gamma) (hu : g.tU.Nodup)
    (C : CholOracle (Fin g.tU.length)) (t : List ℝ) (ht : t.Nodup) (h0 : t ≠ []) (Ct : CholOracle (Fin t.length))
    (svd : Matrix (Fin t.length) (Fin t.length) ℝ → Util.Svd t.length) (hsvd : ∀ a, a.PosSemidef → Util.IsSvd a (svd a))
    (jitter : ℝ) (u1 u2 : Fin g.tU.length → ℝ) (noiseF : Fin t.length → ℝ) (c : ℝ) :
    ∃ (K : Matrix (Fin t.length) (Fin t.length) ℝ) (v : ℝ) (L : Matrix (Fin t.length) (Fin t.length) ℝ),
      g.kernelApprox R C t t (mix c u1 u2) = .ok (rows (v • K)) ∧ 0 < v ∧ K.PosDef ∧ (∀ i, K i i = 1) ∧ L * Lᵀ = K ∧
      interpolate R g C t Ct svd jitter u1 u2 noiseF c = .ok ((rows K).headD [],
        condMean jitter g.filterKernel g.tU.get t.get (mix c u1 u2), L *ᵥ noiseF) := by
  have hK := g.kernelApprox_rows R hm C t (mix c u1 u2)
  have hp := g.kernelMat_posDef hm hγ hu C ht (mix c u1 u2)
  have hlen : 0 < t.length := List.length_pos_iff.2 h0
  have hpos : 0 < g.kernelMat C t (mix c u1 u2) ⟨0, hlen⟩ ⟨0, hlen⟩ := hp.diag_pos
  obtain ⟨M, hM, hMp, hM1⟩ := c99_correlation R g hm hγ hu C t ht h0 (mix c u1 u2) _ hK
  have hs := sampleKernel_rows hlen hpos.ne'
  have hMe : M = _ := rows_injective (Except.ok.inj (hM.symm.trans hs))
  refine ⟨M, g.kernelMat C t (mix c u1 u2) ⟨0, hlen⟩ ⟨0, hlen⟩, Ct.chol M, ?_, hpos, hMp, hM1, Ct.spec M hMp, ?_⟩
  · rw [hK, hMe, smul_smul, mul_inv_cancel₀ hpos.ne', one_smul]
  · unfold interpolate
    rw [hK]
    simp only [bind1]
    rw [hM]
    simp only
    rw [toMatrix_rows, Util.c49_unchanged (hsvd _ hMp.posSemidef) hMp.posSemidef, condMean_mix]

/-- The mean of the filter given the values `u` of its inducing variables, when the kernel matrix is invertible. -/
noncomputable def trueFilter (g : GpcmModel) (u : Fin g.tU.length → ℝ) : ℝ → ℝ :=
  Spec.filterMean (Spec.kH g.params) g.tU.get
    ((Matrix.of fun i j => Spec.kH g.params (g.tU.get i) (g.tU.get j))⁻¹ *ᵥ u)

/-- **C132** The mean of the filter at zero is the interpolation of the two values at the third inducing point. -/
theorem c132_origin (g : GpcmModel) (hγ : 0 < g.gamma) (ha : g.alphaT ≠ 0) (hu : g.tU.Nodup) (o : Fin g.tU.length)
    (ho : g.tU.get o = 0) (u1 u2 : Fin g.tU.length → ℝ) (c : ℝ) :
    trueFilter g (mix c u1 u2) 0 = c * u2 o + (1 - c) * u1 o := by
  have hp := ku_posDef (p := g.params) g.tU.get hγ ha (List.nodup_iff_injective_get.1 hu)
  obtain ⟨A, hA⟩ : ∃ A, A = Matrix.of fun i j => Spec.kH g.params (g.tU.get i) (g.tU.get j) := ⟨_, rfl⟩
  have h : (A *ᵥ (A⁻¹ *ᵥ mix c u1 u2)) o = mix c u1 u2 o := by
    rw [mulVec_mulVec, mul_nonsing_inv _ (posDef_isUnit_det (hA ▸ hp)), one_mulVec]
  refine Eq.trans ?_ h
  unfold trueFilter Spec.filterMean
  rw [← hA, ← ho]
  simp only [mulVec, dotProduct, hA, of_apply]

/-- **C132 is false** for the filter: for every CGPCM with a negative inducing point, whatever the jitter, there are
inducing variables for which the code computes the same filter everywhere although the means of the filters differ at
a non-negative time. -/
theorem c132_blind (g : GpcmModel) (hc : g.causal = true) (hγ : 0 < g.gamma) (ha : g.alphaT ≠ 0) (hu : g.tU.Nodup)
    {ε : ℝ} (hε : 0 < ε) (i : Fin g.tU.length) (hi : g.tU.get i < 0) (u : Fin g.tU.length → ℝ) :
    ∃ u' : Fin g.tU.length → ℝ, (∀ t : List ℝ, condMean ε g.filterKernel g.tU.get t.get u' =
      condMean ε g.filterKernel g.tU.get t.get u) ∧ ∃ t, 0 ≤ t ∧ trueFilter g u' t ≠ trueFilter g u t := by
  have hp := ku_posDef (p := g.params) g.tU.get hγ ha (List.nodup_iff_injective_get.1 hu)
  have hne : (Matrix.of fun i j => Spec.kH g.params (g.tU.get i) (g.tU.get j))⁻¹ *ᵥ Pi.single i (1 : ℝ) ≠ 0 :=
    fun h0 => by
      have h := congrArg (fun v => (Matrix.of fun i j => Spec.kH g.params (g.tU.get i) (g.tU.get j)) *ᵥ v) h0
      simp only [mulVec_mulVec] at h
      rw [mul_nonsing_inv _ (posDef_isUnit_det hp), one_mulVec, mulVec_zero] at h
      simpa using congrFun h i
  obtain ⟨n, hn⟩ := exists_filterMean_ne g hγ ha hu hne
  refine ⟨u + Pi.single i 1, fun t => c102_causal_blind_false g hc hγ ha hu hε _ fun j hj => ?_, n, Nat.cast_nonneg n,
    fun h => hn ?_⟩
  · have : j ≠ i := fun h => absurd hi (not_lt.2 (h ▸ hj))
    simp [this]
  · unfold trueFilter Spec.filterMean at h
    rw [mulVec_add] at h
    simp only [Pi.add_apply, mul_add, Finset.sum_add_distrib, add_eq_left] at h
    exact h

/-- **C132 is false**: a CGPCM that the constructor builds, with its third inducing point at zero. -/
theorem c132_refuted : ∃ (a : GpcmArgs) (g : GpcmModel) (h : 2 < g.tU.length), GpcmModel.new a = .ok g ∧ g.Moderate ∧
    g.causal = true ∧ 0 < g.gamma ∧ g.tU.Nodup ∧ g.tU.get ⟨2, h⟩ = 0 ∧ ∀ (ε : ℝ), 0 < ε →
    ∀ u : Fin g.tU.length → ℝ, ∃ u' : Fin g.tU.length → ℝ,
      (∀ t : List ℝ, condMean ε g.filterKernel g.tU.get t.get u' = condMean ε g.filterKernel g.tU.get t.get u) ∧
        ∃ t, 0 ≤ t ∧ trueFilter g u' t ≠ trueFilter g u t := by
  obtain ⟨g, hg, hm, -, -, hc, hγ, ht⟩ := witness_moderate true
  have hl : g.tU = [-2, -1, 0, 1, 2] := by rw [ht]; norm_num
  have hu : g.tU.Nodup := by rw [hl]; norm_num
  refine ⟨_, g, by rw [hl]; norm_num, hg, hm, hc, hγ, hu, by simp [hl], fun ε hε u => ?_⟩
  exact c132_blind g hc hγ hm.alphaT hu hε ⟨0, by rw [hl]; norm_num⟩ (by simp [hl]) u

/-- Two samples: the loops skip the first. -/
example : drawSmooth (0 : Fin 1) [fun _ => 3, fun _ => 0] = some (fun _ => 0) ∧
    drawRough (0 : Fin 1) [fun _ => -2, fun _ => 1] = some (fun _ => 1) := by
  constructor
  · norm_num [drawSmooth, drawWhile]
  · norm_num [drawRough, drawWhile]

/-! ## C133 -/

/-- **C133** The removal keeps exactly the observations outside the region, in order, each with its value. -/
theorem c133_removal (d : List (ℝ × ℝ)) : (removeRegion d).Sublist d ∧
    ∀ p, p ∈ removeRegion d ↔ p ∈ d ∧ (p.1 < -8.8 ∨ 8.8 < p.1) := by
  refine ⟨List.filter_sublist, fun p => ?_⟩
  simp only [removeRegion, List.mem_filter, Bool.not_eq_true', Bool.and_eq_false_iff, decide_eq_false_iff_not, not_le]

theorem eqPlot_eq {l : List ℝ} (h : eqPlot = .ok l) : l = List.replicate 500 44 := by
  unfold eqPlot linspace at h
  rw [if_neg (by norm_num)] at h
  obtain rfl := Except.ok.inj h
  rw [sub_self, zero_div]
  simp only [zero_mul, add_zero, List.map_const', List.length_range]
  rfl

/-- **C133 is false** for the first toy experiment: all inputs at which the truth is plotted are equal and outside the
region without observations, and the covariance of the sampled truth is singular. -/
theorem c133_refuted_eq : ∃ l : List ℝ, eqPlot = .ok l ∧ l.length = 500 ∧ (∀ t ∈ l, t = 44) ∧
    (∀ t ∈ l, ¬(-8.8 ≤ t ∧ t ≤ 8.8)) ∧ ∀ k : ℝ → ℝ → ℝ, ¬(Matrix.of fun i j => k (l.get i) (l.get j)).PosDef := by
  obtain ⟨l, hl⟩ : ∃ l, eqPlot = .ok l := ⟨_, linspace_of_nonneg (by norm_num)⟩
  have e := eqPlot_eq hl
  have h44 : ∀ t ∈ l, t = 44 := fun t ht => by
    rw [e] at ht
    exact List.eq_of_mem_replicate ht
  have hlen : l.length = 500 := by rw [e, List.length_replicate]
  refine ⟨l, hl, hlen, h44, fun t ht h => ?_, fun k => ?_⟩
  · rw [h44 t ht] at h
    norm_num at h
  · refine not_posDef_of_repeat (x := l.get) (i := ⟨0, by omega⟩) (j := ⟨1, by omega⟩) (by simp) ?_
    rw [h44 _ (List.get_mem _ _), h44 _ (List.get_mem _ _)]

/-- **C133** (`_partial`) In the second toy experiment the inputs at which the truth is plotted are distinct, and they
cover the non-negative half of the region: every point of it is within a hundredth of one of them. None is negative. -/
theorem c133_partial : ∃ l : List ℝ, smkPlot = .ok l ∧ l.length = 500 ∧ l.Nodup ∧ (∀ t ∈ l, 0 ≤ t ∧ t ≤ 10) ∧
    ∀ s, 0 ≤ s → s ≤ 8.8 → ∃ t ∈ l, |s - t| ≤ 1 / 90 := by
  obtain ⟨l, hl⟩ : ∃ l, smkPlot = .ok l := ⟨_, linspace_of_nonneg (by norm_num)⟩
  have hd := linspace_nodup hl (by norm_num)
  have hr : ∀ t, t ∈ l ↔ ∃ i : ℕ, i < 500 ∧ 10 / 499 * (i : ℝ) = t := fun t => by
    unfold smkPlot linspace at hl
    rw [if_neg (by norm_num)] at hl
    rw [← Except.ok.inj hl, List.mem_map]
    simp only [List.mem_range]
    have : (500 : ℤ).toNat = 500 := rfl
    rw [this]
    refine exists_congr fun i => and_congr_right fun _ => ?_
    norm_num
  refine ⟨l, hl, ?_, hd, fun t ht => ?_, fun s hs0 hs => ?_⟩
  · unfold smkPlot linspace at hl
    rw [if_neg (by norm_num)] at hl
    rw [← Except.ok.inj hl, List.length_map, List.length_range]
    rfl
  · obtain ⟨i, hi, rfl⟩ := (hr t).1 ht
    have : (i : ℝ) ≤ 499 := by exact_mod_cast Nat.lt_succ_iff.1 hi
    have h0 : (0 : ℝ) ≤ i := Nat.cast_nonneg i
    constructor <;> linarith
  · obtain ⟨i, hi⟩ : ∃ i, i = ⌊s * 499 / 10⌋₊ := ⟨_, rfl⟩
    have h1 : (i : ℝ) ≤ s * 499 / 10 := hi ▸ Nat.floor_le (by positivity)
    have h2 : s * 499 / 10 < i + 1 := hi ▸ Nat.lt_floor_add_one _
    have h3 : i < 499 := by
      have : (i : ℝ) < 499 := by linarith
      exact_mod_cast this
    rcases le_total (s - 10 / 499 * (i : ℝ)) (1 / 90) with h | h
    · exact ⟨_, (hr _).2 ⟨i, by omega, rfl⟩, by rw [abs_of_nonneg (by linarith)]; exact h⟩
    · refine ⟨_, (hr _).2 ⟨i + 1, by omega, rfl⟩, ?_⟩
      push_cast
      rw [abs_of_nonpos (by linarith)]
      linarith

/-- An observation at the boundary is removed, one just outside is kept. -/
example : removeRegion [(-9, 1), (-8.8, 2), (0, 3), (8.8, 4), (9, 5)] = [(-9, 1), (9, 5)] := by
  norm_num [removeRegion]

end Gpcm.Scripts
