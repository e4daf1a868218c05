import Verif.Model.KernelPred
import Verif.Spec.Kernel
import Verif.Props.RgpcmSampleProps
import Verif.Props.FftProps
import Verif.Props.UtilProps

/-! # Properties C110 to C114: predictions of the kernel and of the spectral density -/

open MeasureTheory Matrix Real

namespace Gpcm

open Rgpcm RgpcmModel

variable (R : Runtime ℝ) {ι : Type} [Fintype ι] [DecidableEq ι]

/-! ## C110 -/

theorem std_affine_form (m : ι → ℝ) (S I : Matrix ι ι ℝ) :
    StdMean (fun w => (m + S *ᵥ w) ⬝ᵥ (I *ᵥ (m + S *ᵥ w))) (m ⬝ᵥ (I *ᵥ m) + (Sᵀ * I * S).trace) := by
  have e : ∀ w, (m + S *ᵥ w) ⬝ᵥ (I *ᵥ (m + S *ᵥ w)) =
      (m ⬝ᵥ (I *ᵥ m) + (Sᵀ *ᵥ (I *ᵥ m) + Sᵀ *ᵥ (Iᵀ *ᵥ m)) ⬝ᵥ w) + w ⬝ᵥ ((Sᵀ * I * S) *ᵥ w) := fun w => by
    have h1 : ∀ x : ι → ℝ, (Sᵀ *ᵥ x) ⬝ᵥ w = x ⬝ᵥ (S *ᵥ w) := fun x => by
      rw [mulVec_transpose, ← dotProduct_mulVec]
    have h2 : (Iᵀ *ᵥ m) ⬝ᵥ (S *ᵥ w) = m ⬝ᵥ (I *ᵥ (S *ᵥ w)) := by
      rw [mulVec_transpose, ← dotProduct_mulVec]
    have h3 : w ⬝ᵥ ((Sᵀ * I * S) *ᵥ w) = (S *ᵥ w) ⬝ᵥ (I *ᵥ (S *ᵥ w)) := by
      rw [← mulVec_mulVec, ← mulVec_mulVec, dotProduct_comm, h1, dotProduct_comm]
    rw [h3, add_dotProduct (Sᵀ *ᵥ _), h1, h1, h2, mulVec_add, dotProduct_add, add_dotProduct, add_dotProduct,
      dotProduct_comm (S *ᵥ w) (I *ᵥ m)]
    ring
  have h1 := std_linear (m ⬝ᵥ (I *ᵥ m)) (Sᵀ *ᵥ (I *ᵥ m) + Sᵀ *ᵥ (Iᵀ *ᵥ m))
  have h2 := std_form (Sᵀ * I * S)
  unfold StdMean
  simp only [e, mul_add] at h1 ⊢
  refine ⟨h1.1.add h2.1, ?_⟩
  rw [integral_add h1.1 h2.1, h1.2, h2.2]

/-- What the models guarantee about their approximate kernels. -/
structure GoodKern (C : CholOracle ι) (kern : Kern ι) (Ku : Matrix ι ι ℝ) (ihx : ℝ → ℝ → ℝ)
    (I : ℝ → ℝ → Matrix ι ι ℝ) : Prop where
  posKu : Ku.PosDef
  entry : ∀ t1 t2 u, kern t1 t2 u = .ok (t1.map fun a => t2.map fun b => kernelEntry C Ku (ihx a b) (I a b) u)
  stationary : ∀ u, ∃ k : ℝ → ℝ, (∀ x, k (-x) = k x) ∧ ∀ t1 t2,
    kern t1 t2 u = .ok (t1.map fun a => t2.map fun b => k (a - b))
  posDef : ∀ u (t : List ℝ), t.Nodup → ∃ M : Matrix (Fin t.length) (Fin t.length) ℝ,
    kern t t u = .ok (rows M) ∧ M.PosDef

theorem flatten_singletons {α β : Type} (f : α → β) (l : List α) : (l.map fun a => [f a]).flatten = l.map f := by
  induction l with
  | nil => rfl
  | cons a l ih => rw [List.map_cons, List.flatten_cons, ih]; rfl

open Spec (IsKernel)

variable {C : CholOracle ι} {kern : Kern ι} {Ku : Matrix ι ι ℝ} {ihx : ℝ → ℝ → ℝ} {I : ℝ → ℝ → Matrix ι ι ℝ}

theorem GoodKern.row (h : GoodKern C kern Ku ihx I) : ∃ k : (ι → ℝ) → ℝ → ℝ, (∀ u, IsKernel (k u)) ∧
    (∀ u tK, sampleKernelRow kern Ku tK u = .ok (tK.map (k u))) ∧
    ∀ u s, k u s = ihx s 0 - (Ku⁻¹ * I s 0).trace + u ⬝ᵥ (I s 0 *ᵥ u) := by
  choose k hk using fun u => h.stationary (Ku *ᵥ u)
  refine ⟨k, fun u => ⟨(hk u).1, fun t ht => ?_⟩, fun u tK => ?_, fun u s => ?_⟩
  · obtain ⟨M, hM, hp⟩ := h.posDef (Ku *ᵥ u) t ht
    have := hM.symm.trans ((hk u).2 t t)
    rw [map_rows] at this
    have := rows_injective (Except.ok.inj this)
    rw [← this]
    exact hp
  · unfold sampleKernelRow
    rw [(hk u).2]
    simp only [bind1_val, List.map_cons, List.map_nil, sub_zero]
    rw [flatten_singletons]
  · have h1 := ((hk u).2 [s] [0]).symm.trans (h.entry [s] [0] (Ku *ᵥ u))
    simp only [List.map_cons, List.map_nil, sub_zero, Except.ok.injEq, List.cons.injEq, and_true] at h1
    have h2 := c41_whitened C h.posKu ihx I [s] u
    simp only [sampleKernelAt, kernelApprox, List.map_cons, List.map_nil, List.flatten_cons, List.flatten_nil,
      List.append_nil, List.cons.injEq, and_true] at h2
    rw [h1, h2]

theorem stack_map {α β : Type} (f : α → β) {l : List α} (h : l ≠ []) : stack (l.map f) = .ok (l.map f) := by
  unfold stack
  rw [if_neg (by simpa using h)]

omit [DecidableEq ι] in
theorem inner_trace {A : Matrix ι ι ℝ} (hA : Aᵀ = A) (B : Matrix ι ι ℝ) : (A * B).trace = Spec.inner A B := by
  simp only [trace, diag, Matrix.mul_apply, Spec.inner]
  rw [Finset.sum_comm]
  exact Finset.sum_congr rfl fun a _ => Finset.sum_congr rfl fun b _ => by
    rw [show A b a = A a b from congrFun (congrFun hA a) b]

omit [DecidableEq ι] in
theorem inner_vecMulVec (x : ι → ℝ) (B : Matrix ι ι ℝ) : x ⬝ᵥ (B *ᵥ x) = Spec.inner (vecMulVec x x) B := by
  simp only [dotProduct, mulVec, Spec.inner, vecMulVec_apply, Finset.mul_sum]
  exact Finset.sum_congr rfl fun a _ => Finset.sum_congr rfl fun b _ => by ring

theorem GoodKern.mean_field (h : GoodKern C kern Ku ihx I) {p : NatNormal ι} (hp : p.prec.PosDef) :
    ∃ k : (ι → ℝ) → ℝ → ℝ, (∀ w, IsKernel (k w)) ∧
      (∀ tK ws, ws ≠ [] → sampleKernelMeanField C kern Ku p tK ws = .ok (ws.map fun w => tK.map (k w))) ∧
      ∀ s, StdMean (fun w => k w s) (Spec.expectedKernel (ihx s 0) Ku⁻¹ (I s 0)
        (p.prec⁻¹ + vecMulVec (p.prec⁻¹ *ᵥ p.lam) (p.prec⁻¹ *ᵥ p.lam))) := by
  obtain ⟨k, h1, h2, h3⟩ := h.row
  refine ⟨fun w => k (p.sample C w), fun w => h1 _, fun tK ws hws => ?_, fun s => ?_⟩
  · unfold sampleKernelMeanField columns
    simp only [Option.getD_none, min_self, List.take_length]
    rw [mapE_eq_map (g := fun u => tK.map (k u)) fun u _ => h2 u tK]
    simp only [bind1_val]
    rw [stack_map _ (by simpa using hws), List.map_map]
    rfl
  · obtain ⟨S, hS, hs⟩ := c20_affine C hp
    have e := std_affine_form (p.mean C) S (I s 0)
    have c := std_linear (n := ι) (ihx s 0 - (Ku⁻¹ * I s 0).trace) 0
    simp only [zero_dotProduct, add_zero] at c
    unfold StdMean at e ⊢
    simp only [h3, hs, mul_add] at e ⊢
    refine ⟨c.1.add e.1, ?_⟩
    rw [integral_add c.1 e.1, c.2, e.2, Spec.expectedKernel, inner_trace (inv_symm h.posKu)]
    have h5 : (Sᵀ * I s 0 * S).trace = Spec.inner p.prec⁻¹ (I s 0) := by
      rw [trace_mul_comm, ← Matrix.mul_assoc, hS, NatNormal.var_eq C hp, inner_trace (inv_symm hp)]
    have h6 : p.mean C ⬝ᵥ (I s 0 *ᵥ p.mean C) =
        Spec.inner (vecMulVec (p.prec⁻¹ *ᵥ p.lam) (p.prec⁻¹ *ᵥ p.lam)) (I s 0) := by
      rw [NatNormal.mean_eq C hp, inner_vecMulVec]
    have h7 : ∀ A B D : Matrix ι ι ℝ, Spec.inner (A + B) D = Spec.inner A D + Spec.inner B D := fun A B D => by
      simp only [Spec.inner, Matrix.add_apply, add_mul, Finset.sum_add_distrib]
    rw [h5, h6, h7]
    ring

theorem GoodKern.structured (h : GoodKern C kern Ku ihx I) :
    ∃ k : (ι → ℝ) → ℝ → ℝ, (∀ u, IsKernel (k u)) ∧
      (∀ u s, k u s = Spec.expectedKernel (ihx s 0) Ku⁻¹ (I s 0) (vecMulVec u u)) ∧
      (∀ us tK ws, us ≠ [] → ws ≠ [] → sampleKernelStructured C kern Ku (some us) tK ws =
        .ok ((us.take ws.length).map fun u => tK.map (k u))) ∧
      ∀ tK ws, ws ≠ [] → sampleKernelStructured C kern Ku none tK ws =
        .ok (ws.map fun w => tK.map (k (NatNormal.sample C ⟨0, Ku⟩ w))) := by
  obtain ⟨k, h1, h2, h3⟩ := h.row
  refine ⟨k, h1, fun u s => ?_, fun us tK ws hus hws => ?_, fun tK ws hws => ?_⟩
  · rw [h3, Spec.expectedKernel, inner_trace (inv_symm h.posKu)]
    rw [inner_vecMulVec]
  · unfold sampleKernelStructured samplePU columns
    simp only [Option.getD_some]
    rw [mapE_eq_map (g := fun u => tK.map (k u)) fun u _ => h2 u tK]
    simp only [bind1_val]
    have e : us.take (min us.length ws.length) = us.take ws.length := by
      rw [List.take_eq_take_iff]
      omega
    rw [e, stack_map _ (by
      intro h
      rw [List.take_eq_nil_iff] at h
      rcases h with h | h
      exacts [hws (List.length_eq_zero_iff.1 h), hus h])]
  · unfold sampleKernelStructured samplePU columns
    simp only [Option.getD_none, min_self, List.take_length]
    rw [mapE_eq_map (g := fun u => tK.map (k u)) fun u _ => h2 u tK]
    simp only [bind1_val]
    rw [stack_map _ (by simpa using hws), List.map_map]
    rfl

theorem GpcmModel.goodKern (g : GpcmModel) (hm : g.Moderate) (hγ : 0 < g.gamma) (hu : g.tU.Nodup)
    (C : CholOracle (Fin g.tU.length)) {Ku : Matrix (Fin g.tU.length) (Fin g.tU.length) ℝ}
    (hKu : g.computeKu R = .ok (rows Ku)) :
    GoodKern C (g.kernelApprox R C) Ku (Spec.ihx g.params)
      fun a b => .of fun i j => Spec.iux g.params a b (g.tU.get i) (g.tU.get j) := by
  obtain rfl := rows_injective (Except.ok.inj (hKu.symm.trans (g.specInst_isInst R hm).Ku))
  refine ⟨ku_posDef g.tU.get hγ hm.alphaT (List.nodup_iff_injective_get.1 hu), fun t1 t2 u => ?_,
    c67_stationary R g hm C, fun u t ht => c99_posDef R g hm hγ hu C t ht u⟩
  rw [g.kernelApprox_eq R hm]
  rfl

theorem RgpcmModel.goodKern {g : RgpcmModel} (h : g.Regular) (hα : g.alphaT ≠ 0) (C : CholOracle (Fin g.tU.length)) :
    GoodKern C (g.kernelApprox C) g.computeKu (Spec.R.ihx (specOf g))
      fun a b => .of fun i j => Spec.R.iux (specOf g) a b (g.tU.get j) (g.tU.get i) :=
  ⟨c74_posDef h.gamma h.gammaT h.tU, fun t1 t2 u => kernelApprox_lists h C t1 t2 u,
    c67_stationary_rgpcm g h.ne h.ne_sq C, fun u t ht => c99_posDef_rgpcm h hα C t ht u⟩

/-- **C110** Under every mean-field posterior of a GPCM or a CGPCM each sample is a stationary kernel, and the samples
average to the expected kernel. -/
theorem c110_mean_field (g : GpcmModel) (hm : g.Moderate) (hγ : 0 < g.gamma) (hu : g.tU.Nodup)
    (C : CholOracle (Fin g.tU.length)) {Ku : Matrix (Fin g.tU.length) (Fin g.tU.length) ℝ}
    (hKu : g.computeKu R = .ok (rows Ku)) {p : NatNormal (Fin g.tU.length)} (hp : p.prec.PosDef) :
    ∃ k : (Fin g.tU.length → ℝ) → ℝ → ℝ, (∀ w, IsKernel (k w)) ∧
      (∀ tK ws, ws ≠ [] →
        sampleKernelMeanField C (g.kernelApprox R C) Ku p tK ws = .ok (ws.map fun w => tK.map (k w))) ∧
      ∀ s, StdMean (fun w => k w s) (Spec.expectedKernel (Spec.ihx g.params s 0) Ku⁻¹
        (.of fun i j => Spec.iux g.params s 0 (g.tU.get i) (g.tU.get j))
        (p.prec⁻¹ + vecMulVec (p.prec⁻¹ *ᵥ p.lam) (p.prec⁻¹ *ᵥ p.lam))) :=
  (g.goodKern R hm hγ hu C hKu).mean_field hp

omit [DecidableEq ι] in
theorem inner_swap {A : Matrix ι ι ℝ} (hA : Aᵀ = A) (f : ι → ι → ℝ) :
    Spec.inner A (.of fun i j => f j i) = Spec.inner A (.of fun i j => f i j) := by
  unfold Spec.inner
  rw [Finset.sum_comm]
  exact Finset.sum_congr rfl fun a _ => Finset.sum_congr rfl fun b _ => by
    rw [show A b a = A a b from congrFun (congrFun hA a) b]
    rfl

/-- **C110** The same for the RGPCM. -/
theorem c110_mean_field_rgpcm {g : RgpcmModel} (h : g.Regular) (hα : g.alphaT ≠ 0) (C : CholOracle (Fin g.tU.length))
    {p : NatNormal (Fin g.tU.length)} (hp : p.prec.PosDef) :
    ∃ k : (Fin g.tU.length → ℝ) → ℝ → ℝ, (∀ w, IsKernel (k w)) ∧
      (∀ tK ws, ws ≠ [] →
        sampleKernelMeanField C (g.kernelApprox C) g.computeKu p tK ws = .ok (ws.map fun w => tK.map (k w))) ∧
      ∀ s, StdMean (fun w => k w s) (Spec.expectedKernel (Spec.R.ihx (specOf g) s 0) g.computeKu⁻¹
        (.of fun i j => Spec.R.iux (specOf g) s 0 (g.tU.get i) (g.tU.get j))
        (p.prec⁻¹ + vecMulVec (p.prec⁻¹ *ᵥ p.lam) (p.prec⁻¹ *ᵥ p.lam))) := by
  obtain ⟨k, h1, h2, h3⟩ := (goodKern h hα C).mean_field hp
  refine ⟨k, h1, h2, fun s => ?_⟩
  have := h3 s
  unfold Spec.expectedKernel at this ⊢
  rwa [inner_swap (inv_symm (c74_posDef h.gamma h.gammaT h.tU)), inner_swap (A := p.prec⁻¹ + _) (by
    rw [transpose_add, inv_symm hp, transpose_vecMulVec])] at this

/-- **C110** Before conditioning the samples average to the covariance of the process, under both schemes. -/
theorem c110_prior (g : GpcmModel) (hm : g.Moderate) (hγ : 0 < g.gamma) (hu : g.tU.Nodup)
    (C : CholOracle (Fin g.tU.length)) {Ku : Matrix (Fin g.tU.length) (Fin g.tU.length) ℝ}
    (hKu : g.computeKu R = .ok (rows Ku)) :
    ∃ k : (Fin g.tU.length → ℝ) → ℝ → ℝ, (∀ w, IsKernel (k w)) ∧
      (∀ tK ws, ws ≠ [] →
        sampleKernelMeanField C (g.kernelApprox R C) Ku ⟨0, Ku⟩ tK ws = .ok (ws.map fun w => tK.map (k w)) ∧
        sampleKernelStructured C (g.kernelApprox R C) Ku none tK ws = .ok (ws.map fun w => tK.map (k w))) ∧
      ∀ s, StdMean (fun w => k w s) (Spec.ihx g.params s 0) := by
  have hg := g.goodKern R hm hγ hu C hKu
  obtain ⟨k, h1, h2, h3⟩ := hg.mean_field (p := ⟨0, Ku⟩) hg.posKu
  refine ⟨k, h1, fun tK ws hws => ⟨h2 tK ws hws, (h2 tK ws hws).symm ▸ rfl⟩, fun s => ?_⟩
  have := h3 s
  simpa [Spec.expectedKernel] using this

/-- **C110** The same for the RGPCM. -/
theorem c110_prior_rgpcm {g : RgpcmModel} (h : g.Regular) (hα : g.alphaT ≠ 0) (C : CholOracle (Fin g.tU.length)) :
    ∃ k : (Fin g.tU.length → ℝ) → ℝ → ℝ, (∀ w, IsKernel (k w)) ∧
      (∀ tK ws, ws ≠ [] →
        sampleKernelMeanField C (g.kernelApprox C) g.computeKu ⟨0, g.computeKu⟩ tK ws =
          .ok (ws.map fun w => tK.map (k w)) ∧
        sampleKernelStructured C (g.kernelApprox C) g.computeKu none tK ws = .ok (ws.map fun w => tK.map (k w))) ∧
      ∀ s, StdMean (fun w => k w s) (Spec.R.ihx (specOf g) s 0) := by
  have hg := goodKern h hα C
  obtain ⟨k, h1, h2, h3⟩ := hg.mean_field (p := ⟨0, g.computeKu⟩) hg.posKu
  refine ⟨k, h1, fun tK ws hws => ⟨h2 tK ws hws, (h2 tK ws hws).symm ▸ rfl⟩, fun s => ?_⟩
  have := h3 s
  simpa [Spec.expectedKernel] using this

/-- **C110** Under the structured scheme the samples are the expected kernels given the stored samples. -/
theorem c110_structured (g : GpcmModel) (hm : g.Moderate) (hγ : 0 < g.gamma) (hu : g.tU.Nodup)
    (C : CholOracle (Fin g.tU.length)) {Ku : Matrix (Fin g.tU.length) (Fin g.tU.length) ℝ}
    (hKu : g.computeKu R = .ok (rows Ku)) :
    ∃ k : (Fin g.tU.length → ℝ) → ℝ → ℝ, (∀ u, IsKernel (k u)) ∧
      (∀ u s, k u s = Spec.expectedKernel (Spec.ihx g.params s 0) Ku⁻¹
        (.of fun i j => Spec.iux g.params s 0 (g.tU.get i) (g.tU.get j)) (vecMulVec u u)) ∧
      ∀ us tK ws, us ≠ [] → ws ≠ [] → sampleKernelStructured C (g.kernelApprox R C) Ku (some us) tK ws =
        .ok ((us.take ws.length).map fun u => tK.map (k u)) := by
  obtain ⟨k, h1, h2, h3, -⟩ := (g.goodKern R hm hγ hu C hKu).structured
  exact ⟨k, h1, h2, h3⟩

/-- **C110** The same for the RGPCM. -/
theorem c110_structured_rgpcm {g : RgpcmModel} (h : g.Regular) (hα : g.alphaT ≠ 0) (C : CholOracle (Fin g.tU.length)) :
    ∃ k : (Fin g.tU.length → ℝ) → ℝ → ℝ, (∀ u, IsKernel (k u)) ∧
      (∀ u s, k u s = Spec.expectedKernel (Spec.R.ihx (specOf g) s 0) g.computeKu⁻¹
        (.of fun i j => Spec.R.iux (specOf g) s 0 (g.tU.get i) (g.tU.get j)) (vecMulVec u u)) ∧
      ∀ us tK ws, us ≠ [] → ws ≠ [] → sampleKernelStructured C (g.kernelApprox C) g.computeKu (some us) tK ws =
        .ok ((us.take ws.length).map fun u => tK.map (k u)) := by
  obtain ⟨k, h1, h2, h3, -⟩ := (goodKern h hα C).structured
  refine ⟨k, h1, fun u s => (h2 u s).trans ?_, h3⟩
  unfold Spec.expectedKernel
  rw [inner_swap (inv_symm (c74_posDef h.gamma h.gammaT h.tU)), inner_swap (transpose_vecMulVec u u)]

/-- The assumptions hold for concrete models, and a posterior that differs from the prior. -/
example (causal : Bool) : (∃ g : GpcmModel, g.Moderate ∧ 0 < g.gamma ∧ g.tU.Nodup ∧ g.causal = causal) ∧
    exRgpcm.Regular ∧ exRgpcm.alphaT ≠ 0 ∧ exNormal.prec.PosDef ∧ exNormal.lam ≠ 0 := by
  obtain ⟨g, hg, hm, -, -, hc, hγ, ht⟩ := witness_moderate causal
  refine ⟨⟨g, hm, hγ, ?_, hc⟩, ?_, by norm_num [exRgpcm], exNormal_posDef, ?_⟩
  · rw [ht]
    cases causal <;> norm_num
  · constructor <;> norm_num [exRgpcm]
  · exact fun h => one_ne_zero (congrFun h 0)

/-- **C110** The default lags are 300 equally spaced ones from zero to the extent. -/
theorem c110_default (extent : ℝ) (approx : List ℝ → Except PyErr (List (List ℝ))) :
    modelSampleKernel extent approx none =
      modelSampleKernel extent approx (some ((List.range 300).map fun i : ℕ => extent / 299 * (i : ℝ))) := by
  unfold modelSampleKernel
  simp only
  rw [show linspace 0 extent 300 = .ok ((List.range 300).map fun i : ℕ => extent / 299 * (i : ℝ)) by
    unfold linspace
    rw [if_neg (by norm_num)]
    norm_num
    rfl]

/-! ## C111 -/

/-- **C111** The samples of `sample_kernel` are returned as the approximation drew them. -/
theorem c111_unchanged_partial (extent : ℝ) (approx : List ℝ → Except PyErr (List (List ℝ))) (tK : Option (List ℝ))
    {r : List ℝ × List (List ℝ)} (h : modelSampleKernel extent approx tK = .ok r) : approx r.1 = .ok r.2 := by
  unfold modelSampleKernel at h
  obtain ⟨t, -, h⟩ := bind1_ok h
  obtain ⟨ks, h1, h⟩ := bind1_ok h
  split at h
  · cases h
  · cases h
    exact h1

/-- **C111** is false: unless the prior power of the signal is one, there are samples whose mean variance is not
one. -/
theorem c111_false {g : RgpcmModel} (h : g.Regular) (hα : g.alphaT ≠ 0) (h1 : g.alphaT ^ 2 ≠ 2 * g.alpha)
    (C : CholOracle (Fin g.tU.length)) :
    ∃ w k, modelSampleKernel g.extent
      (fun tK => sampleKernelMeanField C (g.kernelApprox C) g.computeKu ⟨0, g.computeKu⟩ tK [w]) (some [0]) =
        .ok ([0], [[k]]) ∧ Util.mean [k] ≠ 1 := by
  obtain ⟨k, -, h2, h3⟩ := c110_prior_rgpcm h hα C
  have hne : ∃ w, k w 0 ≠ 1 := by
    by_contra hn
    push Not at hn
    have h4 := (h3 0).2
    simp only [hn, ← c63_covariance_rgpcm h.alpha] at h4
    have h5 := (std_linear (n := Fin g.tU.length) 1 0).2
    simp only [zero_dotProduct, add_zero] at h5
    rw [h5, RgpcmModel.ihx] at h4
    simp only [sub_self, abs_zero, mul_zero, exp_zero, mul_one] at h4
    have := h.alpha.ne'
    field_simp at h4
    exact h1 h4.symm
  obtain ⟨w, hw⟩ := hne
  refine ⟨w, k w 0, ?_, by simpa [Util.mean] using hw⟩
  unfold modelSampleKernel
  simp only [bind1_val]
  rw [(h2 [0] [w] (by simp)).1]
  simp [bind1_val]

example : exRgpcm.alphaT ^ 2 ≠ 2 * exRgpcm.alpha := by norm_num [exRgpcm]

/-! ## C112 -/

/-- **C112** Under the mean-field scheme there are as many samples as requested. -/
theorem c112_mean_field_partial (C : CholOracle ι) (kern : Kern ι) (Ku : Matrix ι ι ℝ) (p : NatNormal ι) (tK : List ℝ)
    (ws : List (ι → ℝ)) {ks : List (List ℝ)} (h : sampleKernelMeanField C kern Ku p tK ws = .ok ks) :
    ks.length = ws.length := by
  unfold sampleKernelMeanField at h
  obtain ⟨l, h1, h⟩ := bind1_ok h
  unfold stack at h
  split at h
  · cases h
  · cases h
    rw [← (mapE_ok_iff.1 h1).length_eq]
    simp [columns]

/-- **C112** Under the structured scheme the number of stored samples is a further limit after conditioning. -/
theorem c112_structured_partial (C : CholOracle ι) (kern : Kern ι) (Ku : Matrix ι ι ℝ) (stored : Option (List (ι → ℝ)))
    (tK : List ℝ) (ws : List (ι → ℝ)) {ks : List (List ℝ)} (h : sampleKernelStructured C kern Ku stored tK ws = .ok ks) :
    ks.length = match stored with
      | none => ws.length
      | some us => min us.length ws.length := by
  unfold sampleKernelStructured at h
  obtain ⟨l, h1, h⟩ := bind1_ok h
  unfold stack at h
  split at h
  · cases h
  · cases h
    rw [← (mapE_ok_iff.1 h1).length_eq]
    cases stored <;> simp [samplePU, columns]

/-- **C112** No samples cannot be requested. -/
theorem c112_none (C : CholOracle ι) (kern : Kern ι) (Ku : Matrix ι ι ℝ) (p : NatNormal ι)
    (stored : Option (List (ι → ℝ))) (tK : List ℝ) :
    sampleKernelMeanField C kern Ku p tK [] = .error .valueError ∧
    sampleKernelStructured C kern Ku stored tK [] = .error .valueError := by
  refine ⟨rfl, ?_⟩
  cases stored with
  | none => rfl
  | some us => simp [sampleKernelStructured, samplePU, columns, mapE, bind1_val, stack]

/-- **C112** is false: for every conditioned model under the structured scheme, requesting more samples than are stored
gives fewer than requested. -/
theorem c112_false (g : GpcmModel) (hm : g.Moderate) (hγ : 0 < g.gamma) (hu : g.tU.Nodup)
    (C : CholOracle (Fin g.tU.length)) {Ku : Matrix (Fin g.tU.length) (Fin g.tU.length) ℝ}
    (hKu : g.computeKu R = .ok (rows Ku)) (us : List (Fin g.tU.length → ℝ)) (hus : us ≠ []) (tK : List ℝ)
    (ws : List (Fin g.tU.length → ℝ)) (hws : us.length < ws.length) :
    ∃ ks, sampleKernelStructured C (g.kernelApprox R C) Ku (some us) tK ws = .ok ks ∧ ks.length < ws.length := by
  obtain ⟨k, -, -, h3⟩ := c110_structured R g hm hγ hu C hKu
  refine ⟨_, h3 us tK ws hus (by rintro rfl; simp at hws), ?_⟩
  rw [List.length_map, List.length_take]
  omega

example (C : CholOracle (Fin 2)) (kern : Kern (Fin 2)) (hk : ∀ t u, kern t [0] u = .ok (t.map fun s => [s + u 0])) :
    ∃ ks, sampleKernelStructured C kern 1 (some [![1, 2]]) [0, 1] [0, 0, 0] = .ok ks ∧ ks = [[1, 2]] :=
  ⟨_, by simp [sampleKernelStructured, samplePU, columns, mapE, sampleKernelRow, hk, bind1_val, stack]; rfl, by norm_num⟩

/-! ## C113 -/

theorem sum_map_const_div (l : List ℝ) (c : ℝ) : (l.map fun x => x / c).sum = l.sum / c := by
  induction l with
  | nil => simp
  | cons a l ih => rw [List.map_cons, List.sum_cons, List.sum_cons, ih, add_div]

/-- **C113** Without decibels the summary has the mean and the variance of the samples. -/
theorem c113_plain_partial {s : List ℝ} (hs : s ≠ []) : let S := summariseAt false s
    S.mean * s.length = s.sum ∧ S.var * s.length = (s.map fun x => (x - S.mean) ^ 2).sum ∧
    S.var = (s.map fun x => x ^ 2).sum / s.length - S.mean ^ 2 := by
  intro S
  have hl : (s.length : ℝ) ≠ 0 := by
    have := List.length_pos_iff.2 hs
    positivity
  have hm : S.mean = s.sum / s.length := rfl
  have h0 : 0 ≤ Util.mean (s.map fun x => (x - Util.mean s) ^ 2) := by
    unfold Util.mean
    refine div_nonneg (List.sum_nonneg fun x hx => ?_) (Nat.cast_nonneg _)
    obtain ⟨y, -, rfl⟩ := List.mem_map.1 hx
    exact sq_nonneg _
  have hv : S.var = (s.map fun x => (x - S.mean) ^ 2).sum / s.length := by
    show (std s) ^ 2 = _
    rw [std, sq_sqrt h0, Util.mean, List.length_map]
    rfl
  refine ⟨by rw [hm]; field_simp, by rw [hv]; field_simp, ?_⟩
  have h1 : ∀ (c : ℝ) (l : List ℝ), (l.map fun x => (x - c) ^ 2).sum =
      (l.map fun x => x ^ 2).sum - 2 * c * l.sum + l.length * c ^ 2 := fun c l => by
    induction l with
    | nil => simp
    | cons a l ih =>
      simp only [List.map_cons, List.sum_cons, List.length_cons, ih]
      push_cast
      ring
  rw [hv, h1, hm]
  field_simp
  ring

/-- **C113** In decibels the mean is that of the samples, converted. -/
theorem c113_mean (db : Bool) (s : List ℝ) :
    (summariseAt db s).mean = Util.transform db (summariseAt false s).mean := rfl

/-- **C113** is false in decibels: the reported variance is not the variance of the samples in decibels. -/
theorem c113_false : (summariseAt true [1, 100]).var ≠
    (summariseAt false ([1, 100].map (Util.transform true))).var := by
  have h1 : Util.transform true 1 = 0 := by simp [Util.transform]
  have h2 : Util.transform true 100 = 20 := by
    have : Real.logb 10 100 = 2 := by
      rw [show (100 : ℝ) = 10 ^ (2 : ℝ) by norm_num, Real.logb_rpow (by norm_num) (by norm_num)]
    simp only [Util.transform, if_true, this]
    norm_num
  have h3 := (c113_plain_partial (s := [0, 20]) (by simp)).2.2
  have hs : std [1, 100] = 99 / 2 := by
    rw [std, show (99 / 2 : ℝ) = √((99 / 2) ^ 2) from (sqrt_sq (by norm_num)).symm]
    congr 1
    norm_num [Util.mean]
  simp only [List.map_cons, List.map_nil, h1, h2]
  rw [h3]
  have hb : 100 < (summariseAt true [1, 100]).var := by
    show 100 < Util.transform true (std [1, 100]) ^ 2
    rw [hs]
    simp only [Util.transform, if_true]
    have : 1 < Real.logb 10 (99 / 2) := by
      rw [Real.lt_logb_iff_rpow_lt (by norm_num) (by norm_num)]
      norm_num
    nlinarith
  have he : ((([0, 20] : List ℝ).map fun x => x ^ 2).sum / (([0, 20] : List ℝ).length : ℝ) -
      (summariseAt false [0, 20]).mean ^ 2) = 100 := by
    norm_num [summariseAt, Util.transform, Util.mean]
  exact fun h => by linarith

/-- **C113** The prediction of the kernel has at every lag the mean and variance of the sampled kernels at that lag. -/
theorem c113_kernel {extent : ℝ} {approx : List ℝ → Except PyErr (List (List ℝ))} {tK : List ℝ} {ks : List (List ℝ)}
    (ha : approx tK = .ok ks) (h0 : ks ≠ []) (hl : ∀ k ∈ ks, k.length = tK.length) (ht : tK ≠ []) :
    ∃ S, predictKernel extent approx (some tK) = .ok S ∧ S.map Prod.fst = tK ∧
      ∀ i (hi : i < S.length), S[i].2.mean = (ks.map fun k => k.getD i 0).sum / ks.length ∧
        S[i].2.var = (ks.map fun k => (k.getD i 0 - S[i].2.mean) ^ 2).sum / ks.length := by
  refine ⟨summarise tK ks false, ?_, ?_, fun i hi => ?_⟩
  · unfold predictKernel modelSampleKernel
    simp only [bind1_val]
    rw [ha]
    simp only [bind1_val]
    rw [if_neg (by
      rw [List.any_eq_true]
      rintro ⟨k, hk, hk'⟩
      rw [List.isEmpty_iff.1 hk'] at hk
      exact ht (List.length_eq_zero_iff.1 (hl _ hk).symm))]
    rfl
  · unfold summarise atInputs
    rw [List.map_fst_zip]
    simp
  · have hs : (summarise tK ks false)[i].2 = summariseAt false (ks.map fun k => k.getD i 0) := by
      simp [summarise, atInputs]
    have hl : ((ks.map fun k => k.getD i 0).length : ℝ) ≠ 0 := by
      have := List.length_pos_iff.2 h0
      rw [List.length_map]
      positivity
    have h1 := c113_plain_partial (s := ks.map fun k => k.getD i 0) (by simpa using h0)
    rw [hs]
    refine ⟨?_, ?_⟩
    · rw [← h1.1, List.length_map]
      rw [List.length_map] at hl
      field_simp
    · have h2 := h1.2.1
      rw [List.map_map, List.length_map] at h2
      rw [List.length_map] at hl
      rw [eq_div_iff hl]
      exact h2

/-! ## C114 -/

/-- **C114** The densities are those of the sampled kernels, in order, and their average in decibels is predicted. -/
theorem c114_densities {extent : ℝ} {approx : List ℝ → Except PyErr (List (List ℝ))} {t : List ℝ}
    {r : List ℝ × List (List ℝ)} (h : psdSamples extent approx (some t) = .ok r) :
    (∃ ks, approx t = .ok ks ∧ List.Forall₂ (fun k d => ∃ e, Util.estimatePsd t k 2000 false = .ok e ∧
      e.map Prod.snd = d) ks r.2 ∧ ∃ k ∈ ks, ∃ e, Util.estimatePsd t k 2000 false = .ok e ∧ e.map Prod.fst = r.1) ∧
    ∃ S, predictPsd extent approx (some t) = .ok S ∧ S.map Prod.fst = r.1 ∧
      ∀ i (hi : i < S.length), S[i].2.mean =
        10 * Real.logb 10 ((r.2.map fun d => d.getD i 0).sum / r.2.length) := by
  refine ⟨?_, _, by unfold predictPsd; rw [h]; rfl, ?_, fun i hi => ?_⟩
  · unfold psdSamples modelSampleKernel at h
    simp only [bind1_val] at h
    obtain ⟨x, hx, h⟩ := bind1_ok h
    obtain ⟨ks, hk, hx⟩ := bind1_ok hx
    split at hx
    · cases hx
    cases hx
    obtain ⟨l, hl, h⟩ := bind1_ok h
    have h2 := mapE_ok_iff.1 hl
    refine ⟨ks, hk, ?_⟩
    cases h2 with
    | nil => cases h
    | @cons k p ks ps hk hks =>
      cases h
      refine ⟨.cons ⟨p, hk, rfl⟩ ?_, k, by simp, p, hk, rfl⟩
      rw [List.forall₂_map_right_iff]
      exact hks.imp fun k e he => ⟨e, he, rfl⟩
  · unfold summarise atInputs
    rw [List.map_fst_zip]
    simp
  · have : (summarise r.1 r.2 true)[i].2 = summariseAt true (r.2.map fun d => d.getD i 0) := by
      simp [summarise, atInputs]
    rw [this]
    simp [summariseAt, Util.transform, Util.mean]


theorem linspace_zero (b : ℝ) : linspace 0 b 1000 = .ok ((List.range 1000).map fun i : ℕ => b / 999 * (i : ℝ)) := by
  unfold linspace
  rw [if_neg (by norm_num)]
  norm_num
  rfl

theorem length_symmetrise (k : List ℝ) (n : ℕ) :
    (Util.symmetrise k n).length = k.length + n + (k.length + n - 1 - 1) := by
  simp [Util.symmetrise, add_assoc]

/-- **C114** With the default inputs the prediction of the spectral density succeeds whenever the approximation gives
samples, with one density per sample at 2999 equally spaced frequencies from zero. -/
theorem c114_default {extent : ℝ} (he : 0 < extent) {approx : List ℝ → Except PyErr (List (List ℝ))}
    (ha : ∀ t, ∃ ks, approx t = .ok ks ∧ ks ≠ [] ∧ ∀ k ∈ ks, k.length = t.length) :
    ∃ ks ds, approx ((List.range 1000).map fun i : ℕ => 2 * extent / 999 * (i : ℝ)) = .ok ks ∧
      psdSamples extent approx none =
        .ok ((List.range 2999).map fun i : ℕ => (i : ℝ) * (999 / (5998 * (2 * extent))), ds) ∧
      ds.length = ks.length ∧ (∀ d ∈ ds, d.length = 2999) ∧
      (∃ S, predictPsd extent approx none = .ok S ∧ S.length = 2999) := by
  obtain ⟨ks, h1, h2, h3⟩ := ha ((List.range 1000).map fun i : ℕ => 2 * extent / 999 * (i : ℝ))
  obtain ⟨t, ht⟩ : ∃ t, t = (List.range 1000).map fun i : ℕ => 2 * extent / 999 * (i : ℝ) := ⟨_, rfl⟩
  have hdt : 0 < 2 * extent / 999 := by positivity
  have ht' : ∃ ts, t = 0 :: (2 * extent / 999) :: ts := by
    refine ⟨(List.range 998).map fun i : ℕ => 2 * extent / 999 * ((i + 1 + 1 : ℕ) : ℝ), ?_⟩
    rw [ht, List.range_succ_eq_map, List.range_succ_eq_map]
    simp only [List.map_cons, List.map_map, Function.comp_def]
    simp
  obtain ⟨ts, hts⟩ := ht'
  rw [← ht] at h1 h3
  have hlen : t.length = 1000 := by rw [ht]; simp
  have hsym : ∀ k ∈ ks, (Util.symmetrise k 2000).length = 5998 := fun k hk => by
    have := h3 k hk
    rw [length_symmetrise, this, hlen]
  have hk0 : ∀ k ∈ ks, ∃ k0 kr, k = k0 :: kr := fun k hk => by
    have := h3 k hk
    cases k with
    | nil => rw [hlen] at this; cases this
    | cons a l => exact ⟨a, l, rfl⟩
  obtain ⟨f, hf⟩ : ∃ f : List ℝ → List ℝ, ∀ k ∈ ks, Util.estimatePsd t k 2000 false =
      .ok ((List.range 2999).map fun i : ℕ => ((i : ℝ) * (999 / (5998 * (2 * extent))), (f k).getD i 0)) ∧
      (f k).length = 2999 := by
    obtain ⟨nz, hnz⟩ : ∃ nz : ℕ, nz = 2000 := ⟨_, rfl⟩
    rw [← hnz] at hsym ⊢
    refine ⟨fun k => (List.range 2999).map fun i : ℕ => Util.transform false
      (|((Util.rawPsd k nz).getD i 0).re| / (Util.totalPower k nz (2 * extent / 999) / k.headD 0)), fun k hk =>
        ⟨?_, by simp⟩⟩
    obtain ⟨k0, kr, rfl⟩ := hk0 k hk
    rw [hts, Util.c53_output nz false hdt, hsym _ hk, show (5998 - 1) / 2 + 1 = 2999 by norm_num]
    refine congrArg Except.ok (List.map_congr_left fun i hi => ?_)
    have hi' : i < 2999 := List.mem_range.1 hi
    refine Prod.ext ?_ ?_
    · simp only
      push_cast
      field_simp
    · simp only [List.headD_cons]
      rw [List.getD_eq_getElem?_getD (l := List.map _ _), List.getElem?_map, List.getElem?_range hi']
      rfl
  have hmodel : modelSampleKernel extent approx (some t) = .ok (t, ks) := by
    unfold modelSampleKernel
    simp only [bind1_val]
    rw [h1]
    simp only [bind1_val]
    rw [if_neg]
    rw [List.any_eq_true]
    rintro ⟨k, hk, hk'⟩
    obtain ⟨k0, kr, rfl⟩ := hk0 k hk
    cases hk'
  have hfst : ∀ k, ((List.range 2999).map fun i : ℕ => ((i : ℝ) * (999 / (5998 * (2 * extent))), (f k).getD i 0)).map
      Prod.fst = (List.range 2999).map fun i : ℕ => (i : ℝ) * (999 / (5998 * (2 * extent))) := fun k => by
    rw [List.map_map]
    rfl
  have hps : psdSamples extent approx none =
      .ok ((List.range 2999).map fun i : ℕ => (i : ℝ) * (999 / (5998 * (2 * extent))),
        ks.map fun k => (List.range 2999).map fun i => (f k).getD i 0) := by
    unfold psdSamples
    simp only
    rw [linspace_zero, ← ht]
    simp only [bind1_val]
    rw [hmodel]
    simp only [bind1_val]
    rw [mapE_eq_map fun k hk => (hf k hk).1]
    simp only [bind1_val]
    cases ks with
    | nil => exact absurd rfl h2
    | cons k0 kr =>
      simp only [List.map_cons]
      rw [hfst]
      simp only [List.map_map, Function.comp_def]
  refine ⟨ks, _, by rw [← ht]; exact h1, hps, by simp, fun d hd => ?_, ?_⟩
  · obtain ⟨k, -, rfl⟩ := List.mem_map.1 hd
    simp
  · refine ⟨_, by unfold predictPsd; rw [hps]; rfl, ?_⟩
    unfold summarise atInputs
    simp

/-- **C114** In particular for all mean-field posteriors of a GPCM or a CGPCM. -/
theorem c114_mean_field (g : GpcmModel) (hm : g.Moderate) (hγ : 0 < g.gamma) (hu : g.tU.Nodup) (he : 0 < g.extent)
    (C : CholOracle (Fin g.tU.length)) {Ku : Matrix (Fin g.tU.length) (Fin g.tU.length) ℝ}
    (hKu : g.computeKu R = .ok (rows Ku)) {p : NatNormal (Fin g.tU.length)} (hp : p.prec.PosDef)
    (ws : List (Fin g.tU.length → ℝ)) (hws : ws ≠ []) :
    ∃ ds, psdSamples g.extent (fun tK => sampleKernelMeanField C (g.kernelApprox R C) Ku p tK ws) none =
        .ok ((List.range 2999).map fun i : ℕ => (i : ℝ) * (999 / (5998 * (2 * g.extent))), ds) ∧
      ds.length = ws.length ∧ ∀ d ∈ ds, d.length = 2999 := by
  obtain ⟨k, -, h2, -⟩ := c110_mean_field R g hm hγ hu C hKu hp
  obtain ⟨ks, ds, h3, h4, h5, h6, -⟩ := c114_default he
    (approx := fun tK => sampleKernelMeanField C (g.kernelApprox R C) Ku p tK ws) fun t =>
      ⟨_, h2 t ws hws, by simpa using hws, fun k' hk' => by
        obtain ⟨w, -, rfl⟩ := List.mem_map.1 hk'
        simp⟩
  refine ⟨ds, h4, ?_, h6⟩
  rw [h5, c112_mean_field_partial C _ Ku p _ ws h3]

/-- **C114** And of an RGPCM. -/
theorem c114_mean_field_rgpcm {g : RgpcmModel} (h : g.Regular) (hα : g.alphaT ≠ 0) (he : 0 < g.extent)
    (C : CholOracle (Fin g.tU.length)) {p : NatNormal (Fin g.tU.length)} (hp : p.prec.PosDef)
    (ws : List (Fin g.tU.length → ℝ)) (hws : ws ≠ []) :
    ∃ ds, psdSamples g.extent (fun tK => sampleKernelMeanField C (g.kernelApprox C) g.computeKu p tK ws) none =
        .ok ((List.range 2999).map fun i : ℕ => (i : ℝ) * (999 / (5998 * (2 * g.extent))), ds) ∧
      ds.length = ws.length ∧ ∀ d ∈ ds, d.length = 2999 := by
  obtain ⟨k, -, h2, -⟩ := c110_mean_field_rgpcm h hα C hp
  obtain ⟨ks, ds, h3, h4, h5, h6, -⟩ := c114_default he
    (approx := fun tK => sampleKernelMeanField C (g.kernelApprox C) g.computeKu p tK ws) fun t =>
      ⟨_, h2 t ws hws, by simpa using hws, fun k' hk' => by
        obtain ⟨w, -, rfl⟩ := List.mem_map.1 hk'
        simp⟩
  refine ⟨ds, h4, ?_, h6⟩
  rw [h5, c112_mean_field_partial C _ _ p _ ws h3]

example : ∀ t : List ℝ, ∃ ks, (fun t : List ℝ => Except.ok (ε := PyErr) [t.map fun s => Real.exp (-s), t]) t = .ok ks ∧
    ks ≠ [] ∧ ∀ k ∈ ks, k.length = t.length := fun t => ⟨_, rfl, by simp, by simp⟩

/-- **C114** Inputs that do not start at zero are rejected. -/
theorem c114_rejects {extent t0 : ℝ} (h0 : t0 ≠ 0) {ts : List ℝ} {approx : List ℝ → Except PyErr (List (List ℝ))}
    {ks : List (List ℝ)} (ha : approx (t0 :: ts) = .ok ks) (hk : ks ≠ []) (hl : ∀ k ∈ ks, k ≠ []) :
    predictPsd extent approx (some (t0 :: ts)) = .error .valueError := by
  unfold predictPsd psdSamples modelSampleKernel
  simp only [bind1_val]
  rw [ha]
  simp only [bind1_val]
  rw [if_neg (by
    rw [List.any_eq_true]
    rintro ⟨k, hk, hk'⟩
    exact hl k hk (List.isEmpty_iff.1 hk'))]
  simp only [bind1_val]
  cases ks with
  | nil => exact absurd rfl hk
  | cons k kr => rw [mapE, Util.c52_rejects h0]; rfl

example : predictPsd 1 (fun t => .ok [t]) (some [1, 2]) = .error .valueError :=
  c114_rejects one_ne_zero rfl (by simp) (by simp)

end Gpcm
