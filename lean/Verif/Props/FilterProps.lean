import Verif.Model.Filter
import Verif.Spec.Filter
import Verif.Props.ValidProps
import Verif.Props.KernelProps
import Verif.Props.RGPCMGramProps
import Mathlib.LinearAlgebra.Vandermonde
import Verif.Props.FftProps

/-! # Properties C102 and C103: predictions of the filter -/

open MeasureTheory Matrix Real

namespace Gpcm

variable {ι κ : Type} [Fintype ι] [DecidableEq ι] [Fintype κ]

/-! ## Moments of samples -/

omit [DecidableEq ι] in
theorem Spec.Avg.unique {f : (ι → ℝ) → ℝ} {v v' : ℝ} (h : Spec.Avg f v) (h' : Spec.Avg f v') : v = v' :=
  h.2.symm.trans h'.2

omit [DecidableEq ι] in
theorem Spec.Moments.unique {h : (ι → ℝ) → (κ → ℝ) → κ → ℝ} {m m' : κ → ℝ} {S S' : Matrix κ κ ℝ}
    (H : Spec.Moments h m S) (H' : Spec.Moments h m' S') : m = m' ∧ S = S' := by
  have e : m = m' := funext fun i => by
    obtain ⟨A, a1, a2⟩ := H.1 i
    obtain ⟨B, b1, b2⟩ := H'.1 i
    obtain rfl : A = B := funext fun w => (a1 w).unique (b1 w)
    exact a2.unique b2
  subst e
  refine ⟨rfl, ?_⟩
  ext i j
  obtain ⟨A, a1, a2⟩ := H.2 i j
  obtain ⟨B, b1, b2⟩ := H'.2 i j
  obtain rfl : A = B := funext fun w => (a1 w).unique (b1 w)
  exact a2.unique b2

theorem avg_linear [DecidableEq κ] (α : ℝ) (a : κ → ℝ) : Spec.Avg (fun z : κ → ℝ => α + a ⬝ᵥ z) α := by
  have := std_quad α 1 a 0
  simpa [Spec.Avg] using this

theorem avg_quad [DecidableEq κ] (α β : ℝ) (a b : κ → ℝ) :
    Spec.Avg (fun z : κ → ℝ => (α + a ⬝ᵥ z) * (β + b ⬝ᵥ z)) (α * β + a ⬝ᵥ b) := std_quad α β a b

/-- Moments of an affine function of independent standard normal numbers. -/
theorem moments_affine [DecidableEq κ] (m : κ → ℝ) (A : Matrix κ ι ℝ) (L : Matrix κ κ ℝ) :
    Spec.Moments (fun w e => m + A *ᵥ w + L *ᵥ e) m (A * Aᵀ + L * Lᵀ) := by
  refine ⟨fun i => ⟨fun w => m i + A i ⬝ᵥ w, fun w => ?_, avg_linear _ _⟩, fun i j =>
    ⟨fun w => (A i ⬝ᵥ w) * (A j ⬝ᵥ w) + L i ⬝ᵥ L j, fun w => ?_, ?_⟩⟩
  · exact avg_linear (m i + A i ⬝ᵥ w) (L i)
  · have := avg_quad (A i ⬝ᵥ w) (A j ⬝ᵥ w) (L i) (L j)
    convert this using 3 with e <;> simp [mulVec] <;> ring
  · have h1 := avg_quad 0 0 (A i) (A j)
    have h2 := avg_linear (κ := ι) (L i ⬝ᵥ L j) 0
    simp only [zero_add, mul_zero, zero_dotProduct, add_zero] at h1 h2
    have e : (A * Aᵀ + L * Lᵀ) i j = A i ⬝ᵥ A j + L i ⬝ᵥ L j := by
      simp [Matrix.mul_apply, dotProduct]
    unfold Spec.Avg at h1 h2 ⊢
    simp only [mul_add]
    refine ⟨h1.1.add h2.1, ?_⟩
    rw [integral_add h1.1 h2.1, h1.2, h2.2, e]

variable [DecidableEq κ]

/-- The moments of what `sample_h` returns. -/
theorem sampleH_moments (C : CholOracle ι) {fac : Matrix κ κ ℝ → Matrix κ κ ℝ} (jitter : ℝ) (k : ℝ → ℝ → ℝ)
    (Ku : Matrix ι ι ℝ) (hKu : Kuᵀ = Ku) {p : NatNormal ι} (hp : p.prec.PosDef) (tU : ι → ℝ) (tH : κ → ℝ)
    (hk : ∀ x y, k x y = k y x)
    (hfac : fac (condCov jitter k tU tH) * (fac (condCov jitter k tU tH))ᵀ = condCov jitter k tU tH) :
    Spec.Moments (sampleH C fac jitter k Ku p tU tH)
      (gramMat k tH tU *ᵥ ((gramMat k tU tU + jitter • 1)⁻¹ *ᵥ (Ku *ᵥ (p.prec⁻¹ *ᵥ p.lam))))
      (gramMat k tH tU * (gramMat k tU tU + jitter • 1)⁻¹ * (Ku * p.prec⁻¹ * Ku) *
        (gramMat k tU tU + jitter • 1)⁻¹ * gramMat k tU tH + condCov jitter k tU tH) := by
  obtain ⟨Q, hQ⟩ : ∃ Q, Q = (gramMat k tU tU + jitter • (1 : Matrix ι ι ℝ))⁻¹ := ⟨_, rfl⟩
  have hg : ∀ {α β : Type} (x : α → ℝ) (y : β → ℝ), (gramMat k x y)ᵀ = gramMat k y x := fun x y => by
    ext i j
    exact hk _ _
  have hQs : Qᵀ = Q := by
    rw [hQ, transpose_nonsing_inv, transpose_add, hg, transpose_smul, transpose_one]
  have h := moments_affine (gramMat k tH tU *ᵥ (Q *ᵥ (Ku *ᵥ (p.prec⁻¹ *ᵥ p.lam))))
    (gramMat k tH tU * Q * Ku * p.samplePart C) (fac (condCov jitter k tU tH))
  rw [← hQ]
  convert h using 1
  · funext w e
    unfold sampleH condMean
    simp only
    rw [NatNormal.sample_eq C hp, NatNormal.mean_eq C hp, ← hQ]
    simp only [mulVec_add, mulVec_mulVec, Matrix.mul_assoc]
  · rw [hfac]
    congr 1
    have h1 := NatNormal.samplePart_mul C hp
    rw [NatNormal.var_eq C hp] at h1
    simp only [transpose_mul, hg, hQs, hKu]
    rw [← h1]
    simp only [Matrix.mul_assoc]


/-! ## C102: the GPCM -/

section gpcm

variable (R : Runtime ℝ)

theorem GpcmModel.Ku_eq {g : GpcmModel} {Ku : Matrix (Fin g.tU.length) (Fin g.tU.length) ℝ}
    (h : g.computeKu R = .ok (rows Ku)) : Ku = gramMat (Spec.kH g.params) g.tU.get g.tU.get := by
  have h0 := c65_K_u R g
  rw [map_rows] at h0
  exact rows_injective (Except.ok.inj (h.symm.trans h0))

theorem GpcmModel.filterKernel_symm (g : GpcmModel) (x y : ℝ) : g.filterKernel x y = g.filterKernel y x := by
  unfold GpcmModel.filterKernel
  simp only
  rw [← neg_sub y x, neg_div, neg_sq]
  ring

theorem GpcmModel.filterKernel_eq {g : GpcmModel} (hc : g.causal = false) (hγ : 0 < g.gamma) (ha : g.alphaT ≠ 0)
    (x y : ℝ) : g.filterKernel x y = (g.alphaT ^ 2)⁻¹ * Spec.kH g.params x y := by
  have h := c89_ratio_partial g hγ x y
  have hg : ∀ t, Spec.gate g.params t = 1 := fun t => by simp [Spec.gate, GpcmModel.params, hc]
  rw [hg, hg, one_mul, one_mul] at h
  rw [← h, inv_mul_cancel_left₀ (pow_ne_zero 2 ha)]

omit [DecidableEq ι] [Fintype κ] [DecidableEq κ] in
theorem sum_sandwich {k : ℝ → ℝ → ℝ} (tU : ι → ℝ) (tH : κ → ℝ) (S : Matrix ι ι ℝ) (i j : κ) :
    (gramMat k tH tU * S * gramMat k tU tH) i j = ∑ a, ∑ b, k (tH i) (tU a) * S a b * k (tU b) (tH j) := by
  simp only [Matrix.mul_apply, Finset.sum_mul, gramMat, of_apply]
  exact Finset.sum_comm

/-- **C102** (GPCM, not causal; partial). Samples of the filter have the mean of the filter under the approximate
posterior. Their covariance is short by a fraction `1 - 1 / alpha_t ** 2` of what the inducing variables do not
determine, which is not zero (`c102_false`). -/
theorem c102_moments_partial (g : GpcmModel) (hc : g.causal = false) (hγ : 0 < g.gamma) (ha : g.alphaT ≠ 0)
    (hu : g.tU.Nodup) {Ku : Matrix (Fin g.tU.length) (Fin g.tU.length) ℝ} (hK : g.computeKu R = .ok (rows Ku))
    (C : CholOracle (Fin g.tU.length)) {p : NatNormal (Fin g.tU.length)} (hp : p.prec.PosDef) (tH : κ → ℝ)
    {fac : Matrix κ κ ℝ → Matrix κ κ ℝ}
    (hfac : fac (condCov 0 g.filterKernel g.tU.get tH) * (fac (condCov 0 g.filterKernel g.tU.get tH))ᵀ =
      condCov 0 g.filterKernel g.tU.get tH) :
    Spec.Moments (sampleH C fac 0 g.filterKernel Ku p g.tU.get tH)
      (fun i => Spec.filterMean (Spec.kH g.params) g.tU.get (p.prec⁻¹ *ᵥ p.lam) (tH i))
      (.of fun i j => Spec.filterCov (Spec.kH g.params) g.tU.get p.prec⁻¹ (tH i) (tH j) -
        (1 - 1 / g.alphaT ^ 2) * Spec.filterCov (Spec.kH g.params) g.tU.get 0 (tH i) (tH j)) := by
  obtain ⟨k, hk⟩ : ∃ k, k = Spec.kH g.params := ⟨_, rfl⟩
  obtain ⟨U, hU⟩ : ∃ U, U = g.tU.get := ⟨_, rfl⟩
  have hKu := GpcmModel.Ku_eq R hK
  have hpd : (gramMat k U U).PosDef := by
    rw [hk, hU]
    exact ku_posDef g.tU.get (p := g.params) hγ ha (List.nodup_iff_injective_get.1 hu)
  have hs : ∀ {α β : Type} (x : α → ℝ) (y : β → ℝ),
      gramMat g.filterKernel x y = (g.alphaT ^ 2)⁻¹ • gramMat k x y := fun x y => by
    ext i j
    simp only [gramMat, of_apply, Matrix.smul_apply, smul_eq_mul, hk]
    exact GpcmModel.filterKernel_eq hc hγ ha _ _
  have hα : g.alphaT ^ 2 ≠ 0 := pow_ne_zero 2 ha
  have hunit := posDef_isUnit_det hpd
  have hinv : (gramMat g.filterKernel U U + (0 : ℝ) • 1)⁻¹ = g.alphaT ^ 2 • (gramMat k U U)⁻¹ := by
    rw [zero_smul, add_zero, hs]
    refine Matrix.inv_eq_right_inv ?_
    rw [smul_mul_smul_comm, inv_mul_cancel₀ hα, one_smul, mul_nonsing_inv _ hunit]
  have h := sampleH_moments C (fac := fac) 0 g.filterKernel Ku (by rw [hKu, ← hk, ← hU]; exact posDef_symm hpd) hp
    g.tU.get tH (GpcmModel.filterKernel_symm g) hfac
  rw [← hU] at h ⊢
  rw [hKu, ← hk, ← hU] at h
  rw [hKu, ← hk, ← hU]
  have hl : gramMat g.filterKernel tH U * (gramMat g.filterKernel U U + (0 : ℝ) • 1)⁻¹ =
      gramMat k tH U * (gramMat k U U)⁻¹ := by
    rw [hinv, hs, Matrix.smul_mul, Matrix.mul_smul, smul_smul, inv_mul_cancel₀ hα, one_smul]
  have hr : (gramMat g.filterKernel U U + (0 : ℝ) • 1)⁻¹ * gramMat g.filterKernel U tH =
      (gramMat k U U)⁻¹ * gramMat k U tH := by
    rw [hinv, hs, Matrix.smul_mul, Matrix.mul_smul, smul_smul, mul_inv_cancel₀ hα, one_smul]
  convert h using 1
  · rw [mulVec_mulVec, hl, mulVec_mulVec, Matrix.mul_assoc, nonsing_inv_mul _ hunit, Matrix.mul_one]
    rfl
  · rw [hl, Matrix.mul_assoc _ _ (gramMat g.filterKernel U tH), hr, condCov, hl, hs, hs]
    have e : gramMat k tH U * (gramMat k U U)⁻¹ * (gramMat k U U * p.prec⁻¹ * gramMat k U U) *
        ((gramMat k U U)⁻¹ * gramMat k U tH) = gramMat k tH U * p.prec⁻¹ * gramMat k U tH := by
      calc _ = gramMat k tH U * ((gramMat k U U)⁻¹ * gramMat k U U) * p.prec⁻¹ *
            (gramMat k U U * (gramMat k U U)⁻¹) * gramMat k U tH := by simp only [Matrix.mul_assoc]
        _ = _ := by rw [nonsing_inv_mul _ hunit, mul_nonsing_inv _ hunit, Matrix.mul_one, Matrix.mul_one]
    rw [e]
    ext i j
    rw [Matrix.mul_smul, ← smul_sub]
    simp only [Matrix.add_apply, Matrix.smul_apply, Matrix.sub_apply, of_apply, sum_sandwich, Spec.filterCov, smul_eq_mul,
      Matrix.zero_apply, mul_zero, zero_mul, Finset.sum_const_zero, add_zero]
    have e1 : (Matrix.of fun a b => k (U a) (U b)) = gramMat k U U := rfl
    have e2 : gramMat k tH tH i j = k (tH i) (tH j) := rfl
    rw [e1, e2]
    ring

/-- What distinct inducing points do not determine about the filter at another time is positive. -/
theorem filterResidual_pos {p : Spec.Params} (hγ : 0 < p.gamma) (ha : p.alphaT ≠ 0) {n : ℕ} {U : Fin n → ℝ}
    (hU : Function.Injective U) {t : ℝ} (ht : ∀ i, U i ≠ t) : 0 < Spec.filterCov (Spec.kH p) U 0 t t := by
  have hinj : Function.Injective (Fin.cons t U : Fin (n + 1) → ℝ) :=
    Fin.cons_injective_iff.2 ⟨fun ⟨i, hi⟩ => ht i hi, hU⟩
  have hbig := ku_posDef (p := p) (Fin.cons t U : Fin (n + 1) → ℝ) hγ ha hinj
  have hpd := ku_posDef (p := p) U hγ ha hU
  obtain ⟨K, hK⟩ : ∃ K, K = Matrix.of fun i j => Spec.kH p (U i) (U j) := ⟨_, rfl⟩
  rw [← hK] at hpd
  obtain ⟨c, hc⟩ : ∃ c : Fin n → ℝ, c = fun i => Spec.kH p (U i) t := ⟨_, rfl⟩
  have hKv : ∀ i, ∑ j, K i j * (K⁻¹ *ᵥ c) j = c i := fun i => by
    have : K *ᵥ (K⁻¹ *ᵥ c) = c := by rw [mulVec_mulVec, mul_nonsing_inv _ (posDef_isUnit_det hpd), one_mulVec]
    exact congrFun this i
  have hv : (Fin.cons 1 (-(K⁻¹ *ᵥ c)) : Fin (n + 1) → ℝ) ≠ 0 := fun h => by simpa using congrFun h 0
  have h := hbig.dotProduct_mulVec_pos hv
  rw [star_trivial] at h
  refine h.trans_eq (Eq.symm ?_)
  simp only [Spec.filterCov, ← hK, dotProduct, mulVec, Fin.sum_univ_succ, Fin.cons_zero, Fin.cons_succ, of_apply,
    Pi.neg_apply, mul_neg, neg_mul, one_mul, mul_one, Finset.sum_neg_distrib, Matrix.zero_apply, mul_zero, zero_mul,
    Finset.sum_const_zero, add_zero]
  have e1 : ∀ i, ∑ j, Spec.kH p (U i) (U j) * ∑ b, K⁻¹ j b * c b = c i := fun i => by
    have := hKv i
    rw [hK] at this ⊢
    exact this
  have e2 : ∑ a, ∑ b, Spec.kH p t (U a) * K⁻¹ a b * Spec.kH p (U b) t =
      ∑ a, Spec.kH p t (U a) * ∑ b, K⁻¹ a b * c b := by
    simp only [Finset.mul_sum, mul_assoc, hc]
  rw [e2]
  simp only [e1]
  have e3 : ∀ i, Spec.kH p (U i) t = c i := fun i => by rw [hc]
  simp only [e3, add_neg_cancel, mul_zero, Finset.sum_const_zero, neg_zero, add_zero]
  ring

/-- **C102 is false** for the GPCM: whenever `alpha_t` is not one, the variance of samples of the filter is wrong at
every time which is not an inducing point, for every approximate posterior. -/
theorem c102_variance_false (g : GpcmModel) (hc : g.causal = false) (hγ : 0 < g.gamma) (ha : g.alphaT ≠ 0)
    (ha' : g.alphaT ^ 2 ≠ 1)
    (hu : g.tU.Nodup) {Ku : Matrix (Fin g.tU.length) (Fin g.tU.length) ℝ} (hK : g.computeKu R = .ok (rows Ku))
    (C : CholOracle (Fin g.tU.length)) {p : NatNormal (Fin g.tU.length)} (hp : p.prec.PosDef) (tH : κ → ℝ)
    {fac : Matrix κ κ ℝ → Matrix κ κ ℝ}
    (hfac : fac (condCov 0 g.filterKernel g.tU.get tH) * (fac (condCov 0 g.filterKernel g.tU.get tH))ᵀ =
      condCov 0 g.filterKernel g.tU.get tH) (i : κ) (hi : tH i ∉ g.tU) {m : κ → ℝ} {S : Matrix κ κ ℝ}
    (h : Spec.Moments (sampleH C fac 0 g.filterKernel Ku p g.tU.get tH) m S) :
    S i i ≠ Spec.filterCov (Spec.kH g.params) g.tU.get p.prec⁻¹ (tH i) (tH i) := by
  rw [(h.unique (c102_moments_partial R g hc hγ ha hu hK C hp tH hfac)).2, of_apply]
  have hr := filterResidual_pos (p := g.params) hγ ha (List.nodup_iff_injective_get.1 hu) (t := tH i) fun j hj =>
    hi (hj ▸ List.get_mem _ _)
  intro e
  rcases mul_eq_zero.1 (sub_eq_self.1 e) with e | e
  · refine ha' ?_
    have : 1 / g.alphaT ^ 2 = 1 := by linarith
    rwa [div_eq_one_iff_eq (pow_ne_zero 2 ha), eq_comm] at this
  · exact hr.ne' e

omit [Fintype κ] [DecidableEq κ] in
theorem condCov_eq {g : GpcmModel} (hc : g.causal = false) (hγ : 0 < g.gamma) (ha : g.alphaT ≠ 0) (hu : g.tU.Nodup)
    (tH : κ → ℝ) (i j : κ) : condCov 0 g.filterKernel g.tU.get tH i j =
      (g.alphaT ^ 2)⁻¹ * Spec.filterCov (Spec.kH g.params) g.tU.get 0 (tH i) (tH j) := by
  have hα : g.alphaT ^ 2 ≠ 0 := pow_ne_zero 2 ha
  have hpd : (gramMat (Spec.kH g.params) g.tU.get g.tU.get).PosDef :=
    ku_posDef g.tU.get (p := g.params) hγ ha (List.nodup_iff_injective_get.1 hu)
  have hs : ∀ {α β : Type} (x : α → ℝ) (y : β → ℝ),
      gramMat g.filterKernel x y = (g.alphaT ^ 2)⁻¹ • gramMat (Spec.kH g.params) x y := fun x y => by
    ext i j
    exact GpcmModel.filterKernel_eq hc hγ ha _ _
  have hinv : (gramMat g.filterKernel g.tU.get g.tU.get + (0 : ℝ) • 1)⁻¹ =
      g.alphaT ^ 2 • (gramMat (Spec.kH g.params) g.tU.get g.tU.get)⁻¹ := by
    rw [zero_smul, add_zero, hs]
    refine Matrix.inv_eq_right_inv ?_
    rw [smul_mul_smul_comm, inv_mul_cancel₀ hα, one_smul, mul_nonsing_inv _ (posDef_isUnit_det hpd)]
  have hl : gramMat g.filterKernel tH g.tU.get * (gramMat g.filterKernel g.tU.get g.tU.get + (0 : ℝ) • 1)⁻¹ =
      gramMat (Spec.kH g.params) tH g.tU.get * (gramMat (Spec.kH g.params) g.tU.get g.tU.get)⁻¹ := by
    rw [hinv, hs, Matrix.smul_mul, Matrix.mul_smul, smul_smul, inv_mul_cancel₀ hα, one_smul]
  have e : condCov 0 g.filterKernel g.tU.get tH = (g.alphaT ^ 2)⁻¹ • (gramMat (Spec.kH g.params) tH tH -
      gramMat (Spec.kH g.params) tH g.tU.get * (gramMat (Spec.kH g.params) g.tU.get g.tU.get)⁻¹ *
        gramMat (Spec.kH g.params) g.tU.get tH) := by
    rw [condCov, hl, hs, hs, Matrix.mul_smul, ← smul_sub]
  rw [e]
  simp only [Matrix.smul_apply, Matrix.sub_apply, sum_sandwich, Spec.filterCov, smul_eq_mul, Matrix.zero_apply,
    mul_zero, zero_mul, Finset.sum_const_zero, add_zero]
  rfl

/-- A factor of a non-negative number. -/
theorem exists_fac {A : Matrix Unit Unit ℝ} (h : 0 ≤ A () ()) :
    ∃ fac : Matrix Unit Unit ℝ → Matrix Unit Unit ℝ, fac A * (fac A)ᵀ = A := by
  refine ⟨fun A => .of fun _ _ => √(A () ()), ?_⟩
  ext ⟨⟩ ⟨⟩
  simp [Matrix.mul_apply, mul_self_sqrt h]

/-- **C102 is false**: a freshly constructed GPCM whose samples of the filter have the wrong variance at time one, for
every approximate posterior. -/
theorem c102_false : ∃ (a : GpcmArgs) (g : GpcmModel), GpcmModel.new a = .ok g ∧ g.Moderate ∧ a.alphaT = none ∧
    ∃ Ku, g.computeKu R = .ok (rows Ku) ∧ ∀ (C : CholOracle (Fin g.tU.length)) (p : NatNormal (Fin g.tU.length)),
      p.prec.PosDef → ∃ fac : Matrix Unit Unit ℝ → Matrix Unit Unit ℝ,
        fac (condCov 0 g.filterKernel g.tU.get fun _ => 1) * (fac (condCov 0 g.filterKernel g.tU.get fun _ => 1))ᵀ =
          condCov 0 g.filterKernel g.tU.get (fun _ => 1) ∧
        ∃ m S, Spec.Moments (sampleH C fac 0 g.filterKernel Ku p g.tU.get fun _ => 1) m S ∧
          S () () ≠ Spec.filterCov (Spec.kH g.params) g.tU.get p.prec⁻¹ 1 1 := by
  obtain ⟨g, hg, hm, -, -, hc, hγ, ht⟩ := witness_moderate false
  have ha : g.alphaT ≠ 0 := hm.alphaT
  have ha' : g.alphaT ^ 2 ≠ 1 := fun h2 => by
    obtain ⟨ha, -, -, -, -, hat, -⟩ := GpcmModel.new_ok hg
    have ha' : scaleToFactor 1 = g.alpha := Except.ok.inj ha
    have ha0 : 0 < g.alpha := by linarith [hm.alpha_lo]
    rw [hat] at h2
    have h3 : initAlphaT { witnessArgs false 1 1 with nU := some 3 } g.alpha = (2 * g.alpha / π) ^ (0.25 : ℝ) := rfl
    rw [h3, rpow_quarter_sq (by positivity), ← ha'] at h2
    unfold scaleToFactor at h2
    rw [show 2 * (π / 2 / (2 * 1 ^ 2)) / π = 1 / 2 by field_simp] at h2
    have := sq_sqrt (show (0 : ℝ) ≤ 1 / 2 by norm_num)
    rw [h2] at this
    norm_num at this
  have hu : g.tU.Nodup := by rw [ht]; norm_num
  have h1 : (1 : ℝ) ∉ g.tU := by rw [ht]; norm_num
  have hK : g.computeKu R = .ok (rows (gramMat (Spec.kH g.params) g.tU.get g.tU.get)) := by
    rw [c65_K_u, map_rows]
    rfl
  refine ⟨_, g, hg, hm, rfl, _, hK, fun C p hp => ?_⟩
  have hr := filterResidual_pos (p := g.params) hγ ha (List.nodup_iff_injective_get.1 hu) (t := 1) fun j hj =>
    h1 (hj ▸ List.get_mem _ _)
  have hcond : 0 ≤ condCov 0 g.filterKernel g.tU.get (fun _ : Unit => (1 : ℝ)) () () := by
    rw [condCov_eq hc hγ ha hu]
    positivity
  obtain ⟨fac, hfac⟩ := exists_fac hcond
  have hM := c102_moments_partial R g hc hγ ha hu hK C hp (fun _ : Unit => (1 : ℝ)) hfac
  exact ⟨fac, hfac, _, _, hM, c102_variance_false R g hc hγ ha ha' hu hK C hp (fun _ : Unit => (1 : ℝ)) hfac () h1 hM⟩

/-! ### The causal model -/

theorem GpcmModel.filterKernel_gate (g : GpcmModel) (hγ : 0 < g.gamma) (ha : g.alphaT ≠ 0) (x y : ℝ) :
    g.filterKernel x y = (g.alphaT ^ 2)⁻¹ * (Spec.gate g.params x * Spec.gate g.params y * Spec.kH g.params x y) := by
  rw [← c89_ratio_partial g hγ x y, inv_mul_cancel_left₀ (pow_ne_zero 2 ha)]

theorem GpcmModel.filterKernel_neg {g : GpcmModel} (hc : g.causal = true) (x : ℝ) {y : ℝ} (hy : y < 0) :
    g.filterKernel x y = 0 := by
  unfold GpcmModel.filterKernel
  simp [hc, not_le.2 hy]

/-- **C102 is false** for the CGPCM: conditioning on the inducing variables is impossible without jitter, because the
kernel is zero at negative inducing points, which the CGPCM has. -/
theorem c102_causal_singular_false (g : GpcmModel) (hc : g.causal = true) (i : Fin g.tU.length)
    (hi : g.tU.get i < 0) : ¬IsUnit (gramMat g.filterKernel g.tU.get g.tU.get).det := by
  rw [Matrix.det_eq_zero_of_column_eq_zero i fun j => GpcmModel.filterKernel_neg hc _ hi]
  exact not_isUnit_zero

theorem GpcmModel.filterGram_posDef (g : GpcmModel) (hγ : 0 < g.gamma) (ha : g.alphaT ≠ 0) (hu : g.tU.Nodup)
    {ε : ℝ} (hε : 0 < ε) : (gramMat g.filterKernel g.tU.get g.tU.get + ε • 1).PosDef := by
  have hpd := ku_posDef (p := g.params) g.tU.get hγ ha (List.nodup_iff_injective_get.1 hu)
  have h := (hpd.posSemidef.conjTranspose_mul_mul_same
    (diagonal fun i => Spec.gate g.params (g.tU.get i))).smul (a := (g.alphaT ^ 2)⁻¹) (by positivity)
  have e : (g.alphaT ^ 2)⁻¹ • ((diagonal fun i => Spec.gate g.params (g.tU.get i))ᴴ *
      (Matrix.of fun i j => Spec.kH g.params (g.tU.get i) (g.tU.get j)) *
      diagonal fun i => Spec.gate g.params (g.tU.get i)) = gramMat g.filterKernel g.tU.get g.tU.get := by
    ext i j
    simp only [conjTranspose_eq_transpose_of_trivial, diagonal_transpose, Matrix.smul_apply, mul_diagonal, diagonal_mul,
      of_apply, smul_eq_mul, gramMat, g.filterKernel_gate hγ ha]
    ring
  rw [e] at h
  exact Matrix.PosDef.posSemidef_add h (PosDef.one.smul hε)

omit [Fintype κ] [DecidableEq κ] in
/-- **C102 is false** for the CGPCM: with any jitter, the prediction ignores the values of the filter at negative
inducing points, although they inform the filter at positive times. -/
theorem c102_causal_blind_false (g : GpcmModel) (hc : g.causal = true) (hγ : 0 < g.gamma) (ha : g.alphaT ≠ 0)
    (hu : g.tU.Nodup) {ε : ℝ} (hε : 0 < ε) (tH : κ → ℝ) {u u' : Fin g.tU.length → ℝ}
    (h : ∀ i, 0 ≤ g.tU.get i → u i = u' i) :
    condMean ε g.filterKernel g.tU.get tH u = condMean ε g.filterKernel g.tU.get tH u' := by
  obtain ⟨G, hG⟩ : ∃ G, G = gramMat g.filterKernel g.tU.get g.tU.get := ⟨_, rfl⟩
  have hpd := g.filterGram_posDef hγ ha hu hε
  rw [← hG] at hpd
  obtain ⟨d, hd⟩ : ∃ d, d = (G + ε • 1)⁻¹ *ᵥ (u - u') := ⟨_, rfl⟩
  have hGd : (G + ε • 1) *ᵥ d = u - u' := by
    rw [hd, mulVec_mulVec, mul_nonsing_inv _ (posDef_isUnit_det hpd), one_mulVec]
  obtain ⟨e, he⟩ : ∃ e : Fin g.tU.length → ℝ, e = fun i => if 0 ≤ g.tU.get i then d i else 0 := ⟨_, rfl⟩
  have hcol : ∀ {α : Type} (x : α → ℝ), gramMat g.filterKernel x g.tU.get *ᵥ e =
      gramMat g.filterKernel x g.tU.get *ᵥ d := fun x => by
    funext a
    simp only [mulVec, dotProduct, gramMat, of_apply, he]
    refine Finset.sum_congr rfl fun i _ => ?_
    by_cases hi : 0 ≤ g.tU.get i
    · rw [if_pos hi]
    · rw [if_neg hi, GpcmModel.filterKernel_neg hc _ (not_le.1 hi), zero_mul, zero_mul]
  have e0 : e = 0 := by
    by_contra hne
    have := hpd.dotProduct_mulVec_pos hne
    rw [star_trivial] at this
    refine this.ne' (Finset.sum_eq_zero fun i _ => ?_)
    by_cases hi : 0 ≤ g.tU.get i
    · have h1 : ((G + ε • 1) *ᵥ e) i = ((G + ε • 1) *ᵥ d) i := by
        rw [add_mulVec, add_mulVec, hG, hcol]
        simp only [Pi.add_apply, smul_mulVec, one_mulVec, Pi.smul_apply, he, if_pos hi]
      rw [h1, hGd, Pi.sub_apply, h i hi, sub_self, mul_zero]
    · rw [he]
      simp only [if_neg hi, zero_mul]
  have : gramMat g.filterKernel tH g.tU.get *ᵥ d = 0 := by rw [← hcol, e0, mulVec_zero]
  rw [hd, mulVec_sub, mulVec_sub, sub_eq_zero] at this
  unfold condMean
  rw [← hG]
  exact this

/-- A nonzero combination of the columns of the kernel of the filter does not vanish at all non-negative times. -/
theorem exists_filterMean_ne (g : GpcmModel) (hγ : 0 < g.gamma) (ha : g.alphaT ≠ 0) (hu : g.tU.Nodup)
    {v : Fin g.tU.length → ℝ} (hne : v ≠ 0) : ∃ n : ℕ, Spec.filterMean (Spec.kH g.params) g.tU.get v n ≠ 0 := by
  have hinj := List.nodup_iff_injective_get.1 hu
  by_contra hall
  push Not at hall
  have h0 := Matrix.eq_zero_of_forall_pow_sum_mul_pow_eq_zero
    (f := fun j => exp (2 * g.gamma * g.tU.get j))
    (v := fun j => v j * exp (-(g.alpha + g.gamma) * g.tU.get j ^ 2))
    (fun a b hab => hinj (mul_left_cancel₀ (by positivity) (exp_injective hab))) fun k => by
      have := hall k
      simp only [Spec.filterMean, Spec.kH] at this
      have e : ∀ j, g.params.alphaT ^ 2 * exp (-(g.params.alpha * (k : ℝ) ^ 2)) *
          exp (-(g.params.alpha * g.tU.get j ^ 2)) * exp (-(g.params.gamma * ((k : ℝ) - g.tU.get j) ^ 2)) * v j =
          g.alphaT ^ 2 * exp (-(g.alpha + g.gamma) * (k : ℝ) ^ 2) *
            (v j * exp (-(g.alpha + g.gamma) * g.tU.get j ^ 2) * exp (2 * g.gamma * g.tU.get j) ^ (k : ℕ)) := fun j => by
        have : exp (-(g.alpha * (k : ℝ) ^ 2)) * exp (-(g.alpha * g.tU.get j ^ 2)) *
            exp (-(g.gamma * ((k : ℝ) - g.tU.get j) ^ 2)) = exp (-(g.alpha + g.gamma) * (k : ℝ) ^ 2) *
            (exp (-(g.alpha + g.gamma) * g.tU.get j ^ 2) * exp (2 * g.gamma * g.tU.get j) ^ (k : ℕ)) := by
          rw [← exp_nat_mul, ← exp_add, ← exp_add, ← exp_add, ← exp_add]
          congr 1
          ring
        show g.alphaT ^ 2 * exp (-(g.alpha * (k : ℝ) ^ 2)) *
          exp (-(g.alpha * g.tU.get j ^ 2)) * exp (-(g.gamma * ((k : ℝ) - g.tU.get j) ^ 2)) * v j = _
        linear_combination (g.alphaT ^ 2 * v j) * this
      simp only [e, ← Finset.mul_sum] at this
      exact (mul_eq_zero.1 this).resolve_left (mul_ne_zero (pow_ne_zero 2 ha) (exp_ne_zero _))
  exact hne (funext fun j => (mul_eq_zero.1 (congrFun h0 j)).resolve_right (exp_ne_zero _))

/-- **C102 is false** for the CGPCM: for every CGPCM with a negative inducing point and any jitter there is an
approximate posterior and a time at which the mean of samples of the filter is wrong. -/
theorem c102_causal_false (g : GpcmModel) (hc : g.causal = true) (hγ : 0 < g.gamma) (ha : g.alphaT ≠ 0)
    (hu : g.tU.Nodup) {Ku : Matrix (Fin g.tU.length) (Fin g.tU.length) ℝ} (hK : g.computeKu R = .ok (rows Ku))
    (i : Fin g.tU.length) (hi : g.tU.get i < 0) {ε : ℝ} (hε : 0 < ε) :
    ∃ (p : NatNormal (Fin g.tU.length)) (t : ℝ), p.prec.PosDef ∧ 0 ≤ t ∧
      ∀ (C : CholOracle (Fin g.tU.length)) (fac : Matrix Unit Unit ℝ → Matrix Unit Unit ℝ),
        fac (condCov ε g.filterKernel g.tU.get fun _ => t) * (fac (condCov ε g.filterKernel g.tU.get fun _ => t))ᵀ =
          condCov ε g.filterKernel g.tU.get (fun _ => t) →
        ∀ m S, Spec.Moments (sampleH C fac ε g.filterKernel Ku p g.tU.get fun _ => t) m S →
          m () ≠ Spec.gate g.params t * Spec.filterMean (Spec.kH g.params) g.tU.get (p.prec⁻¹ *ᵥ p.lam) t := by
  have hKu := GpcmModel.Ku_eq R hK
  have hinj := List.nodup_iff_injective_get.1 hu
  have hpd : Ku.PosDef := hKu ▸ ku_posDef (p := g.params) g.tU.get hγ ha hinj
  obtain ⟨v, hv⟩ : ∃ v, v = Ku⁻¹ *ᵥ (Pi.single i 1 : Fin g.tU.length → ℝ) := ⟨_, rfl⟩
  have hKv : Ku *ᵥ v = Pi.single i 1 := by
    rw [hv, mulVec_mulVec, mul_nonsing_inv _ (posDef_isUnit_det hpd), one_mulVec]
  have hne : v ≠ 0 := fun h0 => by
    rw [h0, mulVec_zero] at hKv
    simpa using congrFun hKv i
  obtain ⟨n, hn⟩ := exists_filterMean_ne g hγ ha hu hne
  refine ⟨⟨v, 1⟩, n, PosDef.one, Nat.cast_nonneg n, fun C fac hfac m S hM => ?_⟩
  have h := sampleH_moments C (fac := fac) ε g.filterKernel Ku (posDef_symm hpd) (p := ⟨v, 1⟩) PosDef.one g.tU.get
    (fun _ : Unit => (n : ℝ)) g.filterKernel_symm hfac
  rw [(hM.unique h).1]
  have e1 := c102_causal_blind_false g hc hγ ha hu hε (fun _ : Unit => (n : ℝ)) (u := Ku *ᵥ v) (u' := 0) fun j hj => by
    rw [hKv, Pi.zero_apply, Pi.single_eq_of_ne]
    rintro rfl
    exact absurd hi (not_lt.2 hj)
  unfold condMean at e1
  simp only [inv_one, one_mulVec, e1, mulVec_zero, Pi.zero_apply]
  have hg : Spec.gate g.params (n : ℝ) = 1 := by
    unfold Spec.gate
    rw [if_neg]
    rintro ⟨-, h⟩
    exact absurd h (not_lt.2 (Nat.cast_nonneg n))
  rw [hg, one_mul]
  exact hn.symm

example : ∃ (a : GpcmArgs) (g : GpcmModel), GpcmModel.new a = .ok g ∧ g.causal = true ∧ 0 < g.gamma ∧ g.alphaT ≠ 0 ∧
    g.tU.Nodup ∧ ∃ i : Fin g.tU.length, g.tU.get i < 0 := by
  obtain ⟨g, hg, hm, -, -, hc, hγ, ht⟩ := witness_moderate true
  have ht : g.tU = [-2, -1, 0, 1, 2] := by simpa using ht
  refine ⟨_, g, hg, hc, hγ, hm.alphaT, by rw [ht]; norm_num, ⟨0, by simp [ht]⟩, ?_⟩
  simp [ht]

end gpcm

/-! ## C102: the RGPCM -/

theorem RgpcmModel.filterKernel_symm (g : RgpcmModel) (x y : ℝ) : g.filterKernel x y = g.filterKernel y x := by
  unfold RgpcmModel.filterKernel
  simp only
  rw [← neg_sub y x, neg_div, abs_neg]
  ring

theorem RgpcmModel.filterKernel_eq {g : RgpcmModel} (hl : 0 < g.lam) {x y : ℝ} (hx : 0 ≤ x) (hy : 0 ≤ y) :
    g.filterKernel x y = exp (-g.lam * |x - y|) * (exp (-g.alpha * x) * exp (-g.alpha * y)) := by
  unfold RgpcmModel.filterKernel
  simp only [if_pos hx, if_pos hy, mul_one, abs_of_nonneg hx, abs_of_nonneg hy, div_div_eq_mul_div, div_one, abs_mul,
    abs_of_pos hl]
  rw [mul_comm |x - y|, ← neg_mul g.lam]

theorem RgpcmModel.filterGram_isUnit {g : RgpcmModel} (hl : 0 < g.lam) (hu : g.tU.Nodup) (h0 : ∀ t ∈ g.tU, 0 ≤ t) :
    IsUnit (gramMat g.filterKernel g.tU.get g.tU.get).det := by
  have hpd := Rgpcm.c74_posDef (g := { g with gamma := g.lam, gammaT := √(2 * g.lam) }) hl (sqrt_pos.2 (by positivity)).ne' hu
  have e : gramMat g.filterKernel g.tU.get g.tU.get = diagonal (fun i => exp (-g.alpha * g.tU.get i)) *
      RgpcmModel.computeKu { g with gamma := g.lam, gammaT := √(2 * g.lam) } *
      diagonal (fun i => exp (-g.alpha * g.tU.get i)) := by
    ext i j
    simp only [mul_diagonal, diagonal_mul, gramMat, of_apply, RgpcmModel.computeKu, RgpcmModel.kuEntry]
    rw [RgpcmModel.filterKernel_eq hl (h0 _ (List.get_mem _ _)) (h0 _ (List.get_mem _ _)), sq_sqrt (by positivity),
      div_self (by positivity)]
    ring
  rw [e, det_mul, det_mul, det_diagonal]
  have hd : (∏ i, exp (-g.alpha * g.tU.get i)) ≠ 0 := Finset.prod_ne_zero_iff.2 fun i _ => exp_ne_zero _
  exact (mul_ne_zero (mul_ne_zero hd hpd.det_pos.ne') hd).isUnit

/-- **C102 is false** for the RGPCM: after the last inducing point the inducing variables say nothing about the filter,
but the mean of samples of the filter is not zero there, unless the mean of the last inducing variable is. -/
theorem c102_rough_false (g : RgpcmModel) (hl : 0 < g.lam) (hγ : 0 < g.gamma) (hu : g.tU.Nodup)
    (h0 : ∀ t ∈ g.tU, 0 ≤ t) (i : Fin g.tU.length) (hi : ∀ t ∈ g.tU, t ≤ g.tU.get i)
    (C : CholOracle (Fin g.tU.length)) {p : NatNormal (Fin g.tU.length)} (hp : p.prec.PosDef)
    (hmean : (g.computeKu *ᵥ (p.prec⁻¹ *ᵥ p.lam)) i ≠ 0) (tH : κ → ℝ) (j : κ) (hj : g.tU.get i < tH j)
    {fac : Matrix κ κ ℝ → Matrix κ κ ℝ}
    (hfac : fac (condCov 0 g.filterKernel g.tU.get tH) * (fac (condCov 0 g.filterKernel g.tU.get tH))ᵀ =
      condCov 0 g.filterKernel g.tU.get tH) {m : κ → ℝ} {S : Matrix κ κ ℝ}
    (h : Spec.Moments (sampleH C fac 0 g.filterKernel g.computeKu p g.tU.get tH) m S) :
    m j = exp (-(g.lam + g.alpha) * (tH j - g.tU.get i)) * (g.computeKu *ᵥ (p.prec⁻¹ *ᵥ p.lam)) i ∧
      Spec.filterMean (Spec.R.khu (Rgpcm.specOf g)) g.tU.get (p.prec⁻¹ *ᵥ p.lam) (tH j) = 0 ∧
      m j ≠ Spec.filterMean (Spec.R.khu (Rgpcm.specOf g)) g.tU.get (p.prec⁻¹ *ᵥ p.lam) (tH j) := by
  have hKs : g.computeKuᵀ = g.computeKu := by
    have := (Rgpcm.c74_posSemidef (g := g) hγ).isHermitian
    rwa [IsHermitian, conjTranspose_eq_transpose_of_trivial] at this
  have hM := sampleH_moments C (fac := fac) 0 g.filterKernel g.computeKu hKs hp g.tU.get tH g.filterKernel_symm hfac
  have hunit := RgpcmModel.filterGram_isUnit hl hu h0
  have hpos := h0 _ (List.get_mem _ i)
  have e1 : m j = exp (-(g.lam + g.alpha) * (tH j - g.tU.get i)) * (g.computeKu *ᵥ (p.prec⁻¹ *ᵥ p.lam)) i := by
    rw [(h.unique hM).1, zero_smul, add_zero]
    obtain ⟨G, hG⟩ : ∃ G, G = gramMat g.filterKernel g.tU.get g.tU.get := ⟨_, rfl⟩
    rw [← hG] at hunit ⊢
    have hrow : gramMat g.filterKernel tH g.tU.get j = exp (-(g.lam + g.alpha) * (tH j - g.tU.get i)) • G i := by
      funext a
      have ha := hi _ (List.get_mem _ a)
      rw [hG]
      simp only [gramMat, of_apply, Pi.smul_apply, smul_eq_mul]
      rw [RgpcmModel.filterKernel_eq hl (hpos.trans hj.le) (h0 _ (List.get_mem _ a)),
        RgpcmModel.filterKernel_eq hl hpos (h0 _ (List.get_mem _ a)), abs_of_nonneg (by linarith),
        abs_of_nonneg (by linarith), ← exp_add, ← exp_add, ← exp_add, ← exp_add, ← exp_add]
      congr 1
      ring
    have h2 : G *ᵥ (G⁻¹ *ᵥ (g.computeKu *ᵥ (p.prec⁻¹ *ᵥ p.lam))) = g.computeKu *ᵥ (p.prec⁻¹ *ᵥ p.lam) := by
      rw [mulVec_mulVec, mul_nonsing_inv _ hunit, one_mulVec]
    conv_rhs => rw [← h2]
    show gramMat g.filterKernel tH g.tU.get j ⬝ᵥ _ = _ * (G i ⬝ᵥ _)
    rw [hrow, smul_dotProduct, smul_eq_mul]
  have e2 : Spec.filterMean (Spec.R.khu (Rgpcm.specOf g)) g.tU.get (p.prec⁻¹ *ᵥ p.lam) (tH j) = 0 := by
    refine Finset.sum_eq_zero fun a _ => ?_
    have ha := hi _ (List.get_mem _ a)
    rw [Spec.R.khu, Spec.R.smooth, if_neg (not_le.2 (ha.trans_lt hj)), mul_zero, zero_mul]
  refine ⟨e1, e2, ?_⟩
  rw [e1, e2]
  exact mul_ne_zero (exp_ne_zero _) hmean

example : 0 < Rgpcm.exRgpcm.lam ∧ 0 < Rgpcm.exRgpcm.gamma ∧ Rgpcm.exRgpcm.tU.Nodup ∧ (∀ t ∈ Rgpcm.exRgpcm.tU, 0 ≤ t) ∧
    ∃ i, (∀ t ∈ Rgpcm.exRgpcm.tU, t ≤ Rgpcm.exRgpcm.tU.get i) ∧
    ∃ p : NatNormal (Fin Rgpcm.exRgpcm.tU.length), p.prec.PosDef ∧
      (Rgpcm.exRgpcm.computeKu *ᵥ (p.prec⁻¹ *ᵥ p.lam)) i ≠ 0 := by
  refine ⟨by norm_num [Rgpcm.exRgpcm], by norm_num [Rgpcm.exRgpcm], by norm_num [Rgpcm.exRgpcm],
    by simp [Rgpcm.exRgpcm], ⟨1, by simp [Rgpcm.exRgpcm]⟩, by simp [Rgpcm.exRgpcm], ⟨1, 1⟩, PosDef.one, ?_⟩
  simp only [inv_one, one_mulVec]
  simp only [mulVec, dotProduct]
  have : Nonempty (Fin Rgpcm.exRgpcm.tU.length) := ⟨⟨1, by simp [Rgpcm.exRgpcm]⟩⟩
  refine (Finset.sum_pos (fun j _ => ?_) Finset.univ_nonempty).ne'
  simp only [RgpcmModel.computeKu, RgpcmModel.kuEntry, of_apply, Pi.one_apply, mul_one]
  have : 0 < Rgpcm.exRgpcm.gammaT ^ 2 / (2 * Rgpcm.exRgpcm.gamma) := by norm_num [Rgpcm.exRgpcm]
  positivity

/-! ## C103: causal models have causal filters -/

omit [Fintype ι] [DecidableEq ι] [DecidableEq κ] in
theorem row_zero {L A : Matrix κ κ ℝ} (h : L * Lᵀ = A) {i : κ} (hi : A i i = 0) : L i = 0 := by
  have : ∑ j, L i j * L i j = 0 := by rw [← hi, ← h]; rfl
  funext j
  exact mul_self_eq_zero.1 ((Finset.sum_eq_zero_iff_of_nonneg fun j _ => mul_self_nonneg _).1 this j (Finset.mem_univ j))

omit [DecidableEq κ] in
theorem sampleH_zero (C : CholOracle ι) {fac : Matrix κ κ ℝ → Matrix κ κ ℝ} (jitter : ℝ) {k : ℝ → ℝ → ℝ}
    (Ku : Matrix ι ι ℝ) (p : NatNormal ι) (tU : ι → ℝ) (tH : κ → ℝ)
    (hfac : fac (condCov jitter k tU tH) * (fac (condCov jitter k tU tH))ᵀ = condCov jitter k tU tH)
    (w : ι → ℝ) (e : κ → ℝ) (i : κ) (hi : ∀ y, k (tH i) y = 0) : sampleH C fac jitter k Ku p tU tH w e i = 0 := by
  have h1 : ∀ {α : Type} (y : α → ℝ), gramMat k tH y i = 0 := fun y => funext fun a => hi _
  have h2 : condCov jitter k tU tH i i = 0 := by
    rw [condCov, Matrix.sub_apply, Matrix.mul_assoc, h1 tH, Pi.zero_apply, zero_sub, neg_eq_zero, Matrix.mul_apply]
    simp [h1]
  show (gramMat k tH tU i ⬝ᵥ _) + fac _ i ⬝ᵥ e = 0
  rw [h1, row_zero hfac h2, zero_dotProduct, zero_dotProduct, add_zero]

omit [DecidableEq κ] in
/-- **C103** Every sample of the filter of a CGPCM is zero at negative times. -/
theorem c103_causal (g : GpcmModel) (hc : g.causal = true) (jitter : ℝ)
    (Ku : Matrix (Fin g.tU.length) (Fin g.tU.length) ℝ) (C : CholOracle (Fin g.tU.length))
    (p : NatNormal (Fin g.tU.length)) (tH : κ → ℝ) {fac : Matrix κ κ ℝ → Matrix κ κ ℝ}
    (hfac : fac (condCov jitter g.filterKernel g.tU.get tH) * (fac (condCov jitter g.filterKernel g.tU.get tH))ᵀ =
      condCov jitter g.filterKernel g.tU.get tH) (w : Fin g.tU.length → ℝ) (e : κ → ℝ) (i : κ) (hi : tH i < 0) :
    sampleH C fac jitter g.filterKernel Ku p g.tU.get tH w e i = 0 :=
  sampleH_zero C jitter Ku p _ tH hfac w e i fun y => by
    rw [g.filterKernel_symm]
    exact GpcmModel.filterKernel_neg hc y hi

omit [DecidableEq κ] in
/-- **C103** Every sample of the filter of an RGPCM is zero at negative times. -/
theorem c103_rough (g : RgpcmModel) (jitter : ℝ)
    (Ku : Matrix (Fin g.tU.length) (Fin g.tU.length) ℝ) (C : CholOracle (Fin g.tU.length))
    (p : NatNormal (Fin g.tU.length)) (tH : κ → ℝ) {fac : Matrix κ κ ℝ → Matrix κ κ ℝ}
    (hfac : fac (condCov jitter g.filterKernel g.tU.get tH) * (fac (condCov jitter g.filterKernel g.tU.get tH))ᵀ =
      condCov jitter g.filterKernel g.tU.get tH) (w : Fin g.tU.length → ℝ) (e : κ → ℝ) (i : κ) (hi : tH i < 0) :
    sampleH C fac jitter g.filterKernel Ku p g.tU.get tH w e i = 0 :=
  sampleH_zero C jitter Ku p _ tH hfac w e i fun y => by
    unfold RgpcmModel.filterKernel
    simp [not_le.2 hi]

/-- **C103** Without `min_phase` the inputs are returned as they are and there is one sample per draw, each of which
is what `sample_h` returned. -/
theorem c103_plain {n : ℕ} (C : CholOracle ι) (fac : Matrix (Fin n) (Fin n) ℝ → Matrix (Fin n) (Fin n) ℝ) (jitter : ℝ)
    (k : ℝ → ℝ → ℝ) (Ku : Matrix ι ι ℝ) (p : NatNormal ι) (tU : ι → ℝ) (tH : Fin n → ℝ)
    (draws : List ((ι → ℝ) × (Fin n → ℝ))) :
    predictFilter C fac jitter k Ku p tU tH false draws =
      .ok (tH, draws.map fun d => some (sampleH C fac jitter k Ku p tU tH d.1 d.2)) := by
  simp [predictFilter]

/-- **C103** With `min_phase` the inputs start at zero and keep their spacing. -/
theorem c103_shifted {n : ℕ} (C : CholOracle ι)
    (fac : Matrix (Fin (n + 1)) (Fin (n + 1)) ℝ → Matrix (Fin (n + 1)) (Fin (n + 1)) ℝ) (jitter : ℝ)
    (k : ℝ → ℝ → ℝ) (Ku : Matrix ι ι ℝ) (p : NatNormal ι) (tU : ι → ℝ) (tH : Fin (n + 1) → ℝ)
    (draws : List ((ι → ℝ) × (Fin (n + 1) → ℝ))) :
    ∃ (t : Fin (n + 1) → ℝ) (hs : List (Option (Fin (n + 1) → ℝ))),
      predictFilter C fac jitter k Ku p tU tH true draws = .ok (t, hs) ∧ t 0 = 0 ∧
        (∀ i j, t i - t j = tH i - tH j) ∧ hs.length = draws.length := by
  refine ⟨_, _, by simp only [predictFilter, if_true]; rw [dif_pos n.succ_pos], ?_, fun i j => ?_, ?_⟩
  · exact sub_self _
  · exact sub_sub_sub_cancel_right _ _ _
  · rw [List.length_map]

/-- **C103** With `min_phase`, every sample whose spectrum has no zero is replaced with a filter of minimum phase (its
cepstrum is zero at negative times) that has the same circular autocorrelation. -/
theorem c103_min_phase {n : ℕ} (C : CholOracle ι)
    (fac : Matrix (Fin (n + 1)) (Fin (n + 1)) ℝ → Matrix (Fin (n + 1)) (Fin (n + 1)) ℝ) (jitter : ℝ)
    (k : ℝ → ℝ → ℝ) (Ku : Matrix ι ι ℝ) (p : NatNormal ι) (tU : ι → ℝ) (tH : Fin (n + 1) → ℝ)
    (draws : List ((ι → ℝ) × (Fin (n + 1) → ℝ))) :
    ∃ (t : Fin (n + 1) → ℝ) (hs : List (Option (Fin (n + 1) → ℝ))),
      predictFilter C fac jitter k Ku p tU tH true draws = .ok (t, hs) ∧ List.Forall₂ (fun d o =>
        let h := sampleH C fac jitter k Ku p tU tH d.1 d.2
        (∀ f, Util.fft (fun j => (h j : ℂ)) f ≠ 0) → ∃ g, o = some g ∧
          (∀ m, (∑ j, g j * g (j + m)) = ∑ j, h j * h (j + m)) ∧
          ∃ c : Fin (n + 1) → ℝ, (∀ j : Fin (n + 1), n + 1 < 2 * (j : ℕ) → c j = 0) ∧
            ∀ f, Util.fft (fun j => (g j : ℂ)) f = Complex.exp (Util.fft (fun j => (c j : ℂ)) f)) draws hs := by
  refine ⟨_, _, by simp only [predictFilter, if_true]; rw [dif_pos n.succ_pos], ?_⟩
  rw [List.forall₂_map_right_iff]
  refine List.forall₂_same.2 fun d _ hs => ?_
  obtain ⟨g, hg, -⟩ := Util.c56_magnitude _ hs
  exact ⟨g, hg, Util.c56_autocorrelation _ hg, Util.c56_minimum_phase _ hg⟩

example : ∃ (g : GpcmModel), g.causal = true ∧ ∃ (fac : Matrix Unit Unit ℝ → Matrix Unit Unit ℝ),
    fac (condCov 0 g.filterKernel g.tU.get fun _ => -1) * (fac (condCov 0 g.filterKernel g.tU.get fun _ => -1))ᵀ =
      condCov 0 g.filterKernel g.tU.get fun _ => -1 := by
  obtain ⟨g, -, -, -, -, hc, -⟩ := witness_moderate true
  refine ⟨g, hc, exists_fac ?_⟩
  have h : ∀ {α : Type} (y : α → ℝ), gramMat g.filterKernel (fun _ : Unit => (-1 : ℝ)) y () = 0 := fun y =>
    funext fun a => by
      rw [Pi.zero_apply, gramMat, of_apply, g.filterKernel_symm]
      exact GpcmModel.filterKernel_neg hc _ (by norm_num)
  have : condCov 0 g.filterKernel g.tU.get (fun _ : Unit => (-1 : ℝ)) () () = 0 := by
    rw [condCov, Matrix.sub_apply, Matrix.mul_assoc, h, Pi.zero_apply, zero_sub, neg_eq_zero, Matrix.mul_apply]
    simp [h]
  exact this.ge

end Gpcm
