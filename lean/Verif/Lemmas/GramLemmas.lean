import Verif.Spec.Approx
import Mathlib.MeasureTheory.Function.L2Space
import Mathlib.MeasureTheory.Integral.Prod
import Mathlib.LinearAlgebra.Matrix.PosDef
import Mathlib.LinearAlgebra.Matrix.NonsingularInverse
import Mathlib.Algebra.Order.Star.Real

/-! # Helper lemmas: Gram matrices of square-integrable functions and their residuals -/

set_option linter.unusedSectionVars false

open MeasureTheory Matrix

namespace Gpcm

variable {T S : Type*} [MeasurableSpace T] [MeasurableSpace S] {μ : Measure T} {ν : Measure S}
variable {ι κ : Type} [Fintype ι] [Fintype κ]

theorem integrable_mul_L2 {f g : S → ℝ} (hf : MemLp f 2 ν) (hg : MemLp g 2 ν) :
    Integrable (fun s => f s * g s) ν := hf.integrable_mul hg

theorem memLp_sum {β : ι → S → ℝ} (hβ : ∀ i, MemLp (β i) 2 ν) (c : ι → ℝ) :
    MemLp (fun s => ∑ i, c i * β i s) 2 ν :=
  memLp_finsetSum _ fun i _ => (hβ i).const_mul (c i)

/-- The matrix of inner products of two families of functions. -/
noncomputable def gram (ν : Measure S) (f : ι → S → ℝ) (g : κ → S → ℝ) : Matrix ι κ ℝ :=
  .of fun i j => ∫ s, f i s * g j s ∂ν

theorem gram_transpose (f : ι → S → ℝ) (g : κ → S → ℝ) : (gram ν f g)ᵀ = gram ν g f := by
  ext i j
  simp only [gram, transpose_apply, of_apply, mul_comm]

theorem integral_mul_sum {f : S → ℝ} (hf : MemLp f 2 ν) {β : ι → S → ℝ} (hβ : ∀ i, MemLp (β i) 2 ν)
    (c : ι → ℝ) : ∫ s, f s * ∑ i, c i * β i s ∂ν = ∑ i, c i * ∫ s, f s * β i s ∂ν := by
  simp only [Finset.mul_sum]
  rw [integral_finsetSum _ fun i _ => integrable_mul_L2 hf ((hβ i).const_mul (c i))]
  refine Finset.sum_congr rfl fun i _ => ?_
  rw [← integral_const_mul]
  congr 1
  funext s
  ring

theorem integral_sum_mul_sum {f : κ → S → ℝ} (hf : ∀ j, MemLp (f j) 2 ν) {β : ι → S → ℝ}
    (hβ : ∀ i, MemLp (β i) 2 ν) (d : κ → ℝ) (c : ι → ℝ) :
    ∫ s, (∑ j, d j * f j s) * ∑ i, c i * β i s ∂ν = d ⬝ᵥ (gram ν f β *ᵥ c) := by
  rw [integral_mul_sum (memLp_sum hf d) hβ]
  have : ∀ i, ∫ s, (∑ j, d j * f j s) * β i s ∂ν = ∑ j, d j * ∫ s, f j s * β i s ∂ν := fun i => by
    simp only [mul_comm _ (β i _)]
    exact integral_mul_sum (hβ i) hf d
  simp only [this, dotProduct, mulVec, gram, of_apply, Finset.mul_sum]
  rw [Finset.sum_comm]
  refine Finset.sum_congr rfl fun j _ => Finset.sum_congr rfl fun i _ => by ring

variable [DecidableEq ι] [DecidableEq κ]

/-- The squared distance to the projection. -/
theorem bessel {f : S → ℝ} (hf : MemLp f 2 ν) {β : ι → S → ℝ} (hβ : ∀ i, MemLp (β i) 2 ν)
    (hK : (gram ν β β).PosDef) {a : ι → ℝ} (ha : ∀ i, a i = ∫ s, f s * β i s ∂ν) :
    ∫ s, (f s - ∑ i, ((gram ν β β)⁻¹ *ᵥ a) i * β i s) ^ 2 ∂ν =
      ∫ s, f s ^ 2 ∂ν - a ⬝ᵥ ((gram ν β β)⁻¹ *ᵥ a) := by
  obtain ⟨w, hw⟩ : ∃ w, w = (gram ν β β)⁻¹ *ᵥ a := ⟨_, rfl⟩
  have hKw : gram ν β β *ᵥ w = a := by
    rw [hw, mulVec_mulVec, mul_nonsing_inv _ ((isUnit_iff_isUnit_det _).1 hK.isUnit), one_mulVec]
  rw [← hw]
  have h1 : ∀ s, (f s - ∑ i, w i * β i s) ^ 2 =
      f s ^ 2 - 2 * (f s * ∑ i, w i * β i s) + (∑ i, w i * β i s) * ∑ i, w i * β i s := fun s => by ring
  have i1 : Integrable (fun s => f s ^ 2) ν := hf.integrable_sq
  have i2 : Integrable (fun s => 2 * (f s * ∑ i, w i * β i s)) ν :=
    (integrable_mul_L2 hf (memLp_sum hβ w)).const_mul 2
  have i3 : Integrable (fun s => (∑ i, w i * β i s) * ∑ i, w i * β i s) ν :=
    integrable_mul_L2 (memLp_sum hβ w) (memLp_sum hβ w)
  simp only [h1]
  rw [integral_add (f := fun s => f s ^ 2 - 2 * (f s * ∑ i, w i * β i s)) (i1.sub i2) i3,
    integral_sub i1 i2, integral_const_mul, integral_mul_sum hf hβ, integral_sum_mul_sum hβ hβ, hKw]
  simp only [← ha]
  rw [dotProduct_comm a w]
  simp only [dotProduct]
  ring

/-- **Schur complement.** The Gram matrix of the residuals is positive semi-definite. -/
theorem gram_schur_psd {f : κ → S → ℝ} (hf : ∀ j, MemLp (f j) 2 ν) {β : ι → S → ℝ}
    (hβ : ∀ i, MemLp (β i) 2 ν) (hK : (gram ν β β).PosDef) :
    (gram ν f f - gram ν f β * (gram ν β β)⁻¹ * gram ν β f).PosSemidef := by
  have hKi : ((gram ν β β)⁻¹)ᵀ = (gram ν β β)⁻¹ := by rw [transpose_nonsing_inv, gram_transpose]
  refine PosSemidef.of_dotProduct_mulVec_nonneg ?_ fun v => ?_
  · rw [IsHermitian, conjTranspose_eq_transpose_of_trivial, transpose_sub, transpose_mul, transpose_mul, hKi,
      gram_transpose, gram_transpose, gram_transpose, Matrix.mul_assoc]
  · rw [star_trivial, sub_mulVec, dotProduct_sub, ← integral_sum_mul_sum hf hf]
    have := bessel (memLp_sum hf v) hβ hK (a := gram ν β f *ᵥ v) fun i => by
      simp only [mul_comm _ (β i _)]
      rw [integral_mul_sum (hβ i) hf]
      simp only [mulVec, dotProduct, gram, of_apply, mul_comm]
    have h0 : 0 ≤ ∫ s, (∑ j, v j * f j s) ^ 2 ∂ν -
        (gram ν β f *ᵥ v) ⬝ᵥ ((gram ν β β)⁻¹ *ᵥ (gram ν β f *ᵥ v)) := by
      rw [← this]
      exact integral_nonneg fun s => sq_nonneg _
    have e : v ⬝ᵥ ((gram ν f β * (gram ν β β)⁻¹ * gram ν β f) *ᵥ v) =
        (gram ν β f *ᵥ v) ⬝ᵥ ((gram ν β β)⁻¹ *ᵥ (gram ν β f *ᵥ v)) := by
      rw [← mulVec_mulVec, ← mulVec_mulVec, dotProduct_mulVec, ← mulVec_transpose, gram_transpose]
    rw [e]
    simpa only [sq] using h0

variable [SFinite μ] [SFinite ν]

theorem memLp_prod {ψ : T → ℝ} (hψ : MemLp ψ 2 μ) {β : S → ℝ} (hβ : MemLp β 2 ν) :
    MemLp (fun p : T × S => ψ p.1 * β p.2) 2 (μ.prod ν) := by
  have hm : AEStronglyMeasurable (fun p : T × S => ψ p.1 * β p.2) (μ.prod ν) :=
    hψ.1.comp_fst.mul hβ.1.comp_snd
  rw [memLp_two_iff_integrable_sq hm]
  have := hψ.integrable_sq.mul_prod hβ.integrable_sq
  exact this.congr (Filter.Eventually.of_forall fun p => (mul_pow _ _ _).symm)

/-- A function of two variables that is square-integrable jointly and in each variable. -/
structure BiL2 (μ : Measure T) (ν : Measure S) (F : T → S → ℝ) : Prop where
  prod : MemLp (fun p : T × S => F p.1 p.2) 2 (μ.prod ν)
  right : ∀ τ, MemLp (F τ) 2 ν
  left : ∀ s, MemLp (fun τ => F τ s) 2 μ

theorem BiL2.swap {F : T → S → ℝ} (h : BiL2 μ ν F) : BiL2 ν μ fun s τ => F τ s where
  prod := by
    have := h.prod.comp_measurePreserving (Measure.measurePreserving_swap (μ := ν) (ν := μ))
    exact this
  right := h.left
  left := h.right

/-- Integrate a square-integrable function against one of its arguments. -/
theorem BiL2.memLp_integral {F : T → S → ℝ} (h : BiL2 μ ν F) {β : S → ℝ} (hβ : MemLp β 2 ν) :
    MemLp (fun τ => ∫ s, F τ s * β s ∂ν) 2 μ := by
  have hm : AEStronglyMeasurable (fun τ => ∫ s, F τ s * β s ∂ν) μ := by
    have h1 : AEStronglyMeasurable (fun p : T × S => F p.1 p.2 * β p.2) (μ.prod ν) :=
      h.prod.1.mul hβ.1.comp_snd
    exact h1.integral_prod_right'
  rw [memLp_two_iff_integrable_sq hm]
  have hF : Integrable (fun τ => ∫ s, F τ s ^ 2 ∂ν) μ := by
    have := h.prod.integrable_sq.integral_prod_left
    exact this
  have hb : 0 ≤ ∫ s, β s ^ 2 ∂ν := integral_nonneg fun s => sq_nonneg _
  refine (hF.const_mul (∫ s, β s ^ 2 ∂ν + 1)).mono (hm.pow 2) (Filter.Eventually.of_forall fun τ => ?_)
  obtain ⟨a, ha⟩ : ∃ a, a = ∫ s, F τ s * β s ∂ν := ⟨_, rfl⟩
  obtain ⟨b, hb'⟩ : ∃ b, b = ∫ s, β s ^ 2 ∂ν := ⟨_, rfl⟩
  have hF0 : 0 ≤ ∫ s, F τ s ^ 2 ∂ν := integral_nonneg fun s => sq_nonneg _
  rw [← hb'] at hb ⊢
  have key : ∀ l : ℝ, 0 ≤ ∫ s, F τ s ^ 2 ∂ν - 2 * l * a + l ^ 2 * b := fun l => by
    have e : ∫ s, (F τ s - l * β s) ^ 2 ∂ν = ∫ s, F τ s ^ 2 ∂ν - 2 * l * a + l ^ 2 * b := by
      have h1 : ∀ s, (F τ s - l * β s) ^ 2 = F τ s ^ 2 - 2 * l * (F τ s * β s) + l ^ 2 * β s ^ 2 :=
        fun s => by ring
      have i1 : Integrable (fun s => F τ s ^ 2) ν := (h.right τ).integrable_sq
      have i2 := (integrable_mul_L2 (h.right τ) hβ).const_mul (2 * l)
      have i3 : Integrable (fun s => l ^ 2 * β s ^ 2) ν := hβ.integrable_sq.const_mul _
      simp only [h1]
      rw [integral_add (f := fun s => F τ s ^ 2 - 2 * l * (F τ s * β s)) (i1.sub i2) i3, integral_sub i1 i2,
        integral_const_mul, integral_const_mul, ← ha, ← hb']
    rw [← e]
    exact integral_nonneg fun s => sq_nonneg _
  have h2 := key (a / (b + 1))
  have hb1 : 0 < b + 1 := by linarith
  rw [Real.norm_of_nonneg (by positivity), Real.norm_of_nonneg (by positivity)]
  show (∫ s, F τ s * β s ∂ν) ^ 2 ≤ _
  rw [← ha]
  have h3 : 2 * (a / (b + 1)) * a - (a / (b + 1)) ^ 2 * b = a ^ 2 * ((b + 2) / (b + 1) ^ 2) := by
    field_simp
    ring
  have h4 : a ^ 2 * ((b + 2) / (b + 1) ^ 2) ≤ ∫ s, F τ s ^ 2 ∂ν := by rw [← h3]; linarith
  have h5 : 1 ≤ (b + 1) * ((b + 2) / (b + 1) ^ 2) := by
    rw [mul_div_assoc', le_div_iff₀ (by positivity)]
    nlinarith
  nlinarith [mul_le_mul_of_nonneg_left h4 hb1.le, sq_nonneg a]

/-- Both ways to pair a function of two variables with a function of each. -/
theorem BiL2.fubini {F : T → S → ℝ} (h : BiL2 μ ν F) {β : S → ℝ} (hβ : MemLp β 2 ν) {ψ : T → ℝ}
    (hψ : MemLp ψ 2 μ) :
    ∫ τ, (∫ s, F τ s * β s ∂ν) * ψ τ ∂μ = ∫ s, (∫ τ, F τ s * ψ τ ∂μ) * β s ∂ν := by
  have hp := memLp_prod hψ hβ
  have hi : Integrable (Function.uncurry fun τ s => F τ s * (ψ τ * β s)) (μ.prod ν) :=
    integrable_mul_L2 h.prod hp
  have := integral_integral_swap hi
  calc _ = ∫ τ, ∫ s, F τ s * (ψ τ * β s) ∂ν ∂μ := by
        congr 1
        funext τ
        rw [← integral_mul_const]
        congr 1
        funext s
        ring
    _ = _ := this
    _ = _ := by
        congr 1
        funext s
        rw [← integral_mul_const]
        congr 1
        funext τ
        ring

/-- The residual of a function of two variables after projecting the second onto a family. -/
noncomputable def residual (ν : Measure S) (β : ι → S → ℝ) (F : T → S → ℝ) (τ : T) (s : S) : ℝ :=
  F τ s - ∑ i, ((gram ν β β)⁻¹ *ᵥ fun i => ∫ s, F τ s * β i s ∂ν) i * β i s

theorem BiL2.residual {F : T → S → ℝ} (h : BiL2 μ ν F) {β : ι → S → ℝ} (hβ : ∀ i, MemLp (β i) 2 ν) :
    BiL2 μ ν (residual ν β F) := by
  have hφ : ∀ i, MemLp (fun τ => ((gram ν β β)⁻¹ *ᵥ fun i => ∫ s, F τ s * β i s ∂ν) i) 2 μ := fun i =>
    memLp_sum (fun j => h.memLp_integral (hβ j)) _
  refine ⟨?_, fun τ => (h.right τ).sub (memLp_sum hβ _), fun s => (h.left s).sub ?_⟩
  · refine h.prod.sub (memLp_finsetSum _ fun i _ => memLp_prod (hφ i) (hβ i))
  · exact memLp_finsetSum _ fun i _ => (hφ i).mul_const _

/-- The squared norm of the residual. -/
theorem BiL2.residual_sq {F : T → S → ℝ} (h : BiL2 μ ν F) {β : ι → S → ℝ} (hβ : ∀ i, MemLp (β i) 2 ν)
    (hK : (gram ν β β).PosDef) :
    ∫ τ, ∫ s, Gpcm.residual ν β F τ s ^ 2 ∂ν ∂μ = ∫ τ, ∫ s, F τ s ^ 2 ∂ν ∂μ -
      Spec.inner (gram ν β β)⁻¹ (gram μ (fun i τ => ∫ s, F τ s * β i s ∂ν) fun i τ => ∫ s, F τ s * β i s ∂ν) := by
  have hφ : ∀ i, MemLp (fun τ => ∫ s, F τ s * β i s ∂ν) 2 μ := fun i => h.memLp_integral (hβ i)
  have h1 : ∀ τ, ∫ s, Gpcm.residual ν β F τ s ^ 2 ∂ν = ∫ s, F τ s ^ 2 ∂ν -
      ∑ i, ∑ j, (gram ν β β)⁻¹ i j * ((∫ s, F τ s * β i s ∂ν) * ∫ s, F τ s * β j s ∂ν) := fun τ => by
    unfold Gpcm.residual
    rw [bessel (h.right τ) hβ hK fun i => rfl]
    congr 1
    simp only [dotProduct, mulVec, Finset.mul_sum]
    exact Finset.sum_congr rfl fun i _ => Finset.sum_congr rfl fun j _ => by ring
  have hi : ∀ i j, Integrable (fun τ => (gram ν β β)⁻¹ i j *
      ((∫ s, F τ s * β i s ∂ν) * ∫ s, F τ s * β j s ∂ν)) μ := fun i j =>
    (integrable_mul_L2 (hφ i) (hφ j)).const_mul _
  have hF : Integrable (fun τ => ∫ s, F τ s ^ 2 ∂ν) μ := h.prod.integrable_sq.integral_prod_left
  simp only [h1]
  rw [integral_sub hF (integrable_finsetSum _ fun i _ => integrable_finsetSum _ fun j _ => hi i j)]
  congr 1
  rw [integral_finsetSum _ fun i _ => integrable_finsetSum _ fun j _ => hi i j]
  refine Finset.sum_congr rfl fun i _ => ?_
  rw [integral_finsetSum _ fun j _ => hi i j]
  exact Finset.sum_congr rfl fun j _ => integral_const_mul _ _

theorem inner_mul_transpose (A : Matrix ι ι ℝ) (X : Matrix ι κ ℝ) (D : Matrix κ κ ℝ) :
    Spec.inner D (Xᵀ * A * X) = Spec.inner A (X * D * Xᵀ) := by
  have h1 : ∀ {n : Type} [Fintype n] (P Q : Matrix n n ℝ), Spec.inner P Q = (Pᵀ * Q).trace :=
    fun P Q => by
      simp only [Spec.inner, trace, diag, Matrix.mul_apply, transpose_apply]
      exact Finset.sum_comm
  rw [h1, h1, ← trace_transpose]
  simp only [transpose_mul, transpose_transpose]
  rw [trace_mul_comm]
  have e1 : D * (Xᵀ * (Aᵀ * X)) = (D * Xᵀ) * (Aᵀ * X) := by rw [Matrix.mul_assoc]
  have e2 : Aᵀ * (X * D * Xᵀ) = (Aᵀ * X) * (D * Xᵀ) := by simp only [Matrix.mul_assoc]
  rw [e1, e2, trace_mul_comm]

/-- The Gram matrix after subtracting the projection onto a family. -/
theorem gram_residual {g : κ → S → ℝ} (hg : ∀ j, MemLp (g j) 2 ν) {β : ι → S → ℝ}
    (hβ : ∀ i, MemLp (β i) 2 ν) (hK : (gram ν β β).PosDef) {g' : κ → S → ℝ}
    (h : ∀ j s, g' j s = g j s - ∑ i, ((gram ν β β)⁻¹ * gram ν β g) i j * β i s) :
    gram ν g' g' = gram ν g g - (gram ν β g)ᵀ * (gram ν β β)⁻¹ * gram ν β g := by
  obtain ⟨W, hW⟩ : ∃ W, W = (gram ν β β)⁻¹ * gram ν β g := ⟨_, rfl⟩
  have hKW : gram ν β β * W = gram ν β g := by
    rw [hW, ← Matrix.mul_assoc, mul_nonsing_inv _ ((isUnit_iff_isUnit_det _).1 hK.isUnit), Matrix.one_mul]
  rw [Matrix.mul_assoc, ← hW]
  ext j k
  have e : ∀ s, g' j s * g' k s = g j s * g k s - g j s * (∑ i, W i k * β i s) -
      g k s * (∑ i, W i j * β i s) + (∑ i, W i j * β i s) * ∑ i, W i k * β i s := fun s => by
    rw [h, h, ← hW]
    ring
  have i1 := integrable_mul_L2 (hg j) (hg k)
  have i2 := integrable_mul_L2 (hg j) (memLp_sum hβ fun i => W i k)
  have i3 := integrable_mul_L2 (hg k) (memLp_sum hβ fun i => W i j)
  have i4 := integrable_mul_L2 (memLp_sum hβ fun i => W i j) (memLp_sum hβ fun i => W i k)
  have e1 : ∀ a b, ∑ i, W i b * ∫ s, g a s * β i s ∂ν = ((gram ν β g)ᵀ * W) a b := fun a b => by
    simp only [Matrix.mul_apply, transpose_apply, gram, of_apply]
    exact Finset.sum_congr rfl fun i _ => by simp only [mul_comm]
  have e2 : (fun i => W i j) ⬝ᵥ (gram ν β β *ᵥ fun i => W i k) = ((gram ν β g)ᵀ * W) k j := by
    have : (gram ν β β *ᵥ fun i => W i k) = fun i => gram ν β g i k := by
      rw [← hKW]
      rfl
    rw [this]
    simp only [Matrix.mul_apply, transpose_apply, dotProduct]
    exact Finset.sum_congr rfl fun i _ => mul_comm _ _
  rw [Matrix.sub_apply]
  show ∫ s, g' j s * g' k s ∂ν = ∫ s, g j s * g k s ∂ν - _
  simp only [e]
  rw [integral_add (f := fun s => g j s * g k s - g j s * (∑ i, W i k * β i s) -
      g k s * (∑ i, W i j * β i s)) ((i1.sub i2).sub i3) i4,
    integral_sub (f := fun s => g j s * g k s - g j s * (∑ i, W i k * β i s)) (i1.sub i2) i3,
    integral_sub i1 i2, integral_mul_sum (hg j) hβ, integral_mul_sum (hg k) hβ,
    integral_sum_mul_sum hβ hβ, e2, e1, e1]
  ring

variable {F : T → S → ℝ} {β : ι → S → ℝ} {ψ : κ → T → ℝ}

/-- The pairing of the function with the second family, from either side. -/
theorem BiL2.cross (h : BiL2 μ ν F) (hβ : ∀ i, MemLp (β i) 2 ν) (hψ : ∀ j, MemLp (ψ j) 2 μ) :
    gram μ (fun i τ => ∫ s, F τ s * β i s ∂ν) ψ = gram ν β fun j s => ∫ τ, F τ s * ψ j τ ∂μ := by
  ext i j
  simp only [gram, of_apply]
  rw [h.fubini (hβ i) (hψ j)]
  simp only [mul_comm]

/-- The three residuals of a convolution are positive semi-definite. -/
theorem BiL2.residual_A (h : BiL2 μ ν F) (hβ : ∀ i, MemLp (β i) 2 ν) (hψ : ∀ j, MemLp (ψ j) 2 μ)
    (hz : (gram μ ψ ψ).PosDef) {X : Matrix ι κ ℝ} (hX : X = gram μ (fun i τ => ∫ s, F τ s * β i s ∂ν) ψ) :
    (gram μ (fun i τ => ∫ s, F τ s * β i s ∂ν) (fun i τ => ∫ s, F τ s * β i s ∂ν) -
      X * (gram μ ψ ψ)⁻¹ * Xᵀ).PosSemidef := by
  have := gram_schur_psd (fun i => h.memLp_integral (hβ i)) hψ hz
  rw [hX, gram_transpose]
  exact this

theorem BiL2.residual_B (h : BiL2 μ ν F) (hβ : ∀ i, MemLp (β i) 2 ν) (hψ : ∀ j, MemLp (ψ j) 2 μ)
    (hu : (gram ν β β).PosDef) {X : Matrix ι κ ℝ} (hX : X = gram μ (fun i τ => ∫ s, F τ s * β i s ∂ν) ψ) :
    (gram ν (fun j s => ∫ τ, F τ s * ψ j τ ∂μ) (fun j s => ∫ τ, F τ s * ψ j τ ∂μ) -
      Xᵀ * (gram ν β β)⁻¹ * X).PosSemidef := by
  have := gram_schur_psd (fun j => h.swap.memLp_integral (hψ j)) hβ hu
  rw [hX, h.cross hβ hψ, gram_transpose]
  exact this

theorem BiL2.residual_c (h : BiL2 μ ν F) (hβ : ∀ i, MemLp (β i) 2 ν) (hψ : ∀ j, MemLp (ψ j) 2 μ)
    (hu : (gram ν β β).PosDef) (hz : (gram μ ψ ψ).PosDef) {X : Matrix ι κ ℝ}
    (hX : X = gram μ (fun i τ => ∫ s, F τ s * β i s ∂ν) ψ) :
    0 ≤ ∫ τ, ∫ s, F τ s ^ 2 ∂ν ∂μ
      - Spec.inner (gram ν β β)⁻¹
        (gram μ (fun i τ => ∫ s, F τ s * β i s ∂ν) (fun i τ => ∫ s, F τ s * β i s ∂ν))
      - Spec.inner (gram μ ψ ψ)⁻¹
        (gram ν (fun j s => ∫ τ, F τ s * ψ j τ ∂μ) (fun j s => ∫ τ, F τ s * ψ j τ ∂μ))
      + Spec.inner (gram ν β β)⁻¹ (X * (gram μ ψ ψ)⁻¹ * Xᵀ) := by
  have hr := h.residual hβ
  have h1 := h.residual_sq hβ hu
  have h2 := hr.swap.residual_sq hψ hz
  have h3 : 0 ≤ ∫ s, ∫ τ, Gpcm.residual μ ψ (fun s τ => Gpcm.residual ν β F τ s) s τ ^ 2 ∂μ ∂ν :=
    integral_nonneg fun s => integral_nonneg fun τ => sq_nonneg _
  rw [h2] at h3
  have h4 : ∫ s, ∫ τ, Gpcm.residual ν β F τ s ^ 2 ∂μ ∂ν = ∫ τ, ∫ s, Gpcm.residual ν β F τ s ^ 2 ∂ν ∂μ :=
    (integral_integral_swap (f := fun τ s => Gpcm.residual ν β F τ s ^ 2) hr.prod.integrable_sq).symm
  rw [h4, h1] at h3
  have hG : ∀ j, MemLp (fun s => ∫ τ, F τ s * ψ j τ ∂μ) 2 ν := fun j => h.swap.memLp_integral (hψ j)
  have hXc : X = gram ν β fun j s => ∫ τ, F τ s * ψ j τ ∂μ := by rw [hX, h.cross hβ hψ]
  have h5 : ∀ j s, ∫ τ, Gpcm.residual ν β F τ s * ψ j τ ∂μ =
      ∫ τ, F τ s * ψ j τ ∂μ - ∑ i, ((gram ν β β)⁻¹ * X) i j * β i s := fun j s => by
    unfold Gpcm.residual
    simp only [sub_mul]
    have hs : MemLp (fun τ => ∑ i, ((gram ν β β)⁻¹ *ᵥ fun i => ∫ s, F τ s * β i s ∂ν) i * β i s) 2 μ :=
      memLp_finsetSum _ fun i _ => (memLp_sum (fun j => h.memLp_integral (hβ j)) _).mul_const _
    rw [integral_sub (integrable_mul_L2 (h.left s) (hψ j)) (integrable_mul_L2 hs (hψ j))]
    congr 1
    have e : ∀ τ, (∑ i, ((gram ν β β)⁻¹ *ᵥ fun i => ∫ s, F τ s * β i s ∂ν) i * β i s) * ψ j τ =
        ∑ i, β i s * ((∑ k, (gram ν β β)⁻¹ i k * ∫ s, F τ s * β k s ∂ν) * ψ j τ) := fun τ => by
      rw [Finset.sum_mul]
      refine Finset.sum_congr rfl fun i _ => ?_
      simp only [mulVec, dotProduct]
      ring
    simp only [e]
    have hi : ∀ i, Integrable (fun τ => β i s *
        ((∑ k, (gram ν β β)⁻¹ i k * ∫ s, F τ s * β k s ∂ν) * ψ j τ)) μ := fun i =>
      (integrable_mul_L2 (memLp_sum (fun k => h.memLp_integral (hβ k)) _) (hψ j)).const_mul _
    rw [integral_finsetSum _ fun i _ => hi i]
    refine Finset.sum_congr rfl fun i _ => ?_
    rw [integral_const_mul, mul_comm]
    congr 1
    simp only [mul_comm _ (ψ j _)]
    rw [integral_mul_sum (hψ j) fun k => h.memLp_integral (hβ k)]
    simp only [Matrix.mul_apply, hX, gram, of_apply]
    exact Finset.sum_congr rfl fun k _ => by simp only [mul_comm]
  have h6 : gram ν (fun j s => ∫ τ, Gpcm.residual ν β F τ s * ψ j τ ∂μ)
      (fun j s => ∫ τ, Gpcm.residual ν β F τ s * ψ j τ ∂μ) =
      gram ν (fun j s => ∫ τ, F τ s * ψ j τ ∂μ) (fun j s => ∫ τ, F τ s * ψ j τ ∂μ) -
        Xᵀ * (gram ν β β)⁻¹ * X := by
    rw [hXc]
    refine gram_residual hG hβ hu fun j s => ?_
    rw [h5, hXc]
  rw [h6] at h3
  have h7 : ∀ P Q R : Matrix κ κ ℝ, Spec.inner P (Q - R) = Spec.inner P Q - Spec.inner P R := fun P Q R => by
    simp only [Spec.inner, Matrix.sub_apply, mul_sub, Finset.sum_sub_distrib]
  rw [h7, inner_mul_transpose] at h3
  linarith

end Gpcm
