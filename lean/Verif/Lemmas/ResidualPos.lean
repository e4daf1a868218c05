import Verif.Lemmas.GramLemmas
import Mathlib.MeasureTheory.Measure.OpenPos
import Mathlib.MeasureTheory.Measure.Lebesgue.Basic
import Mathlib.LinearAlgebra.FiniteDimensional.Lemmas
import Mathlib.LinearAlgebra.Dimension.Constructions

/-!
# Helper lemmas: the residual of a convolution is never zero

A convolution of a filter that is seen through finitely many inducing variables with an excitation that is seen through
finitely many others would be a function of two variables of finite rank, and it is not.
-/

set_option linter.unusedSectionVars false

open MeasureTheory Matrix

namespace Gpcm

section

variable {T S : Type*} [MeasurableSpace T] [MeasurableSpace S] {μ : Measure T} {ν : Measure S} [SFinite μ] [SFinite ν]
variable {ι κ : Type} [Fintype ι] [Fintype κ] [DecidableEq ι] [DecidableEq κ]
variable {F : T → S → ℝ} {β : ι → S → ℝ} {ψ : κ → T → ℝ}

/-- What is left of the second moment, as a squared norm. -/
theorem BiL2.residual_c_eq (h : BiL2 μ ν F) (hβ : ∀ i, MemLp (β i) 2 ν) (hψ : ∀ j, MemLp (ψ j) 2 μ)
    (hu : (gram ν β β).PosDef) (hz : (gram μ ψ ψ).PosDef) {X : Matrix ι κ ℝ}
    (hX : X = gram μ (fun i τ => ∫ s, F τ s * β i s ∂ν) ψ) :
    ∫ s, ∫ τ, Gpcm.residual μ ψ (fun s τ => Gpcm.residual ν β F τ s) s τ ^ 2 ∂μ ∂ν = ∫ τ, ∫ s, F τ s ^ 2 ∂ν ∂μ
      - Spec.inner (gram ν β β)⁻¹
        (gram μ (fun i τ => ∫ s, F τ s * β i s ∂ν) (fun i τ => ∫ s, F τ s * β i s ∂ν))
      - Spec.inner (gram μ ψ ψ)⁻¹
        (gram ν (fun j s => ∫ τ, F τ s * ψ j τ ∂μ) (fun j s => ∫ τ, F τ s * ψ j τ ∂μ))
      + Spec.inner (gram ν β β)⁻¹ (X * (gram μ ψ ψ)⁻¹ * Xᵀ) := by
  have hr := h.residual hβ
  have h1 := h.residual_sq hβ hu
  have h2 := hr.swap.residual_sq hψ hz
  have h3 := h2
  have h4 : ∫ s, ∫ τ, Gpcm.residual ν β F τ s ^ 2 ∂μ ∂ν = ∫ τ, ∫ s, Gpcm.residual ν β F τ s ^ 2 ∂ν ∂μ :=
    (integral_integral_swap (f := fun τ s => Gpcm.residual ν β F τ s ^ 2) hr.prod.integrable_sq).symm
  rw [h4, h1] at h3
  have hG : ∀ j, MemLp (fun s => ∫ τ, F τ s * ψ j τ ∂μ) 2 ν := fun j => h.swap.memLp_integral (hψ j)
  have hXc : X = gram ν β fun j s => ∫ τ, F τ s * ψ j τ ∂μ := by rw [hX, h.cross hβ hψ]
  have h5 : ∀ j s, ∫ τ, Gpcm.residual ν β F τ s * ψ j τ ∂μ =
      ∫ τ, F τ s * ψ j τ ∂μ - ∑ i, ((gram ν β β)⁻¹ * X) i j * β i s := fun j s => by
    unfold Gpcm.residual
    simp only [sub_mul]
    have hs : MemLp (fun τ => ∑ i, ((gram ν β β)⁻¹ *ᵥ fun i => ∫ s, F τ s * β i s ∂ν) i * β i s) 2 μ :=
      memLp_finsetSum _ fun i _ => (memLp_sum (fun j => h.memLp_integral (hβ j)) _).mul_const _
    rw [integral_sub (integrable_mul_L2 (h.left s) (hψ j)) (integrable_mul_L2 hs (hψ j))]
    congr 1
    have e : ∀ τ, (∑ i, ((gram ν β β)⁻¹ *ᵥ fun i => ∫ s, F τ s * β i s ∂ν) i * β i s) * ψ j τ =
        ∑ i, β i s * ((∑ k, (gram ν β β)⁻¹ i k * ∫ s, F τ s * β k s ∂ν) * ψ j τ) := fun τ => by
      rw [Finset.sum_mul]
      refine Finset.sum_congr rfl fun i _ => ?_
      simp only [mulVec, dotProduct]
      ring
    simp only [e]
    have hi : ∀ i, Integrable (fun τ => β i s *
        ((∑ k, (gram ν β β)⁻¹ i k * ∫ s, F τ s * β k s ∂ν) * ψ j τ)) μ := fun i =>
      (integrable_mul_L2 (memLp_sum (fun k => h.memLp_integral (hβ k)) _) (hψ j)).const_mul _
    rw [integral_finsetSum _ fun i _ => hi i]
    refine Finset.sum_congr rfl fun i _ => ?_
    rw [integral_const_mul, mul_comm]
    congr 1
    simp only [mul_comm _ (ψ j _)]
    rw [integral_mul_sum (hψ j) fun k => h.memLp_integral (hβ k)]
    simp only [Matrix.mul_apply, hX, gram, of_apply]
    exact Finset.sum_congr rfl fun k _ => by simp only [mul_comm]
  have h6 : gram ν (fun j s => ∫ τ, Gpcm.residual ν β F τ s * ψ j τ ∂μ)
      (fun j s => ∫ τ, Gpcm.residual ν β F τ s * ψ j τ ∂μ) =
      gram ν (fun j s => ∫ τ, F τ s * ψ j τ ∂μ) (fun j s => ∫ τ, F τ s * ψ j τ ∂μ) -
        Xᵀ * (gram ν β β)⁻¹ * X := by
    rw [hXc]
    refine gram_residual hG hβ hu fun j s => ?_
    rw [h5, hXc]
  rw [h6] at h3
  have h7 : ∀ P Q R : Matrix κ κ ℝ, Spec.inner P (Q - R) = Spec.inner P Q - Spec.inner P R := fun P Q R => by
    simp only [Spec.inner, Matrix.sub_apply, mul_sub, Finset.sum_sub_distrib]
  rw [h7, inner_mul_transpose] at h3
  linarith

end

section

variable {S : Type*} [MeasurableSpace S] {ν : Measure S} [SFinite ν]
variable {ι κ : Type} [Fintype ι] [Fintype κ] [DecidableEq ι] [DecidableEq κ]

/-- A function of two variables with independent sections is not a finite sum of products. -/
theorem not_separable {F φ : ℝ → S → ℝ} {w : ℝ → ℝ} {β : ι → S → ℝ} {b : κ → S → ℝ} {a : ℝ → ι → ℝ} {c : ℝ → κ → ℝ}
    (hF : ∀ τ s, F τ s = w τ * φ τ s) (hφ : ∀ τ, MemLp (φ τ) 2 ν) {lo hi : ℝ} (hlh : lo < hi)
    (hw : ∀ τ ∈ Set.Ioo lo hi, w τ ≠ 0) (hβ : ∀ i, MemLp (β i) 2 ν) (hb : ∀ j, MemLp (b j) 2 ν)
    (hsep : ∀ᵐ τ : ℝ, ∀ᵐ s ∂ν, F τ s = ∑ i, a τ i * β i s + ∑ j, c τ j * b j s)
    (hcont : ∀ x, Continuous fun τ => ∫ s, φ τ s * φ x s ∂ν)
    (hpd : ∀ n (x : Fin n → ℝ), Function.Injective x → (gram ν (fun k => φ (x k)) fun k => φ (x k)).PosDef) : False := by
  obtain ⟨n, hn⟩ : ∃ n, n = Fintype.card ι + Fintype.card κ + 1 := ⟨_, rfl⟩
  have hn0 : (0 : ℝ) < n + 1 := by positivity
  obtain ⟨x, hx⟩ : ∃ x : Fin n → ℝ, x = fun k : Fin n => lo + (hi - lo) * (((k : ℕ) : ℝ) + 1) / (n + 1) := ⟨_, rfl⟩
  have hxi : Function.Injective x := fun k l h => by
    rw [hx] at h
    have h : lo + (hi - lo) * (((k : ℕ) : ℝ) + 1) / (n + 1) = lo + (hi - lo) * (((l : ℕ) : ℝ) + 1) / (n + 1) := h
    have h1 : (hi - lo) * (((k : ℕ) : ℝ) + 1) / (n + 1) = (hi - lo) * (((l : ℕ) : ℝ) + 1) / (n + 1) := by linarith
    rw [div_left_inj' hn0.ne'] at h1
    have h2 := mul_left_cancel₀ (sub_pos.2 hlh).ne' h1
    have h3 : ((k : ℕ) : ℝ) = ((l : ℕ) : ℝ) := by linarith
    exact Fin.ext (by exact_mod_cast h3)
  have hxm : ∀ k, x k ∈ Set.Ioo lo hi := fun k => by
    rw [hx]
    have h1 : ((k : ℕ) : ℝ) + 1 < n + 1 := by
      have : ((k : ℕ) : ℝ) < n := by exact_mod_cast k.2
      linarith
    have h0 : (0 : ℝ) ≤ ((k : ℕ) : ℝ) := Nat.cast_nonneg _
    have hd := sub_pos.2 hlh
    refine ⟨?_, ?_⟩
    · show lo < lo + (hi - lo) * (((k : ℕ) : ℝ) + 1) / (n + 1)
      have : 0 < (hi - lo) * (((k : ℕ) : ℝ) + 1) / (n + 1) := by positivity
      linarith
    · show lo + (hi - lo) * (((k : ℕ) : ℝ) + 1) / (n + 1) < hi
      have : (hi - lo) * (((k : ℕ) : ℝ) + 1) / (n + 1) < hi - lo := by
        rw [div_lt_iff₀ hn0]
        exact mul_lt_mul_of_pos_left h1 hd
      linarith
  obtain ⟨M, hM⟩ : ∃ M : Matrix (ι ⊕ κ) (Fin n) ℝ, M = gram ν (Sum.elim β b) fun k => φ (x k) := ⟨_, rfl⟩
  have hker : LinearMap.ker (Matrix.toLin' M) ≠ ⊥ := LinearMap.ker_ne_bot_of_finrank_lt (by
    simp [hn])
  obtain ⟨v, hv, hv0⟩ := Submodule.exists_mem_ne_zero_of_ne_bot hker
  have hMv : M *ᵥ v = 0 := by
    rw [LinearMap.mem_ker, Matrix.toLin'_apply] at hv
    exact hv
  have hg : MemLp (fun s => ∑ k, v k * φ (x k) s) 2 ν := memLp_sum (fun k => hφ _) v
  have hβ0 : ∀ i, ∫ s, β i s * ∑ k, v k * φ (x k) s ∂ν = 0 := fun i => by
    rw [integral_mul_sum (hβ i) fun k => hφ _]
    have := congrFun hMv (Sum.inl i)
    simp only [hM, mulVec, dotProduct, gram, of_apply, Sum.elim_inl, Pi.zero_apply] at this
    simpa only [mul_comm] using this
  have hb0 : ∀ j, ∫ s, b j s * ∑ k, v k * φ (x k) s ∂ν = 0 := fun j => by
    rw [integral_mul_sum (hb j) fun k => hφ _]
    have := congrFun hMv (Sum.inr j)
    simp only [hM, mulVec, dotProduct, gram, of_apply, Sum.elim_inr, Pi.zero_apply] at this
    simpa only [mul_comm] using this
  obtain ⟨h, hh⟩ : ∃ h : ℝ → ℝ, h = fun τ => ∑ k, v k * ∫ s, φ τ s * φ (x k) s ∂ν := ⟨_, rfl⟩
  have hhc : Continuous h := by
    rw [hh]
    exact continuous_finsetSum _ fun k _ => continuous_const.mul (hcont _)
  have hz : ∀ᵐ τ : ℝ, w τ * h τ = 0 := by
    filter_upwards [hsep] with τ hτ
    have e1 : w τ * h τ = ∫ s, F τ s * ∑ k, v k * φ (x k) s ∂ν := by
      rw [hh]
      simp only [hF, mul_assoc]
      rw [integral_const_mul, integral_mul_sum (hφ τ) fun k => hφ _]
    have e2 : ∫ s, F τ s * ∑ k, v k * φ (x k) s ∂ν =
        ∫ s, ((∑ i, a τ i * β i s) * (∑ k, v k * φ (x k) s) + (∑ j, c τ j * b j s) * ∑ k, v k * φ (x k) s) ∂ν :=
      integral_congr_ae (hτ.mono fun s hs => by simp only [hs, add_mul])
    rw [e1, e2, integral_add (integrable_mul_L2 (memLp_sum hβ _) hg) (integrable_mul_L2 (memLp_sum hb _) hg)]
    have e3 : ∫ s, (∑ i, a τ i * β i s) * (∑ k, v k * φ (x k) s) ∂ν = 0 := by
      simp only [mul_comm _ (∑ k, v k * φ (x k) _)]
      rw [integral_mul_sum hg hβ]
      refine Finset.sum_eq_zero fun i _ => ?_
      simp only [mul_comm (∑ k, v k * φ (x k) _)]
      rw [hβ0, mul_zero]
    have e4 : ∫ s, (∑ j, c τ j * b j s) * (∑ k, v k * φ (x k) s) ∂ν = 0 := by
      simp only [mul_comm _ (∑ k, v k * φ (x k) _)]
      rw [integral_mul_sum hg hb]
      refine Finset.sum_eq_zero fun i _ => ?_
      simp only [mul_comm (∑ k, v k * φ (x k) _)]
      rw [hb0, mul_zero]
    rw [e3, e4, add_zero]
  have hz' : h =ᵐ[volume.restrict (Set.Ioo lo hi)] fun _ => 0 := by
    filter_upwards [ae_restrict_of_ae hz, ae_restrict_mem measurableSet_Ioo] with τ h1 h2
    exact (mul_eq_zero.1 h1).resolve_left (hw τ h2)
  have hz'' := Measure.eqOn_open_of_ae_eq hz' isOpen_Ioo hhc.continuousOn continuousOn_const
  have hq : v ⬝ᵥ (gram ν (fun k => φ (x k)) (fun k => φ (x k)) *ᵥ v) = 0 := by
    have : gram ν (fun k => φ (x k)) (fun k => φ (x k)) *ᵥ v = 0 := by
      funext k
      have := hz'' (hxm k)
      rw [hh] at this
      simp only [mulVec, dotProduct, gram, of_apply, Pi.zero_apply]
      simpa only [mul_comm] using this
    rw [this, dotProduct_zero]
  have hp := (hpd n x hxi).dotProduct_mulVec_pos hv0
  simp only [star_trivial] at hp
  exact absurd hq hp.ne'

/-- The residual of a convolution is never zero. -/
theorem BiL2.residual_c_pos {F φ : ℝ → S → ℝ} {w : ℝ → ℝ} {β : ι → S → ℝ} {ψ : κ → ℝ → ℝ} (h : BiL2 volume ν F)
    (hβ : ∀ i, MemLp (β i) 2 ν) (hψ : ∀ j, MemLp (ψ j) 2 volume)
    (hu : (gram ν β β).PosDef) (hz : (gram volume ψ ψ).PosDef) {X : Matrix ι κ ℝ}
    (hX : X = gram volume (fun i τ => ∫ s, F τ s * β i s ∂ν) ψ)
    (hF : ∀ τ s, F τ s = w τ * φ τ s) (hφ : ∀ τ, MemLp (φ τ) 2 ν) {lo hi : ℝ} (hlh : lo < hi)
    (hw : ∀ τ ∈ Set.Ioo lo hi, w τ ≠ 0) (hcont : ∀ x, Continuous fun τ => ∫ s, φ τ s * φ x s ∂ν)
    (hpd : ∀ n (x : Fin n → ℝ), Function.Injective x → (gram ν (fun k => φ (x k)) fun k => φ (x k)).PosDef) :
    0 < (∫ τ, ∫ s, F τ s ^ 2 ∂ν)
      - Spec.inner (gram ν β β)⁻¹
        (gram volume (fun i τ => ∫ s, F τ s * β i s ∂ν) (fun i τ => ∫ s, F τ s * β i s ∂ν))
      - Spec.inner (gram volume ψ ψ)⁻¹
        (gram ν (fun j s => ∫ τ, F τ s * ψ j τ) (fun j s => ∫ τ, F τ s * ψ j τ))
      + Spec.inner (gram ν β β)⁻¹ (X * (gram volume ψ ψ)⁻¹ * Xᵀ) := by
  rw [← h.residual_c_eq hβ hψ hu hz hX]
  have hr := h.residual hβ
  have hr2 := hr.swap.residual hψ
  refine lt_of_le_of_ne (integral_nonneg fun s => integral_nonneg fun τ => sq_nonneg _) fun h0 => ?_
  rw [integral_integral_swap hr2.prod.integrable_sq] at h0
  have h1 := hr2.swap.prod.integrable_sq
  have h2 := (integral_eq_zero_iff_of_nonneg (fun p => sq_nonneg _) h1).1 ((integral_prod _ h1).trans h0.symm)
  have h3 := Measure.ae_ae_of_ae_prod h2
  refine not_separable hF hφ hlh hw hβ
    (b := fun j s => ((gram volume ψ ψ)⁻¹ *ᵥ fun j => ∫ τ, Gpcm.residual ν β F τ s * ψ j τ) j)
    (fun j => memLp_sum (fun k => hr.swap.memLp_integral (hψ k)) _)
    (a := fun τ => (gram ν β β)⁻¹ *ᵥ fun i => ∫ s, F τ s * β i s ∂ν) (c := fun τ j => ψ j τ) ?_ hcont hpd
  filter_upwards [h3] with τ hτ
  filter_upwards [hτ] with s hs
  have hs : Gpcm.residual volume ψ (fun s τ => Gpcm.residual ν β F τ s) s τ ^ 2 = 0 := hs
  have hs := pow_eq_zero_iff (two_ne_zero) |>.1 hs
  rw [Gpcm.residual] at hs
  have e : Gpcm.residual ν β F τ s = F τ s - ∑ i, ((gram ν β β)⁻¹ *ᵥ fun i => ∫ s, F τ s * β i s ∂ν) i * β i s := rfl
  have hs := sub_eq_zero.1 hs
  beta_reduce at hs
  rw [e] at hs
  rw [sub_eq_iff_eq_add] at hs
  rw [hs, add_comm]
  congr 1
  exact Finset.sum_congr rfl fun j _ => mul_comm _ _

end

end Gpcm
