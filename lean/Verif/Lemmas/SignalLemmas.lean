import Verif.Spec.Signal
import Verif.Lemmas.GramLemmas

/-! # Helper lemmas: the moments of the signal in terms of integrals of covariances -/

open MeasureTheory Matrix

namespace Gpcm

variable {ι κ : Type} [Fintype ι] [Fintype κ]

theorem signalMean_eq {c : ι → ℝ → ℝ} {d : κ → ℝ → ℝ} {t : ℝ}
    (hcd : ∀ a b, Integrable fun τ => c a (t - τ) * d b τ) (u : ι → ℝ) (z : κ → ℝ) :
    Spec.signalMean c u d z t = u ⬝ᵥ ((Matrix.of fun a b => ∫ τ, c a (t - τ) * d b τ) *ᵥ z) := by
  have e : ∀ τ, (∑ a, c a (t - τ) * u a) * ∑ b, d b τ * z b = ∑ a, ∑ b, u a * z b * (c a (t - τ) * d b τ) :=
    fun τ => by
      rw [Finset.sum_mul]
      refine Finset.sum_congr rfl fun a _ => ?_
      rw [Finset.mul_sum]
      exact Finset.sum_congr rfl fun b _ => by ring
  unfold Spec.signalMean
  simp only [e]
  rw [integral_finsetSum _ fun a _ => integrable_finsetSum _ fun b _ => (hcd a b).const_mul _]
  simp only [mulVec, dotProduct, of_apply, Finset.mul_sum]
  refine Finset.sum_congr rfl fun a _ => ?_
  rw [integral_finsetSum _ fun b _ => (hcd a b).const_mul _]
  refine Finset.sum_congr rfl fun b _ => ?_
  rw [integral_const_mul]
  ring

theorem signalM2_eq {K : ℝ → ℝ → ℝ} {c : ι → ℝ → ℝ} {P : Matrix ι ι ℝ} {w : ℝ → ℝ} {d : κ → ℝ → ℝ}
    {Q : Matrix κ κ ℝ} {t : ℝ} (hK : Integrable fun τ => w τ ^ 2 * K (t - τ) (t - τ))
    (hc : ∀ a, MemLp (fun τ => w τ * c a (t - τ)) 2) (hcd : ∀ a b, Integrable fun τ => c a (t - τ) * d b τ)
    (hin : ∀ τ b, Integrable fun τ' => K (t - τ) (t - τ') * d b τ')
    (hout : ∀ a b, Integrable fun τ => d a τ * ∫ τ', K (t - τ) (t - τ') * d b τ') :
    Spec.signalM2 K c P w d Q t = (∫ τ, w τ ^ 2 * K (t - τ) (t - τ)) +
      Spec.inner P (.of fun a b => ∫ τ, w τ ^ 2 * (c a (t - τ) * c b (t - τ))) +
      Spec.inner Q ((.of fun a b => ∫ τ, d a τ * ∫ τ', K (t - τ) (t - τ') * d b τ') +
        (Matrix.of fun a b => ∫ τ, c a (t - τ) * d b τ)ᵀ * P * Matrix.of fun a b => ∫ τ, c a (t - τ) * d b τ) := by
  have hcc : ∀ a b, Integrable fun τ => w τ ^ 2 * (c a (t - τ) * c b (t - τ)) := fun a b =>
    (integrable_mul_L2 (hc a) (hc b)).congr (ae_of_all _ fun τ => by
      show w τ * c a (t - τ) * (w τ * c b (t - τ)) = _
      ring)
  have h1 : (∫ τ, w τ ^ 2 * (K (t - τ) (t - τ) + Spec.change c P (t - τ) (t - τ))) =
      (∫ τ, w τ ^ 2 * K (t - τ) (t - τ)) +
        Spec.inner P (.of fun a b => ∫ τ, w τ ^ 2 * (c a (t - τ) * c b (t - τ))) := by
    have e : ∀ τ, w τ ^ 2 * (K (t - τ) (t - τ) + Spec.change c P (t - τ) (t - τ)) =
        w τ ^ 2 * K (t - τ) (t - τ) + ∑ a, ∑ b, P a b * (w τ ^ 2 * (c a (t - τ) * c b (t - τ))) := fun τ => by
      unfold Spec.change
      rw [mul_add, Finset.mul_sum]
      congr 1
      refine Finset.sum_congr rfl fun a _ => ?_
      rw [Finset.mul_sum]
      exact Finset.sum_congr rfl fun b _ => by ring
    have hp : ∀ a b, Integrable fun τ => P a b * (w τ ^ 2 * (c a (t - τ) * c b (t - τ))) :=
      fun a b => (hcc a b).const_mul _
    have hq : Integrable fun τ => ∑ a, ∑ b, P a b * (w τ ^ 2 * (c a (t - τ) * c b (t - τ))) :=
      integrable_finsetSum _ fun a _ => integrable_finsetSum _ fun b _ => hp a b
    simp only [e]
    refine (integral_add hK hq).trans ?_
    congr 1
    refine (integral_finsetSum _ fun a _ => integrable_finsetSum _ fun b _ => hp a b).trans ?_
    unfold Spec.inner
    refine Finset.sum_congr rfl fun a _ => ?_
    refine (integral_finsetSum _ fun b _ => hp a b).trans ?_
    exact Finset.sum_congr rfl fun b _ => integral_const_mul _ _
  obtain ⟨X, hX⟩ : ∃ X : Matrix ι κ ℝ, X = Matrix.of fun a b => ∫ τ, c a (t - τ) * d b τ := ⟨_, rfl⟩
  have hXe : ∀ a b, ∫ τ, c a (t - τ) * d b τ = X a b := fun a b => by rw [hX, of_apply]
  -- the inner integral
  have h2 : ∀ τ, ∫ τ', (K (t - τ) (t - τ') + Spec.change c P (t - τ) (t - τ')) * Spec.change d Q τ τ' =
      ∑ k, ∑ l, Q k l * (d k τ * (∫ τ', K (t - τ) (t - τ') * d l τ') +
        ∑ a, (P * X) a l * (c a (t - τ) * d k τ)) := fun τ => by
    have e : ∀ τ', (K (t - τ) (t - τ') + Spec.change c P (t - τ) (t - τ')) * Spec.change d Q τ τ' =
        ∑ k, ∑ l, Q k l * d k τ * (K (t - τ) (t - τ') * d l τ' +
          ∑ a, ∑ b, c a (t - τ) * P a b * (c b (t - τ') * d l τ')) := fun τ' => by
      unfold Spec.change
      rw [Finset.mul_sum]
      refine Finset.sum_congr rfl fun k _ => ?_
      rw [Finset.mul_sum]
      refine Finset.sum_congr rfl fun l _ => ?_
      have : ∑ a, ∑ b, c a (t - τ) * P a b * (c b (t - τ') * d l τ') =
          (∑ a, ∑ b, c a (t - τ) * P a b * c b (t - τ')) * d l τ' := by
        rw [Finset.sum_mul]
        refine Finset.sum_congr rfl fun a _ => ?_
        rw [Finset.sum_mul]
        exact Finset.sum_congr rfl fun b _ => by ring
      rw [this]
      ring
    have hi1 : ∀ l, Integrable fun τ' => ∑ a, ∑ b, c a (t - τ) * P a b * (c b (t - τ') * d l τ') := fun l =>
      integrable_finsetSum _ fun a _ => integrable_finsetSum _ fun b _ => (hcd b l).const_mul _
    have hi2 : ∀ k l, Integrable fun τ' => Q k l * d k τ * (K (t - τ) (t - τ') * d l τ' +
          ∑ a, ∑ b, c a (t - τ) * P a b * (c b (t - τ') * d l τ')) := fun k l =>
      ((hin τ l).add (hi1 l)).const_mul _
    simp only [e]
    rw [integral_finsetSum _ fun k _ => integrable_finsetSum _ fun l _ => hi2 k l]
    refine Finset.sum_congr rfl fun k _ => ?_
    rw [integral_finsetSum _ fun l _ => hi2 k l]
    refine Finset.sum_congr rfl fun l _ => ?_
    rw [integral_const_mul, integral_add (hin τ l) (hi1 l), mul_assoc, mul_add (d k τ)]
    congr 2
    rw [integral_finsetSum _ fun a _ => integrable_finsetSum _ fun b _ => (hcd b l).const_mul _, Finset.mul_sum]
    refine Finset.sum_congr rfl fun a _ => ?_
    rw [integral_finsetSum _ fun b _ => (hcd b l).const_mul _, Matrix.mul_apply, Finset.sum_mul, Finset.mul_sum]
    refine Finset.sum_congr rfl fun b _ => ?_
    rw [integral_const_mul, hXe]
    ring
  have hj1 : ∀ k l, Integrable fun τ => ∑ a, (P * X) a l * (c a (t - τ) * d k τ) := fun k l =>
    integrable_finsetSum _ fun a _ => (hcd a k).const_mul _
  have hj2 : ∀ k l, Integrable fun τ => Q k l * (d k τ * (∫ τ', K (t - τ) (t - τ') * d l τ') +
        ∑ a, (P * X) a l * (c a (t - τ) * d k τ)) := fun k l => ((hout k l).add (hj1 k l)).const_mul _
  unfold Spec.signalM2
  simp only [h2]
  rw [h1, ← hX]
  congr 1
  rw [integral_finsetSum _ fun k _ => integrable_finsetSum _ fun l _ => hj2 k l]
  unfold Spec.inner
  refine Finset.sum_congr rfl fun k _ => ?_
  rw [integral_finsetSum _ fun l _ => hj2 k l]
  refine Finset.sum_congr rfl fun l _ => ?_
  rw [integral_const_mul, integral_add (hout k l) (hj1 k l), Matrix.add_apply, of_apply, Matrix.mul_assoc]
  congr 2
  rw [integral_finsetSum _ fun a _ => (hcd a k).const_mul _, Matrix.mul_apply]
  refine Finset.sum_congr rfl fun a _ => ?_
  rw [integral_const_mul, hXe, transpose_apply, mul_comm]

variable [DecidableEq ι] [DecidableEq κ] in
/-- The moments that the approximation computes, written with the changes to the second moments. -/
theorem moments_change (ihx : ℝ) (iux : Matrix ι ι ℝ) (ihz : Matrix κ κ ℝ) (iuz : Matrix ι κ ℝ) (KuInv : Matrix ι ι ℝ)
    (KzInv : Matrix κ κ ℝ) (u : ι → ℝ) (u2 : Matrix ι ι ℝ) (z : κ → ℝ) (z2 : Matrix κ κ ℝ) :
    (Spec.moments ihx iux ihz iuz KuInv KzInv u u2 z z2).2 = ihx + Spec.inner (u2 - KuInv) iux +
      Spec.inner (z2 - KzInv) (ihz + iuzᵀ * (u2 - KuInv) * iuz) := by
  have hs : ∀ {n : Type} [Fintype n] (A B C : Matrix n n ℝ), Spec.inner (A - B) C = Spec.inner A C - Spec.inner B C :=
    fun A B C => by simp only [Spec.inner, Matrix.sub_apply, sub_mul, Finset.sum_sub_distrib]
  have ha : ∀ {n : Type} [Fintype n] (A B C : Matrix n n ℝ), Spec.inner A (B + C) = Spec.inner A B + Spec.inner A C :=
    fun A B C => by simp only [Spec.inner, Matrix.add_apply, mul_add, Finset.sum_add_distrib]
  have hc : ∀ {n : Type} [Fintype n] (A B : Matrix n n ℝ), Spec.inner A B = Spec.inner B A :=
    fun A B => by simp only [Spec.inner, mul_comm]
  simp only [Spec.moments, hs, ha, inner_mul_transpose, hc iux, hc ihz]
  rw [hc (iuz * KzInv * iuzᵀ) u2, hc (iuzᵀ * KuInv * iuz) z2, inner_mul_transpose]
  ring

end Gpcm
