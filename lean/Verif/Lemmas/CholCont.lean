import Verif.Lemmas.RegularisedLimit
import Verif.Props.SampleScriptProps

/-! # The Cholesky factor depends continuously on the matrix -/

open Matrix Real Filter Topology

namespace Gpcm

variable {n : ℕ} {α : Type} {l : Filter α}

theorem cholesky_entry (c : CholOracle (Fin n)) (hc : Scripts.IsCholesky c) {A : Matrix (Fin n) (Fin n) ℝ} (hA : A.PosDef) (i j : Fin n) :
    A i j = (∑ k with k < j, c.chol A i k * c.chol A j k) + c.chol A i j * c.chol A j j := by
  have h := congrFun (congrFun (c.spec A hA) i) j
  rw [mul_apply] at h
  rw [← h]
  have e : ∀ k, c.chol A i k * (c.chol A)ᵀ k j = (if k < j then c.chol A i k * c.chol A j k else 0) +
      (if k = j then c.chol A i j * c.chol A j j else 0) := fun k => by
    rcases lt_trichotomy k j with hk | rfl | hk
    · simp [hk, hk.ne]
    · simp
    · simp [hk.ne', not_lt.2 hk.le, (hc A hA).1 j k hk]
  simp only [e, Finset.sum_add_distrib, Finset.sum_ite_eq', Finset.mem_univ, if_true, Finset.sum_filter]

/-- The Cholesky factor is continuous. -/
theorem cholesky_continuous (c : CholOracle (Fin n)) (hc : Scripts.IsCholesky c) : ContinuousOn c.chol {A | A.PosDef} := by
  intro A' hA'
  have hA' : A'.PosDef := hA'
  have hmem : ∀ᶠ A in 𝓝[{A | A.PosDef}] A', A.PosDef := self_mem_nhdsWithin
  have hid : Tendsto (fun A : Matrix (Fin n) (Fin n) ℝ => A) (𝓝[{A | A.PosDef}] A') (𝓝 A') := nhdsWithin_le_nhds
  have hent : ∀ i j, Tendsto (fun A : Matrix (Fin n) (Fin n) ℝ => A i j) (𝓝[{A | A.PosDef}] A') (𝓝 (A' i j)) := fun i j =>
    tendsto_pi_nhds.1 (tendsto_pi_nhds.1 hid i) j
  have key : ∀ j i, Tendsto (fun A => c.chol A i j) (𝓝[{A | A.PosDef}] A') (𝓝 (c.chol A' i j)) := by
    intro j
    induction j using WellFoundedLT.induction with
    | ind j ih =>
      have hs : ∀ i, Tendsto (fun A => A i j - ∑ k with k < j, c.chol A i k * c.chol A j k) (𝓝[{A | A.PosDef}] A')
          (𝓝 (A' i j - ∑ k with k < j, c.chol A' i k * c.chol A' j k)) := fun i =>
        (hent i j).sub (tendsto_finsetSum _ fun k hk => (ih k (by simpa using hk) i).mul (ih k (by simpa using hk) j))
      have hd : Tendsto (fun A => c.chol A j j) (𝓝[{A | A.PosDef}] A') (𝓝 (c.chol A' j j)) := by
        have e : ∀ A : Matrix (Fin n) (Fin n) ℝ, A.PosDef → c.chol A j j = √(A j j - ∑ k with k < j, c.chol A j k * c.chol A j k) :=
          fun A hA => by
            rw [cholesky_entry c hc hA j j, add_sub_cancel_left, Real.sqrt_mul_self ((hc A hA).2 j).le]
        rw [e A' hA']
        exact (hs j).sqrt.congr' (hmem.mono fun A hA => (e A hA).symm)
      intro i
      have e : ∀ A : Matrix (Fin n) (Fin n) ℝ, A.PosDef →
          c.chol A i j = (A i j - ∑ k with k < j, c.chol A i k * c.chol A j k) / c.chol A j j := fun A hA => by
        rw [cholesky_entry c hc hA i j, add_sub_cancel_left, mul_div_cancel_right₀ _ ((hc A hA).2 j).ne']
      rw [e A' hA']
      exact ((hs i).div hd ((hc A' hA').2 j).ne').congr' (hmem.mono fun A hA => (e A hA).symm)
  exact tendsto_pi_nhds.2 fun i => tendsto_pi_nhds.2 fun j => key j i

end Gpcm
