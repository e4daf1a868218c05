import Mathlib.Data.Matrix.Mul
import Mathlib.LinearAlgebra.Matrix.NonsingularInverse
import Verif.Lemmas.NormalLemmas

/-!
# What a sample of the filter should look like

`h` is a Gaussian process with covariance `K`, and the inducing variables `û` have mean `m` and covariance `S`; the
values of `h` at the inducing points are `K(U, U) û`.
-/

open Matrix MeasureTheory

namespace Gpcm.Spec

variable {ι κ : Type} [Fintype ι] [DecidableEq ι] [Fintype κ]

/-- The mean of `h` at a time. -/
noncomputable def filterMean (K : ℝ → ℝ → ℝ) (tU : ι → ℝ) (m : ι → ℝ) (t : ℝ) : ℝ := ∑ a, K t (tU a) * m a

/-- The covariance of `h` at two times: what the inducing variables do not determine, plus their uncertainty. -/
noncomputable def filterCov (K : ℝ → ℝ → ℝ) (tU : ι → ℝ) (S : Matrix ι ι ℝ) (s t : ℝ) : ℝ :=
  K s t - ∑ a, ∑ b, K s (tU a) * (Matrix.of fun i j => K (tU i) (tU j))⁻¹ a b * K (tU b) t +
    ∑ a, ∑ b, K s (tU a) * S a b * K (tU b) t

/-- The average over independent standard normal numbers exists and has the given value. -/
def Avg (f : (ι → ℝ) → ℝ) (v : ℝ) : Prop := (Integrable fun z => stdPdf z * f z) ∧ ∫ z, stdPdf z * f z = v

/-- Mean and covariance of a random vector driven by two independent sets of independent standard normal numbers. -/
def Moments (h : (ι → ℝ) → (κ → ℝ) → κ → ℝ) (m : κ → ℝ) (S : Matrix κ κ ℝ) : Prop :=
  (∀ i, ∃ A : (ι → ℝ) → ℝ, (∀ w, Avg (fun e => h w e i) (A w)) ∧ Avg A (m i)) ∧
    ∀ i j, ∃ A : (ι → ℝ) → ℝ, (∀ w, Avg (fun e => (h w e i - m i) * (h w e j - m j)) (A w)) ∧ Avg A (S i j)

end Gpcm.Spec
