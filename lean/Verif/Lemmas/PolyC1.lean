import Mathlib.Analysis.Calculus.ContDiff.Operations
import Mathlib.Analysis.SpecialFunctions.Log.Deriv
import Mathlib.LinearAlgebra.Matrix.NonsingularInverse
import Mathlib.LinearAlgebra.Matrix.PosDef

/-!
# Functions of inducing variables that depend smoothly on a parameter

`PolyC1 a L`: near the parameter `a`, the function `L θ x` is differentiable in `θ`, and it and its derivative grow at
most polynomially in `x`, uniformly in `θ`.
-/

set_option linter.unusedSectionVars false

open Matrix Real Filter Topology

namespace Gpcm

variable {ι κ : Type} [Fintype ι] [DecidableEq ι] [Fintype κ] [DecidableEq κ]

/-- One plus the squared size. -/
def sizeSq (x : (ι → ℝ) × (κ → ℝ)) : ℝ := 1 + x.1 ⬝ᵥ x.1 + x.2 ⬝ᵥ x.2

theorem dot_self_nonneg' {n : Type} [Fintype n] (x : n → ℝ) : 0 ≤ x ⬝ᵥ x :=
  Finset.sum_nonneg fun i _ => mul_self_nonneg (x i)

theorem sizeSq_one (x : (ι → ℝ) × (κ → ℝ)) : 1 ≤ sizeSq x := by
  have := dot_self_nonneg' x.1
  have := dot_self_nonneg' x.2
  unfold sizeSq
  linarith

/-- See the introduction. -/
def PolyC1 (a : ℝ) (L : ℝ → (ι → ℝ) × (κ → ℝ) → ℝ) : Prop :=
  ∃ (L' : ℝ → (ι → ℝ) × (κ → ℝ) → ℝ) (c : ℝ) (k : ℕ), 0 ≤ c ∧ ∀ᶠ θ in 𝓝 a, Continuous (L θ) ∧ Continuous (L' θ) ∧
    ∀ x, HasDerivAt (fun t => L t x) (L' θ x) θ ∧ |L θ x| ≤ c * sizeSq x ^ k ∧ |L' θ x| ≤ c * sizeSq x ^ k

namespace PolyC1

variable {a : ℝ} {L M : ℝ → (ι → ℝ) × (κ → ℝ) → ℝ}

theorem le_pow {c : ℝ} (hc : 0 ≤ c) {j k : ℕ} (h : j ≤ k) (x : (ι → ℝ) × (κ → ℝ)) : c * sizeSq x ^ j ≤ c * sizeSq x ^ k :=
  mul_le_mul_of_nonneg_left (pow_le_pow_right₀ (sizeSq_one x) h) hc

theorem add (hL : PolyC1 a L) (hM : PolyC1 a M) : PolyC1 a fun θ x => L θ x + M θ x := by
  obtain ⟨L', c, k, hc, h⟩ := hL
  obtain ⟨M', e, j, he, h'⟩ := hM
  refine ⟨fun θ x => L' θ x + M' θ x, c + e, k + j, by linarith, (h.and h').mono fun θ hθ => ?_⟩
  obtain ⟨⟨h1, h2, h3⟩, h4, h5, h6⟩ := hθ
  refine ⟨h1.add h4, h2.add h5, fun x => ?_⟩
  obtain ⟨d1, b1, e1⟩ := h3 x
  obtain ⟨d2, b2, e2⟩ := h6 x
  have p1 := le_pow hc (Nat.le_add_right k j) x
  have p2 := le_pow he (Nat.le_add_left j k) x
  refine ⟨d1.add d2, ?_, ?_⟩
  · refine (abs_add_le _ _).trans ?_
    rw [add_mul]
    linarith
  · refine (abs_add_le _ _).trans ?_
    rw [add_mul]
    linarith

theorem mul (hL : PolyC1 a L) (hM : PolyC1 a M) : PolyC1 a fun θ x => L θ x * M θ x := by
  obtain ⟨L', c, k, hc, h⟩ := hL
  obtain ⟨M', e, j, he, h'⟩ := hM
  refine ⟨fun θ x => L' θ x * M θ x + L θ x * M' θ x, 2 * (c * e), k + j, by positivity, (h.and h').mono fun θ hθ => ?_⟩
  obtain ⟨⟨h1, h2, h3⟩, h4, h5, h6⟩ := hθ
  refine ⟨h1.mul h4, (h2.mul h4).add (h1.mul h5), fun x => ?_⟩
  obtain ⟨d1, b1, e1⟩ := h3 x
  obtain ⟨d2, b2, e2⟩ := h6 x
  have hs : 0 ≤ sizeSq x := zero_le_one.trans (sizeSq_one x)
  have p : ∀ {s t : ℝ}, |s| ≤ c * sizeSq x ^ k → |t| ≤ e * sizeSq x ^ j → |s * t| ≤ c * e * sizeSq x ^ (k + j) := by
    intro s t h1 h2
    rw [abs_mul, pow_add, mul_mul_mul_comm]
    exact mul_le_mul h1 h2 (abs_nonneg _) (by positivity)
  refine ⟨d1.mul d2, ?_, ?_⟩
  · refine (p b1 b2).trans ?_
    have : 0 ≤ c * e * sizeSq x ^ (k + j) := by positivity
    linarith
  · refine (abs_add_le _ _).trans ?_
    have := p e1 b2
    have := p b1 e2
    linarith

/-- Smooth functions of the parameter. -/
theorem coeff {f : ℝ → ℝ} (hf : ContDiffAt ℝ 1 f a) : PolyC1 a fun θ (_ : (ι → ℝ) × (κ → ℝ)) => f θ := by
  obtain ⟨f', s, hs, hc, hd⟩ := contDiffAt_one_iff.1 hf
  have hc1 : ContinuousAt (fun θ => f' θ 1) a := (hc.continuousAt hs).clm_apply continuousAt_const
  have b1 : ∀ᶠ θ in 𝓝 a, |f θ| ≤ |f a| + 1 := by
    have := (hf.continuousAt.abs).eventually (gt_mem_nhds (show |f a| < |f a| + 1 by linarith))
    exact this.mono fun θ h => le_of_lt h
  have b2 : ∀ᶠ θ in 𝓝 a, |f' θ 1| ≤ |f' a 1| + 1 := by
    have := hc1.abs.eventually (gt_mem_nhds (show |f' a 1| < |f' a 1| + 1 by linarith))
    exact this.mono fun θ h => le_of_lt h
  refine ⟨fun θ _ => f' θ 1, |f a| + |f' a 1| + 1, 0, by positivity, ?_⟩
  filter_upwards [hs, b1, b2] with θ h1 h2 h3
  refine ⟨continuous_const, continuous_const, fun x => ⟨(hd θ h1).hasDerivAt, ?_, ?_⟩⟩
  · rw [pow_zero, mul_one]
    have := abs_nonneg (f' a 1)
    linarith
  · rw [pow_zero, mul_one]
    have := abs_nonneg (f a)
    linarith

theorem const (c : ℝ) : PolyC1 a fun _ (_ : (ι → ℝ) × (κ → ℝ)) => c := coeff contDiffAt_const

theorem abs_le_dot {n : Type} [Fintype n] (x : n → ℝ) (i : n) : |x i| ≤ 1 + x ⬝ᵥ x := by
  have h1 : x i * x i ≤ x ⬝ᵥ x := Finset.single_le_sum (f := fun i => x i * x i) (fun j _ => mul_self_nonneg _) (Finset.mem_univ i)
  rw [abs_le]
  constructor <;> nlinarith [sq_nonneg (x i + 1), sq_nonneg (x i - 1)]

theorem fst (i : ι) : PolyC1 a fun _ (x : (ι → ℝ) × (κ → ℝ)) => x.1 i := by
  refine ⟨fun _ _ => 0, 1, 1, zero_le_one, Eventually.of_forall fun θ => ⟨by fun_prop, continuous_const, fun x =>
    ⟨hasDerivAt_const _ _, ?_, ?_⟩⟩⟩
  · have := abs_le_dot x.1 i
    have := dot_self_nonneg' x.2
    rw [one_mul, pow_one, sizeSq]
    linarith
  · have := sizeSq_one x
    rw [abs_zero]
    linarith

theorem snd (i : κ) : PolyC1 a fun _ (x : (ι → ℝ) × (κ → ℝ)) => x.2 i := by
  refine ⟨fun _ _ => 0, 1, 1, zero_le_one, Eventually.of_forall fun θ => ⟨by fun_prop, continuous_const, fun x =>
    ⟨hasDerivAt_const _ _, ?_, ?_⟩⟩⟩
  · have := abs_le_dot x.2 i
    have := dot_self_nonneg' x.1
    rw [one_mul, pow_one, sizeSq]
    linarith
  · have := sizeSq_one x
    rw [abs_zero]
    linarith

theorem neg (hL : PolyC1 a L) : PolyC1 a fun θ x => -L θ x := by
  have := (const (a := a) (-1)).mul hL
  simpa only [neg_one_mul] using this

theorem sub (hL : PolyC1 a L) (hM : PolyC1 a M) : PolyC1 a fun θ x => L θ x - M θ x := by
  have := hL.add hM.neg
  simpa only [← sub_eq_add_neg] using this

theorem sum {A : Type} (s : Finset A) {F : A → ℝ → (ι → ℝ) × (κ → ℝ) → ℝ} (h : ∀ b ∈ s, PolyC1 a (F b)) :
    PolyC1 a fun θ x => ∑ b ∈ s, F b θ x := by
  classical
  induction s using Finset.induction_on with
  | empty => simpa using const 0
  | insert b s hb ih =>
    simp only [Finset.sum_insert hb]
    exact (h b (Finset.mem_insert_self b s)).add (ih fun c hc => h c (Finset.mem_insert_of_mem hc))

theorem list_sum {A : Type} (l : List A) {F : A → ℝ → (ι → ℝ) × (κ → ℝ) → ℝ} (h : ∀ b ∈ l, PolyC1 a (F b)) :
    PolyC1 a fun θ x => (l.map fun b => F b θ x).sum := by
  induction l with
  | nil => simpa using const 0
  | cons b l ih =>
    simp only [List.map_cons, List.sum_cons]
    exact (h b List.mem_cons_self).add (ih fun c hc => h c (List.mem_cons_of_mem b hc))

end PolyC1

/-! ## Matrices -/

/-- The entries of a matrix are smooth functions of the parameter. -/
def MatC1 {m n : Type} (a : ℝ) (A : ℝ → Matrix m n ℝ) : Prop := ∀ i j, ContDiffAt ℝ 1 (fun θ => A θ i j) a

namespace MatC1

variable {l m n : Type} [Fintype l] [Fintype m] [Fintype n] {a : ℝ}

theorem mul {A : ℝ → Matrix l m ℝ} {B : ℝ → Matrix m n ℝ} (hA : MatC1 a A) (hB : MatC1 a B) : MatC1 a fun θ => A θ * B θ :=
  fun i j => by
    simp only [mul_apply]
    exact ContDiffAt.sum fun k _ => (hA i k).mul (hB k j)

omit [Fintype m] [Fintype n] in
theorem transpose {A : ℝ → Matrix m n ℝ} (hA : MatC1 a A) : MatC1 a fun θ => (A θ)ᵀ := fun i j => hA j i

omit [Fintype m] [Fintype n] in
theorem sub {A B : ℝ → Matrix m n ℝ} (hA : MatC1 a A) (hB : MatC1 a B) : MatC1 a fun θ => A θ - B θ :=
  fun i j => (hA i j).sub (hB i j)

variable [DecidableEq n]

theorem det {A : ℝ → Matrix n n ℝ} (hA : MatC1 a A) : ContDiffAt ℝ 1 (fun θ => (A θ).det) a := by
  simp only [det_apply']
  exact ContDiffAt.sum fun σ _ => contDiffAt_const.mul (contDiffAt_prod fun i _ => hA _ _)

theorem inv {A : ℝ → Matrix n n ℝ} (hA : MatC1 a A) (h : (A a).det ≠ 0) : MatC1 a fun θ => (A θ)⁻¹ := fun i j => by
  simp only [inv_def, Ring.inverse_eq_inv', Matrix.smul_apply, smul_eq_mul, adjugate_apply]
  refine (hA.det.inv h).mul (det fun k l => ?_)
  by_cases hk : k = j
  · subst hk
    simp only [updateRow_self]
    exact contDiffAt_const
  · simp only [updateRow_ne hk]
    exact hA k l

end MatC1

end Gpcm
