import Mathlib.MeasureTheory.Measure.Prod
import Mathlib.MeasureTheory.Measure.Lebesgue.Basic
import Mathlib.MeasureTheory.Group.LIntegral

/-!
# The shrinking-bracket proposal as a transition kernel

`acc S φ n p lo hi` is the expectation of `φ` at the accepted angle when at most `n` angles are drawn from the
bracket `[lo, hi)`, which is shrunk towards `p` after a rejection. `S` is the set of acceptable angles. The main
result is that this kernel is symmetric.
-/

open MeasureTheory Set
open scoped ENNReal

namespace Gpcm.Ess

variable {Ω : Type} [MeasurableSpace Ω]

open Classical in
/-- The expectation of `φ` at the accepted angle, zero when no angle is accepted. -/
noncomputable def acc (S : Set ℝ) (φ : ℝ → ℝ≥0∞) : ℕ → ℝ → ℝ → ℝ → ℝ≥0∞
  | 0, _, _, _ => 0
  | n + 1, p, lo, hi => (ENNReal.ofReal (hi - lo))⁻¹ * ∫⁻ θ in Ico lo hi,
      if θ ∈ S then φ θ else if p < θ then acc S φ n p lo θ else acc S φ n p θ hi

theorem measurable_setLIntegral_Ico {f : Ω × ℝ → ℝ≥0∞} (hf : Measurable f) {lo hi : Ω → ℝ}
    (hlo : Measurable lo) (hhi : Measurable hi) :
    Measurable fun ω => ∫⁻ θ in Ico (lo ω) (hi ω), f (ω, θ) := by
  have h : ∀ ω, ∫⁻ θ in Ico (lo ω) (hi ω), f (ω, θ) =
      ∫⁻ θ, {q : Ω × ℝ | lo q.1 ≤ q.2 ∧ q.2 < hi q.1}.indicator f (ω, θ) := fun ω => by
    rw [← lintegral_indicator measurableSet_Ico]
    rfl
  simp only [h]
  refine Measurable.lintegral_prod_right' (hf.indicator ?_)
  exact (measurableSet_le (hlo.comp measurable_fst) measurable_snd).inter
    (measurableSet_lt measurable_snd (hhi.comp measurable_fst))

theorem measurable_acc {S : Ω → Set ℝ} (hS : MeasurableSet {q : Ω × ℝ | q.2 ∈ S q.1})
    {φ : Ω → ℝ → ℝ≥0∞} (hφ : Measurable fun q : Ω × ℝ => φ q.1 q.2) (n : ℕ) :
    Measurable fun q : Ω × ℝ × ℝ × ℝ => acc (S q.1) (φ q.1) n q.2.1 q.2.2.1 q.2.2.2 := by
  classical
  induction n with
  | zero => exact measurable_const
  | succ n ih =>
    simp only [acc]
    refine Measurable.mul (by fun_prop) ?_
    refine measurable_setLIntegral_Ico (Ω := Ω × ℝ × ℝ × ℝ) (lo := fun q => q.2.2.1)
      (hi := fun q => q.2.2.2)
      (f := fun r => if r.2 ∈ S r.1.1 then φ r.1.1 r.2 else if r.1.2.1 < r.2 then
        acc (S r.1.1) (φ r.1.1) n r.1.2.1 r.1.2.2.1 r.2 else
        acc (S r.1.1) (φ r.1.1) n r.1.2.1 r.2 r.1.2.2.2) ?_ (by fun_prop) (by fun_prop)
    refine Measurable.ite (hS.preimage (f := fun r : (Ω × ℝ × ℝ × ℝ) × ℝ => (r.1.1, r.2)) (by fun_prop)) ?_ ?_
    · exact hφ.comp (f := fun r : (Ω × ℝ × ℝ × ℝ) × ℝ => (r.1.1, r.2)) (by fun_prop)
    · refine Measurable.ite (measurableSet_lt (by fun_prop) (by fun_prop)) ?_ ?_
      · exact ih.comp (f := fun r : (Ω × ℝ × ℝ × ℝ) × ℝ => (r.1.1, r.1.2.1, r.1.2.2.1, r.2)) (by fun_prop)
      · exact ih.comp (f := fun r : (Ω × ℝ × ℝ × ℝ) × ℝ => (r.1.1, r.1.2.1, r.2, r.1.2.2.2)) (by fun_prop)

theorem setLIntegral_Ico_add (f : ℝ → ℝ≥0∞) (a lo hi : ℝ) :
    ∫⁻ θ in Ico lo hi, f (θ + a) = ∫⁻ θ in Ico (lo + a) (hi + a), f θ := by
  rw [← lintegral_indicator measurableSet_Ico, ← lintegral_indicator measurableSet_Ico,
    ← lintegral_add_right_eq_self ((Ico (lo + a) (hi + a)).indicator f) a]
  refine lintegral_congr fun θ => ?_
  by_cases h : θ ∈ Ico lo hi
  · rw [indicator_of_mem h, indicator_of_mem (show θ + a ∈ Ico (lo + a) (hi + a) from
      ⟨by linarith [h.1], by linarith [h.2]⟩)]
  · rw [indicator_of_notMem h, indicator_of_notMem fun h' : θ + a ∈ Ico (lo + a) (hi + a) =>
      h ⟨by linarith [h'.1], by linarith [h'.2]⟩]

/-- Rotating everything does not change the expectation. -/
theorem acc_shift (S : Set ℝ) (φ : ℝ → ℝ≥0∞) (a : ℝ) (n : ℕ) (p lo hi : ℝ) :
    acc {θ | θ + a ∈ S} (fun θ => φ (θ + a)) n p lo hi = acc S φ n (p + a) (lo + a) (hi + a) := by
  classical
  induction n generalizing lo hi with
  | zero => rfl
  | succ n ih =>
    simp only [acc]
    rw [← setLIntegral_Ico_add]
    congr 1
    · congr 2; ring
    · refine lintegral_congr fun θ => ?_
      simp only [mem_ofPred_eq, ih, add_lt_add_iff_right]

/-- The triangle `lo ≤ p < θ < hi`, integrated in both orders. -/
theorem lintegral_swap_right {f : ℝ × ℝ → ℝ≥0∞} (hf : Measurable f) (lo hi : ℝ) :
    ∫⁻ p in Ico lo hi, ∫⁻ θ in Ico lo hi, (if p < θ then f (p, θ) else 0) =
      ∫⁻ θ in Ico lo hi, ∫⁻ p in Ico lo θ, f (p, θ) := by
  rw [lintegral_lintegral_swap]
  · refine setLIntegral_congr_fun measurableSet_Ico fun θ hθ => ?_
    rw [← lintegral_indicator measurableSet_Ico, ← lintegral_indicator measurableSet_Ico]
    refine lintegral_congr fun p => ?_
    simp only [indicator, mem_Ico]
    by_cases h : p < θ
    · have : p < hi := h.trans hθ.2
      simp [h, this]
    · simp [h]
  · refine Measurable.aemeasurable ?_
    exact Measurable.ite (measurableSet_lt measurable_fst measurable_snd) hf measurable_const

/-- The triangle `lo ≤ θ ≤ p < hi`, integrated in both orders. -/
theorem lintegral_swap_left {f : ℝ × ℝ → ℝ≥0∞} (hf : Measurable f) (lo hi : ℝ) :
    ∫⁻ p in Ico lo hi, ∫⁻ θ in Ico lo hi, (if p < θ then 0 else f (p, θ)) =
      ∫⁻ θ in Ico lo hi, ∫⁻ p in Ico θ hi, f (p, θ) := by
  rw [lintegral_lintegral_swap]
  · refine setLIntegral_congr_fun measurableSet_Ico fun θ hθ => ?_
    rw [← lintegral_indicator measurableSet_Ico, ← lintegral_indicator measurableSet_Ico]
    refine lintegral_congr fun p => ?_
    simp only [indicator, mem_Ico]
    by_cases h : p < θ
    · simp [h, not_le.2 h]
    · have : lo ≤ p := hθ.1.trans (not_lt.1 h)
      simp [h, not_lt.1 h, this]
  · refine Measurable.aemeasurable ?_
    exact Measurable.ite (measurableSet_lt measurable_fst measurable_snd) measurable_const hf

/-- The kernel is symmetric: going from `p` to `θ` is as likely as going from `θ` to `p`. -/
theorem acc_symm {S : Set ℝ} (hS : MeasurableSet S) {φ ψ : ℝ → ℝ≥0∞} (hφ : Measurable φ)
    (hψ : Measurable ψ) (n : ℕ) (lo hi : ℝ) :
    ∫⁻ p in Ico lo hi, S.indicator ψ p * acc S φ n p lo hi =
      ∫⁻ p in Ico lo hi, S.indicator φ p * acc S ψ n p lo hi := by
  classical
  induction n generalizing lo hi with
  | zero => simp [acc]
  | succ n ih =>
    have hm : ∀ {χ : ℝ → ℝ≥0∞}, Measurable χ →
        Measurable fun q : ℝ × ℝ × ℝ => acc S χ n q.1 q.2.1 q.2.2 := fun {χ} hχ =>
      (measurable_acc (Ω := Unit) (S := fun _ => S) (φ := fun _ => χ) (hS.preimage measurable_snd)
        (hχ.comp measurable_snd) n).comp (f := fun q : ℝ × ℝ × ℝ => ((), q)) (by fun_prop)
    have key : ∀ {χ ξ : ℝ → ℝ≥0∞}, Measurable χ → Measurable ξ →
        ∫⁻ p in Ico lo hi, S.indicator ξ p * acc S χ (n + 1) p lo hi =
          (ENNReal.ofReal (hi - lo))⁻¹ *
            ((∫⁻ p in Ico lo hi, S.indicator ξ p) * (∫⁻ θ in Ico lo hi, S.indicator χ θ) +
            ((∫⁻ θ in Ico lo hi, Sᶜ.indicator (fun θ => ∫⁻ p in Ico lo θ, S.indicator ξ p * acc S χ n p lo θ) θ) +
            (∫⁻ θ in Ico lo hi, Sᶜ.indicator (fun θ => ∫⁻ p in Ico θ hi, S.indicator ξ p * acc S χ n p θ hi) θ))) := by
      intro χ ξ hχ hξ
      have hSc := hS.compl
      have m1 : Measurable fun q : ℝ × ℝ => S.indicator ξ q.1 * Sᶜ.indicator (fun θ => acc S χ n q.1 lo θ) q.2 := by
        refine Measurable.mul ((hξ.indicator hS).comp measurable_fst) ?_
        have : (fun q : ℝ × ℝ => Sᶜ.indicator (fun θ => acc S χ n q.1 lo θ) q.2) =
            (Prod.snd ⁻¹' Sᶜ).indicator fun q : ℝ × ℝ => acc S χ n q.1 lo q.2 := by
          funext q; rfl
        rw [this]
        exact ((hm hχ).comp (f := fun q : ℝ × ℝ => (q.1, lo, q.2)) (by fun_prop)).indicator
          (hSc.preimage measurable_snd)
      have m2 : Measurable fun q : ℝ × ℝ => S.indicator ξ q.1 * Sᶜ.indicator (fun θ => acc S χ n q.1 θ hi) q.2 := by
        refine Measurable.mul ((hξ.indicator hS).comp measurable_fst) ?_
        have : (fun q : ℝ × ℝ => Sᶜ.indicator (fun θ => acc S χ n q.1 θ hi) q.2) =
            (Prod.snd ⁻¹' Sᶜ).indicator fun q : ℝ × ℝ => acc S χ n q.1 q.2 hi := by
          funext q; rfl
        rw [this]
        exact ((hm hχ).comp (f := fun q : ℝ × ℝ => (q.1, q.2, hi)) (by fun_prop)).indicator
          (hSc.preimage measurable_snd)
      have m1' : Measurable fun q : ℝ × ℝ => if q.1 < q.2 then
          S.indicator ξ q.1 * Sᶜ.indicator (fun θ => acc S χ n q.1 lo θ) q.2 else 0 :=
        Measurable.ite (measurableSet_lt measurable_fst measurable_snd) m1 measurable_const
      have m2' : Measurable fun q : ℝ × ℝ => if q.1 < q.2 then 0 else
          S.indicator ξ q.1 * Sᶜ.indicator (fun θ => acc S χ n q.1 θ hi) q.2 :=
        Measurable.ite (measurableSet_lt measurable_fst measurable_snd) measurable_const m2
      have e : ∀ p, S.indicator ξ p * acc S χ (n + 1) p lo hi = (ENNReal.ofReal (hi - lo))⁻¹ *
          (S.indicator ξ p * (∫⁻ θ in Ico lo hi, S.indicator χ θ) +
            ((∫⁻ θ in Ico lo hi, if p < θ then S.indicator ξ p * Sᶜ.indicator (fun θ => acc S χ n p lo θ) θ else 0) +
            (∫⁻ θ in Ico lo hi, if p < θ then 0 else S.indicator ξ p * Sᶜ.indicator (fun θ => acc S χ n p θ hi) θ))) := by
        intro p
        have m1p : Measurable fun θ => if p < θ then
            S.indicator ξ p * Sᶜ.indicator (fun θ => acc S χ n p lo θ) θ else 0 :=
          m1'.comp (measurable_prodMk_left (x := p))
        have mp : Measurable (S.indicator χ) := hχ.indicator hS
        rw [acc, mul_left_comm, ← lintegral_const_mul _ mp]
        congr 1
        rw [← lintegral_add_left m1p, ← lintegral_add_left (mp.const_mul _)]
        have hmi : Measurable fun θ => if θ ∈ S then χ θ else if p < θ then acc S χ n p lo θ else acc S χ n p θ hi := by
          refine Measurable.ite hS hχ (Measurable.ite (measurableSet_lt measurable_const measurable_id) ?_ ?_)
          · exact (hm hχ).comp (f := fun θ : ℝ => (p, lo, θ)) (by fun_prop)
          · exact (hm hχ).comp (f := fun θ : ℝ => (p, θ, hi)) (by fun_prop)
        rw [← lintegral_const_mul _ hmi]
        refine lintegral_congr fun θ => ?_
        by_cases h1 : θ ∈ S
        · simp [h1]
        · by_cases h2 : p < θ <;> simp [h1, h2]
      simp only [e]
      have n1 : Measurable fun p => ∫⁻ θ in Ico lo hi, if p < θ then
          S.indicator ξ p * Sᶜ.indicator (fun θ => acc S χ n p lo θ) θ else 0 :=
        m1'.lintegral_prod_right'
      have n0 : Measurable fun p => S.indicator ξ p * ∫⁻ θ in Ico lo hi, S.indicator χ θ :=
        (hξ.indicator hS).mul_const _
      have n2 : Measurable fun p => ∫⁻ θ in Ico lo hi, if p < θ then 0 else
          S.indicator ξ p * Sᶜ.indicator (fun θ => acc S χ n p θ hi) θ :=
        m2'.lintegral_prod_right'
      rw [lintegral_const_mul _ (by exact n0.add (n1.add n2)), lintegral_add_left n0, lintegral_add_left n1,
        lintegral_mul_const _ (hξ.indicator hS)]
      have s1 := lintegral_swap_right m1 lo hi
      have s2 := lintegral_swap_left m2 lo hi
      simp only at s1 s2
      rw [s1, s2]
      congr 3
      · refine lintegral_congr fun θ => ?_
        by_cases h : θ ∈ S <;> simp [h]
      · refine lintegral_congr fun θ => ?_
        by_cases h : θ ∈ S <;> simp [h]
    rw [key hφ hψ, key hψ hφ, mul_comm (∫⁻ p in Ico lo hi, S.indicator ψ p)]
    simp only [ih]

end Gpcm.Ess
