import Mathlib.Probability.Kernel.Composition.IntegralCompProd
import Mathlib.Probability.Kernel.Composition.Lemmas
import Mathlib.Analysis.Asymptotics.SpecificAsymptotics

/-!
# Markov chains whose expectations converge

`pw Q k x` is the distribution after `k` steps from `x`. If the expectation of every bounded function converges from
every starting point, then it converges uniformly over the distributions that the chain passes through
(`Erg.uniform`), which gives independence of states that are far apart and a law of large numbers.
-/

set_option linter.unusedSectionVars false

open MeasureTheory ProbabilityTheory ENNReal Filter Topology

namespace Gpcm.Markov

variable {S : Type} [MeasurableSpace S] (Q : Kernel S S) [IsMarkovKernel Q]

/-- The distribution after `k` steps. -/
noncomputable def pw : ℕ → Kernel S S
  | 0 => Kernel.id
  | k + 1 => pw k ∘ₖ Q

instance pw_markov (k : ℕ) : IsMarkovKernel (pw Q k) := by
  induction k with
  | zero => unfold pw; infer_instance
  | succ k ih => unfold pw; infer_instance

theorem pw_add (k l : ℕ) : pw Q (k + l) = pw Q l ∘ₖ pw Q k := by
  induction k with
  | zero => rw [Nat.zero_add, pw, Kernel.comp_id]
  | succ k ih => rw [Nat.add_right_comm, pw, ih, pw, Kernel.comp_assoc]

theorem lintegral_pw_add (k l : ℕ) (x : S) {f : S → ℝ≥0∞} (hf : Measurable f) :
    ∫⁻ y, f y ∂pw Q (k + l) x = ∫⁻ y, ∫⁻ z, f z ∂pw Q l y ∂pw Q k x := by
  rw [pw_add, Kernel.lintegral_comp _ _ _ hf]

theorem lintegral_pw_zero (x : S) {f : S → ℝ≥0∞} (hf : Measurable f) : ∫⁻ y, f y ∂pw Q 0 x = f x := by
  rw [pw, Kernel.id_apply, lintegral_dirac' _ hf]

theorem lintegral_pw_succ (k : ℕ) (x : S) {f : S → ℝ≥0∞} (hf : Measurable f) :
    ∫⁻ y, f y ∂pw Q (k + 1) x = ∫⁻ y, ∫⁻ z, f z ∂pw Q k y ∂Q x := by
  rw [pw, Kernel.lintegral_comp _ _ _ hf]

theorem integrable_of_le {μ : Measure S} [IsFiniteMeasure μ] {g : S → ℝ} (hg : Measurable g) {M : ℝ}
    (hM : ∀ x, |g x| ≤ M) : Integrable g μ :=
  Integrable.of_bound hg.aestronglyMeasurable M (Eventually.of_forall hM)

theorem abs_integral_le {μ : Measure S} [IsProbabilityMeasure μ] {g : S → ℝ} {M : ℝ} (hM : ∀ x, |g x| ≤ M) :
    |∫ x, g x ∂μ| ≤ M := by
  have := norm_integral_le_of_norm_le_const (μ := μ) (f := g) (C := M) (Eventually.of_forall hM)
  rwa [probReal_univ, mul_one] at this

theorem integral_pw_add (k l : ℕ) (x : S) {g : S → ℝ} (hg : Measurable g) {M : ℝ} (hM : ∀ x, |g x| ≤ M) :
    ∫ y, g y ∂pw Q (k + l) x = ∫ y, ∫ z, g z ∂pw Q l y ∂pw Q k x := by
  rw [pw_add, Kernel.integral_comp]
  exact integrable_of_le hg hM

theorem measurable_integral_pw (k : ℕ) {g : S → ℝ} (hg : Measurable g) : Measurable fun y => ∫ z, g z ∂pw Q k y :=
  (hg.stronglyMeasurable.integral_kernel (κ := pw Q k)).measurable

/-- The expectation of every bounded function converges to that under `p`. -/
def Erg (p : Measure S) : Prop :=
  ∀ f : S → ℝ≥0∞, Measurable f → ∀ M : ℝ≥0∞, M ≠ ∞ → (∀ x, f x ≤ M) → ∀ x,
    Tendsto (fun k => ∫⁻ y, f y ∂pw Q k x) atTop (𝓝 (∫⁻ y, f y ∂p))

/-- The distance of the expectation after `k` steps to the limit. -/
noncomputable def dev (p : Measure S) (g : S → ℝ) (k : ℕ) (y : S) : ℝ≥0∞ := ‖∫ z, g z ∂pw Q k y - ∫ z, g z ∂p‖ₑ

variable {Q} {p : Measure S} [IsProbabilityMeasure p]

theorem dev_measurable {g : S → ℝ} (hg : Measurable g) (k : ℕ) : Measurable (dev Q p g k) :=
  ((measurable_integral_pw Q k hg).sub_const _).enorm

theorem dev_le {g : S → ℝ} {M : ℝ} (hM : ∀ x, |g x| ≤ M) (k : ℕ) (y : S) :
    dev Q p g k y ≤ ENNReal.ofReal (2 * M) := by
  rw [dev, Real.enorm_eq_ofReal_abs]
  refine ENNReal.ofReal_le_ofReal ?_
  have h1 := abs_integral_le (μ := pw Q k y) hM
  have h2 := abs_integral_le (μ := p) hM
  have h3 := abs_sub (∫ z, g z ∂pw Q k y) (∫ z, g z ∂p)
  linarith

theorem Erg.real (h : Erg Q p) {g : S → ℝ} (hg : Measurable g) {M : ℝ} (hM : ∀ x, |g x| ≤ M) (x : S) :
    Tendsto (fun k => ∫ y, g y ∂pw Q k x) atTop (𝓝 (∫ y, g y ∂p)) := by
  have e : ∀ (μ : Measure S) [IsProbabilityMeasure μ], ∫ y, g y ∂μ =
      (∫⁻ y, ENNReal.ofReal (g y + M) ∂μ).toReal - M := fun μ _ => by
    rw [← integral_eq_lintegral_of_nonneg_ae (Eventually.of_forall fun y => ?_)
      (hg.add_const _).aestronglyMeasurable, integral_add (integrable_of_le hg hM) (integrable_const _)]
    · simp
    · show 0 ≤ g y + M
      have := abs_le.1 (hM y)
      linarith
  simp only [e]
  refine Tendsto.sub_const ((ENNReal.tendsto_toReal ?_).comp (h _ (hg.add_const _).ennreal_ofReal
    (ENNReal.ofReal (2 * M)) ENNReal.ofReal_ne_top (fun y => ENNReal.ofReal_le_ofReal ?_) x)) _
  · refine ne_top_of_le_ne_top (b := ENNReal.ofReal (2 * M)) ENNReal.ofReal_ne_top ?_
    refine (lintegral_mono fun y => ENNReal.ofReal_le_ofReal (q := 2 * M) ?_).trans ?_
    · have := abs_le.1 (hM y)
      linarith
    · simp
  · have := abs_le.1 (hM y)
    linarith

theorem dev_step {g : S → ℝ} (hg : Measurable g) {M : ℝ} (hM : ∀ x, |g x| ≤ M) (j K : ℕ) (y : S) :
    dev Q p g (j + K) y ≤ ∫⁻ z, dev Q p g K z ∂pw Q j y := by
  rw [dev, integral_pw_add Q j K y hg hM]
  have hi : Integrable (fun z => ∫ w, g w ∂pw Q K z) (pw Q j y) :=
    integrable_of_le (measurable_integral_pw Q K hg) fun z => abs_integral_le hM
  have : ∫ z, (∫ w, g w ∂pw Q K z) ∂pw Q j y - ∫ z, g z ∂p =
      ∫ z, ((∫ w, g w ∂pw Q K z) - ∫ z, g z ∂p) ∂pw Q j y := by
    rw [integral_sub hi (integrable_const _)]
    simp
  rw [this]
  exact enorm_integral_le_lintegral_enorm _

/-- Along the chain, the distance of expectations to their limit vanishes uniformly. -/
theorem Erg.uniform (h : Erg Q p) {g : S → ℝ} (hg : Measurable g) {M : ℝ} (hM : ∀ x, |g x| ≤ M) (x : S) {e : ℝ≥0∞}
    (he : 0 < e) : ∃ N, ∀ k, N ≤ k → ∀ l, ∫⁻ y, dev Q p g k y ∂pw Q l x ≤ e := by
  have h0 : ∀ y, Tendsto (fun k => dev Q p g k y) atTop (𝓝 0) := fun y => by
    have h1 := (h.real hg hM y).sub_const (∫ y, g y ∂p)
    rw [sub_self] at h1
    have h2 := (continuous_enorm (E := ℝ)).continuousAt.tendsto.comp h1
    rwa [enorm_zero] at h2
  have h1 : Tendsto (fun k => ∫⁻ y, dev Q p g k y ∂p) atTop (𝓝 0) := by
    have := tendsto_lintegral_of_dominated_convergence (μ := p) (F := fun k => dev Q p g k) (f := fun _ => 0)
      (fun _ => ENNReal.ofReal (2 * M)) (fun k => dev_measurable hg k)
      (fun k => Eventually.of_forall fun y => dev_le hM k y) (by rw [lintegral_const, measure_univ, mul_one]; exact ENNReal.ofReal_ne_top) (Eventually.of_forall h0)
    simpa using this
  obtain ⟨K, hK⟩ := (h1.eventually_lt_const he).exists
  have h2 := h (dev Q p g K) (dev_measurable hg K) _ ENNReal.ofReal_ne_top (fun y => dev_le hM K y) x
  obtain ⟨N, hN⟩ := eventually_atTop.1 (h2.eventually_lt_const hK)
  refine ⟨K + N, fun k hk l => ?_⟩
  obtain ⟨j, rfl⟩ : ∃ j, k = j + K := ⟨k - K, by omega⟩
  calc ∫⁻ y, dev Q p g (j + K) y ∂pw Q l x ≤ ∫⁻ y, ∫⁻ z, dev Q p g K z ∂pw Q j y ∂pw Q l x :=
        lintegral_mono fun y => dev_step hg hM j K y
    _ = ∫⁻ y, dev Q p g K y ∂pw Q (l + j) x := (lintegral_pw_add Q l j x (dev_measurable hg K)).symm
    _ ≤ e := (hN (l + j) (by omega)).le

end Gpcm.Markov
