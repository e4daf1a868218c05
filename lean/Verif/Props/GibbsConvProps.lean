import Verif.Props.GibbsProps
import Verif.Lemmas.GibbsConv
import Mathlib.Analysis.Asymptotics.SpecificAsymptotics

/-!
# Property C116: the Gibbs sampler converges

`chainExpect C m ts f k x` is the expectation of `f` after `k` sweeps of `gibbs_sample` started at `x` (see C96).
-/

set_option linter.unusedSectionVars false

open Matrix Real MeasureTheory ENNReal Filter Topology

namespace Gpcm

variable {ι κ : Type} [Fintype ι] [DecidableEq ι] [Fintype κ] [DecidableEq κ]
variable (C : Chols ι κ) {m : Inst ι κ}

/-- **C116** From every starting point, the expectation of every bounded function after `k` sweeps converges to the
expectation under the structured posterior. -/
theorem c116_converges (h : m.Valid) (d : List (ℝ × ℝ)) {f : (ι → ℝ) × (κ → ℝ) → ℝ≥0∞} (hf : Measurable f)
    {M : ℝ≥0∞} (hM : M ≠ ∞) (hfM : ∀ x, f x ≤ M) (x : (ι → ℝ) × (κ → ℝ)) :
    Tendsto (fun k => chainExpect C m (constructDataTerms C m d) f k x) atTop
      (𝓝 ((∫⁻ x', joint m d x' * f x' ∂(volume.prod volume)) / ∫⁻ x', joint m d x' ∂(volume.prod volume))) := by
  obtain ⟨a, b, c, e⟩ := joint_hyps h d
  exact gibbsOp_limit (measurable_joint h d) a b c e (fun _ => ofReal_exp_ne_zero _) (joint_finite h d).2
    (F := chainExpect C m (constructDataTerms C m d) f) hf (chainExpect_succ C h d f) hM hfM x

/-- **C116** The distribution of the state converges: from every starting point, the probability of every event after
`k` sweeps converges to its probability under the structured posterior. -/
theorem c116_events (h : m.Valid) (d : List (ℝ × ℝ)) {A : Set ((ι → ℝ) × (κ → ℝ))} (hA : MeasurableSet A)
    (x : (ι → ℝ) × (κ → ℝ)) :
    Tendsto (fun k => chainExpect C m (constructDataTerms C m d) (A.indicator 1) k x) atTop
      (𝓝 ((∫⁻ x' in A, joint m d x' ∂(volume.prod volume)) / ∫⁻ x', joint m d x' ∂(volume.prod volume))) := by
  have := c116_converges C h d (f := A.indicator 1) (measurable_one.indicator hA) one_ne_top (fun x' => by
    by_cases hx : x' ∈ A
    · rw [Set.indicator_of_mem hx]; rfl
    · rw [Set.indicator_of_notMem hx]; exact zero_le) x
  rw [← lintegral_indicator hA]
  convert this using 3
  refine lintegral_congr fun x' => ?_
  by_cases hx : x' ∈ A
  · rw [Set.indicator_of_mem hx, Set.indicator_of_mem hx, Pi.one_apply, mul_one]
  · rw [Set.indicator_of_notMem hx, Set.indicator_of_notMem hx, mul_zero]

/-- **C116** Averages over the samples are asymptotically unbiased: the expectation of the average of a bounded function
over the first `n` samples converges to its expectation under the structured posterior. -/
theorem c116_averages (h : m.Valid) (d : List (ℝ × ℝ)) {f : (ι → ℝ) × (κ → ℝ) → ℝ≥0∞} (hf : Measurable f)
    {M : ℝ≥0∞} (hM : M ≠ ∞) (hfM : ∀ x, f x ≤ M) (x : (ι → ℝ) × (κ → ℝ)) :
    Tendsto (fun n : ℕ => (n : ℝ)⁻¹ * ∑ i ∈ Finset.range n,
      (chainExpect C m (constructDataTerms C m d) f (i + 1) x).toReal) atTop
      (𝓝 ((∫⁻ x', joint m d x' * f x' ∂(volume.prod volume)) / ∫⁻ x', joint m d x' ∂(volume.prod volume)).toReal) := by
  refine Filter.Tendsto.cesaro ?_
  refine (ENNReal.tendsto_toReal ?_).comp ((tendsto_add_atTop_iff_nat 1).2 (c116_converges C h d hf hM hfM x))
  refine (ENNReal.div_lt_top ?_ (joint_finite h d).1).ne
  refine ne_top_of_le_ne_top (ENNReal.mul_ne_top (joint_finite h d).2 hM) ?_
  rw [← lintegral_mul_const _ (measurable_joint h d)]
  exact lintegral_mono fun x' => mul_le_mul_right (hfM x') _

/-- A concrete case: the probability that the first inducing variable of the filter is positive. -/
example (D : Chols (Fin 1) (Fin 1)) :
    Tendsto (fun k => chainExpect D exInst (constructDataTerms D exInst [(0, 1), (2, 3)])
      (Set.indicator {x : (Fin 1 → ℝ) × (Fin 1 → ℝ) | 0 < x.1 0} 1) k (fun _ => 100, fun _ => -100)) atTop
      (𝓝 ((∫⁻ x in {x : (Fin 1 → ℝ) × (Fin 1 → ℝ) | 0 < x.1 0}, joint exInst [(0, 1), (2, 3)] x ∂(volume.prod volume)) /
        ∫⁻ x, joint exInst [(0, 1), (2, 3)] x ∂(volume.prod volume))) :=
  c116_events D exInst_valid _ (measurableSet_lt measurable_const ((measurable_pi_apply 0).comp measurable_fst)) _

end Gpcm
