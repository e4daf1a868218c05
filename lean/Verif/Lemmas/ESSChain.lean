import Verif.Lemmas.ESSNull
import Verif.Lemmas.MarkovRev
import Verif.Lemmas.MarkovLLN
import Verif.Spec.ESSLimit

/-!
# Elliptical slice sampling as a Markov chain

The samples that `ESS.sample` returns are the states of a Markov chain that is reversible with respect to the target weighted by
the probability that a pass succeeds.
-/

set_option linter.unusedSectionVars false

open MeasureTheory ProbabilityTheory Set Filter Topology
open scoped ENNReal

namespace Gpcm.Ess

variable {V : Type} [NormedAddCommGroup V] [NormedSpace ℝ V] [MeasurableSpace V] [BorelSpace V]
  [SecondCountableTopology V] {γ : Measure V} [IsProbabilityMeasure γ] {L : V → LL}

theorem lik_eq_zero {x : V} : lik L x = 0 ↔ logLik L x = ⊥ := by
  rw [lik_eq, EReal.exp_eq_zero_iff]

theorem finite_of_lik (h : LogLik L) {x : V} (hx : lik L x ≠ 0) : ∃ r : ℝ, L x = some (r : EReal) :=
  finite_of_ne_bot h.ne_top fun hb => hx (lik_eq_zero.2 hb)

/-- The distribution of the new state, restricted to the event that the pass succeeds. -/
noncomputable def hopM (γ : Measure V) (L : V → LL) (x : V) : Measure V :=
  ((passLaw γ).restrict {b | (outcome L x b).isSome}).map fun b => (outcome L x b).getD 0

theorem measurableSet_isSome (h : LogLik L) {x : V} {r : ℝ} (hx : L x = some (r : EReal)) :
    MeasurableSet {b : Block V | (outcome L x b).isSome} := by
  have := measurable_outcome h hx (measurable_const (a := (1 : ℝ≥0∞))) (measurableSet_singleton 1)
  refine this.congr (Set.ext fun b => ?_)
  simp only [mem_preimage, mem_singleton_iff, mem_setOf_eq]
  cases outcome L x b <;> simp

theorem measurable_getD (h : LogLik L) {x : V} {r : ℝ} (hx : L x = some (r : EReal)) :
    Measurable fun b : Block V => (outcome L x b).getD 0 := fun A hA => by
  have h1 := measurable_outcome h hx (measurable_one.indicator hA : Measurable (A.indicator (1 : V → ℝ≥0∞)))
    (measurableSet_singleton 1)
  have h2 : MeasurableSet ({b : Block V | (outcome L x b).isSome}ᶜ ∩ {_b | (0 : V) ∈ A}) :=
    (measurableSet_isSome h hx).compl.inter (MeasurableSet.const _)
  refine (h1.union h2).congr (Set.ext fun b => ?_)
  simp only [mem_preimage, mem_singleton_iff, mem_setOf_eq, mem_union, mem_inter_iff, mem_compl_iff]
  cases outcome L x b with
  | none => simp
  | some x' => by_cases hA' : x' ∈ A <;> simp [hA']

theorem lintegral_hopM (h : LogLik L) {x : V} {r : ℝ} (hx : L x = some (r : EReal)) {φ : V → ℝ≥0∞} (hφ : Measurable φ) :
    ∫⁻ y, φ y ∂hopM γ L x = hop γ L φ x := by
  unfold hopM hop
  rw [lintegral_map hφ (measurable_getD h hx), ← lintegral_indicator (measurableSet_isSome h hx)]
  refine lintegral_congr fun b => ?_
  unfold indicator
  simp only [mem_setOf_eq]
  cases outcome L x b <;> simp

theorem measurable_hop (h : LogLik L) {φ : V → ℝ≥0∞} (hφ : Measurable φ) :
    Measurable fun x => (lik L x)⁻¹ * (lik L x * (1 * hop γ L φ x)) :=
  h.measurable_lik.inv.mul (measurable_lik_hop h measurable_const hφ)

theorem hop_of_lik (h : LogLik L) {x : V} (hx : lik L x ≠ 0) (φ : V → ℝ≥0∞) :
    (lik L x)⁻¹ * (lik L x * (1 * hop γ L φ x)) = hop γ L φ x := by
  rw [← mul_assoc, ENNReal.inv_mul_cancel hx (h.lik_ne_top x), one_mul, one_mul]

/-- The transition probabilities of the chain of samples; states of likelihood zero move to `p`. -/
noncomputable def stepQ (γ : Measure V) [IsProbabilityMeasure γ] (h : LogLik L) (p : Measure V) : Kernel V V where
  toFun x := open Classical in if lik L x = 0 then p else (hop γ L (fun _ => 1) x)⁻¹ • hopM γ L x
  measurable' := by
    classical
    refine Measure.measurable_of_measurable_coe _ fun A hA => ?_
    have hA1 : Measurable (A.indicator (1 : V → ℝ≥0∞)) := measurable_one.indicator hA
    have e : (fun x => (if lik L x = 0 then p else (hop γ L (fun _ => 1) x)⁻¹ • hopM γ L x) A) = fun x =>
        if lik L x = 0 then p A else ((lik L x)⁻¹ * (lik L x * (1 * hop γ L (fun _ => 1) x)))⁻¹ *
          ((lik L x)⁻¹ * (lik L x * (1 * hop γ L (A.indicator 1) x))) := funext fun x => by
      by_cases hx : lik L x = 0
      · rw [if_pos hx, if_pos hx]
      · obtain ⟨r, hr⟩ := finite_of_lik h hx
        rw [if_neg hx, if_neg hx, hop_of_lik h hx, hop_of_lik h hx, Measure.smul_apply, smul_eq_mul, ← lintegral_hopM h hr hA1,
          lintegral_indicator_one hA]
    rw [e]
    exact Measurable.ite (h.measurable_lik (measurableSet_singleton 0)) measurable_const
      ((measurable_hop h measurable_const).inv.mul (measurable_hop h hA1))

theorem stepQ_zero (h : LogLik L) (p : Measure V) {x : V} (hx : lik L x = 0) : stepQ γ h p x = p := if_pos hx

theorem stepQ_pos (h : LogLik L) (p : Measure V) {x : V} (hx : lik L x ≠ 0) :
    stepQ γ h p x = (hop γ L (fun _ => 1) x)⁻¹ • hopM γ L x := if_neg hx

theorem lintegral_stepQ (h : LogLik L) (p : Measure V) {x : V} (hx : lik L x ≠ 0) {φ : V → ℝ≥0∞} (hφ : Measurable φ) :
    ∫⁻ y, φ y ∂stepQ γ h p x = (hop γ L (fun _ => 1) x)⁻¹ * hop γ L φ x := by
  obtain ⟨r, hr⟩ := finite_of_lik h hx
  rw [stepQ_pos h p hx, lintegral_smul_measure, lintegral_hopM h hr hφ, smul_eq_mul]

/-- The target weighted by the probability that a pass succeeds. -/
noncomputable def weighted (γ : Measure V) (L : V → LL) : Measure V :=
  γ.withDensity fun x => lik L x * (1 * hop γ L (fun _ => 1) x)

theorem lintegral_weighted (h : LogLik L) (f : V → ℝ≥0∞) :
    ∫⁻ x, f x ∂weighted γ L = ∫⁻ x, lik L x * (1 * hop γ L (fun _ => 1) x) * f x ∂γ := by
  unfold weighted
  rw [lintegral_withDensity_eq_lintegral_mul_non_measurable _ (measurable_lik_hop h measurable_const measurable_const)
    (Filter.Eventually.of_forall fun x => ?_)]
  · rfl
  · refine (ENNReal.mul_ne_top (h.lik_ne_top x) ?_).lt_top
    rw [one_mul]
    exact ne_top_of_le_ne_top ENNReal.one_ne_top (hop_le_one _ (fun _ => le_rfl) x)

section

variable [FiniteDimensional ℝ V] {μ : Measure V} [μ.IsAddHaarMeasure]

/-- From every state of positive likelihood, a pass succeeds with positive probability. -/
theorem hop_one_ne_zero (h1 : γ ≪ μ) (h2 : μ ≪ γ) (h : LogLik L) (h0 : target γ L univ ≠ 0) {x : V} (hx : lik L x ≠ 0) :
    hop γ L (fun _ => 1) x ≠ 0 := fun hz => by
  obtain ⟨r, hr⟩ := finite_of_lik h hx
  have := null_of_hop h1 h2 h hr measurable_const hz
  refine h0 ?_
  rw [← lintegral_one, lintegral_target h]
  refine zero_of_ae (this.mono fun y hy => ?_)
  rw [mul_one, lik_eq_zero]
  by_contra hb
  exact one_ne_zero (hy hb)

theorem weighted_le (h : LogLik L) : weighted γ L univ ≤ target γ L univ := by
  rw [← lintegral_one, ← lintegral_one, lintegral_weighted h, lintegral_target h]
  refine lintegral_mono fun x => ?_
  simp only [one_mul, mul_one]
  exact mul_le_of_le_one_right' (hop_le_one _ (fun _ => le_rfl) x)

theorem weighted_ne_zero (h1 : γ ≪ μ) (h2 : μ ≪ γ) (h : LogLik L) (h0 : target γ L univ ≠ 0) : weighted γ L univ ≠ 0 := fun hz => by
  rw [← lintegral_one, lintegral_weighted h] at hz
  have := ae_zero ((measurable_lik_hop h measurable_const measurable_const).mul measurable_const) hz
  refine h0 ?_
  rw [← lintegral_one, lintegral_target h]
  refine zero_of_ae (this.mono fun y hy => ?_)
  have hy : lik L y * (1 * hop γ L (fun _ => 1) y) * 1 = 0 := hy
  simp only [one_mul, mul_one, mul_eq_zero] at hy ⊢
  rcases hy with hy | hy
  · exact hy
  · by_contra hl
    exact hop_one_ne_zero h1 h2 h h0 hl hy

theorem normalised_prob {ν : Measure V} (h0 : ν univ ≠ 0) (ht : ν univ ≠ ∞) : IsProbabilityMeasure (normalised ν) :=
  ⟨by rw [normalised, Measure.smul_apply, smul_eq_mul, ENNReal.inv_mul_cancel h0 ht]⟩

theorem stepQ_markov (h1 : γ ≪ μ) (h2 : μ ≪ γ) (h : LogLik L) (h0 : target γ L univ ≠ 0) (p : Measure V) [IsProbabilityMeasure p] :
    IsMarkovKernel (stepQ γ h p) := ⟨fun x => by
  by_cases hx : lik L x = 0
  · rw [stepQ_zero h p hx]
    infer_instance
  · constructor
    rw [← lintegral_one, lintegral_stepQ h p hx measurable_const, ENNReal.inv_mul_cancel (hop_one_ne_zero h1 h2 h h0 hx)
      (ne_top_of_le_ne_top ENNReal.one_ne_top (hop_le_one _ (fun _ => le_rfl) x))]⟩

theorem null_weighted (h1 : γ ≪ μ) (h2 : μ ≪ γ) (h : LogLik L) (h0 : target γ L univ ≠ 0) {A : Set V} (hA : MeasurableSet A) :
    weighted γ L A = 0 ↔ ∀ᵐ y ∂γ, logLik L y ≠ ⊥ → A.indicator (1 : V → ℝ≥0∞) y = 0 := by
  have hA1 : Measurable (A.indicator (1 : V → ℝ≥0∞)) := measurable_one.indicator hA
  rw [← lintegral_indicator_one hA, lintegral_weighted h]
  constructor
  · intro hz
    refine (ae_zero ((measurable_lik_hop h measurable_const measurable_const).mul hA1) hz).mono fun y hy hb => ?_
    have hl : lik L y ≠ 0 := fun hl => hb (lik_eq_zero.1 hl)
    have hy : lik L y * (1 * hop γ L (fun _ => 1) y) * A.indicator (1 : V → ℝ≥0∞) y = 0 := hy
    rw [mul_eq_zero, mul_eq_zero, one_mul] at hy
    rcases hy with (hy | hy) | hy
    · exact absurd hy hl
    · exact absurd hy (hop_one_ne_zero h1 h2 h h0 hl)
    · exact hy
  · intro hz
    refine zero_of_ae (hz.mono fun y hy => ?_)
    by_cases hb : logLik L y = ⊥
    · rw [lik_eq_zero.2 hb, zero_mul, zero_mul]
    · rw [hy hb, mul_zero]

theorem normalised_null {ν : Measure V} (h0 : ν univ ≠ 0) (ht : ν univ ≠ ∞) {A : Set V} : normalised ν A = 0 ↔ ν A = 0 := by
  rw [normalised, Measure.smul_apply, smul_eq_mul, mul_eq_zero]
  exact or_iff_right (ENNReal.inv_ne_zero.2 ht)

theorem stepQ_null (h1 : γ ≪ μ) (h2 : μ ≪ γ) (h : LogLik L) (h0 : target γ L univ ≠ 0) (p : Measure V) {A : Set V}
    (hA : MeasurableSet A) {x : V} (hx : lik L x ≠ 0) : stepQ γ h p x A = 0 ↔ weighted γ L A = 0 := by
  have hA1 : Measurable (A.indicator (1 : V → ℝ≥0∞)) := measurable_one.indicator hA
  obtain ⟨r, hr⟩ := finite_of_lik h hx
  rw [null_weighted h1 h2 h h0 hA, ← lintegral_indicator_one (μ := stepQ γ h p x) hA, lintegral_stepQ h p hx hA1, mul_eq_zero,
    or_iff_right (ENNReal.inv_ne_zero.2 (ne_top_of_le_ne_top ENNReal.one_ne_top (hop_le_one _ (fun _ => le_rfl) x)))]
  constructor
  · exact null_of_hop h1 h2 h hr hA1
  · intro hz
    have hm : MeasurableSet {y | lik L y = 0} := h.measurable_lik (measurableSet_singleton 0)
    rw [hop_congr (ψ := {y | lik L y = 0}ᶜ.indicator (A.indicator 1)) hr fun y hb => ?_]
    · refine hop_null h1 h2 h hr (hA1.indicator hm.compl) (hz.mono fun y hy => ?_)
      by_cases hl : lik L y = 0
      · exact indicator_of_notMem (by exact fun hn : y ∈ {y | lik L y = 0}ᶜ => hn hl) _
      · rw [indicator_of_mem (by exact hl)]
        exact hy fun hb => hl (lik_eq_zero.2 hb)
    · exact (indicator_of_mem (by exact fun hl => hb (lik_eq_zero.1 hl)) _).symm

/-- The chain of samples converges. -/
theorem stepQ_erg (hγ : ∀ α, (γ.prod γ).map (ContinuousLinearMap.rotation α) = γ.prod γ) (h1 : γ ≪ μ) (h2 : μ ≪ γ) (h : LogLik L)
    (h0 : target γ L univ ≠ 0) (ht : target γ L univ ≠ ∞) {p : Measure V} [IsProbabilityMeasure p] [IsMarkovKernel (stepQ γ h p)]
    (hp : p = normalised (weighted γ L)) : Markov.Erg (stepQ γ h p) p := by
  have hw0 := weighted_ne_zero h1 h2 h h0
  have hwt := ne_top_of_le_ne_top ht (weighted_le h)
  have hpA : ∀ {A : Set V}, p A = 0 ↔ weighted γ L A = 0 := fun {A} => by rw [hp, normalised_null hw0 hwt]
  refine Markov.erg_of_reversible (fun f g hf hg => ?_) (fun x => ?_) fun x => ?_
  · have e : ∀ f g : V → ℝ≥0∞, Measurable f → ∫⁻ x, g x * ∫⁻ y, f y ∂stepQ γ h p x ∂p =
        (weighted γ L univ)⁻¹ * ∫⁻ x, lik L x * (g x * hop γ L f x) ∂γ := fun f g hf => by
      have e1 : ∀ F : V → ℝ≥0∞, ∫⁻ x, F x ∂p = (weighted γ L univ)⁻¹ * ∫⁻ x, F x ∂weighted γ L := fun F => by
        rw [hp, normalised, lintegral_smul_measure, smul_eq_mul]
      rw [e1, lintegral_weighted h]
      congr 1
      refine lintegral_congr fun x => ?_
      by_cases hx : lik L x = 0
      · rw [hx, zero_mul, zero_mul, zero_mul]
      · rw [lintegral_stepQ h p hx hf, one_mul]
        have := ENNReal.mul_inv_cancel (hop_one_ne_zero h1 h2 h h0 hx)
          (ne_top_of_le_ne_top ENNReal.one_ne_top (hop_le_one (γ := γ) (L := L) _ (fun _ => le_rfl) x))
        calc lik L x * hop γ L (fun _ => 1) x * (g x * ((hop γ L (fun _ => 1) x)⁻¹ * hop γ L f x))
            = lik L x * (g x * ((hop γ L (fun _ => 1) x * (hop γ L (fun _ => 1) x)⁻¹) * hop γ L f x)) := by ring
          _ = _ := by rw [this, one_mul]
    rw [e f g hf, e g f hg, hop_symm hγ h hg hf]
  · by_cases hx : lik L x = 0
    · rw [stepQ_zero h p hx]
    · exact Measure.AbsolutelyContinuous.mk fun A hA hz => (stepQ_null h1 h2 h h0 p hA hx).2 (hpA.1 hz)
  · by_cases hx : lik L x = 0
    · rw [stepQ_zero h p hx]
    · exact Measure.AbsolutelyContinuous.mk fun A hA hz => hpA.2 ((stepQ_null h1 h2 h h0 p hA hx).1 hz)

end

/-- The samples are the states of the chain. -/
theorem reach_traj (h : LogLik L) (p : Measure V) [IsMarkovKernel (stepQ γ h p)] (n : ℕ) : ∀ {G : List V → ℝ≥0∞},
    (Measurable fun l : ℕ → V => G ((List.range n).map l)) → ∀ {x : V}, lik L x ≠ 0 →
    ⨆ f, reach γ L f n G x = ∫⁻ l, G ((List.range n).map l) ∂Markov.traj (stepQ γ h p) n x := by
  induction n with
  | zero =>
    intro G hG x hx
    simp [reach_zero]
  | succ n ih =>
    intro G hG x hx
    obtain ⟨r, hr⟩ := finite_of_lik h hx
    rw [reach_iSup h n hG hr, Markov.lintegral_traj_succ (stepQ γ h p) n x hG]
    simp only [range_cons]
    have hG1 : Measurable fun q : V × (ℕ → V) => G (q.1 :: (List.range n).map q.2) := by
      simp only [← range_cons]
      exact hG.comp Markov.measurable_cons
    have hm : Measurable fun y => ∫⁻ l, G (y :: (List.range n).map l) ∂Markov.traj (stepQ γ h p) n y :=
      Measurable.lintegral_kernel_prod_right' (κ := Markov.traj (stepQ γ h p) n) hG1
    rw [lintegral_stepQ h p hx hm]
    congr 1
    refine hop_congr hr fun y hb => ?_
    exact ih (G := fun xs => G (y :: xs)) (hG1.comp (f := fun l : ℕ → V => (y, l)) (by fun_prop))
      fun hl => hb (lik_eq_zero.1 hl)

section

variable {Ω : Type} [MeasurableSpace Ω] {P : Measure Ω} {T : Ω → Tape V}

theorem expectedAll_traj (hT : RandomTape γ P T) (h : LogLik L) (p : Measure V) [IsMarkovKernel (stepQ γ h p)] {s : State V}
    (hs : s.logLikX = L s.x) (hx : lik L s.x ≠ 0) (n : ℕ) {G : List V → ℝ≥0∞}
    (hG : Measurable fun l : ℕ → V => G ((List.range n).map l)) :
    expectedAll P T L n G s = ∫⁻ l, G ((List.range n).map l) ∂Markov.traj (stepQ γ h p) n s.x := by
  rw [← reach_traj h p n hG hx]
  unfold expectedAll
  simp only [lintegral_sample hT h hs (fun hb => hx (lik_eq_zero.2 hb)) _ n hG]

theorem favoured_eq (hT : RandomTape γ P T) (h : LogLik L) : favoured P T L γ = weighted γ L := by
  unfold favoured weighted target
  have hm := measurable_hop (γ := γ) h (measurable_const (a := (1 : ℝ≥0∞)))
  rw [withDensity_congr_ae (g := fun x => (lik L x)⁻¹ * (lik L x * (1 * hop γ L (fun _ => 1) x))), ←
    withDensity_mul _ h.measurable_lik hm]
  · congr 1
    refine funext fun x => ?_
    simp only [Pi.mul_apply]
    by_cases hx : lik L x = 0
    · rw [hx, zero_mul, zero_mul]
    · rw [hop_of_lik h hx, one_mul]
  · have : ∀ᵐ x ∂γ.withDensity (lik L), lik L x ≠ 0 := (ae_withDensity_iff h.measurable_lik).2 (Eventually.of_forall fun x hx => hx)
    filter_upwards [this] with x hx
    obtain ⟨r, hr⟩ := finite_of_lik h hx
    rw [hop_of_lik h hx]
    exact success_eq hT h (s := { x := x, logLikX := L x }) rfl hr

end

end Gpcm.Ess
