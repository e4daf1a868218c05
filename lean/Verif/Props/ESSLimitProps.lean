import Verif.Lemmas.ESSChain
import Verif.Lemmas.ESSFail

/-!
# Property C166: what long runs of elliptical slice sampling sample

`expectedAll P T L num G s` is the expected value of `G` at the list of the `num` samples that `ESS.sample` returns from the state
`s`. `normalised μ` is `μ` scaled to a probability measure, `target γ L` is prior times likelihood, and `favoured P T L γ` is the
target weighted by the probability that a pass of `_sample` succeeds.
-/

set_option linter.unusedSectionVars false

open MeasureTheory ProbabilityTheory Set Filter Topology
open scoped ENNReal

namespace Gpcm.Ess

variable {V : Type} [NormedAddCommGroup V] [NormedSpace ℝ V] [MeasurableSpace V] [BorelSpace V]
  [SecondCountableTopology V] [CompleteSpace V] [FiniteDimensional ℝ V] {γ : Measure V} [IsGaussian γ] {L : V → LL}
  {Ω : Type} [MeasurableSpace Ω] {P : Measure Ω} {T : Ω → Tape V} {μ : Measure V} [μ.IsAddHaarMeasure] {s : State V}

theorem favoured_prob (h1 : γ ≪ μ) (h2 : μ ≪ γ) (h : LogLik L) (h0 : target γ L univ ≠ 0) (ht : target γ L univ ≠ ∞)
    (hT : RandomTape γ P T) : IsProbabilityMeasure (normalised (favoured P T L γ)) := by
  rw [favoured_eq hT h]
  exact normalised_prob (weighted_ne_zero h1 h2 h h0) (ne_top_of_le_ne_top ht (weighted_le h))

/-- **C166** `sample` returns with probability one, from every state of positive likelihood, if the prior has a positive density
(it has the same null sets as a Haar measure, like Lebesgue measure) and the target has positive mass. -/
theorem c166_returns (h1 : γ ≪ μ) (h2 : μ ≪ γ) (h : LogLik L) (h0 : target γ L univ ≠ 0) (hT : RandomTape γ P T)
    (hs : s.logLikX = L s.x) (hx : lik L s.x ≠ 0) (num : ℕ) : expectedAll P T L num (fun _ => 1) s = 1 := by
  have := stepQ_markov h1 h2 h h0 γ
  rw [expectedAll_traj hT h γ hs hx num measurable_const, lintegral_const, measure_univ, mul_one]

/-- **C166** What is true: the expectation of every bounded function of the last sample converges to its expectation under the
target weighted by the probability that a pass succeeds, from every state of positive likelihood. The full statement says that the
limit is the expectation under the target itself, which is false (`c166_false`) because passes can fail. -/
theorem c166_limit_partial (hγ : ∫ x, x ∂γ = 0) (h1 : γ ≪ μ) (h2 : μ ≪ γ) (h : LogLik L) (h0 : target γ L univ ≠ 0)
    (ht : target γ L univ ≠ ∞) (hT : RandomTape γ P T) (hs : s.logLikX = L s.x) (hx : lik L s.x ≠ 0) {φ : V → ℝ≥0∞}
    (hφ : Measurable φ) {M : ℝ≥0∞} (hM : M ≠ ∞) (hφM : ∀ x, φ x ≤ M) :
    Tendsto (fun num => expectedAll P T L num (fun xs => xs.getLast?.elim 0 φ) s) atTop
      (𝓝 (∫⁻ x, φ x ∂normalised (favoured P T L γ))) := by
  obtain ⟨p, hp⟩ : ∃ p, p = normalised (weighted γ L) := ⟨_, rfl⟩
  have hpp : IsProbabilityMeasure p := by
    rw [hp]
    exact normalised_prob (weighted_ne_zero h1 h2 h h0) (ne_top_of_le_ne_top ht (weighted_le h))
  have := stepQ_markov h1 h2 h h0 p
  have he := stepQ_erg (IsGaussian.map_rotation_eq_self hγ) h1 h2 h h0 ht hp
  rw [favoured_eq hT h, ← hp]
  refine (he φ hφ M hM hφM s.x).congr' ((eventually_ge_atTop 1).mono fun num hn => ?_)
  obtain ⟨n, rfl⟩ : ∃ n, num = n + 1 := ⟨num - 1, by omega⟩
  beta_reduce
  have e : ∀ l : ℕ → V, ((List.range (n + 1)).map l).getLast?.elim 0 φ = φ (l n) := fun l => by
    rw [List.range_succ, List.map_append, List.map_singleton, List.getLast?_concat]
    rfl
  rw [expectedAll_traj hT h p hs hx (n + 1) (G := fun xs => xs.getLast?.elim 0 φ) (by
    simp only [e]
    exact hφ.comp (measurable_pi_apply n))]
  simp only [e]
  exact (Markov.lintegral_traj_eval _ (Nat.lt_succ_self n) s.x hφ).symm

/-- **C166** What is true: averages over all samples are consistent for the weighted target. The mean squared difference between
the average of a bounded function over the samples and its expectation vanishes. -/
theorem c166_average_partial (hγ : ∫ x, x ∂γ = 0) (h1 : γ ≪ μ) (h2 : μ ≪ γ) (h : LogLik L) (h0 : target γ L univ ≠ 0)
    (ht : target γ L univ ≠ ∞) (hT : RandomTape γ P T) (hs : s.logLikX = L s.x) (hx : lik L s.x ≠ 0) {g : V → ℝ}
    (hg : Measurable g) {M : ℝ} (hM : ∀ x, |g x| ≤ M) :
    Tendsto (fun num : ℕ => expectedAll P T L num (fun xs =>
        ENNReal.ofReal (((xs.map g).sum / num - ∫ x, g x ∂normalised (favoured P T L γ)) ^ 2)) s) atTop (𝓝 0) := by
  obtain ⟨p, hp⟩ : ∃ p, p = normalised (weighted γ L) := ⟨_, rfl⟩
  have hpp : IsProbabilityMeasure p := by
    rw [hp]
    exact normalised_prob (weighted_ne_zero h1 h2 h h0) (ne_top_of_le_ne_top ht (weighted_le h))
  have := stepQ_markov h1 h2 h h0 p
  have he := stepQ_erg (IsGaussian.map_rotation_eq_self hγ) h1 h2 h h0 ht hp
  rw [favoured_eq hT h, ← hp]
  refine (he.lln_sq hg hM s.x).congr fun num => ?_
  have e : ∀ l : ℕ → V, (((List.range num).map l).map g).sum / num = (num : ℝ)⁻¹ * ∑ i ∈ Finset.range num, g (l i) := fun l => by
    rw [List.map_map, div_eq_inv_mul, Finset.sum_range, ← List.sum_ofFn, List.ofFn_eq_map, ← List.map_coe_finRange_eq_range,
      List.map_map]
    rfl
  rw [expectedAll_traj hT h p hs hx num (G := fun xs => ENNReal.ofReal (((xs.map g).sum / num - ∫ x, g x ∂p) ^ 2)) (by
    simp only [e]
    exact ((((Markov.measurable_sum_seq hg num).const_mul _).sub_const _).pow_const 2).ennreal_ofReal)]
  simp only [e]

/-- **C166** How far the limit can be from the target: if passes from all states of positive likelihood succeed with probability at
least `c`, then expectations under the two agree up to the factor `c`. -/
theorem c166_near_partial (h : LogLik L) (h0 : target γ L univ ≠ 0) (ht : target γ L univ ≠ ∞) (hT : RandomTape γ P T) {c : ℝ≥0∞}
    (hc : ∀ x, lik L x ≠ 0 → c ≤ success P T L { x := x, logLikX := L x }) (φ : V → ℝ≥0∞) :
    c * ∫⁻ x, φ x ∂normalised (target γ L) ≤ ∫⁻ x, φ x ∂normalised (favoured P T L γ) ∧
      c * ∫⁻ x, φ x ∂normalised (favoured P T L γ) ≤ ∫⁻ x, φ x ∂normalised (target γ L) := by
  have hle : ∀ φ : V → ℝ≥0∞, ∫⁻ x, φ x ∂weighted γ L ≤ ∫⁻ x, φ x ∂target γ L := fun φ => by
    rw [lintegral_weighted h, lintegral_target h]
    refine lintegral_mono fun x => mul_le_mul_left ?_ _
    rw [one_mul]
    exact mul_le_of_le_one_right' (hop_le_one _ (fun _ => le_rfl) x)
  have hge : ∀ φ : V → ℝ≥0∞, c * ∫⁻ x, φ x ∂target γ L ≤ ∫⁻ x, φ x ∂weighted γ L := fun φ => by
    rw [lintegral_weighted h, lintegral_target h]
    by_cases hct : c = ∞
    · have : ∀ x, lik L x = 0 := fun x => by
        by_contra hx
        obtain ⟨r, hr⟩ := finite_of_lik h hx
        have := hc x hx
        rw [success_eq hT h (s := { x := x, logLikX := L x }) rfl hr, hct] at this
        exact ENNReal.one_ne_top (top_le_iff.1 (this.trans (hop_le_one _ (fun _ => le_rfl) x)))
      simp [this]
    rw [← lintegral_const_mul' _ _ hct]
    refine lintegral_mono fun x => ?_
    by_cases hx : lik L x = 0
    · simp [hx]
    · obtain ⟨r, hr⟩ := finite_of_lik h hx
      have := hc x hx
      rw [success_eq hT h (s := { x := x, logLikX := L x }) rfl hr] at this
      calc c * (lik L x * φ x) = lik L x * c * φ x := by ring
        _ ≤ _ := by
          rw [one_mul]
          gcongr
  rw [favoured_eq hT h]
  simp only [normalised, lintegral_smul_measure, smul_eq_mul]
  have hu1 := hle fun _ => 1
  have hu2 := hge fun _ => 1
  rw [lintegral_one, lintegral_one] at hu1 hu2
  constructor
  · calc c * ((target γ L univ)⁻¹ * ∫⁻ x, φ x ∂target γ L) = (target γ L univ)⁻¹ * (c * ∫⁻ x, φ x ∂target γ L) := by ring
      _ ≤ _ := mul_le_mul' (ENNReal.inv_le_inv.2 hu1) (hge φ)
  · by_cases hc0 : c = 0
    · rw [hc0, zero_mul]
      exact zero_le
    have hw0 : weighted γ L univ ≠ 0 := fun hz => by
      rw [hz, nonpos_iff_eq_zero, mul_eq_zero] at hu2
      exact hu2.elim hc0 h0
    have hwt := ne_top_of_le_ne_top ht hu1
    have hci : c * (weighted γ L univ)⁻¹ ≤ (target γ L univ)⁻¹ := by
      rw [← ENNReal.mul_le_mul_iff_right h0 ht, ENNReal.mul_inv_cancel h0 ht]
      calc target γ L univ * (c * (weighted γ L univ)⁻¹) = c * target γ L univ * (weighted γ L univ)⁻¹ := by ring
        _ ≤ weighted γ L univ * (weighted γ L univ)⁻¹ := by gcongr
        _ = 1 := ENNReal.mul_inv_cancel hw0 hwt
    calc c * ((weighted γ L univ)⁻¹ * ∫⁻ x, φ x ∂weighted γ L) = c * (weighted γ L univ)⁻¹ * ∫⁻ x, φ x ∂weighted γ L := by ring
      _ ≤ _ := mul_le_mul' hci (hle φ)

/-- **C166** If passes never fail, then the limit is the target. -/
theorem c166_exact_partial (hγ : ∫ x, x ∂γ = 0) (h1 : γ ≪ μ) (h2 : μ ≪ γ) (h : LogLik L) (h0 : target γ L univ ≠ 0)
    (ht : target γ L univ ≠ ∞) (hT : RandomTape γ P T) (hs : s.logLikX = L s.x) (hx : lik L s.x ≠ 0)
    (hc : ∀ x, lik L x ≠ 0 → success P T L { x := x, logLikX := L x } = 1) {φ : V → ℝ≥0∞} (hφ : Measurable φ) {M : ℝ≥0∞}
    (hM : M ≠ ∞) (hφM : ∀ x, φ x ≤ M) :
    Tendsto (fun num => expectedAll P T L num (fun xs => xs.getLast?.elim 0 φ) s) atTop
      (𝓝 (∫⁻ x, φ x ∂normalised (target γ L))) := by
  have h3 := c166_near_partial h h0 ht hT (c := 1) (fun x hx => (hc x hx).ge) φ
  rw [one_mul, one_mul] at h3
  rw [le_antisymm h3.1 h3.2]
  exact c166_limit_partial hγ h1 h2 h h0 ht hT hs hx hφ hM hφM

theorem gaussian_ac : gaussianReal 0 1 ≪ volume := gaussianReal_absolutelyContinuous 0 one_ne_zero

theorem ac_gaussian : volume ≪ gaussianReal 0 1 := gaussianReal_absolutelyContinuous' 0 one_ne_zero

theorem lik_stepLL_le (x : ℝ) : lik stepLL x ≤ 1 := by
  rw [lik_eq, logLik, ← EReal.exp_zero]
  refine EReal.exp_monotone ?_
  by_cases h0 : 0 ≤ x
  · simp [stepLL_of_nonneg h0]
  · simp [stepLL_of_neg (not_le.1 h0)]

theorem target_stepLL_ne_top : target (gaussianReal 0 1) stepLL univ ≠ ∞ := by
  rw [← lintegral_one, lintegral_target logLik_stepLL]
  refine ne_top_of_le_ne_top ENNReal.one_ne_top ((lintegral_mono (g := fun _ => 1) fun x => ?_).trans (by simp))
  rw [mul_one]
  exact lik_stepLL_le x

theorem target_stepLL_pos {A : Set ℝ} (hA : MeasurableSet A) (h : volume A ≠ 0) : target (gaussianReal 0 1) stepLL A ≠ 0 := fun hz => by
  rw [target, withDensity_apply _ hA, setLIntegral_eq_zero_iff hA logLik_stepLL.measurable_lik] at hz
  refine h (ac_gaussian ?_)
  have := ae_iff.1 hz
  refine measure_mono_null (fun x hx => ?_) this
  exact fun hn => lik_stepLL_ne_zero x (hn hx)

/-- The hypotheses of the theorems above can be met: a standard normal prior on the line, a log-likelihood with two values, and a
random tape. -/
example : Tendsto (fun num : ℕ => expectedAll (tapeLaw (gaussianReal 0 1)) clamp stepLL num (fun xs =>
    ENNReal.ofReal (((xs.map ((Iio 0).indicator 1)).sum / num -
      ∫ x, (Iio 0).indicator 1 x ∂normalised (favoured (tapeLaw (gaussianReal 0 1)) clamp stepLL (gaussianReal 0 1))) ^ 2))
        { x := 3, logLikX := stepLL 3 }) atTop (𝓝 0) :=
  c166_average_partial (μ := volume) (by simp) gaussian_ac ac_gaussian logLik_stepLL
    (target_stepLL_pos MeasurableSet.univ (by simp)) target_stepLL_ne_top (randomTape_clamp _) rfl (lik_stepLL_ne_zero 3)
    (measurable_one.indicator measurableSet_Iio) (M := 1) fun x => by
      by_cases hx : x ∈ Iio (0 : ℝ)
      · rw [indicator_of_mem hx]; simp
      · rw [indicator_of_notMem hx]; simp

/-- **C166** is false: with a standard normal prior on the line and the likelihood `1` on the right half and `exp (-1)` on the left
half, the probability that the last sample lies in the left half converges, from every starting point, to a number that is larger
than what the target says. -/
theorem c166_false : ∃ q : ℝ≥0∞, normalised (target (gaussianReal 0 1) stepLL) (Iio 0) < q ∧ ∀ x : ℝ,
    Tendsto (fun num => expectedAll (tapeLaw (gaussianReal 0 1)) clamp stepLL num
      (fun xs => xs.getLast?.elim 0 ((Iio 0).indicator 1)) { x := x, logLikX := stepLL x }) atTop (𝓝 q) := by
  have h := logLik_stepLL
  have hT := randomTape_clamp (gaussianReal 0 1)
  have h0 := target_stepLL_pos MeasurableSet.univ (by simp)
  have hm : Measurable ((Iio (0 : ℝ)).indicator (1 : ℝ → ℝ≥0∞)) := measurable_one.indicator measurableSet_Iio
  refine ⟨∫⁻ x, (Iio (0 : ℝ)).indicator 1 x ∂normalised (favoured (tapeLaw (gaussianReal 0 1)) clamp stepLL (gaussianReal 0 1)), ?_,
    fun x => c166_limit_partial (μ := volume) (by simp) gaussian_ac ac_gaussian h h0 target_stepLL_ne_top hT rfl
      (lik_stepLL_ne_zero x) hm ENNReal.one_ne_top fun x => indicator_le_self' (fun _ _ => zero_le) x⟩
  have hA : weighted (gaussianReal 0 1) stepLL (Iio 0) = target (gaussianReal 0 1) stepLL (Iio 0) := by
    rw [← lintegral_indicator_one measurableSet_Iio, ← lintegral_indicator_one measurableSet_Iio, lintegral_weighted h,
      lintegral_target h]
    refine lintegral_congr fun x => ?_
    by_cases hx : x < 0
    · rw [hop_left hx, mul_one, mul_one]
    · rw [indicator_of_notMem (by exact hx), mul_zero, mul_zero]
  have hU : weighted (gaussianReal 0 1) stepLL univ < target (gaussianReal 0 1) stepLL univ := by
    have hwt := ne_top_of_le_ne_top target_stepLL_ne_top (weighted_le h)
    rw [← lintegral_one, lintegral_weighted h] at hwt
    rw [← lintegral_one, ← lintegral_one, lintegral_weighted h, lintegral_target h]
    refine lintegral_strict_mono_of_ae_le_of_ae_lt_on (h.measurable_lik.mul measurable_const).aemeasurable hwt
      (Eventually.of_forall fun x => ?_) (s := Ioi 0) (fun hz => ?_) (Eventually.of_forall fun x hx => ?_)
    · simp only [one_mul, mul_one]
      exact mul_le_of_le_one_right' (hop_le_one _ (fun _ => le_rfl) x)
    · have := ac_gaussian hz
      simp at this
    · simp only [one_mul, mul_one]
      have := ENNReal.mul_lt_mul_right (lik_stepLL_ne_zero x) (h.lik_ne_top x) (hop_right (x := x) hx)
      rwa [mul_one] at this
  rw [lintegral_indicator_one measurableSet_Iio, favoured_eq hT h, normalised, normalised, Measure.smul_apply, Measure.smul_apply,
    smul_eq_mul, smul_eq_mul, hA]
  exact ENNReal.mul_lt_mul_left (target_stepLL_pos measurableSet_Iio (by simp))
    (ne_top_of_le_ne_top target_stepLL_ne_top (measure_mono (subset_univ _))) (ENNReal.inv_lt_inv.2 hU)

end Gpcm.Ess
