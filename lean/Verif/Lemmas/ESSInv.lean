import Verif.Lemmas.ESSLaw
import Mathlib.Analysis.SpecificLimits.Basic
import Mathlib.Probability.Distributions.Gaussian.Fernique

/-!
# Invariance of the target under elliptical slice sampling

What the detailed balance of successful passes means for a pass and for a call of `_sample`.
-/

open MeasureTheory ProbabilityTheory Set Real
open scoped ENNReal

namespace Gpcm.Ess

variable {V : Type} [NormedAddCommGroup V] [NormedSpace ℝ V] [MeasurableSpace V] [BorelSpace V]
  [SecondCountableTopology V] {γ : Measure V} [IsProbabilityMeasure γ] {L : V → LL}
  {Ω : Type} [MeasurableSpace Ω] {P : Measure Ω} {T : Ω → Tape V}

omit [NormedAddCommGroup V] [NormedSpace ℝ V] [BorelSpace V] [SecondCountableTopology V] [IsProbabilityMeasure γ] in
/-- Integrals against the target, also of functions that are not measurable. -/
theorem lintegral_target (h : LogLik L) (f : V → ℝ≥0∞) : ∫⁻ x, f x ∂target γ L = ∫⁻ x, lik L x * f x ∂γ := by
  unfold target
  rw [lintegral_withDensity_eq_lintegral_mul_non_measurable _ h.measurable_lik
    (Filter.Eventually.of_forall fun x => (h.lik_ne_top x).lt_top)]
  rfl

theorem measurable_lik_hop (h : LogLik L) {ψ φ : V → ℝ≥0∞} (hψ : Measurable ψ) (hφ : Measurable φ) :
    Measurable fun x => lik L x * (ψ x * hop γ L φ x) := by
  simp only [lik_hop h hφ]
  exact (measurable_flow h.measurable_logLik hψ hφ 100).lintegral_prod_right'

omit [BorelSpace V] [SecondCountableTopology V] [IsProbabilityMeasure γ] in
theorem hop_mono {φ ψ : V → ℝ≥0∞} (hle : ∀ x, φ x ≤ ψ x) (x : V) : hop γ L φ x ≤ hop γ L ψ x :=
  lintegral_mono fun b => by
    cases outcome L x b with
    | none => exact le_rfl
    | some x' => exact hle x'

omit [IsProbabilityMeasure γ] in
/-- If no pass succeeds, nothing is expected of a successful pass. -/
theorem hop_eq_zero (h : LogLik L) {x : V} {r : ℝ} (hx : L x = some (r : EReal)) {φ : V → ℝ≥0∞}
    (h0 : hop γ L (fun _ => 1) x = 0) : hop γ L φ x = 0 := by
  unfold hop at h0 ⊢
  rw [lintegral_eq_zero_iff (measurable_outcome h hx measurable_const)] at h0
  refine (lintegral_congr_ae ?_).trans lintegral_zero
  filter_upwards [h0] with b hb
  cases ho : outcome L x b with
  | none => rfl
  | some x' => rw [ho] at hb; exact (one_ne_zero hb).elim

theorem success_eq (hT : RandomTape γ P T) (h : LogLik L) {s : State V} (hs : s.logLikX = L s.x) {r : ℝ}
    (hx : L s.x = some (r : EReal)) : success P T L s = hop γ L (fun _ => 1) s.x :=
  (lintegral_pass hT h hs hx measurable_const).1

theorem expected_eq (hT : RandomTape γ P T) (h : LogLik L) {s : State V} (hs : s.logLikX = L s.x) {r : ℝ}
    (hx : L s.x = some (r : EReal)) {φ : V → ℝ≥0∞} (hφ : Measurable φ) :
    expected P T L φ s = (hop γ L (fun _ => 1) s.x)⁻¹ * hop γ L φ s.x := by
  unfold expected
  simp only [lintegral_sample1 hT h hs hx hφ]
  rw [← ENNReal.iSup_mul, ← ENNReal.tsum_eq_iSup_nat, ENNReal.tsum_geometric,
    ENNReal.sub_sub_cancel ENNReal.one_ne_top (hop_le_one _ (fun _ => le_rfl) _)]

/-- Successful passes carry the target to itself, weighted by the probability of success. -/
theorem lik_hop_eq (hγ : ∀ α, (γ.prod γ).map (ContinuousLinearMap.rotation α) = γ.prod γ) (h : LogLik L)
    {φ : V → ℝ≥0∞} (hφ : Measurable φ) :
    ∫⁻ x, lik L x * hop γ L φ x ∂γ = ∫⁻ x, lik L x * (φ x * hop γ L (fun _ => 1) x) ∂γ := by
  have := hop_symm hγ h (measurable_const (a := (1 : ℝ≥0∞))) hφ
  simpa only [one_mul] using this


/-! ## A random tape exists -/

/-- A tape from three sequences: numbers outside the range of the generator are replaced by zero. -/
noncomputable def clamp (t : (ℕ → ℝ) × (ℕ → V) × (ℕ → ℝ)) : Tape V where
  unit n := (Ico (0 : ℝ) 1).indicator id (t.2.2 n)
  unit_nonneg n := indicator_apply_nonneg fun h => h.1
  unit_lt_one n := by
    by_cases h : t.2.2 n ∈ Ico (0 : ℝ) 1
    · rw [indicator_of_mem h]; exact h.2
    · rw [indicator_of_notMem h]; exact one_pos
  expo n := max 0 (t.1 n)
  expo_nonneg n := le_max_left _ _
  prior := t.2.1

/-- The law of a random tape. -/
noncomputable def tapeLaw (γ : Measure V) [IsProbabilityMeasure γ] : Measure ((ℕ → ℝ) × (ℕ → V) × (ℕ → ℝ)) :=
  (Measure.infinitePi fun _ => expMeasure 1).prod
    ((Measure.infinitePi fun _ => γ).prod (Measure.infinitePi fun _ => unitLaw))

omit [NormedSpace ℝ V] [BorelSpace V] in
theorem randomTape_clamp (γ : Measure V) [IsProbabilityMeasure γ] : RandomTape γ (tapeLaw γ) (clamp (V := V)) := by
  have hu : Measurable fun w : ℕ → ℝ => fun n => (Ico (0 : ℝ) 1).indicator id (w n) :=
    measurable_pi_iff.2 fun n => (measurable_id.indicator measurableSet_Ico).comp (measurable_pi_apply n)
  have he : Measurable fun w : ℕ → ℝ => fun n => max 0 (w n) :=
    measurable_pi_iff.2 fun n => measurable_const.max (measurable_pi_apply n)
  have h1 : (Measure.infinitePi fun _ : ℕ => expMeasure 1).map (fun w n => max 0 (w n)) =
      Measure.infinitePi fun _ : ℕ => expMeasure 1 := by
    have hm : Measurable fun a : ℝ => max 0 a := measurable_const.max measurable_id
    rw [Measure.infinitePi_map_pi (fun _ => expMeasure 1) (f := fun _ a => max 0 a) fun _ => hm]
    congr 1
    funext n
    refine (Measure.map_congr (g := id) ?_).trans Measure.map_id
    rw [Filter.EventuallyEq, ae_iff]
    have hs : {a : ℝ | ¬ max 0 a = id a} = Iio 0 := by
      ext a
      simp
    rw [hs, expMeasure, gammaMeasure, withDensity_apply _ measurableSet_Iio]
    exact lintegral_gammaPDF_of_nonpos le_rfl
  have h2 : (Measure.infinitePi fun _ : ℕ => unitLaw).map (fun w n => (Ico (0 : ℝ) 1).indicator id (w n)) =
      Measure.infinitePi fun _ : ℕ => unitLaw := by
    rw [Measure.infinitePi_map_pi (fun _ => unitLaw) (f := fun _ a => (Ico (0 : ℝ) 1).indicator id a) fun _ =>
      measurable_id.indicator measurableSet_Ico]
    congr 1
    funext n
    refine (Measure.map_congr (g := id) ?_).trans Measure.map_id
    unfold unitLaw
    exact indicator_ae_eq_restrict measurableSet_Ico
  have e : (fun t : (ℕ → ℝ) × (ℕ → V) × (ℕ → ℝ) => ((clamp t).expo, (clamp t).prior, (clamp t).unit)) =
      Prod.map (fun w n => max 0 (w n)) (Prod.map id fun w n => (Ico (0 : ℝ) 1).indicator id (w n)) := rfl
  refine ⟨?_, ?_⟩
  · rw [e]
    exact he.prodMap (measurable_id.prodMap hu)
  · rw [e, tapeLaw, ← Measure.map_prod_map _ _ he (measurable_id.prodMap hu),
      ← Measure.map_prod_map _ _ measurable_id hu, h1, h2, Measure.map_id]

end Gpcm.Ess
