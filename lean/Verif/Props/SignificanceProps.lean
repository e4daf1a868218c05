import Verif.Model.Significance
import Verif.Props.ForecastProps
import Mathlib.Probability.CDF

/-! # Property C212: what the reported p-values mean -/

open Real MeasureTheory ProbabilityTheory Set

namespace Gpcm.Paper

/-! ## Specification -/

/-- Two models do equally well if exchanging their scores does not change the distribution of the experiment. -/
def Spec.EquallyGood {Ω : Type} [MeasurableSpace Ω] (P : Measure Ω) (X Y : Ω → List ℝ) : Prop :=
  ∃ σ : Ω → Ω, MeasurePreserving σ P P ∧ ∀ ω, X (σ ω) = Y ω ∧ Y (σ ω) = X ω

/-- The event that a p-value of at most `α` is reported. -/
def Spec.reported {Ω : Type} (X Y : Ω → List ℝ) (α : ℝ) : Set Ω := {ω | ∃ q, (compareModels (X ω) (Y ω)).2.2 = some q ∧ q ≤ α}

/-! ## The normal distribution function -/

theorem normCdf_diff {x y : ℝ} (h : x ≤ y) : normCdf y - normCdf x = (gaussianReal 0 1).real (Ioc x y) := by
  unfold normCdf
  rw [← measureReal_diff (Iic_subset_Iic.2 h) measurableSet_Iic]
  congr 1
  ext z
  simp [and_comm]

theorem gaussianPDF_le_one (z : ℝ) : gaussianPDF 0 1 z ≤ 1 := by
  unfold gaussianPDF gaussianPDFReal
  rw [ENNReal.ofReal_le_one]
  have h1 : rexp (-(z - 0) ^ 2 / (2 * ((1 : NNReal) : ℝ))) ≤ 1 := by
    rw [exp_le_one_iff]
    have := sq_nonneg (z - 0)
    simp only [NNReal.coe_one]
    linarith
  have h2 : (√(2 * π * ((1 : NNReal) : ℝ)))⁻¹ ≤ 1 := by
    refine inv_le_one_of_one_le₀ ?_
    rw [one_le_sqrt]
    simp only [NNReal.coe_one]
    linarith [Real.two_le_pi]
  exact mul_le_one₀ h2 (exp_pos _).le h1

theorem normCdf_lip {x y : ℝ} (h : x ≤ y) : normCdf y - normCdf x ≤ y - x := by
  rw [normCdf_diff h]
  refine ENNReal.toReal_le_of_le_ofReal (by linarith) ?_
  rw [gaussianReal_apply 0 one_ne_zero]
  calc ∫⁻ z in Ioc x y, gaussianPDF 0 1 z ≤ ∫⁻ _ in Ioc x y, 1 := lintegral_mono fun z => gaussianPDF_le_one z
    _ = ENNReal.ofReal (y - x) := by rw [setLIntegral_const, one_mul, Real.volume_Ioc]

theorem normCdf_continuous : Continuous normCdf := by
  refine LipschitzWith.continuous (K := 1) (LipschitzWith.of_dist_le_mul fun x y => ?_)
  rw [NNReal.coe_one, one_mul, Real.dist_eq, Real.dist_eq]
  rcases le_total x y with h | h
  · rw [abs_sub_comm, abs_sub_comm x, abs_of_nonneg (by linarith [normCdf_mono h]), abs_of_nonneg (by linarith)]
    exact normCdf_lip h
  · rw [abs_of_nonneg (by linarith [normCdf_mono h]), abs_of_nonneg (by linarith)]
    exact normCdf_lip h

theorem normCdf_strictMono : StrictMono normCdf := fun x y h => by
  have h1 := normCdf_diff h.le
  have h2 : (gaussianReal 0 1).real (Ioc x y) ≠ 0 := fun h0 => by
    have h3 : gaussianReal 0 1 (Ioc x y) = 0 := (measureReal_eq_zero_iff).1 h0
    have h4 := gaussianReal_absolutelyContinuous' 0 one_ne_zero h3
    rw [Real.volume_Ioc, ENNReal.ofReal_eq_zero] at h4
    linarith
  have h5 : 0 ≤ (gaussianReal 0 1).real (Ioc x y) := measureReal_nonneg
  have h6 := lt_of_le_of_ne h5 (Ne.symm h2)
  linarith

theorem normCdf_neg (x : ℝ) : normCdf (-x) = 1 - normCdf x := by
  have hsymm : (gaussianReal 0 1).map (fun z => -z) = gaussianReal 0 1 := by rw [gaussianReal_map_neg, neg_zero]
  have : NullSingletonClass (gaussianReal 0 1) := nullSingletonClass_gaussianReal one_ne_zero
  have h1 : normCdf (-x) = (gaussianReal 0 1).real (Ici x) := by
    unfold normCdf
    conv_lhs => rw [← hsymm]
    rw [map_measureReal_apply (by fun_prop) measurableSet_Iic]
    congr 1
    ext z
    simp
  have h2 : (gaussianReal 0 1).real (Ici x) = (gaussianReal 0 1).real (Ioi x) := measureReal_congr Ioi_ae_eq_Ici.symm
  have h3 : (gaussianReal 0 1).real (Ioi x) = 1 - normCdf x := by
    unfold normCdf
    rw [← compl_Iic, probReal_compl_eq_one_sub measurableSet_Iic]
  rw [h1, h2, h3]

theorem normCdf_zero : normCdf 0 = 1 / 2 := by
  have := normCdf_neg 0
  rw [neg_zero] at this
  linarith

theorem normCdf_pos (x : ℝ) : 0 < normCdf x :=
  (measureReal_nonneg : 0 ≤ normCdf (x - 1)).trans_lt (normCdf_strictMono (by linarith))

theorem exists_quantile {α : ℝ} (h0 : 0 < α) (h1 : α ≤ 1 / 2) : ∃ c, 0 ≤ c ∧ normCdf (-c) = α := by
  have ht := tendsto_cdf_atBot (gaussianReal 0 1)
  obtain ⟨x, hx⟩ := ((ht.eventually (gt_mem_nhds h0)).and (Filter.eventually_le_atBot 0)).exists
  rw [cdf_eq_real] at hx
  obtain ⟨y, hy, e⟩ := intermediate_value_Icc hx.2 normCdf_continuous.continuousOn
    (show α ∈ Icc (normCdf x) (normCdf 0) from ⟨hx.1.le, by rw [normCdf_zero]; exact h1⟩)
  exact ⟨-y, by linarith [hy.2], by rw [neg_neg]; exact e⟩

/-- The distribution of one-sided tail probabilities of a standard normal variable. -/
theorem tail_prob {α : ℝ} (h0 : 0 ≤ α) (h1 : α ≤ 1 / 2) : (gaussianReal 0 1).real {z | normCdf (-|z|) ≤ α} = 2 * α := by
  rcases h0.eq_or_lt with rfl | h0
  · have : {z | normCdf (-|z|) ≤ 0} = ∅ := by
      ext z
      simpa using normCdf_pos (-|z|)
    rw [this, measureReal_empty, mul_zero]
  · obtain ⟨c, hc, rfl⟩ := exists_quantile h0 h1
    have e : {z | normCdf (-|z|) ≤ normCdf (-c)} = (Ioo (-c) c)ᶜ := by
      ext z
      rw [mem_ofPred_eq, normCdf_strictMono.le_iff_le, neg_le_neg_iff, mem_compl_iff, mem_Ioo, ← abs_lt, not_lt]
    have : NullSingletonClass (gaussianReal 0 1) := nullSingletonClass_gaussianReal one_ne_zero
    rw [e, probReal_compl_eq_one_sub measurableSet_Ioo, measureReal_congr Ioo_ae_eq_Ioc, ← normCdf_diff (by linarith), normCdf_neg]
    ring

/-! ## C212 -/

variable {Ω : Type} [MeasurableSpace Ω] {P : Measure Ω}

/-- **C212, refuted in general** Whatever the distribution of the scores, if a p-value is reported then it is at most one half: a p-value of at most one
half is reported with probability one. -/
theorem c212_half {X Y : Ω → List ℝ} (h : ∀ᵐ ω ∂P, (compareModels (X ω) (Y ω)).2.1 ≠ 0) : ∀ᵐ ω ∂P, ω ∈ Spec.reported X Y (1 / 2) := by
  filter_upwards [h] with ω hω
  have e : ∃ q, (compareModels (X ω) (Y ω)).2.2 = some q := by
    simp only [compareModels] at hω ⊢
    exact ⟨_, if_neg hω⟩
  obtain ⟨q, hq⟩ := e
  exact ⟨q, hq, (c122_half _ _ hq).2⟩

theorem compare_pair (x y : ℝ) : compareModels [x, 2 * x] [y, 2 * y] =
    (3 / 2 * (x - y), |x - y| / 2 / √2, if x = y then none else some (normCdf (-(3 * √2)))) := by
  have hm : Util.mean [x - y, 2 * x - 2 * y] = 3 / 2 * (x - y) := by
    simp only [Util.mean, List.sum_cons, List.sum_nil, List.length_cons, List.length_nil]
    push_cast
    ring
  have hs : std [x - y, 2 * x - 2 * y] = |x - y| / 2 := by
    unfold std
    rw [hm]
    simp only [Util.mean, List.map_cons, List.map_nil, List.sum_cons, List.sum_nil, List.length_cons, List.length_nil]
    rw [show ((x - y - 3 / 2 * (x - y)) ^ 2 + ((2 * x - 2 * y - 3 / 2 * (x - y)) ^ 2 + 0)) / ((0 + 1 + 1 : ℕ) : ℝ) = ((x - y) / 2) ^ 2 by
      push_cast
      ring, sqrt_sq_eq_abs, abs_div, abs_two]
  unfold compareModels
  simp only [List.zipWith_cons_cons, List.zipWith_nil_right, hm, hs, List.length_cons, List.length_nil]
  norm_num
  by_cases h : x = y
  · simp [h]
  · have h0 : |x - y| ≠ 0 := by simpa [sub_eq_zero] using h
    have h2 : √2 ≠ 0 := by positivity
    simp only [h, sub_eq_zero, if_false]
    congr 1
    field_simp

/-- **C212 is false**: two models can do equally well, with a p-value reported almost surely, and yet a p-value of at most one half is reported almost
surely, instead of with probability at most one half. -/
theorem c212_false : ∃ (P : Measure ℝ) (_ : IsProbabilityMeasure P) (X Y : ℝ → List ℝ), Spec.EquallyGood P X Y ∧
    (∀ᵐ ω ∂P, (compareModels (X ω) (Y ω)).2.1 ≠ 0) ∧ P (Spec.reported X Y (1 / 2)) = 1 := by
  have : NullSingletonClass (gaussianReal 0 1) := nullSingletonClass_gaussianReal one_ne_zero
  have h : ∀ᵐ ω ∂gaussianReal 0 1, (compareModels [ω, 2 * ω] [-ω, 2 * -ω]).2.1 ≠ 0 := by
    have h0 : ∀ᵐ ω ∂gaussianReal 0 1, ω ≠ 0 := by
      rw [ae_iff]
      simp
    filter_upwards [h0] with ω hω
    rw [compare_pair]
    have : |ω - -ω| ≠ 0 := by
      rw [sub_neg_eq_add, ← two_mul]
      simpa using hω
    have h2 : √2 ≠ 0 := by positivity
    positivity
  refine ⟨gaussianReal 0 1, inferInstance, fun ω => [ω, 2 * ω], fun ω => [-ω, 2 * -ω],
    ⟨fun ω => -ω, ⟨by fun_prop, by rw [gaussianReal_map_neg, neg_zero]⟩, fun ω => ⟨rfl, by simp⟩⟩, h, ?_⟩
  exact (measure_congr (s := Spec.reported _ _ _) (Filter.eventuallyEq_univ.2 (c212_half h))).trans measure_univ

/-- **C212** (partial) If the difference in standard errors has a standard normal distribution, as it has approximately for many weeks and models
that do equally well, then a p-value of at most `α` is reported with probability `2 * α`, for every `α` up to one half: the reported values are half of
those of a two-sided test. -/
theorem c212_normal_partial {X Y : Ω → List ℝ} (hs : ∀ᵐ ω ∂P, (compareModels (X ω) (Y ω)).2.1 ≠ 0)
    (hm : AEMeasurable (fun ω => (compareModels (X ω) (Y ω)).1 / (compareModels (X ω) (Y ω)).2.1) P)
    (hl : P.map (fun ω => (compareModels (X ω) (Y ω)).1 / (compareModels (X ω) (Y ω)).2.1) = gaussianReal 0 1) {α : ℝ} (h0 : 0 ≤ α)
    (h1 : α ≤ 1 / 2) : P.real (Spec.reported X Y α) = 2 * α := by
  rw [← tail_prob h0 h1, ← hl]
  have hmeas : MeasurableSet {z : ℝ | normCdf (-|z|) ≤ α} :=
    (isClosed_le (normCdf_continuous.comp (continuous_abs.neg)) continuous_const).measurableSet
  unfold Measure.real
  rw [Measure.map_apply_of_aemeasurable hm hmeas]
  congr 1
  refine measure_congr ?_
  filter_upwards [hs] with ω hω
  have hs0 : 0 ≤ (compareModels (X ω) (Y ω)).2.1 := by
    simp only [compareModels]
    unfold std
    positivity
  have e : (compareModels (X ω) (Y ω)).2.2 =
      some (normCdf (-|(compareModels (X ω) (Y ω)).1 / (compareModels (X ω) (Y ω)).2.1|)) := by
    rw [abs_div, abs_of_nonneg hs0, ← neg_div]
    simp only [compareModels] at hω ⊢
    rw [if_neg hω]
  refine propext ⟨fun ⟨q, hq, hle⟩ => ?_, fun hle => ⟨_, e, hle⟩⟩
  rw [e] at hq
  cases hq
  exact hle

/-- The hypotheses of `c212_normal_partial` can be met. -/
example : ∃ X Y : ℝ → List ℝ, (∀ᵐ ω ∂gaussianReal 0 1, (compareModels (X ω) (Y ω)).2.1 ≠ 0) ∧
    (gaussianReal 0 1).map (fun ω => (compareModels (X ω) (Y ω)).1 / (compareModels (X ω) (Y ω)).2.1) = gaussianReal 0 1 := by
  have key : ∀ ω : ℝ, (compareModels [(ω / √2 + 1) / 2, (ω / √2 - 1) / 2] [0, 0]).1 = ω / √2 / 2 ∧
      (compareModels [(ω / √2 + 1) / 2, (ω / √2 - 1) / 2] [0, 0]).2.1 = 1 / 2 / √2 := fun ω => by
    have hm : Util.mean [(ω / √2 + 1) / 2 - 0, (ω / √2 - 1) / 2 - 0] = ω / √2 / 2 := by
      simp only [Util.mean, List.sum_cons, List.sum_nil, List.length_cons, List.length_nil]
      push_cast
      ring
    have hs : std [(ω / √2 + 1) / 2 - 0, (ω / √2 - 1) / 2 - 0] = 1 / 2 := by
      unfold std
      rw [hm]
      simp only [Util.mean, List.map_cons, List.map_nil, List.sum_cons, List.sum_nil, List.length_cons, List.length_nil]
      rw [show (((ω / √2 + 1) / 2 - 0 - ω / √2 / 2) ^ 2 + (((ω / √2 - 1) / 2 - 0 - ω / √2 / 2) ^ 2 + 0)) / ((0 + 1 + 1 : ℕ) : ℝ) =
        (1 / 2) ^ 2 by
        push_cast
        ring, sqrt_sq (by norm_num)]
    constructor
    · exact hm
    · show std [(ω / √2 + 1) / 2 - 0, (ω / √2 - 1) / 2 - 0] / √((2 : ℕ) : ℝ) = _
      rw [hs, Nat.cast_ofNat]
  have h2 : √2 ≠ 0 := by positivity
  refine ⟨fun ω => [(ω / √2 + 1) / 2, (ω / √2 - 1) / 2], fun _ => [0, 0], .of_forall fun ω => ?_, ?_⟩
  · rw [(key ω).2]
    positivity
  · have : (fun ω : ℝ => (compareModels [(ω / √2 + 1) / 2, (ω / √2 - 1) / 2] [0, 0]).1 /
        (compareModels [(ω / √2 + 1) / 2, (ω / √2 - 1) / 2] [0, 0]).2.1) = id := by
      funext ω
      rw [(key ω).1, (key ω).2]
      field_simp
      rfl
    rw [this, Measure.map_id]

/-- **C212** The difference in standard errors that `vix_forecast_process.py` uses is always larger than that of the paired t-test that
`crude_oil_aggregate.py` uses, by the same factor for all scores. -/
theorem c212_statistic_partial (v1 v2 : List ℝ) {t : ℝ} (ht : tStatistic v1 v2 = some t) :
    2 ≤ (List.zipWith (fun x y => x - y) v1 v2).length ∧ (compareModels v1 v2).2.1 ≠ 0 ∧
    (compareModels v1 v2).1 / (compareModels v1 v2).2.1 =
      √((List.zipWith (fun x y => x - y) v1 v2).length / ((List.zipWith (fun x y => x - y) v1 v2).length - 1)) * t := by
  unfold tStatistic at ht
  dsimp only at ht
  simp only [compareModels]
  set d := List.zipWith (fun x y => x - y) v1 v2
  set q := (d.map fun x => (x - Util.mean d) ^ 2).sum with hq
  have hq0 : 0 ≤ q := List.sum_nonneg fun x hx => by
    obtain ⟨y, -, rfl⟩ := List.mem_map.1 hx
    positivity
  split_ifs at ht with h
  rw [not_or, not_lt] at h
  obtain ⟨hn, hv⟩ := h
  cases ht
  have hn' : (2 : ℝ) ≤ d.length := by exact_mod_cast hn
  have hn1 : (0 : ℝ) < d.length - 1 := by linarith
  have hn0 : (0 : ℝ) < d.length := by linarith
  have hqp : 0 < q := lt_of_le_of_ne hq0 fun h0 => hv (by rw [← h0, zero_div])
  have hstd : std d = √(q / d.length) := by
    unfold std
    simp only [Util.mean, List.length_map, hq]
  have e1 : std d / √d.length = √(q / d.length / d.length) := by rw [hstd, ← sqrt_div (by positivity)]
  have e2 : √(q / (d.length - 1) / d.length) = √(d.length / (d.length - 1)) * √(q / d.length / d.length) := by
    rw [← sqrt_mul (by positivity)]
    congr 1
    field_simp
  have h3 : √(d.length / ((d.length : ℝ) - 1)) ≠ 0 := by positivity
  refine ⟨hn, by rw [e1]; positivity, ?_⟩
  rw [e1, e2]
  have h4 : √(q / d.length / d.length) ≠ 0 := by positivity
  field_simp

example : tStatistic [1, 3] [0, 0] = some 2 := by
  have h : Util.mean [1 - 0, 3 - 0] = (2 : ℝ) := by norm_num [Util.mean]
  unfold tStatistic
  simp only [List.zipWith_cons_cons, List.zipWith_nil_right, h, List.map_cons, List.map_nil, List.sum_cons, List.sum_nil, List.length_cons,
    List.length_nil]
  norm_num

end Gpcm.Paper
