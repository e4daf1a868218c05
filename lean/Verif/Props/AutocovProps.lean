import Verif.Lemmas.Autocov
import Mathlib.Probability.Distributions.Gaussian.Real
import Mathlib.Probability.Independence.InfinitePi
import Mathlib.Probability.Independence.Integration

/-!
# Property C167: the autocovariance of the data beside a predicted kernel
-/

open MeasureTheory ProbabilityTheory Filter Topology

namespace Gpcm

open Util

/-- The value that a curve shows at its `l`-th point. -/
noncomputable def shownAt (l : ℕ) : Except PyErr (List (ℝ × ℝ)) → ℝ
  | .ok out => (out.getD l (0, 0)).2
  | .error _ => 0

variable {Ω : Type} [MeasurableSpace Ω] {P : Measure Ω} [IsProbabilityMeasure P] {Y : ℕ → Ω → ℝ} {m dt noise : ℝ} {k : ℝ → ℝ}

theorem dataKernel_eq (t0 dt : ℝ) {n : ℕ} (hn : 0 < n) (y : ℕ → ℝ) :
    Plots.dataKernel ((List.range n).map fun i : ℕ => t0 + i * dt) ((List.range n).map y) =
      .ok (((List.range n).map fun i : ℕ => (i : ℝ) * dt).zip (autocov ((List.range n).map y) none false)) := by
  obtain ⟨n, rfl⟩ : ∃ k, n = k + 1 := ⟨n - 1, by omega⟩
  have hy : (List.range (n + 1)).map y ≠ [] := by simp
  have ht : (List.range (n + 1)).map (fun i : ℕ => t0 + i * dt) = t0 :: (List.range n).map fun i : ℕ => t0 + (i + 1 : ℕ) * dt := by
    rw [List.range_succ_eq_map, List.map_cons, List.map_map]
    simp [Function.comp_def]
  rw [ht]
  unfold Plots.dataKernel
  simp only [Util.autocorr, if_neg hy, if_true]
  rw [← ht, List.map_map]
  simp only [Function.comp_def, add_sub_cancel_left]

theorem autocov_length (y : List ℝ) : (autocov y none false).length = y.length := by
  rw [autocov_eq]
  simp [lagCount]

theorem shownAt_eq (t0 dt : ℝ) {n l : ℕ} (hl : l < n) (y : ℕ → ℝ) :
    shownAt l (Plots.dataKernel ((List.range n).map fun i : ℕ => t0 + i * dt) ((List.range n).map y)) =
      (autocov ((List.range n).map y) none false).getD l 0 := by
  have hlen := autocov_length ((List.range n).map y)
  rw [List.length_map, List.length_range] at hlen
  rw [dataKernel_eq t0 dt (by omega) y, shownAt, List.getD_eq_getElem?_getD, List.getD_eq_getElem?_getD,
    List.getElem?_eq_getElem (by simp [hlen, hl]), List.getElem?_eq_getElem (by rw [hlen]; exact hl)]
  simp

/-- **C167** The curve is drawn for all data and has one point for every lag. -/
theorem c167_lags (t0 dt : ℝ) {n : ℕ} (hn : 0 < n) (y : ℕ → ℝ) :
    ∃ out, Plots.dataKernel ((List.range n).map fun i : ℕ => t0 + i * dt) ((List.range n).map y) = .ok out ∧
      out.map Prod.fst = (List.range n).map fun i : ℕ => (i : ℝ) * dt := by
  refine ⟨_, dataKernel_eq t0 dt hn y, ?_⟩
  rw [List.map_fst_zip]
  rw [autocov_length, List.length_map, List.length_map]

/-- **C167** What is true: the expected value of the curve is the covariance of the observations, kernel plus noise at lag zero, up to
six times the average of the absolute covariances. -/
theorem c167_bias_partial (h : Spec.Series P Y m dt noise k) (t0 : ℝ) {n l : ℕ} (hl : l < n) :
    |∫ ω, shownAt l (Plots.dataKernel ((List.range n).map fun i : ℕ => t0 + i * dt) ((List.range n).map fun i => Y i ω)) ∂P -
        (k (l * dt) + if l = 0 then noise else 0)| ≤
      6 * ((∑ d ∈ Finset.range n, |k (d * dt) + if d = 0 then noise else 0|) / n) := by
  simp only [shownAt_eq t0 dt hl]
  rw [← mul_div_assoc]
  exact autocov_bias h hl

/-- **C167** What is true: if the kernel vanishes at long lags, then the expected value of the curve approaches the kernel at all lags
except zero, where it approaches the kernel plus the noise, as the series gets longer. The full statement says that it is the kernel
at all lags and for every length (`c167_false_noise`, `c167_false_bias`). -/
theorem c167_limit_partial (h : Spec.Series P Y m dt noise k) (hk : Tendsto (fun l : ℕ => k (l * dt)) atTop (𝓝 0)) (t0 : ℝ) (l : ℕ) :
    Tendsto (fun n : ℕ => ∫ ω, shownAt l (Plots.dataKernel ((List.range n).map fun i : ℕ => t0 + i * dt)
      ((List.range n).map fun i => Y i ω)) ∂P) atTop (𝓝 (k (l * dt) + if l = 0 then noise else 0)) := by
  have hc : Tendsto (fun d : ℕ => |k (d * dt) + if d = 0 then noise else 0|) atTop (𝓝 0) := by
    have : Tendsto (fun d : ℕ => |k (d * dt)|) atTop (𝓝 0) := by simpa using hk.abs
    refine this.congr' ((eventually_gt_atTop 0).mono fun d hd => ?_)
    simp [hd.ne']
  have h6 := (hc.cesaro.const_mul 6)
  rw [mul_zero] at h6
  rw [tendsto_iff_norm_sub_tendsto_zero]
  refine squeeze_zero' (Eventually.of_forall fun n => norm_nonneg _) ((eventually_gt_atTop l).mono fun n hn => ?_) h6
  have := c167_bias_partial h t0 hn
  rw [Real.norm_eq_abs]
  refine this.trans (le_of_eq ?_)
  ring

/-- **C167 is false** for every length of the series: if the observations are only noise, so that the kernel is zero, then the expected
value of the curve is negative at all lags except zero, because the average of the observations is subtracted. -/
theorem c167_false_bias (h : Spec.Series P Y m dt noise fun _ => 0) (t0 : ℝ) {n l : ℕ} (hl : l < n) (h0 : 0 < l) :
    ∫ ω, shownAt l (Plots.dataKernel ((List.range n).map fun i : ℕ => t0 + i * dt) ((List.range n).map fun i => Y i ω)) ∂P =
      -noise / n := by
  simp only [shownAt_eq t0 dt hl]
  rw [integral_autocov h hl]
  have hn : (n : ℝ) ≠ 0 := by
    have : n ≠ 0 := by omega
    exact_mod_cast this
  have hnl : ((n - l : ℕ) : ℝ) ≠ 0 := by
    have : n - l ≠ 0 := by omega
    exact_mod_cast this
  have hr : ∀ i < n, acvRow (fun _ => 0) dt noise n i = noise / n := fun i hi => by
    unfold acvRow
    congr 1
    rw [Finset.sum_eq_single_of_mem i (Finset.mem_range.2 hi) fun j _ hj => ?_]
    · simp [acv, gap]
    · have : gap i j ≠ 0 := by unfold gap; omega
      simp [acv, this]
  have hm : acvMean (fun _ => 0) dt noise n = noise / n := by
    unfold acvMean
    rw [Finset.sum_congr rfl fun i hi => hr i (Finset.mem_range.1 hi), Finset.sum_const, Finset.card_range, nsmul_eq_mul,
      mul_div_cancel_left₀ _ hn]
  rw [hm, Finset.sum_congr rfl fun i hi => by
    rw [hr i (by have := Finset.mem_range.1 hi; omega), hr (i + l) (by have := Finset.mem_range.1 hi; omega)], Finset.sum_const,
    Finset.card_range, nsmul_eq_mul, mul_div_cancel_left₀ _ hnl]
  simp only [acv, h0.ne', if_false]
  ring

/-! ## Series that meet the hypotheses -/

/-- Independent standard normal numbers. -/
noncomputable def iidNormal : Measure (ℕ → ℝ) := Measure.infinitePi fun _ => gaussianReal 0 1

instance : IsProbabilityMeasure iidNormal := by unfold iidNormal; infer_instance

theorem iidNormal_memLp (i : ℕ) : MemLp (fun ω : ℕ → ℝ => ω i) 2 iidNormal :=
  (memLp_id_gaussianReal (μ := 0) (v := 1) 2).comp_measurePreserving (measurePreserving_eval_infinitePi (fun _ => gaussianReal 0 1) i)

theorem iidNormal_mean (i : ℕ) : ∫ ω, ω i ∂iidNormal = 0 := by
  have := (measurePreserving_eval_infinitePi (fun _ : ℕ => gaussianReal 0 1) i)
  have h2 : ∫ ω : ℕ → ℝ, ω i ∂iidNormal = ∫ x, x ∂gaussianReal 0 1 := by
    rw [← this.map_eq, integral_map this.measurable.aemeasurable (by fun_prop)]
    rfl
  rw [h2, integral_id_gaussianReal]

theorem iidNormal_cov (i j : ℕ) : ∫ ω, ω i * ω j ∂iidNormal = if i = j then 1 else 0 := by
  by_cases hij : i = j
  · subst hij
    have := (measurePreserving_eval_infinitePi (fun _ : ℕ => gaussianReal 0 1) i)
    have h2 : ∫ ω : ℕ → ℝ, ω i * ω i ∂iidNormal = ∫ x, x * x ∂gaussianReal 0 1 := by
      rw [← this.map_eq, integral_map this.measurable.aemeasurable (by fun_prop)]
      rfl
    have h3 := variance_id_gaussianReal (μ := 0) (v := 1)
    rw [variance_of_integral_eq_zero (by fun_prop) (by simp)] at h3
    rw [h2, if_pos rfl]
    simpa [pow_two] using h3
  · have hI : iIndepFun (fun (i : ℕ) (ω : ℕ → ℝ) => ω i) iidNormal :=
      iIndepFun_infinitePi (P := fun _ : ℕ => gaussianReal 0 1) (X := fun _ => id) fun _ => measurable_id
    rw [if_neg hij, (hI.indepFun hij).integral_fun_mul_eq_mul_integral (iidNormal_memLp i).1 (iidNormal_memLp j).1,
      iidNormal_mean, zero_mul]

/-- Only noise. -/
theorem series_noise : Spec.Series iidNormal (fun i ω => ω i) 0 1 1 fun _ => 0 where
  memLp := iidNormal_memLp
  mean := iidNormal_mean
  cov i l := by
    simp only [sub_zero, iidNormal_cov, zero_add]
    by_cases h : l = 0
    · simp [h]
    · simp [h]

theorem sum_triple {a b c : ℕ} (hab : a ≠ b) (hac : a ≠ c) (hbc : b ≠ c) (f : ℕ → ℝ) :
    ∑ x ∈ ({a, b, c} : Finset ℕ), f x = f a + f b + f c := by
  rw [Finset.sum_insert (by simp [hab, hac]), Finset.sum_insert (by simp [hbc]), Finset.sum_singleton, add_assoc]

/-- Moving averages of independent numbers and noise: the kernel is a triangle. -/
theorem series_triangle : Spec.Series iidNormal (fun i ω => ω (2 * i) + ω (2 * (i + 1)) + ω (2 * i + 1)) 0 1 1
    fun τ => max 0 (2 - |τ|) where
  memLp i := ((iidNormal_memLp _).add (iidNormal_memLp _)).add (iidNormal_memLp _)
  mean i := by
    have h := fun j => (iidNormal_memLp j).integrable one_le_two
    have h1 : Integrable (fun ω : ℕ → ℝ => ω (2 * i) + ω (2 * (i + 1))) iidNormal := (h _).add (h _)
    rw [integral_add h1 (h _), integral_add (h _) (h _)]
    simp [iidNormal_mean]
  cov i l := by
    have hI : ∀ a b, Integrable (fun ω : ℕ → ℝ => ω a * ω b) iidNormal := fun a b =>
      MemLp.integrable_mul (iidNormal_memLp a) (iidNormal_memLp b)
    have e : ∀ ω : ℕ → ℝ, (ω (2 * i) + ω (2 * (i + 1)) + ω (2 * i + 1) - 0) *
        (ω (2 * (i + l)) + ω (2 * (i + l + 1)) + ω (2 * (i + l) + 1) - 0) =
        ∑ a ∈ ({2 * i, 2 * (i + 1), 2 * i + 1} : Finset ℕ), ∑ b ∈ ({2 * (i + l), 2 * (i + l + 1), 2 * (i + l) + 1} : Finset ℕ),
          ω a * ω b := fun ω => by
      simp only [← Finset.mul_sum, ← Finset.sum_mul]
      rw [sum_triple (by omega) (by omega) (by omega), sum_triple (by omega) (by omega) (by omega)]
      ring
    simp only [e]
    rw [integral_finsetSum _ fun a _ => integrable_finsetSum _ fun b _ => hI a b]
    simp only [integral_finsetSum _ fun b _ => hI _ b, iidNormal_cov]
    rw [sum_triple (by omega) (by omega) (by omega), sum_triple (by omega) (by omega) (by omega),
      sum_triple (by omega) (by omega) (by omega), sum_triple (by omega) (by omega) (by omega)]
    rcases Nat.lt_trichotomy l 1 with h | h | h
    · obtain rfl : l = 0 := by omega
      have n1 : ¬ 2 * i = 2 * (i + 1) := by omega
      have n2 : ¬ 2 * i = 2 * i + 1 := by omega
      have n3 : ¬ 2 * (i + 1) = 2 * i := by omega
      have n4 : ¬ 2 * (i + 1) = 2 * i + 1 := by omega
      have n5 : ¬ 2 * i + 1 = 2 * i := by omega
      have n6 : ¬ 2 * i + 1 = 2 * (i + 1) := by omega
      simp only [Nat.add_zero, n1, n2, n3, n4, n5, n6, if_true, if_false]
      norm_num
    · subst h
      have n1 : ¬ 2 * i = 2 * (i + 1) := by omega
      have n2 : ¬ 2 * i = 2 * (i + 1 + 1) := by omega
      have n3 : ¬ 2 * i = 2 * (i + 1) + 1 := by omega
      have n4 : ¬ 2 * (i + 1) = 2 * (i + 1 + 1) := by omega
      have n5 : ¬ 2 * (i + 1) = 2 * (i + 1) + 1 := by omega
      have n6 : ¬ 2 * i + 1 = 2 * (i + 1) := by omega
      have n7 : ¬ 2 * i + 1 = 2 * (i + 1 + 1) := by omega
      have n8 : ¬ 2 * i + 1 = 2 * (i + 1) + 1 := by omega
      simp only [n1, n2, n3, n4, n5, n6, n7, n8, if_true, if_false]
      norm_num
    · have hk : max (0 : ℝ) (2 - |(l : ℝ) * 1|) = 0 := by
        have : (2 : ℝ) ≤ l := by exact_mod_cast h
        rw [mul_one, abs_of_nonneg (by linarith)]
        exact max_eq_left (by linarith)
      have n1 : ¬ 2 * i = 2 * (i + l) := by omega
      have n2 : ¬ 2 * i = 2 * (i + l + 1) := by omega
      have n3 : ¬ 2 * i = 2 * (i + l) + 1 := by omega
      have n4 : ¬ 2 * (i + 1) = 2 * (i + l) := by omega
      have n5 : ¬ 2 * (i + 1) = 2 * (i + l + 1) := by omega
      have n6 : ¬ 2 * (i + 1) = 2 * (i + l) + 1 := by omega
      have n7 : ¬ 2 * i + 1 = 2 * (i + l) := by omega
      have n8 : ¬ 2 * i + 1 = 2 * (i + l + 1) := by omega
      have n9 : ¬ 2 * i + 1 = 2 * (i + l) + 1 := by omega
      have n0 : ¬ l = 0 := by omega
      simp only [n1, n2, n3, n4, n5, n6, n7, n8, n9, n0, if_false, hk]
      norm_num

theorem triangle_tendsto : Tendsto (fun l : ℕ => max 0 (2 - |(l : ℝ) * 1|)) atTop (𝓝 0) := by
  refine tendsto_const_nhds.congr' ((eventually_ge_atTop 2).mono fun l hl => ?_)
  have : (2 : ℝ) ≤ l := by exact_mod_cast hl
  beta_reduce
  rw [mul_one, abs_of_nonneg (by linarith), max_eq_left (by linarith)]

/-- **C167 is false** also for long series: with noise, the curve does not approach the kernel at lag zero, which the prediction
shows without noise. -/
theorem c167_false_noise : ∃ (Ω : Type) (_ : MeasurableSpace Ω) (P : Measure Ω) (Y : ℕ → Ω → ℝ) (k : ℝ → ℝ) (noise : ℝ),
    IsProbabilityMeasure P ∧ Spec.Series P Y 0 1 noise k ∧ Tendsto (fun l : ℕ => k l) atTop (𝓝 0) ∧
    ¬ Tendsto (fun n : ℕ => ∫ ω, shownAt 0 (Plots.dataKernel ((List.range n).map fun i : ℕ => 0 + i * 1)
      ((List.range n).map fun i => Y i ω)) ∂P) atTop (𝓝 (k 0)) := by
  refine ⟨_, _, iidNormal, _, _, _, inferInstance, series_triangle, by simpa using triangle_tendsto, fun hn => ?_⟩
  have := tendsto_nhds_unique hn (c167_limit_partial series_triangle triangle_tendsto 0 0)
  norm_num at this

/-- The hypotheses of the other theorems can be met. -/
example : ∫ ω, shownAt 1 (Plots.dataKernel ((List.range 10).map fun i : ℕ => 5 + i * 1) ((List.range 10).map fun i => ω i)) ∂iidNormal =
    -1 / 10 := by
  have := c167_false_bias series_noise 5 (n := 10) (l := 1) (by norm_num) one_pos
  exact_mod_cast this

end Gpcm
