import Verif.Model.OtherScripts
import Verif.Lemmas.PaperLemmas
import Mathlib.Probability.Moments.Variance
import Mathlib.Probability.Distributions.Gaussian.Real
import Mathlib.Probability.Independence.Basic

/-!
# C157: what the reported standard errors of aggregated results are
-/

open MeasureTheory ProbabilityTheory Real

namespace Gpcm.Scripts

theorem mean_ofFn {n : ℕ} (x : Fin n → ℝ) : Util.mean (List.ofFn x) = (∑ i, x i) / n := by
  simp [Util.mean, List.sum_ofFn]

/-- The squared standard error that is reported, around any centre. -/
theorem aggregate_sq {n : ℕ} (hn : n ≠ 0) (x : Fin n → ℝ) (μ : ℝ) :
    (aggregate (List.ofFn x)).2 ^ 2 = ((∑ i, (x i - μ) ^ 2) / n - ((∑ i, x i) / n - μ) ^ 2) / n := by
  have hn' : (n : ℝ) ≠ 0 := Nat.cast_ne_zero.2 hn
  have h0 : 0 ≤ (∑ i, (x i - (∑ i, x i) / n) ^ 2) / (n : ℝ) := by positivity
  have e : (List.ofFn x).map (fun a => (a - (∑ i, x i) / n) ^ 2) = List.ofFn fun i => (x i - (∑ i, x i) / n) ^ 2 := by
    rw [List.map_ofFn]
    rfl
  simp only [aggregate, std, List.length_ofFn, mean_ofFn]
  rw [e, mean_ofFn, div_pow, sq_sqrt h0, sq_sqrt (Nat.cast_nonneg n)]
  congr 1
  obtain ⟨S, hS⟩ : ∃ S, S = ∑ i, x i := ⟨_, rfl⟩
  rw [← hS]
  have h1 : ∑ i, (x i - S / n) ^ 2 = ∑ i, (x i - μ) ^ 2 - 2 * (S / n - μ) * ∑ i, (x i - μ) + n * (S / n - μ) ^ 2 := by
    rw [Finset.mul_sum, ← Finset.sum_sub_distrib]
    have : (n : ℝ) * (S / n - μ) ^ 2 = ∑ _i : Fin n, (S / n - μ) ^ 2 := by simp
    rw [this, ← Finset.sum_add_distrib]
    exact Finset.sum_congr rfl fun i _ => by ring
  have h2 : ∑ i, (x i - μ) = S - n * μ := by
    rw [Finset.sum_sub_distrib, ← hS]
    simp
  rw [h1, h2]
  field_simp
  ring

section
variable {Ω : Type} [MeasurableSpace Ω] (P : Measure Ω) [IsProbabilityMeasure P]

/-- **C157** (`_partial`: what is not true is `c157_understated_false`.) The reported mean is unbiased, and the expected square
of the reported "std" is the fraction (n - 1) / n of the variance of the reported mean. -/
theorem c157_partial {n : ℕ} (hn : n ≠ 0) (X : Fin n → Ω → ℝ) (hX : ∀ i, MemLp (X i) 2 P)
    (hi : Pairwise fun i j => IndepFun (X i) (X j) P) {μ s : ℝ} (hm : ∀ i, ∫ ω, X i ω ∂P = μ) (hv : ∀ i, Var[X i; P] = s) :
    ∫ ω, (aggregate (List.ofFn fun i => X i ω)).1 ∂P = μ ∧
    Var[fun ω => (aggregate (List.ofFn fun i => X i ω)).1; P] = s / n ∧
    ∫ ω, (aggregate (List.ofFn fun i => X i ω)).2 ^ 2 ∂P =
      ((n : ℝ) - 1) / n * Var[fun ω => (aggregate (List.ofFn fun i => X i ω)).1; P] := by
  have hn' : (n : ℝ) ≠ 0 := Nat.cast_ne_zero.2 hn
  have hL : ∀ i, Integrable (X i) P := fun i => (hX i).integrable (by norm_num)
  have e1 : (fun ω => (aggregate (List.ofFn fun i => X i ω)).1) = fun ω => (n : ℝ)⁻¹ * (∑ i, X i) ω := by
    funext ω
    simp only [aggregate, mean_ofFn, Finset.sum_apply]
    rw [div_eq_inv_mul]
  have hmean : ∫ ω, (∑ i, X i ω) / n ∂P = μ := by
    rw [integral_div, integral_finsetSum _ fun i _ => hL i]
    simp only [hm, Finset.sum_const, Finset.card_univ, Fintype.card_fin, nsmul_eq_mul]
    field_simp
  have hvar : Var[fun ω => (aggregate (List.ofFn fun i => X i ω)).1; P] = s / n := by
    rw [e1, variance_const_mul, IndepFun.variance_sum (fun i _ => hX i) fun i _ j _ hij => hi hij]
    simp only [hv, Finset.sum_const, Finset.card_univ, Fintype.card_fin, nsmul_eq_mul]
    field_simp
  refine ⟨by simpa only [aggregate, mean_ofFn] using hmean, hvar, ?_⟩
  have hM : MemLp (fun ω => (∑ i, X i ω) / (n : ℝ) - μ) 2 P := by
    have h1 : MemLp (fun ω => ∑ i, X i ω) 2 P := memLp_finsetSum _ fun i _ => hX i
    simp only [div_eq_inv_mul]
    exact (h1.const_mul ((n : ℝ)⁻¹)).sub (memLp_const μ)
  have hvM : ∫ ω, ((∑ i, X i ω) / (n : ℝ) - μ) ^ 2 ∂P = s / n := by
    rw [← hvar, variance_eq_integral]
    · simp only [aggregate, mean_ofFn, hmean]
    · simp only [aggregate, mean_ofFn]
      exact (Finset.aemeasurable_fun_sum _ fun i _ => (hX i).aestronglyMeasurable.aemeasurable).div_const _
  have hvX : ∀ i, ∫ ω, (X i ω - μ) ^ 2 ∂P = s := fun i => by
    rw [← hv i, variance_eq_integral (hX i).aestronglyMeasurable.aemeasurable, hm]
  have hIX : ∀ i, Integrable (fun ω => (X i ω - μ) ^ 2) P := fun i => ((hX i).sub (memLp_const μ)).integrable_sq
  simp only [aggregate_sq hn _ μ]
  rw [integral_div, integral_sub ((integrable_finsetSum _ fun i _ => hIX i).div_const _) hM.integrable_sq, hvM, integral_div,
    integral_finsetSum _ fun i _ => hIX i, hvar]
  simp only [hvX, Finset.sum_const, Finset.card_univ, Fintype.card_fin, nsmul_eq_mul]
  field_simp

/-- **C157 is false**: unless the values do not vary at all, the expected square of the reported "std" is less than the
variance of the reported mean, for every number of values; for one value it is always zero. -/
theorem c157_understated_false {n : ℕ} (hn : n ≠ 0) (X : Fin n → Ω → ℝ) (hX : ∀ i, MemLp (X i) 2 P)
    (hi : Pairwise fun i j => IndepFun (X i) (X j) P) {μ s : ℝ} (hm : ∀ i, ∫ ω, X i ω ∂P = μ) (hv : ∀ i, Var[X i; P] = s)
    (hs : 0 < s) :
    ∫ ω, (aggregate (List.ofFn fun i => X i ω)).2 ^ 2 ∂P < Var[fun ω => (aggregate (List.ofFn fun i => X i ω)).1; P] := by
  have hn' : (0 : ℝ) < n := Nat.cast_pos.2 (Nat.pos_of_ne_zero hn)
  obtain ⟨-, h2, h3⟩ := c157_partial P hn X hX hi hm hv
  rw [h3, h2]
  have : 0 < s / n := by positivity
  have h : ((n : ℝ) - 1) / n < 1 := by
    rw [div_lt_one hn']
    linarith
  nlinarith

end

/-- **C157** One value: the reported standard error is zero. -/
theorem c157_one (x : ℝ) : aggregate [x] = (x, 0) := by
  simp [aggregate, Util.mean, std]

/-- **C157** The reported difference is the mean of the differences (which `ttest_rel` and `compare` look at), if there are
as many values for both models. -/
theorem c157_difference (v1 v2 : List ℝ) (h : v1.length = v2.length) :
    aggregateDiff v1 v2 = (Paper.compareModels v1 v2).1 := by
  have e : ∀ (v1 v2 : List ℝ), v1.length = v2.length → (List.zipWith (fun x y => x - y) v1 v2).sum = v1.sum - v2.sum := by
    intro v1
    induction v1 with
    | nil => intro v2 h; cases v2 <;> simp_all
    | cons a v1 ih =>
      intro v2 h
      cases v2 with
      | nil => simp at h
      | cons b v2 =>
        simp only [List.zipWith_cons_cons, List.sum_cons, ih v2 (by simpa using h)]
        ring
  simp only [aggregateDiff, Paper.compareModels, Util.mean, e v1 v2 h, List.length_zipWith, h, Nat.min_self]
  ring

/-- The statistic of the paired t-test (`scipy.stats.ttest_rel`). -/
noncomputable def pairedT (v1 v2 : List ℝ) : ℝ :=
  let d := List.zipWith (fun x y => x - y) v1 v2
  Util.mean d / √((d.map fun x => (x - Util.mean d) ^ 2).sum / ((d.length : ℝ) - 1) / d.length)

/-- **C157** The number of standard errors that `compare` converts into a p-value is larger in size than the statistic of the
paired t-test, which `crude_oil_aggregate.py` uses for the same purpose: by the factor `√(n / (n - 1))`. -/
theorem c157_paired (v1 v2 : List ℝ) (hn : 2 ≤ min v1.length v2.length) :
    |(Paper.compareModels v1 v2).1| / (Paper.compareModels v1 v2).2.1 =
      √(min v1.length v2.length / ((min v1.length v2.length : ℝ) - 1)) * |pairedT v1 v2| := by
  obtain ⟨d, hd⟩ : ∃ d, d = List.zipWith (fun x y => x - y) v1 v2 := ⟨_, rfl⟩
  have hl : d.length = min v1.length v2.length := by rw [hd, List.length_zipWith]
  have hl' : (d.length : ℝ) = min (v1.length : ℝ) v2.length := by rw [hl, Nat.cast_min]
  have h2 : (2 : ℝ) ≤ d.length := by
    rw [hl]
    exact_mod_cast hn
  simp only [Paper.compareModels, pairedT, ← hd, ← hl', std]
  obtain ⟨V, hV⟩ : ∃ V, V = (d.map fun x => (x - Util.mean d) ^ 2).sum := ⟨_, rfl⟩
  have hV0 : 0 ≤ V := by
    rw [hV]
    refine List.sum_nonneg fun x hx => ?_
    obtain ⟨a, -, rfl⟩ := List.mem_map.1 hx
    positivity
  have e : Util.mean (d.map fun x => (x - Util.mean d) ^ 2) = V / d.length := by
    rw [Util.mean, ← hV, List.length_map]
  rw [e, ← hV, abs_div, abs_of_nonneg (sqrt_nonneg _), ← sqrt_div' _ (by linarith), mul_div_assoc', mul_comm (√_) |_|,
    mul_div_assoc]
  rw [← sqrt_div' _ (by apply div_nonneg (div_nonneg hV0 _) <;> linarith)]
  rw [div_eq_mul_inv, ← sqrt_inv]
  congr 2
  rcases hV0.eq_or_lt with h | h
  · rw [← h]; simp
  · have : (d.length : ℝ) - 1 ≠ 0 := by linarith
    field_simp
    exact_mod_cast hl

/-- **C157** (refuted) For six independent standard normal values, as many as there are years of crude oil data, the expected
square of the reported "std" is 5/36, but the variance of the reported mean is 1/6. -/
theorem c157_refuted : ∃ (X : Fin 6 → (Fin 6 → ℝ) → ℝ) (P : Measure (Fin 6 → ℝ)), IsProbabilityMeasure P ∧
    (∀ i, P.map (X i) = gaussianReal 0 1) ∧ (Pairwise fun i j => IndepFun (X i) (X j) P) ∧
    ∫ ω, (aggregate (List.ofFn fun i => X i ω)).2 ^ 2 ∂P = 5 / 36 ∧
    Var[fun ω => (aggregate (List.ofFn fun i => X i ω)).1; P] = 1 / 6 := by
  obtain ⟨P, hP⟩ : ∃ P : Measure (Fin 6 → ℝ), P = Measure.pi fun _ => gaussianReal 0 1 := ⟨_, rfl⟩
  have hp : IsProbabilityMeasure P := hP ▸ inferInstance
  have hmeas : ∀ i : Fin 6, Measurable fun x : Fin 6 → ℝ => x i := fun i => measurable_pi_apply i
  have e : ∀ i : Fin 6, P.map (fun x => x i) = gaussianReal 0 1 :=
    fun i => hP ▸ (measurePreserving_eval (fun _ : Fin 6 => gaussianReal 0 1) i).map_eq
  have hL : ∀ i : Fin 6, MemLp (fun x : Fin 6 → ℝ => x i) 2 P := fun i => by
    have h := memLp_id_gaussianReal (μ := 0) (v := 1) 2
    rw [← e i] at h
    exact (memLp_map_measure_iff (by fun_prop) (hmeas i).aemeasurable).1 h
  have hv : ∀ i : Fin 6, Var[fun x : Fin 6 → ℝ => x i; P] = 1 := fun i => by
    have h := variance_map (X := id) (Y := fun x : Fin 6 → ℝ => x i) (μ := P) (by fun_prop) (hmeas i).aemeasurable
    rw [e i, Function.id_comp] at h
    rw [← h]
    simp
  have hm : ∀ i : Fin 6, ∫ x, (fun x : Fin 6 → ℝ => x i) x ∂P = 0 := fun i => by
    have h := integral_map (μ := P) (hmeas i).aemeasurable (f := id) (by fun_prop)
    rw [e i] at h
    simp only [id] at h
    rw [← h]
    simp
  have hi : Pairwise fun i j : Fin 6 => IndepFun (fun x : Fin 6 → ℝ => x i) (fun x => x j) P := by
    have h := iIndepFun_pi (μ := fun _ : Fin 6 => gaussianReal 0 1) (X := fun _ x => x) fun _ => by fun_prop
    rw [← hP] at h
    exact fun i j hij => h.indepFun hij
  refine ⟨fun i x => x i, P, hp, e, hi, ?_, ?_⟩
  · rw [(c157_partial P (by norm_num) _ hL hi hm hv).2.2, (c157_partial P (by norm_num) _ hL hi hm hv).2.1]
    norm_num
  · rw [(c157_partial P (by norm_num) _ hL hi hm hv).2.1]
    norm_num

/-- The hypotheses hold for results of three runs of two methods. -/
example : aggregateDiff [1, 2, 4] [2, 1, 1] = (Paper.compareModels [1, 2, 4] [2, 1, 1]).1 ∧
    |(Paper.compareModels [1, 2, 4] [2, 1, 1]).1| / (Paper.compareModels [1, 2, 4] [2, 1, 1]).2.1 =
      √(3 / (3 - 1)) * |pairedT [1, 2, 4] [2, 1, 1]| :=
  ⟨c157_difference _ _ rfl, by simpa using c157_paired [1, 2, 4] [2, 1, 1] (by decide)⟩

end Gpcm.Scripts
