import Verif.Lemmas.GibbsChain

/-!
# Properties C160 and C161: what the samples of the Gibbs sampler are in the limit

`normalExpect n H` is the expectation of `H W` if the tape `W` of random numbers has `n` independent standard normal
entries. `structuredPosterior m d` is the distribution of the inducing variables given the data.
-/

set_option linter.unusedSectionVars false

open Matrix Real MeasureTheory ProbabilityTheory ENNReal Filter Topology

namespace Gpcm

open Markov

variable {ι κ : Type} [Fintype ι] [DecidableEq ι] [Fintype κ] [DecidableEq κ]
variable (C : Chols ι κ) {m : Inst ι κ}

/-- The value of `G` at the samples that a session has stored, infinite if there are none. -/
noncomputable def Session.onSamples (s : Session ι κ) (G : List ((ι → ℝ) × (κ → ℝ)) → ℝ≥0∞) : ℝ≥0∞ :=
  match s.samplesU s.posts.qi, s.samplesZ s.posts.qi with
  | some us, some zs => G (us.zip zs)
  | _, _ => ∞

theorem onSamples_fit (W : ℕ → (ι → ℝ) × (κ → ℝ)) (d : List (ℝ × ℝ)) {iters : ℤ} (hi : 2 ≤ iters) (s : Session ι κ)
    (G : List ((ι → ℝ) × (κ → ℝ)) → ℝ≥0∞) :
    (s.fitStructured C m W d iters).1.onSamples G = G (storedSamples C m W d iters s.posts.qU s.posts.qZ) := by
  rw [fitStructured_eq C m W d iters hi]
  obtain ⟨L, hL⟩ : ∃ L, L = storedSamples C m W d iters s.posts.qU s.posts.qZ := ⟨_, rfl⟩
  rw [← hL]
  simp only [Session.onSamples, Session.setSamples, if_true]
  rw [List.zip_map']
  exact congrArg G (List.map_id L)

theorem zipWith_prodAt {S : Type} [MeasurableSpace S] (fs : List (S → ℝ≥0∞)) (g : ℕ → S) (a n : ℕ) (h : fs.length ≤ n) :
    (List.zipWith (fun f x => f x) fs ((List.range' a n).map g)).prod = prodAt 1 fs a g := by
  induction fs generalizing a n with
  | nil => simp [prodAt]
  | cons f fs ih =>
    obtain ⟨n, rfl⟩ : ∃ k, n = k + 1 := ⟨n - 1, by simp at h; omega⟩
    rw [List.range'_succ, List.map_cons, List.zipWith_cons_cons, List.prod_cons, prodAt,
      ih (a + 1) n (by simpa using h)]

theorem prodAt_thin {S : Type} [MeasurableSpace S] (fs : List (S → ℝ≥0∞)) (l : ℕ → S) (a b T : ℕ) :
    prodAt 1 fs a (fun j => l (b + j * T)) = prodAt T fs (b + a * T) l := by
  induction fs generalizing a with
  | nil => rfl
  | cons f fs ih =>
    rw [prodAt, prodAt, ih, Nat.succ_mul, Nat.add_assoc]

theorem prodAt_congr {S : Type} [MeasurableSpace S] (fs : List (S → ℝ≥0∞)) {l l' : ℕ → S} (a n : ℕ)
    (h : a + fs.length ≤ n) (hl : ∀ j < n, l j = l' j) : prodAt 1 fs a l = prodAt 1 fs a l' := by
  induction fs generalizing a with
  | nil => rfl
  | cons f fs ih =>
    simp only [List.length_cons] at h
    rw [prodAt, prodAt, hl a (by omega), ih (a + 1) (by omega)]

/-- **C160** The thousand samples that a longer and longer fit stores become independent draws from the structured
posterior: the expectation of every product of bounded functions of the samples converges to the product of the
expectations. This holds for all data, whatever the state that the fit starts from. -/
theorem c160_independent (h : m.Valid) (d : List (ℝ × ℝ)) (s : Session ι κ) {fs : List ((ι → ℝ) × (κ → ℝ) → ℝ≥0∞)}
    (hl : fs.length ≤ 1000) (hf : ∀ f ∈ fs, Measurable f) {M : ℝ≥0∞} (hM : M ≠ ∞) (hfM : ∀ f ∈ fs, ∀ x, f x ≤ M) :
    Tendsto (fun iters : ℤ => normalExpect (fitSweeps iters + 1) fun W =>
        (s.fitStructured C m W d iters).1.onSamples fun xs => (List.zipWith (fun f x => f x) fs xs).prod) atTop
      (𝓝 (fs.map fun f => ∫⁻ x, f x ∂structuredPosterior m d).prod) := by
  have := structuredPosterior_prob h d
  refine ((gibbs_erg h d).independent hf hM hfM (startLaw C s.posts.qU s.posts.qZ)
    (b := fun i => (i / 2).toNat) (T := thinning) fun N =>
      (fit_bounds_tendsto N).mono fun i hi => ⟨hi.1, hi.2.1⟩).congr' ((fit_bounds_tendsto 0).mono fun iters hi => ?_)
  have e : ∀ W, (s.fitStructured C m W d iters).1.onSamples (fun xs => (List.zipWith (fun f x => f x) fs xs).prod) =
      prodAt 1 fs 0 fun j => (storedSamples C m W d iters s.posts.qU s.posts.qZ).getD j 0 := fun W => by
    rw [onSamples_fit C W d hi.2.2, ← zipWith_prodAt fs _ 0 1000 hl]
    have hL := storedSamples_length C m W d iters s.posts.qU s.posts.qZ
    obtain ⟨L, hL'⟩ : ∃ L, L = storedSamples C m W d iters s.posts.qU s.posts.qZ := ⟨_, rfl⟩
    rw [← hL'] at hL ⊢
    refine congrArg (fun q => (List.zipWith (fun f x => f x) fs q).prod) ?_
    refine List.ext_getElem (by rw [hL, List.length_map, List.length_range']) fun j h1 h2 => ?_
    rw [List.getElem_map, List.getElem_range', List.getD_eq_getElem?_getD, Nat.zero_add, Nat.one_mul,
      List.getElem?_eq_getElem h1]
    rfl
  simp only [e]
  rw [normalExpect_stored C h d iters (G := prodAt 1 fs 0) (prodAt_measurable 1 hf 0)
    fun l l' => prodAt_congr fs 0 1000 (by omega)]
  refine lintegral_congr fun x => ?_
  simp only [prodAt_thin, Nat.zero_mul, Nat.add_zero]
  rw [lintegral_prodAt _ (thinning_pos iters) hf]
  intro j hj
  have h1 := thinning_pos iters
  have h2 : (j + 1) * thinning iters ≤ 1000 * thinning iters := Nat.mul_le_mul_right _ (by omega)
  rw [Nat.succ_mul] at h2
  unfold fitSweeps
  omega

/-- **C160** For events: the probability that the first samples lie in given sets converges to the product of the
probabilities under the structured posterior. -/
theorem c160_events (h : m.Valid) (d : List (ℝ × ℝ)) (s : Session ι κ) {As : List (Set ((ι → ℝ) × (κ → ℝ)))}
    (hl : As.length ≤ 1000) (hA : ∀ A ∈ As, MeasurableSet A) :
    Tendsto (fun iters : ℤ => normalExpect (fitSweeps iters + 1) fun W =>
        (s.fitStructured C m W d iters).1.onSamples fun xs =>
          (List.zipWith (fun A x => Set.indicator A (1 : (ι → ℝ) × (κ → ℝ) → ℝ≥0∞) x) As xs).prod) atTop
      (𝓝 (As.map fun A => structuredPosterior m d A).prod) := by
  have := c160_independent C h d s (fs := As.map fun A => A.indicator 1) (by simpa using hl) (fun f hf => by
    obtain ⟨A, hA', rfl⟩ := List.mem_map.1 hf
    exact measurable_one.indicator (hA A hA')) one_ne_top (fun f hf x => by
    obtain ⟨A, hA', rfl⟩ := List.mem_map.1 hf
    exact Set.indicator_le_self' (fun _ _ => zero_le_one) x)
  rw [List.map_map, List.map_congr_left (g := fun A => structuredPosterior m d A) fun A hA' => by
    exact lintegral_indicator_one (hA A hA')] at this
  simpa only [List.zipWith_map_left] using this

/-- A concrete case: in the limit, the first two stored filters are both positive with the product of the
probabilities. -/
example (D : Chols (Fin 1) (Fin 1)) (s : Session (Fin 1) (Fin 1)) :
    Tendsto (fun iters : ℤ => normalExpect (fitSweeps iters + 1) fun W =>
        (s.fitStructured D exInst W [(0, 1), (2, 3)] iters).1.onSamples fun xs => (List.zipWith
          (fun A x => Set.indicator A (1 : (Fin 1 → ℝ) × (Fin 1 → ℝ) → ℝ≥0∞) x)
            [{x | 0 < x.1 0}, {x | 0 < x.1 0}] xs).prod) atTop
      (𝓝 (structuredPosterior exInst [(0, 1), (2, 3)] {x | 0 < x.1 0} ^ 2)) := by
  have hA : MeasurableSet {x : (Fin 1 → ℝ) × (Fin 1 → ℝ) | 0 < x.1 0} :=
    measurableSet_lt measurable_const ((measurable_pi_apply 0).comp measurable_fst)
  have := c160_events D exInst_valid [(0, 1), (2, 3)] s (As := [{x | 0 < x.1 0}, {x | 0 < x.1 0}]) (by simp)
    (by simpa using hA)
  simpa [pow_two] using this

/-- **C161** Averages over the samples of the Gibbs sampler are consistent: from every starting point, the mean squared
difference between the average of a bounded function over `n` samples and its expectation under the structured
posterior vanishes. -/
theorem c161_consistent (h : m.Valid) (d : List (ℝ × ℝ)) {f : (ι → ℝ) × (κ → ℝ) → ℝ} (hf : Measurable f) {M : ℝ}
    (hM : ∀ x, |f x| ≤ M) (x : (ι → ℝ) × (κ → ℝ)) :
    Tendsto (fun n : ℕ => normalExpect n fun W => ENNReal.ofReal ((
      (((Fit.gibbsLoop (gibbsU C m (constructDataTerms C m d) W) (gibbsZ C m (constructDataTerms C m d) W) none n 0
        (0, x)).2.map f).sum / n) - ∫ x', f x' ∂structuredPosterior m d) ^ 2)) atTop (𝓝 0) := by
  have := structuredPosterior_prob h d
  refine ((gibbs_erg h d).lln_sq hf hM x).congr fun n => ?_
  rw [← normalExpect_chain C h d n (F := fun l => ENNReal.ofReal (((n : ℝ)⁻¹ * ∑ i ∈ Finset.range n, f (l i) -
    ∫ z, f z ∂structuredPosterior m d) ^ 2)) ((((measurable_sum_seq hf n).const_mul _).sub_const _).pow_const
      2).ennreal_ofReal]
  · refine congrArg (normalExpect n) (funext fun W => ?_)
    rw [c96_samples, List.map_map, Finset.sum_range, ← List.sum_ofFn, List.ofFn_eq_map, div_eq_inv_mul]
    congr 4
    rw [← List.map_coe_finRange_eq_range, List.map_map]
    rfl
  · intro l l' hl
    rw [Finset.sum_congr rfl fun i hi => by rw [hl i (Finset.mem_range.1 hi)]]

/-- **C161** The probability of an error of at least `e` vanishes. -/
theorem c161_probability (h : m.Valid) (d : List (ℝ × ℝ)) {f : (ι → ℝ) × (κ → ℝ) → ℝ} (hf : Measurable f) {M : ℝ}
    (hM : ∀ x, |f x| ≤ M) (x : (ι → ℝ) × (κ → ℝ)) {e : ℝ} (he : 0 < e) :
    Tendsto (fun n : ℕ => normalExpect n fun W => Set.indicator {y : ℝ | e ≤ |y - ∫ x', f x' ∂structuredPosterior m d|} 1
      (((Fit.gibbsLoop (gibbsU C m (constructDataTerms C m d) W) (gibbsZ C m (constructDataTerms C m d) W) none n 0
        (0, x)).2.map f).sum / n)) atTop (𝓝 0) := by
  have h1 := ENNReal.Tendsto.const_mul (a := ENNReal.ofReal (e⁻¹ ^ 2)) (c161_consistent C h d hf hM x)
    (Or.inr ENNReal.ofReal_ne_top)
  rw [mul_zero] at h1
  refine tendsto_of_tendsto_of_tendsto_of_le_of_le tendsto_const_nhds h1 (fun n => zero_le) fun n => ?_
  rw [← normalExpect_const_mul n ENNReal.ofReal_ne_top]
  refine normalExpect_mono n fun W => ?_
  obtain ⟨y, hy⟩ : ∃ y : ℝ, y = ((Fit.gibbsLoop (gibbsU C m (constructDataTerms C m d) W)
    (gibbsZ C m (constructDataTerms C m d) W) none n 0 (0, x)).2.map f).sum / n := ⟨_, rfl⟩
  obtain ⟨c, hc⟩ : ∃ c, c = ∫ x', f x' ∂structuredPosterior m d := ⟨_, rfl⟩
  rw [← hy, ← hc]
  by_cases hA : e ≤ |y - c|
  · rw [Set.indicator_of_mem (by exact hA), ← ENNReal.ofReal_mul (sq_nonneg _), Pi.one_apply, ← ENNReal.ofReal_one,
      ← mul_pow]
    refine ENNReal.ofReal_le_ofReal ?_
    rw [← sq_abs, abs_mul, abs_of_pos (inv_pos.2 he)]
    refine one_le_pow₀ ?_
    rw [inv_mul_eq_div, one_le_div he]
    exact hA
  · rw [Set.indicator_of_notMem (by exact hA)]
    exact zero_le

/-- A concrete case: the fraction of samples with a positive filter. -/
example (D : Chols (Fin 1) (Fin 1)) :
    Tendsto (fun n : ℕ => normalExpect n fun W => ENNReal.ofReal ((
      (((Fit.gibbsLoop (gibbsU D exInst (constructDataTerms D exInst [(0, 1), (2, 3)]) W)
        (gibbsZ D exInst (constructDataTerms D exInst [(0, 1), (2, 3)]) W) none n 0 (0, fun _ => 100, fun _ => -100)).2.map
          (Set.indicator {x | 0 < x.1 0} 1)).sum / n) -
        ∫ x, Set.indicator {x | 0 < x.1 0} 1 x ∂structuredPosterior exInst [(0, 1), (2, 3)]) ^ 2)) atTop (𝓝 0) :=
  c161_consistent D exInst_valid _ (measurable_one.indicator
    (measurableSet_lt measurable_const ((measurable_pi_apply 0).comp measurable_fst))) (M := 1) (fun x => by
      by_cases hx : x ∈ {x : (Fin 1 → ℝ) × (Fin 1 → ℝ) | 0 < x.1 0}
      · rw [Set.indicator_of_mem (by exact hx)]; simp
      · rw [Set.indicator_of_notMem (by exact hx)]; simp) _

end Gpcm
