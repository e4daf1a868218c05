import Verif.Lemmas.GibbsRate
import Verif.Props.GibbsLimitProps

/-!
# Property C199: the Gibbs sampler forgets its start geometrically fast

`chainExpect C m (constructDataTerms C m d) f k x` is the expectation of `f` after `k` sweeps from the state `x`
(approx.py:713-746), `normalExpect n H` is the expectation of `H W` if the tape `W` of random numbers has `n` independent
standard normal entries, and `structuredPosterior m d` is the distribution of the inducing variables given the data. C116 and
C161 say that the sampler converges from every starting point; here, the distance is bounded for every number of sweeps,
by a bound that does not depend on the starting point.
-/

set_option linter.unusedSectionVars false

open Matrix Real MeasureTheory ProbabilityTheory ENNReal Filter Topology

namespace Gpcm

open Markov

variable {ι κ : Type} [Fintype ι] [DecidableEq ι] [Fintype κ] [DecidableEq κ]
variable (C : Chols ι κ) {m : Inst ι κ}

theorem chainExpect_real (h : m.Valid) (d : List (ℝ × ℝ)) {f : (ι → ℝ) × (κ → ℝ) → ℝ} (hf : Measurable f) (h0 : ∀ x, 0 ≤ f x)
    (k : ℕ) (x : (ι → ℝ) × (κ → ℝ)) :
    (chainExpect C m (constructDataTerms C m d) (fun y => ENNReal.ofReal (f y)) k x).toReal =
      ∫ y, f y ∂pw (gibbsKernel h d) k x := by
  rw [chainExpect_eq_pw C h d hf.ennreal_ofReal,
    integral_eq_lintegral_of_nonneg_ae (Eventually.of_forall h0) hf.aestronglyMeasurable]

/-- **C199** There is a rate below one such that, for every starting point and every function with values between `a` and `b`,
the expectation of the function after `k` sweeps is within `(b - a) r ^ ⌊k / 2⌋` of that under the structured posterior. -/
theorem c199_geometric (h : m.Valid) (d : List (ℝ × ℝ)) : ∃ r : ℝ, 0 ≤ r ∧ r < 1 ∧
    ∀ (f : (ι → ℝ) × (κ → ℝ) → ℝ) (a b : ℝ), Measurable f → 0 ≤ a → (∀ x, a ≤ f x ∧ f x ≤ b) → ∀ k x,
      |(chainExpect C m (constructDataTerms C m d) (fun y => ENNReal.ofReal (f y)) k x).toReal -
        ∫ y, f y ∂structuredPosterior m d| ≤ (b - a) * r ^ (k / 2) := by
  have := structuredPosterior_prob h d
  obtain ⟨nu, hf, h0, hnu⟩ := gibbs_minor h d
  have hp : 0 < nu.real Set.univ := lt_of_le_of_ne measureReal_nonneg (Ne.symm h0)
  refine ⟨1 - nu.real Set.univ, by linarith [doeblin_le_one hnu], by linarith, fun f a b hm ha hab k x => ?_⟩
  rw [chainExpect_real C h d hm fun x => ha.trans (hab x).1]
  exact (gibbs_erg h d).geometric hnu hm (fun x => (hab x).1) (fun x => (hab x).2) k x

/-- **C199** For events: the probability that the sampler is in a set after `k` sweeps differs from that under the structured
posterior by at most `r ^ ⌊k / 2⌋`, uniformly over the sets and over the starting points. -/
theorem c199_events (h : m.Valid) (d : List (ℝ × ℝ)) : ∃ r : ℝ, 0 ≤ r ∧ r < 1 ∧
    ∀ A : Set ((ι → ℝ) × (κ → ℝ)), MeasurableSet A → ∀ k x,
      |(chainExpect C m (constructDataTerms C m d) (A.indicator 1) k x).toReal - (structuredPosterior m d).real A| ≤ r ^ (k / 2) := by
  obtain ⟨r, h0, h1, hr⟩ := c199_geometric C h d
  refine ⟨r, h0, h1, fun A hA k x => ?_⟩
  have := hr (A.indicator 1) 0 1 (measurable_one.indicator hA) le_rfl (fun x => ⟨Set.indicator_nonneg (fun _ _ => zero_le_one) x,
    Set.indicator_le_self' (fun _ _ => zero_le_one) x⟩) k x
  have e : (fun y => ENNReal.ofReal (A.indicator (1 : (ι → ℝ) × (κ → ℝ) → ℝ) y)) = A.indicator 1 := by
    funext y
    by_cases hy : y ∈ A
    · rw [Set.indicator_of_mem hy, Set.indicator_of_mem hy, Pi.one_apply, Pi.one_apply, ENNReal.ofReal_one]
    · rw [Set.indicator_of_notMem hy, Set.indicator_of_notMem hy, ENNReal.ofReal_zero]
  rwa [e, integral_indicator_one hA, sub_zero, one_mul] at this

/-- **C199** Two samplers started from different points agree: after `k` sweeps, the expectations of a function with values
between `a` and `b` differ by at most `(b - a) r ^ ⌊k / 2⌋`. -/
theorem c199_starts (h : m.Valid) (d : List (ℝ × ℝ)) : ∃ r : ℝ, 0 ≤ r ∧ r < 1 ∧
    ∀ (f : (ι → ℝ) × (κ → ℝ) → ℝ) (a b : ℝ), Measurable f → 0 ≤ a → (∀ x, a ≤ f x ∧ f x ≤ b) → ∀ k x y,
      |(chainExpect C m (constructDataTerms C m d) (fun y => ENNReal.ofReal (f y)) k x).toReal -
        (chainExpect C m (constructDataTerms C m d) (fun y => ENNReal.ofReal (f y)) k y).toReal| ≤ (b - a) * r ^ (k / 2) := by
  obtain ⟨nu, hf, h0, hnu⟩ := gibbs_minor h d
  have hp : 0 < nu.real Set.univ := lt_of_le_of_ne measureReal_nonneg (Ne.symm h0)
  refine ⟨1 - nu.real Set.univ, by linarith [doeblin_le_one hnu], by linarith, fun f a b hm ha hab k x y => ?_⟩
  rw [chainExpect_real C h d hm fun x => ha.trans (hab x).1, chainExpect_real C h d hm fun x => ha.trans (hab x).1]
  obtain ⟨a', b', e, hx⟩ := doeblin_iter hnu hm (fun x => (hab x).1) (fun x => (hab x).2) (k / 2)
  have h1 := hx k (by omega) x
  have h2 := hx k (by omega) y
  rw [mul_comm, ← e, abs_le]
  constructor <;> linarith [h1.1, h1.2, h2.1, h2.2]

/-- **C199** The same for what a fit of the structured scheme stores: the distribution of every one of the thousand samples is
within `r ^ ⌊iters / 4⌋` of the structured posterior, whatever the session has done before. -/
theorem c199_fit (h : m.Valid) (d : List (ℝ × ℝ)) : ∃ r : ℝ, 0 ≤ r ∧ r < 1 ∧
    ∀ (s : Session ι κ) (iters : ℤ), 2 ≤ iters → ∀ j < 1000, ∀ A : Set ((ι → ℝ) × (κ → ℝ)), MeasurableSet A →
      |(normalExpect (fitSweeps iters + 1) fun W => (s.fitStructured C m W d iters).1.onSamples fun xs =>
          A.indicator 1 (xs.getD j 0)).toReal - (structuredPosterior m d).real A| ≤ r ^ (iters.toNat / 4) := by
  have := structuredPosterior_prob h d
  obtain ⟨nu, hf, h0, hnu⟩ := gibbs_minor h d
  have hp : 0 < nu.real Set.univ := lt_of_le_of_ne measureReal_nonneg (Ne.symm h0)
  obtain ⟨r, hr⟩ : ∃ r, r = 1 - nu.real Set.univ := ⟨_, rfl⟩
  have hr0 : 0 ≤ r := by rw [hr]; linarith [doeblin_le_one hnu]
  have hr1 : r < 1 := by rw [hr]; linarith
  refine ⟨r, hr0, hr1, fun s iters hi j hj A hA => ?_⟩
  have hI : Measurable (A.indicator (1 : (ι → ℝ) × (κ → ℝ) → ℝ≥0∞)) := measurable_one.indicator hA
  simp only [onSamples_fit C _ d hi]
  rw [normalExpect_stored C h d iters (G := fun l => A.indicator 1 (l j)) (hI.comp (measurable_pi_apply j))
    fun l l' hl => by rw [hl j hj]]
  have hlt : (iters / 2).toNat + j * thinning iters < fitSweeps iters := by
    have h1 := thinning_pos iters
    have h2 : (j + 1) * thinning iters ≤ 1000 * thinning iters := Nat.mul_le_mul_right _ (by omega)
    rw [Nat.succ_mul] at h2
    unfold fitSweeps
    omega
  obtain ⟨n, hn⟩ : ∃ n, n = (iters / 2).toNat + j * thinning iters := ⟨_, rfl⟩
  beta_reduce
  rw [← hn] at hlt ⊢
  have e1 : ∀ x, ∫⁻ l, A.indicator 1 (l n) ∂traj (gibbsKernel h d) (fitSweeps iters) x =
      ENNReal.ofReal ((pw (gibbsKernel h d) (n + 1) x).real A) := fun x => by
    rw [lintegral_traj_eval _ hlt x hI, lintegral_indicator_one hA, Measure.real, ENNReal.ofReal_toReal (measure_ne_top _ _)]
  have hmr : Measurable fun x => (pw (gibbsKernel h d) (n + 1) x).real A :=
    ((pw (gibbsKernel h d) (n + 1)).measurable_coe hA).ennreal_toReal
  simp only [e1]
  rw [← integral_eq_lintegral_of_nonneg_ae (Eventually.of_forall fun x => measureReal_nonneg) hmr.aestronglyMeasurable]
  have hb : ∀ x, |(pw (gibbsKernel h d) (n + 1) x).real A - (structuredPosterior m d).real A| ≤ r ^ (iters.toNat / 4) := fun x => by
    have := (gibbs_erg h d).geometric hnu (g := A.indicator 1) (a := 0) (b := 1) (measurable_one.indicator hA)
      (fun x => Set.indicator_nonneg (fun _ _ => zero_le_one) x)
      (fun x => Set.indicator_le_self' (fun _ _ => zero_le_one) x) (n + 1) x
    rw [integral_indicator_one hA, integral_indicator_one hA, sub_zero, one_mul, ← hr] at this
    exact this.trans (pow_le_pow_of_le_one hr0 hr1.le (by omega))
  obtain ⟨h1, h2⟩ := integral_mem (μ := startLaw C s.posts.qU s.posts.qZ) hmr
    (a := (structuredPosterior m d).real A - r ^ (iters.toNat / 4)) (b := (structuredPosterior m d).real A + r ^ (iters.toNat / 4))
    (fun x => by linarith [(abs_le.1 (hb x)).1]) fun x => by linarith [(abs_le.1 (hb x)).2]
  rw [abs_le]
  constructor <;> linarith

/-- **C199** Averages over `n` samples have a mean squared error of at most a constant divided by `n`; the constant depends on
the model, the data, and the size of the function, but not on the starting point. -/
theorem c199_mse (h : m.Valid) (d : List (ℝ × ℝ)) : ∃ B : ℝ, 0 ≤ B ∧
    ∀ (f : (ι → ℝ) × (κ → ℝ) → ℝ) (M : ℝ), Measurable f → (∀ x, |f x| ≤ M) → ∀ (n : ℕ) (x : (ι → ℝ) × (κ → ℝ)), n ≠ 0 →
      normalExpect n (fun W => ENNReal.ofReal ((
        (((Fit.gibbsLoop (gibbsU C m (constructDataTerms C m d) W) (gibbsZ C m (constructDataTerms C m d) W) none n 0
          (0, x)).2.map f).sum / n) - ∫ x', f x' ∂structuredPosterior m d) ^ 2)) ≤ ENNReal.ofReal (B * M ^ 2 / n) := by
  have := structuredPosterior_prob h d
  obtain ⟨nu, hf, h0, hnu⟩ := gibbs_minor h d
  have hp : 0 < nu.real Set.univ := lt_of_le_of_ne measureReal_nonneg (Ne.symm h0)
  refine ⟨4 + 16 / nu.real Set.univ, by positivity, fun f M hm hM n x hn => ?_⟩
  rw [mul_comm _ (M ^ 2)]
  refine le_trans (le_of_eq ?_) ((gibbs_erg h d).mse_rate hnu h0 hm hM hn x)
  rw [← normalExpect_chain C h d n (F := fun l => ENNReal.ofReal (((n : ℝ)⁻¹ * ∑ i ∈ Finset.range n, f (l i) -
    ∫ z, f z ∂structuredPosterior m d) ^ 2)) ((((measurable_sum_seq hm n).const_mul _).sub_const _).pow_const
      2).ennreal_ofReal]
  · refine congrArg (normalExpect n) (funext fun W => ?_)
    rw [c96_samples, List.map_map, Finset.sum_range, ← List.sum_ofFn, List.ofFn_eq_map, div_eq_inv_mul]
    congr 4
    rw [← List.map_coe_finRange_eq_range, List.map_map]
    rfl
  · intro l l' hl
    rw [Finset.sum_congr rfl fun i hi => by rw [hl i (Finset.mem_range.1 hi)]]

/-- **C199** Hence the probability of an error of at least `e` is at most a constant divided by `n e²`. -/
theorem c199_probability (h : m.Valid) (d : List (ℝ × ℝ)) : ∃ B : ℝ, 0 ≤ B ∧
    ∀ (f : (ι → ℝ) × (κ → ℝ) → ℝ) (M : ℝ), Measurable f → (∀ x, |f x| ≤ M) → ∀ (n : ℕ) (x : (ι → ℝ) × (κ → ℝ)), n ≠ 0 →
      ∀ e : ℝ, 0 < e →
      normalExpect n (fun W => Set.indicator {y : ℝ | e ≤ |y - ∫ x', f x' ∂structuredPosterior m d|} 1
        (((Fit.gibbsLoop (gibbsU C m (constructDataTerms C m d) W) (gibbsZ C m (constructDataTerms C m d) W) none n 0
          (0, x)).2.map f).sum / n)) ≤ ENNReal.ofReal (B * M ^ 2 / (n * e ^ 2)) := by
  obtain ⟨B, hB, hb⟩ := c199_mse C h d
  refine ⟨B, hB, fun f M hm hM n x hn e he => ?_⟩
  have h1 := mul_le_mul_right (hb f M hm hM n x hn) (ENNReal.ofReal (e⁻¹ ^ 2))
  rw [← normalExpect_const_mul n ENNReal.ofReal_ne_top, ← ENNReal.ofReal_mul (by positivity)] at h1
  have e1 : e⁻¹ ^ 2 * (B * M ^ 2 / n) = B * M ^ 2 / (n * e ^ 2) := by
    have : (n : ℝ) ≠ 0 := by exact_mod_cast hn
    field_simp
  rw [e1] at h1
  refine le_trans (normalExpect_mono n fun W => ?_) h1
  obtain ⟨y, hy⟩ : ∃ y : ℝ, y = ((Fit.gibbsLoop (gibbsU C m (constructDataTerms C m d) W)
    (gibbsZ C m (constructDataTerms C m d) W) none n 0 (0, x)).2.map f).sum / n := ⟨_, rfl⟩
  obtain ⟨c, hc⟩ : ∃ c, c = ∫ x', f x' ∂structuredPosterior m d := ⟨_, rfl⟩
  rw [← hy, ← hc]
  by_cases hA : e ≤ |y - c|
  · rw [Set.indicator_of_mem (by exact hA), ← ENNReal.ofReal_mul (sq_nonneg _), Pi.one_apply, ← ENNReal.ofReal_one,
      ← mul_pow]
    refine ENNReal.ofReal_le_ofReal ?_
    rw [← sq_abs, abs_mul, abs_of_pos (inv_pos.2 he)]
    refine one_le_pow₀ ?_
    rw [inv_mul_eq_div, one_le_div he]
    exact hA
  · rw [Set.indicator_of_notMem (by exact hA)]
    exact zero_le

/-- A concrete case: the probability that the filter is positive after `k` sweeps, from every starting point. -/
example (D : Chols (Fin 1) (Fin 1)) : ∃ r : ℝ, 0 ≤ r ∧ r < 1 ∧ ∀ (k : ℕ) (x : (Fin 1 → ℝ) × (Fin 1 → ℝ)),
    |(chainExpect D exInst (constructDataTerms D exInst [(0, 1), (2, 3)]) ({x | 0 < x.1 0}.indicator 1) k x).toReal -
      (structuredPosterior exInst [(0, 1), (2, 3)]).real {x | 0 < x.1 0}| ≤ r ^ (k / 2) := by
  obtain ⟨r, h0, h1, hr⟩ := c199_events D exInst_valid [(0, 1), (2, 3)]
  exact ⟨r, h0, h1, hr _ (measurableSet_lt measurable_const ((measurable_pi_apply 0).comp measurable_fst))⟩

/-- A concrete function and a concrete number of iterations that meet the hypotheses. -/
example : (2 : ℤ) ≤ 1000 ∧ (Measurable fun x : (Fin 1 → ℝ) × (Fin 1 → ℝ) => sin (x.1 0) + 1) ∧
    (∀ x : (Fin 1 → ℝ) × (Fin 1 → ℝ), 0 ≤ sin (x.1 0) + 1 ∧ sin (x.1 0) + 1 ≤ 2) ∧
    ∀ x : (Fin 1 → ℝ) × (Fin 1 → ℝ), |sin (x.1 0) + 1| ≤ 2 := by
  have h : ∀ x : (Fin 1 → ℝ) × (Fin 1 → ℝ), 0 ≤ sin (x.1 0) + 1 ∧ sin (x.1 0) + 1 ≤ 2 := fun x =>
    ⟨by linarith [neg_one_le_sin (x.1 0)], by linarith [sin_le_one (x.1 0)]⟩
  refine ⟨by norm_num, ?_, h, fun x => abs_le.2 ⟨by linarith [(h x).1], (h x).2⟩⟩
  fun_prop

end Gpcm
