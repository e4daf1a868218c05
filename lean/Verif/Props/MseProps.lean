import Verif.Lemmas.GibbsMoments
import Verif.Lemmas.MarkovMse
import Verif.Props.GibbsLimitProps

/-!
# Property C162: the error that remains however long the fit, and C161 for unbounded functions

`normalExpect n H` is the expectation of `H W` if the tape `W` of random numbers has `n` independent standard normal
entries. `structuredPosterior m d` is the distribution of the inducing variables given the data.
-/

set_option linter.unusedSectionVars false

open Matrix Real MeasureTheory ProbabilityTheory ENNReal Filter Topology

namespace Gpcm

open Markov

variable {ι κ : Type} [Fintype ι] [DecidableEq ι] [Fintype κ] [DecidableEq κ]
variable (C : Chols ι κ) {m : Inst ι κ}

/-- The structured posterior has moments of all orders. -/
theorem posterior_moment (h : m.Valid) (d : List (ℝ × ℝ)) {f : (ι → ℝ) × (κ → ℝ) → ℝ} (hf : Measurable f) {c : ℝ} {k : ℕ}
    (hc : ∀ x, |f x| ≤ c * (1 + x.1 ⬝ᵥ x.1 + x.2 ⬝ᵥ x.2) ^ k) : Integrable (fun x => f x ^ 2) (structuredPosterior m d) := by
  have := structuredPosterior_prob h d
  obtain ⟨B, hB⟩ := moment_poly h d hc
  exact (four_integrable hf ((gibbs_erg h d).moment hf 0 fun j => hB j 0)).2.2.1

/-- **C161** Averages over the samples of the Gibbs sampler are consistent for all functions of polynomial growth, not just
for bounded ones. -/
theorem c161_polynomial (h : m.Valid) (d : List (ℝ × ℝ)) {f : (ι → ℝ) × (κ → ℝ) → ℝ} (hf : Measurable f) {c : ℝ} {k : ℕ}
    (hc : ∀ x, |f x| ≤ c * (1 + x.1 ⬝ᵥ x.1 + x.2 ⬝ᵥ x.2) ^ k) (x : (ι → ℝ) × (κ → ℝ)) :
    Tendsto (fun n : ℕ => normalExpect n fun W => ENNReal.ofReal ((
      (((Fit.gibbsLoop (gibbsU C m (constructDataTerms C m d) W) (gibbsZ C m (constructDataTerms C m d) W) none n 0
        (0, x)).2.map f).sum / n) - ∫ x', f x' ∂structuredPosterior m d) ^ 2)) atTop (𝓝 0) := by
  have := structuredPosterior_prob h d
  obtain ⟨B, hB⟩ := moment_poly h d hc
  refine ((gibbs_erg h d).lln_moment hf x fun j => hB j x).congr fun n => ?_
  rw [← normalExpect_chain C h d n (F := fun l => ENNReal.ofReal (((n : ℝ)⁻¹ * ∑ i ∈ Finset.range n, f (l i) -
    ∫ z, f z ∂structuredPosterior m d) ^ 2)) ((((measurable_sum_seq hf n).const_mul _).sub_const _).pow_const
      2).ennreal_ofReal]
  · refine congrArg (normalExpect n) (funext fun W => ?_)
    rw [c96_samples, List.map_map, Finset.sum_range, ← List.sum_ofFn, List.ofFn_eq_map, div_eq_inv_mul]
    congr 4
    rw [← List.map_coe_finRange_eq_range, List.map_map]
    rfl
  · intro l l' hl
    rw [Finset.sum_congr rfl fun i hi => by rw [hl i (Finset.mem_range.1 hi)]]

theorem sum_getD {A : Type} (L : List A) (f : A → ℝ) (a : A) : (L.map f).sum = ∑ j ∈ Finset.range L.length, f (L.getD j a) := by
  induction L with
  | nil => simp
  | cons b L ih =>
    rw [List.map_cons, List.sum_cons, ih, List.length_cons, Finset.sum_range_succ', add_comm]
    rfl

theorem measurable_average {S : Type} [MeasurableSpace S] {f : S → ℝ} (hf : Measurable f) (r : ℕ) (c : ℝ) :
    Measurable fun l : ℕ → S => ENNReal.ofReal (((r : ℝ)⁻¹ * ∑ j ∈ Finset.range r, f (l j) - c) ^ 2) :=
  ((((measurable_sum_seq hf r).const_mul _).sub_const _).pow_const 2).ennreal_ofReal

/-- The mean squared error of an average over stored samples. -/
theorem stored_mse (h : m.Valid) (d : List (ℝ × ℝ)) (s : Session ι κ) {f : (ι → ℝ) × (κ → ℝ) → ℝ} (hf : Measurable f)
    {c : ℝ} {k : ℕ} (hc : ∀ x, |f x| ≤ c * (1 + x.1 ⬝ᵥ x.1 + x.2 ⬝ᵥ x.2) ^ k) :
    Tendsto (fun iters : ℤ => normalExpect (fitSweeps iters + 1) fun W => ENNReal.ofReal ((
        ((storedSamples C m W d iters s.posts.qU s.posts.qZ).map f).sum / 1000 - ∫ x, f x ∂structuredPosterior m d) ^ 2)) atTop
      (𝓝 (ENNReal.ofReal ((∫ x, (f x - ∫ x', f x' ∂structuredPosterior m d) ^ 2 ∂structuredPosterior m d) / 1000))) := by
  have := structuredPosterior_prob h d
  obtain ⟨B, hB⟩ := moment_poly h d hc
  have h1 := (gibbs_erg h d).mse (startLaw C s.posts.qU s.posts.qZ) (b := fun i => (i / 2).toNat) (T := thinning)
    (n := fitSweeps) thinning_pos (fun N => (fit_bounds_tendsto N).mono fun i hi => ⟨hi.1, hi.2.1⟩) (r := 1000) (by norm_num)
    (fun i j hj => by
      have h1 := thinning_pos i
      have h2 : (j + 1) * thinning i ≤ 1000 * thinning i := Nat.mul_le_mul_right _ (by omega)
      rw [Nat.succ_mul] at h2
      unfold fitSweeps
      omega) hf hB
  rw [Nat.cast_ofNat] at h1
  refine h1.congr fun iters => ?_
  obtain ⟨mu, hmu⟩ : ∃ mu, mu = ∫ x, f x ∂structuredPosterior m d := ⟨_, rfl⟩
  rw [← hmu]
  have e := normalExpect_stored C h d iters (measurable_average hf 1000 mu) (fun l l' hl => by
    rw [Finset.sum_congr rfl fun i hi => by rw [hl i (Finset.mem_range.1 hi)]]) s.posts.qU s.posts.qZ
  rw [Nat.cast_ofNat] at e
  rw [← e]
  refine congrArg (normalExpect _) (funext fun W => ?_)
  have hL := storedSamples_length C m W d iters s.posts.qU s.posts.qZ
  obtain ⟨L, hL'⟩ : ∃ L, L = storedSamples C m W d iters s.posts.qU s.posts.qZ := ⟨_, rfl⟩
  rw [← hL'] at hL ⊢
  rw [sum_getD L f 0, hL, inv_mul_eq_div]

/-- **C162** The mean squared error of an average over the thousand samples that a fit stores converges, as the fit gets longer, to a
thousandth of the variance of the averaged quantity under the structured posterior. -/
theorem c162_average (h : m.Valid) (d : List (ℝ × ℝ)) (s : Session ι κ) {f : (ι → ℝ) × (κ → ℝ) → ℝ} (hf : Measurable f)
    {c : ℝ} {k : ℕ} (hc : ∀ x, |f x| ≤ c * (1 + x.1 ⬝ᵥ x.1 + x.2 ⬝ᵥ x.2) ^ k) :
    Integrable (fun x => f x ^ 2) (structuredPosterior m d) ∧
      Tendsto (fun iters : ℤ => normalExpect (fitSweeps iters + 1) fun W =>
        (s.fitStructured C m W d iters).1.onSamples fun xs =>
          ENNReal.ofReal (((xs.map f).sum / xs.length - ∫ x, f x ∂structuredPosterior m d) ^ 2)) atTop
      (𝓝 (ENNReal.ofReal ((∫ x, (f x - ∫ x', f x' ∂structuredPosterior m d) ^ 2 ∂structuredPosterior m d) / 1000))) := by
  refine ⟨posterior_moment h d hf hc, (stored_mse C h d s hf hc).congr' ((fit_bounds_tendsto 0).mono fun iters hi => ?_)⟩
  refine congrArg (normalExpect _) (funext fun W => ?_)
  rw [onSamples_fit C W d hi.2.2, storedSamples_length, Nat.cast_ofNat]

/-- The squared difference between `c` and the mean that is predicted at one time, infinite if nothing is predicted. -/
noncomputable def sqError (c : ℝ) : Except PyErr (List (ℝ × ℝ)) → ℝ≥0∞
  | .ok [(a, _)] => ENNReal.ofReal ((a - c) ^ 2)
  | _ => ∞

/-- **C162** The mean squared error of the mean that a structured model predicts converges, as the fit gets longer, to a thousandth of
the variance, under the structured posterior, of what is predicted given the filter. The error is relative to the
expectation under the structured posterior, which is what the prediction approximates. -/
theorem c162_predict (h : m.Valid) (d : List (ℝ × ℝ)) (s : Session ι κ) (t : ℝ) (ws : List (ι → ℝ)) (hw : 1000 ≤ ws.length) :
    ∃ g : (ι → ℝ) → ℝ, (∀ u, ∃ v, Structured.predict C m (some (constructDataTerms C m d)) [t] [u] = .ok [(g u, v)]) ∧
      Integrable (fun x => g x.1 ^ 2) (structuredPosterior m d) ∧
      Tendsto (fun iters : ℤ => normalExpect (fitSweeps iters + 1) fun W => sqError (∫ x, g x.1 ∂structuredPosterior m d)
          (((s.fitStructured C m W d iters).1.condition C m d).predictStructured C m [t] ws)) atTop
        (𝓝 (ENNReal.ofReal ((∫ x, (g x.1 - ∫ x', g x'.1 ∂structuredPosterior m d) ^ 2 ∂structuredPosterior m d) / 1000))) := by
  obtain ⟨c, hc⟩ := meanGiven_le C h d t
  have hm : Measurable fun x : (ι → ℝ) × (κ → ℝ) => meanGiven m (constructDataTerms C m d) t x.1 :=
    (meanGiven_continuous C h d t).measurable.comp measurable_fst
  refine ⟨meanGiven m (constructDataTerms C m d) t, fun u => ?_, posterior_moment h d hm fun x => hc x.1 x.2, ?_⟩
  · obtain ⟨v, hv⟩ := predict_one C h d t (us := [u]) (by simp)
    exact ⟨v, by simpa using hv⟩
  refine (stored_mse C h d s hm fun x => hc x.1 x.2).congr' ((fit_bounds_tendsto 0).mono fun iters hi => ?_)
  refine congrArg (normalExpect _) (funext fun W => ?_)
  rw [predict_fit_condition C m W d d iters hi.2.2 s [t] ws, min_eq_left hw]
  have hL := storedSamples_length C m W d iters s.posts.qU s.posts.qZ
  obtain ⟨L, hL'⟩ : ∃ L, L = storedSamples C m W d iters s.posts.qU s.posts.qZ := ⟨_, rfl⟩
  rw [← hL'] at hL ⊢
  have hl : (L.map Prod.fst).length = 1000 := by rw [List.length_map, hL]
  rw [List.take_of_length_le hl.le]
  obtain ⟨v, hv⟩ := predict_one C h d t (us := L.map Prod.fst) (fun h0 => by rw [h0] at hl; simp at hl)
  rw [hv, sqError, hl, List.map_map, Nat.cast_ofNat]
  rfl

/-- The structured posterior gives every open set a positive probability. -/
theorem posterior_ac (h : m.Valid) (d : List (ℝ × ℝ)) :
    (volume.prod volume : Measure ((ι → ℝ) × (κ → ℝ))) ≪ structuredPosterior m d := by
  refine withDensity_absolutelyContinuous' ((measurable_joint h d).div_const _).aemeasurable (Eventually.of_forall fun x => ?_)
  exact (ENNReal.div_pos (ENNReal.ofReal_pos.2 (exp_pos _)).ne' (joint_finite h d).2).ne'

/-- **C162** Hence the error does not vanish, however long the fit, unless zero is predicted whatever the filter. -/
theorem c162_remains (h : m.Valid) (d : List (ℝ × ℝ)) (s : Session ι κ) (t : ℝ) (ws : List (ι → ℝ)) (hw : 1000 ≤ ws.length)
    {g : (ι → ℝ) → ℝ} (hg : ∀ u, ∃ v, Structured.predict C m (some (constructDataTerms C m d)) [t] [u] = .ok [(g u, v)])
    (hne : ∃ u, g u ≠ 0) :
    ∃ e : ℝ≥0∞, 0 < e ∧ Tendsto (fun iters : ℤ => normalExpect (fitSweeps iters + 1) fun W =>
        sqError (∫ x, g x.1 ∂structuredPosterior m d)
          (((s.fitStructured C m W d iters).1.condition C m d).predictStructured C m [t] ws)) atTop (𝓝 e) := by
  have := structuredPosterior_prob h d
  obtain ⟨g', hg', hi, h1⟩ := c162_predict C h d s t ws hw
  have e : g' = g := funext fun u => by
    obtain ⟨v, hv⟩ := hg u
    obtain ⟨v', hv'⟩ := hg' u
    rw [hv] at hv'
    simp only [Except.ok.injEq, List.cons.injEq, Prod.mk.injEq, and_true] at hv'
    exact hv'.1.symm
  rw [e] at h1 hi
  refine ⟨_, ?_, h1⟩
  have e' : g = meanGiven m (constructDataTerms C m d) t := funext fun u => by
    obtain ⟨v, hv⟩ := hg u
    obtain ⟨v', hv'⟩ := predict_one C h d t (us := [u]) (by simp)
    rw [hv] at hv'
    simp only [Except.ok.injEq, List.cons.injEq, Prod.mk.injEq, and_true] at hv'
    simpa using hv'.1
  have hc : Continuous fun x : (ι → ℝ) × (κ → ℝ) => g x.1 := by
    rw [e']
    exact (meanGiven_continuous C h d t).comp continuous_fst
  obtain ⟨mu, hmu⟩ : ∃ mu, mu = ∫ x, g x.1 ∂structuredPosterior m d := ⟨_, rfl⟩
  rw [← hmu, ENNReal.ofReal_pos]
  refine div_pos (lt_of_le_of_ne (integral_nonneg fun x => sq_nonneg _) fun h0 => ?_) (by norm_num)
  have hi1 : Integrable (fun x : (ι → ℝ) × (κ → ℝ) => (g x.1 - mu) ^ 2) (structuredPosterior m d) := by
    refine ((hi.const_mul 2).add (integrable_const (2 * mu ^ 2))).mono ((hc.sub continuous_const).pow 2).aestronglyMeasurable
      (Eventually.of_forall fun x => ?_)
    rw [Real.norm_eq_abs, Real.norm_eq_abs, abs_of_nonneg (sq_nonneg _)]
    refine le_trans ?_ (le_abs_self _)
    simp only [Pi.add_apply]
    nlinarith [sq_nonneg (g x.1 + mu)]
  have h2 := (integral_eq_zero_iff_of_nonneg (fun x => sq_nonneg _) hi1).1 h0.symm
  have h3 : (fun x : (ι → ℝ) × (κ → ℝ) => g x.1) =ᵐ[volume.prod volume] fun _ => mu :=
    (posterior_ac h d).ae_le (h2.mono fun x hx => sub_eq_zero.1 (pow_eq_zero_iff (n := 2) (by norm_num) |>.1 hx))
  have h4 := (Continuous.ae_eq_iff_eq (volume.prod volume) hc continuous_const).1 h3
  obtain ⟨u, hu⟩ := hne
  have hz : g 0 = 0 := by rw [e', meanGiven]; simp
  have h5 := congrFun h4 (u, 0)
  have h6 := congrFun h4 (0, 0)
  simp only at h5 h6
  exact hu (by rw [h5, ← h6, hz])

/-- A concrete case. -/
example (D : Chols (Fin 1) (Fin 1)) (s : Session (Fin 1) (Fin 1)) (ws : List (Fin 1 → ℝ)) (hw : 1000 ≤ ws.length) :
    ∃ g : (Fin 1 → ℝ) → ℝ, (∀ u, ∃ v, Structured.predict D exInst (some (constructDataTerms D exInst [(0, 1), (2, 3)])) [5] [u] =
        .ok [(g u, v)]) ∧
      Integrable (fun x => g x.1 ^ 2) (structuredPosterior exInst [(0, 1), (2, 3)]) ∧
      Tendsto (fun iters : ℤ => normalExpect (fitSweeps iters + 1) fun W =>
        sqError (∫ x, g x.1 ∂structuredPosterior exInst [(0, 1), (2, 3)])
          (((s.fitStructured D exInst W [(0, 1), (2, 3)] iters).1.condition D exInst [(0, 1), (2, 3)]).predictStructured D exInst
            [5] ws)) atTop
        (𝓝 (ENNReal.ofReal ((∫ x, (g x.1 - ∫ x', g x'.1 ∂structuredPosterior exInst [(0, 1), (2, 3)]) ^ 2
          ∂structuredPosterior exInst [(0, 1), (2, 3)]) / 1000))) :=
  c162_predict D exInst_valid _ s 5 ws hw

/-- A concrete case in which the error remains. -/
example (D : Chols (Fin 1) (Fin 1)) (s : Session (Fin 1) (Fin 1)) (ws : List (Fin 1 → ℝ)) (hw : 1000 ≤ ws.length) :
    ∃ c : ℝ, ∃ e : ℝ≥0∞, 0 < e ∧ Tendsto (fun iters : ℤ => normalExpect (fitSweeps iters + 1) fun W => sqError c
      (((s.fitStructured D exInst W [(0, 3)] iters).1.condition D exInst [(0, 3)]).predictStructured D exInst [0] ws)) atTop
        (𝓝 e) := by
  obtain ⟨g, hg, -, -⟩ := c162_predict D exInst_valid [(0, 3)] s 0 ws hw
  refine ⟨∫ x, g x.1 ∂structuredPosterior exInst [(0, 3)], c162_remains D exInst_valid _ s 0 ws hw hg ⟨fun _ => 1, ?_⟩⟩
  obtain ⟨v, hv⟩ := hg fun _ => 1
  rw [structured_predict_eq D exInst_valid _ _ _ (by simp)] at hv
  simp only [List.map_cons, List.map_nil, toMeanVar, List.sum_cons, List.sum_nil, ex_mean, Except.ok.injEq, List.cons.injEq,
    Prod.mk.injEq, and_true] at hv
  rw [← hv.1]
  have := mean_pos_fin1 D.z (qzOptimal_posDef D exInst_valid [(0, 3)] fun _ => 1) (by rw [ex_lam_z]; simp)
  simp only [one_mul, add_zero, List.length_cons, List.length_nil, zero_add, Nat.cast_one, div_one]
  exact this.ne'

/-- A concrete case: the average of the square of the first inducing variable of the filter. -/
example (D : Chols (Fin 1) (Fin 1)) :
    Tendsto (fun n : ℕ => normalExpect n fun W => ENNReal.ofReal ((
      (((Fit.gibbsLoop (gibbsU D exInst (constructDataTerms D exInst [(0, 1), (2, 3)]) W)
        (gibbsZ D exInst (constructDataTerms D exInst [(0, 1), (2, 3)]) W) none n 0 (0, fun _ => 100, fun _ => -100)).2.map
          fun x => x.1 0 ^ 2).sum / n) -
        ∫ x, x.1 0 ^ 2 ∂structuredPosterior exInst [(0, 1), (2, 3)]) ^ 2)) atTop (𝓝 0) :=
  c161_polynomial D exInst_valid _ (f := fun x => x.1 0 ^ 2)
    (((measurable_pi_apply 0).comp measurable_fst).pow_const 2) (c := 1) (k := 1) (fun x => by
      have hz0 : 0 ≤ x.2 ⬝ᵥ x.2 := Finset.sum_nonneg fun i _ => mul_self_nonneg _
      have e : x.1 ⬝ᵥ x.1 = x.1 0 ^ 2 := by simp [dotProduct, sq]
      rw [abs_of_nonneg (sq_nonneg _), e, pow_one]
      linarith) _

end Gpcm
