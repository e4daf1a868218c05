import Verif.Lemmas.MarkovPaths

/-! # A law of large numbers for Markov chains whose expectations converge -/

set_option linter.unusedSectionVars false

open MeasureTheory ProbabilityTheory ENNReal Filter Topology

namespace Gpcm.Markov

variable {S : Type} [MeasurableSpace S] {Q : Kernel S S} [IsMarkovKernel Q] {p : Measure S} [IsProbabilityMeasure p]

theorem measurable_sum_seq {g : S → ℝ} (hg : Measurable g) (n : ℕ) :
    Measurable fun l : ℕ → S => ∑ i ∈ Finset.range n, g (l i) :=
  Finset.measurable_sum _ fun i _ => hg.comp (measurable_pi_apply i)

theorem abs_sum_seq {g : S → ℝ} {M : ℝ} (hM : ∀ x, |g x| ≤ M) (n : ℕ) (l : ℕ → S) :
    |∑ i ∈ Finset.range n, g (l i)| ≤ n * M := by
  refine (Finset.abs_sum_le_sum_abs _ _).trans ((Finset.sum_le_sum fun i _ => hM (l i)).trans ?_)
  simp

/-- The distribution of one of the states. -/
theorem map_traj_eval {n i : ℕ} (hi : i < n) (x : S) : (traj Q n x).map (fun l => l i) = pw Q (i + 1) x := by
  ext A hA
  rw [← lintegral_indicator_one hA, ← lintegral_indicator_one hA,
    ← lintegral_traj_eval Q hi x (measurable_one.indicator hA),
    lintegral_map (f := A.indicator 1) (measurable_one.indicator hA) (measurable_pi_apply i)]

theorem integral_traj_eval {n i : ℕ} (hi : i < n) (x : S) {g : S → ℝ} (hg : Measurable g) :
    ∫ l, g (l i) ∂traj Q n x = ∫ y, g y ∂pw Q (i + 1) x := by
  rw [← map_traj_eval hi x, integral_map (measurable_pi_apply i).aemeasurable hg.aestronglyMeasurable]

/-- The second moment of a sum over the states. -/
noncomputable def sumSq (Q : Kernel S S) [IsMarkovKernel Q] (h : S → ℝ) (n : ℕ) (x : S) : ℝ≥0∞ :=
  ∫⁻ l, ENNReal.ofReal ((∑ i ∈ Finset.range n, h (l i)) ^ 2) ∂traj Q n x

theorem sumSq_measurable {h : S → ℝ} (hh : Measurable h) (n : ℕ) : Measurable (sumSq Q h n) :=
  ((measurable_sum_seq hh n).pow_const 2).ennreal_ofReal.lintegral_kernel

theorem sum_cons (h : S → ℝ) (n : ℕ) (y : S) (l : ℕ → S) :
    ∑ i ∈ Finset.range (n + 1), h (cons y l i) = h y + ∑ i ∈ Finset.range n, h (l i) := by
  rw [Finset.sum_range_succ', add_comm]
  rfl

theorem sumSq_step {h : S → ℝ} (hh : Measurable h) {H : ℝ} (hH : ∀ x, |h x| ≤ H) (n : ℕ) (y : S) :
    ∫⁻ l, ENNReal.ofReal ((h y + ∑ i ∈ Finset.range n, h (l i)) ^ 2) ∂traj Q n y ≤
      ENNReal.ofReal (H ^ 2) + ENNReal.ofReal (2 * H) * ∑ k ∈ Finset.range n, ‖∫ z, h z ∂pw Q (k + 1) y‖ₑ +
        sumSq Q h n y := by
  have hH0 : 0 ≤ H := (abs_nonneg _).trans (hH y)
  obtain ⟨b, hb⟩ : ∃ b : (ℕ → S) → ℝ, b = fun l => ∑ i ∈ Finset.range n, h (l i) := ⟨_, rfl⟩
  have hbm : Measurable b := by rw [hb]; exact measurable_sum_seq hh n
  have hbB : ∀ l, |b l| ≤ n * H := fun l => by rw [hb]; exact abs_sum_seq hH n l
  have hbi : Integrable b (traj Q n y) := Integrable.of_bound hbm.aestronglyMeasurable _ (Eventually.of_forall hbB)
  have hb2 : Integrable (fun l => b l ^ 2) (traj Q n y) :=
    Integrable.of_bound (hbm.pow_const 2).aestronglyMeasurable ((n * H) ^ 2) (Eventually.of_forall fun l => by
      rw [Real.norm_eq_abs, abs_pow]
      exact pow_le_pow_left₀ (abs_nonneg _) (hbB l) 2)
  have e1 : ∫⁻ l, ENNReal.ofReal ((h y + b l) ^ 2) ∂traj Q n y =
      ENNReal.ofReal (h y ^ 2 + 2 * h y * ∫ l, b l ∂traj Q n y + ∫ l, b l ^ 2 ∂traj Q n y) := by
    have ei : ∀ l, (h y + b l) ^ 2 = h y ^ 2 + 2 * h y * b l + b l ^ 2 := fun l => by ring
    have hi : Integrable (fun l => h y ^ 2 + 2 * h y * b l) (traj Q n y) := (integrable_const _).add (hbi.const_mul _)
    rw [← ofReal_integral_eq_lintegral_ofReal (f := fun l => (h y + b l) ^ 2) ?_
      (Eventually.of_forall fun l => sq_nonneg _)]
    · simp only [ei]
      rw [integral_add hi hb2, integral_add (integrable_const _) (hbi.const_mul _), integral_const_mul]
      simp
    · simp only [ei]
      exact hi.add hb2
  have e2 : sumSq Q h n y = ENNReal.ofReal (∫ l, b l ^ 2 ∂traj Q n y) := by
    rw [ofReal_integral_eq_lintegral_ofReal hb2 (Eventually.of_forall fun l => sq_nonneg _), sumSq, hb]
  have e3 : ∫ l, b l ∂traj Q n y = ∑ k ∈ Finset.range n, ∫ z, h z ∂pw Q (k + 1) y := by
    rw [hb, integral_finsetSum]
    · exact Finset.sum_congr rfl fun k hk => integral_traj_eval (Finset.mem_range.1 hk) y hh
    · exact fun i _ => Integrable.of_bound (hh.comp (measurable_pi_apply i)).aestronglyMeasurable H
        (Eventually.of_forall fun l => hH (l i))
  have e4 : |∫ l, b l ∂traj Q n y| ≤ ∑ k ∈ Finset.range n, |∫ z, h z ∂pw Q (k + 1) y| := by
    rw [e3]
    exact Finset.abs_sum_le_sum_abs _ _
  have e5 : h y ^ 2 + 2 * h y * ∫ l, b l ∂traj Q n y ≤
      H ^ 2 + 2 * H * ∑ k ∈ Finset.range n, |∫ z, h z ∂pw Q (k + 1) y| := by
    have h1 : h y ^ 2 ≤ H ^ 2 := by
      rw [← sq_abs]
      exact pow_le_pow_left₀ (abs_nonneg _) (hH y) 2
    have h2 : h y * ∫ l, b l ∂traj Q n y ≤ H * ∑ k ∈ Finset.range n, |∫ z, h z ∂pw Q (k + 1) y| := by
      refine (le_abs_self _).trans ?_
      rw [abs_mul]
      exact mul_le_mul (hH y) e4 (abs_nonneg _) hH0
    linarith
  have hb' : ∀ l, ∑ i ∈ Finset.range n, h (l i) = b l := fun l => by rw [hb]
  simp only [hb']
  have hs : 0 ≤ ∑ k ∈ Finset.range n, |∫ z, h z ∂pw Q (k + 1) y| := Finset.sum_nonneg fun _ _ => abs_nonneg _
  have e6 : ∑ k ∈ Finset.range n, ‖∫ z, h z ∂pw Q (k + 1) y‖ₑ =
      ENNReal.ofReal (∑ k ∈ Finset.range n, |∫ z, h z ∂pw Q (k + 1) y|) := by
    rw [ENNReal.ofReal_sum_of_nonneg fun _ _ => abs_nonneg _]
    exact Finset.sum_congr rfl fun k _ => Real.enorm_eq_ofReal_abs _
  rw [e1, e2, e6, ← ENNReal.ofReal_mul (by linarith), ← ENNReal.ofReal_add (sq_nonneg _) (by positivity),
    ← ENNReal.ofReal_add (by positivity) (integral_nonneg fun _ => sq_nonneg _)]
  exact ENNReal.ofReal_le_ofReal (by linarith)

theorem lintegral_four {μ : Measure S} [IsProbabilityMeasure μ] (c a c' : ℝ≥0∞) {A B : S → ℝ≥0∞} (hA : Measurable A)
    (hB : Measurable B) : ∫⁻ y, ((c + a * A y) + (c' + a * B y)) ∂μ =
      (c + a * ∫⁻ y, A y ∂μ) + (c' + a * ∫⁻ y, B y ∂μ) := by
  rw [lintegral_add_left (f := fun y => c + a * A y) (measurable_const.add (hA.const_mul _)),
    lintegral_add_left measurable_const, lintegral_add_left measurable_const, lintegral_const_mul _ hA,
    lintegral_const_mul _ hB]
  simp

theorem sumSq_le {h : S → ℝ} (hh : Measurable h) {H : ℝ} (hH : ∀ x, |h x| ≤ H) (N n : ℕ) (hn : n ≤ N) (x : S) :
    sumSq Q h n x ≤ n * ENNReal.ofReal (H ^ 2) + ENNReal.ofReal (2 * H) * ∑ i ∈ Finset.range n,
      ∑ k ∈ Finset.range N, ∫⁻ y, ‖∫ z, h z ∂pw Q (k + 1) y‖ₑ ∂pw Q (i + 1) x := by
  induction n generalizing x with
  | zero => simp [sumSq]
  | succ n ih =>
    have hd : ∀ k, Measurable fun y => ‖∫ z, h z ∂pw Q (k + 1) y‖ₑ := fun k => (measurable_integral_pw Q _ hh).enorm
    have hds : Measurable fun y => ∑ k ∈ Finset.range N, ‖∫ z, h z ∂pw Q (k + 1) y‖ₑ :=
      Finset.measurable_sum _ fun k _ => hd k
    rw [sumSq, lintegral_traj_succ Q n x ((measurable_sum_seq hh _).pow_const 2).ennreal_ofReal]
    simp only [sum_cons]
    obtain ⟨c, hc⟩ : ∃ c, c = ENNReal.ofReal (H ^ 2) := ⟨_, rfl⟩
    obtain ⟨H2, hH2⟩ : ∃ H2, H2 = ENNReal.ofReal (2 * H) := ⟨_, rfl⟩
    calc ∫⁻ y, ∫⁻ l, ENNReal.ofReal ((h y + ∑ i ∈ Finset.range n, h (l i)) ^ 2) ∂traj Q n y ∂Q x
        ≤ ∫⁻ y, ((c + H2 * ∑ k ∈ Finset.range N, ‖∫ z, h z ∂pw Q (k + 1) y‖ₑ) + (n * c + H2 *
          ∑ i ∈ Finset.range n, ∑ k ∈ Finset.range N, ∫⁻ y, ‖∫ z, h z ∂pw Q (k + 1) y‖ₑ ∂pw Q (i + 1) y)) ∂Q x := by
          refine lintegral_mono fun y => (sumSq_step hh hH n y).trans ?_
          rw [hc, hH2]
          gcongr
          · omega
          · exact ih (by omega) y
      _ = c + H2 * ∑ k ∈ Finset.range N, ∫⁻ y, ‖∫ z, h z ∂pw Q (k + 1) y‖ₑ ∂Q x + (n * c + H2 *
          ∑ i ∈ Finset.range n, ∑ k ∈ Finset.range N, ∫⁻ y, ‖∫ z, h z ∂pw Q (k + 1) y‖ₑ ∂pw Q (i + 1 + 1) x) := by
          have hm : ∀ i, Measurable fun y => ∑ k ∈ Finset.range N, ∫⁻ y, ‖∫ z, h z ∂pw Q (k + 1) y‖ₑ ∂pw Q (i + 1) y :=
            fun i => Finset.measurable_sum _ fun k _ => (hd k).lintegral_kernel
          rw [lintegral_four _ _ _ hds (Finset.measurable_sum _ fun i _ => hm i), lintegral_finsetSum _ fun k _ => hd k,
            lintegral_finsetSum _ fun i _ => hm i]
          congr 3
          refine Finset.sum_congr rfl fun i _ => ?_
          rw [lintegral_finsetSum _ fun k _ => (hd k).lintegral_kernel]
          exact Finset.sum_congr rfl fun k _ => (lintegral_pw_succ Q (i + 1) x (hd k)).symm
      _ = _ := by
          rw [Finset.sum_range_succ']
          have : ∀ k, ∫⁻ y, ‖∫ z, h z ∂pw Q (k + 1) y‖ₑ ∂pw Q (0 + 1) x = ∫⁻ y, ‖∫ z, h z ∂pw Q (k + 1) y‖ₑ ∂Q x :=
            fun k => by
              rw [lintegral_pw_succ Q 0 x (hd k)]
              exact lintegral_congr fun y => lintegral_pw_zero Q y (hd k)
          simp only [this]
          rw [← hc, ← hH2]
          push_cast
          ring

/-- **Law of large numbers**: averages of bounded functions converge in mean square from every starting point. -/
theorem Erg.lln_sq (h : Erg Q p) {g : S → ℝ} (hg : Measurable g) {M : ℝ} (hM : ∀ x, |g x| ≤ M) (x : S) :
    Tendsto (fun n : ℕ => ∫⁻ l, ENNReal.ofReal (((n : ℝ)⁻¹ * ∑ i ∈ Finset.range n, g (l i) - ∫ z, g z ∂p) ^ 2)
      ∂traj Q n x) atTop (𝓝 0) := by
  obtain ⟨mu, hmu⟩ : ∃ mu, mu = ∫ z, g z ∂p := ⟨_, rfl⟩
  have hM0 : 0 ≤ M := (abs_nonneg _).trans (hM x)
  have hmuM : |mu| ≤ M := by rw [hmu]; exact abs_integral_le hM
  obtain ⟨f, hf⟩ : ∃ f : S → ℝ, f = fun y => g y - mu := ⟨_, rfl⟩
  have hfm : Measurable f := by rw [hf]; exact hg.sub_const _
  have hfM : ∀ y, |f y| ≤ 2 * M := fun y => by
    rw [hf]
    have := abs_sub (g y) mu
    have := hM y
    simp only
    linarith
  have hdev : ∀ k y, ‖∫ z, f z ∂pw Q k y‖ₑ = dev Q p g k y := fun k y => by
    rw [hf, integral_sub (integrable_of_le hg hM) (integrable_const _), dev, hmu]
    simp
  obtain ⟨b, hb⟩ : ∃ b : ℕ → ℝ≥0∞, b = fun k => ⨆ l, ∫⁻ y, dev Q p g (k + 1) y ∂pw Q l x := ⟨_, rfl⟩
  have hb1 : ∀ k, b k ≤ ENNReal.ofReal (2 * M) := fun k => by
    rw [hb]
    exact iSup_le fun l => lintegral_le_of_le fun y => dev_le hM _ y
  have hb2 : Tendsto b atTop (𝓝 0) := by
    refine ENNReal.tendsto_atTop_zero.2 fun e he => ?_
    obtain ⟨N, hN⟩ := h.uniform hg hM x he
    refine ⟨N, fun k hk => ?_⟩
    rw [hb]
    exact iSup_le fun l => hN (k + 1) (by omega) l
  have hb3 : ∀ k, ENNReal.ofReal (b k).toReal = b k := fun k =>
    ENNReal.ofReal_toReal (ne_top_of_le_ne_top ENNReal.ofReal_ne_top (hb1 k))
  have hc := Filter.Tendsto.cesaro ((ENNReal.tendsto_toReal zero_ne_top).comp hb2)
  rw [ENNReal.toReal_zero] at hc
  have hlim : Tendsto (fun n : ℕ => ENNReal.ofReal ((n : ℝ)⁻¹ * (2 * M) ^ 2 + 2 * (2 * M) * ((n : ℝ)⁻¹ *
      ∑ k ∈ Finset.range n, (b k).toReal))) atTop (𝓝 0) := by
    have h1 : Tendsto (fun n : ℕ => (n : ℝ)⁻¹ * (2 * M) ^ 2) atTop (𝓝 0) := by
      have := (tendsto_inv_atTop_nhds_zero_nat (𝕜 := ℝ)).mul_const ((2 * M) ^ 2)
      rwa [zero_mul] at this
    have h2 := h1.add (hc.const_mul (2 * (2 * M)))
    rw [mul_zero, add_zero] at h2
    have h3 := (ENNReal.continuous_ofReal.tendsto 0).comp h2
    rw [ENNReal.ofReal_zero] at h3
    exact h3
  refine tendsto_of_tendsto_of_tendsto_of_le_of_le' tendsto_const_nhds hlim (Eventually.of_forall fun n => zero_le)
    (eventually_atTop.2 ⟨1, fun n hn => ?_⟩)
  have hn0 : (0 : ℝ) < n := by exact_mod_cast hn
  have e1 : ∀ l : ℕ → S, ENNReal.ofReal (((n : ℝ)⁻¹ * ∑ i ∈ Finset.range n, g (l i) - mu) ^ 2) =
      ENNReal.ofReal ((n : ℝ)⁻¹ ^ 2) * ENNReal.ofReal ((∑ i ∈ Finset.range n, f (l i)) ^ 2) := fun l => by
    rw [← ENNReal.ofReal_mul (by positivity), ← mul_pow, hf]
    congr 2
    rw [Finset.sum_sub_distrib, mul_sub]
    congr 1
    simp
    field_simp
  rw [← hmu]
  simp only [e1]
  rw [lintegral_const_mul _ ((measurable_sum_seq hfm n).pow_const 2).ennreal_ofReal]
  have hs := sumSq_le (Q := Q) hfm hfM n n le_rfl x
  rw [sumSq] at hs
  have hs2 : ∑ i ∈ Finset.range n, ∑ k ∈ Finset.range n, ∫⁻ y, ‖∫ z, f z ∂pw Q (k + 1) y‖ₑ ∂pw Q (i + 1) x ≤
      n * ENNReal.ofReal (∑ k ∈ Finset.range n, (b k).toReal) := by
    rw [ENNReal.ofReal_sum_of_nonneg fun _ _ => ENNReal.toReal_nonneg]
    simp only [hb3, hdev]
    refine (Finset.sum_le_sum fun i _ => Finset.sum_le_sum fun k _ => ?_).trans
      (b := ∑ i ∈ Finset.range n, ∑ k ∈ Finset.range n, b k) ?_
    · rw [hb]
      exact le_iSup (fun l => ∫⁻ y, dev Q p g (k + 1) y ∂pw Q l x) (i + 1)
    · simp
  calc _ ≤ ENNReal.ofReal ((n : ℝ)⁻¹ ^ 2) * (n * ENNReal.ofReal ((2 * M) ^ 2) + ENNReal.ofReal (2 * (2 * M)) *
        (n * ENNReal.ofReal (∑ k ∈ Finset.range n, (b k).toReal))) := by
        gcongr
        exact hs.trans (by gcongr)
    _ = _ := by
        have hs0 : 0 ≤ ∑ k ∈ Finset.range n, (b k).toReal := Finset.sum_nonneg fun _ _ => ENNReal.toReal_nonneg
        rw [← ENNReal.ofReal_natCast n, ← ENNReal.ofReal_mul (by positivity), ← ENNReal.ofReal_mul (by positivity),
          ← ENNReal.ofReal_mul (by positivity), ← ENNReal.ofReal_add (by positivity) (by positivity),
          ← ENNReal.ofReal_mul (by positivity)]
        congr 1
        field_simp

end Gpcm.Markov
