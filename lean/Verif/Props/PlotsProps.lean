import Verif.Model.Plots
import Verif.Props.KernelPredProps
import Verif.Props.RGPCMParamProps

/-!
# What `analyse_plots` plots (C126, C127)
-/

open Real

namespace Gpcm.Plots

open Rgpcm

/-! ## C126 -/

theorem count_whereIdx (p : ℕ → Bool) (ms : List ℕ) (i : ℕ) :
    (whereIdx p ms).count i = if i < ms.length ∧ p (ms.getD i 0) then 1 else 0 := by
  unfold whereIdx
  by_cases h : p (ms.getD i 0) = true
  · rw [List.count_filter (by exact h), List.Nodup.count List.nodup_range]
    simp only [List.mem_range, h, and_true]
  · rw [List.count_eq_zero_of_not_mem]
    · rw [if_neg fun h' => h h'.2]
    · intro h'
      exact h (List.mem_filter.1 h').2

theorem mem_whereIdx {p : ℕ → Bool} {ms : List ℕ} {i : ℕ} :
    i ∈ whereIdx p ms ↔ i < ms.length ∧ p (ms.getD i 0) = true := by
  simp [whereIdx, List.mem_filter, List.mem_range]

/-- **C126** Every feature other than the constant one is in exactly one panel, exactly once: a cosine in the panel of
cosines, a sine in the panel of sines. -/
theorem c126_partial (g : RgpcmModel) {i : ℕ} (hi : i < g.ms.length) (h0 : g.ms.getD i 0 ≠ 0) :
    (cosineInds g.ms g.mMax).count i = (if (g.ms.getD i 0 : ℤ) ≤ g.mMax then 1 else 0) ∧
      (sineInds g.ms g.mMax).count i = (if (g.ms.getD i 0 : ℤ) ≤ g.mMax then 0 else 1) := by
  unfold cosineInds sineInds
  simp only [List.count_append, count_whereIdx, hi, true_and, beq_iff_eq, h0, if_false, zero_add, decide_eq_true_eq]
  split <;> split <;> first | rfl | omega

/-- **C126** Every point of the two panels is at the frequency of its feature, in cycles per unit of time, with a bar
that extends 1.96 standard deviations from the mean in both directions. -/
theorem c126_points (g : RgpcmModel) (hM : 0 ≤ g.mMax) (mean var : ℕ → ℝ) :
    (∀ q ∈ cosinePanel g mean var, ∃ i < g.ms.length, (g.ms.getD i 0 : ℤ) ≤ g.mMax ∧
      q.freq = Spec.R.freq (specOf g) (g.ms.getD i 0) / (2 * π) ∧ q.mean = mean i ∧
      q.below = 1.96 * √(var i) ∧ q.above = 1.96 * √(var i)) ∧
    (∀ q ∈ sinePanel g mean var, ∃ i < g.ms.length, (g.ms.getD i 0 = 0 ∨ g.mMax < (g.ms.getD i 0 : ℤ)) ∧
      q.freq = Spec.R.freq (specOf g) (g.ms.getD i 0) / (2 * π) ∧ q.mean = mean i ∧
      q.below = 1.96 * √(var i) ∧ q.above = 1.96 * √(var i)) := by
  have hpi : (2 * π) ≠ 0 := by positivity
  constructor
  · intro q hq
    obtain ⟨i, hi, rfl⟩ := List.mem_map.1 hq
    have hi' : i < g.ms.length ∧ (g.ms.getD i 0 : ℤ) ≤ g.mMax := by
      rcases List.mem_append.1 hi with h | h
      · obtain ⟨h1, h2⟩ := mem_whereIdx.1 h
        have h3 : g.ms.getD i 0 = 0 := by simpa using h2
        exact ⟨h1, by rw [h3]; simpa using hM⟩
      · obtain ⟨h1, h2⟩ := mem_whereIdx.1 h
        exact ⟨h1, by simpa using h2⟩
    refine ⟨i, hi'.1, hi'.2, ?_, rfl, ?_, ?_⟩
    · have : Spec.R.freq (specOf g) (g.ms.getD i 0) = 2 * π * (g.ms.getD i 0 : ℕ) / (g.b - g.a) := by
        exact if_pos hi'.2
      rw [this]
      simp only [point, cosineFreq]
      field_simp
    · simp [point]
    · simp [point]
  · intro q hq
    obtain ⟨i, hi, rfl⟩ := List.mem_map.1 hq
    have hi' : i < g.ms.length ∧ (g.ms.getD i 0 = 0 ∨ g.mMax < (g.ms.getD i 0 : ℤ)) := by
      rcases List.mem_append.1 hi with h | h
      · obtain ⟨h1, h2⟩ := mem_whereIdx.1 h
        exact ⟨h1, .inl (by simpa using h2)⟩
      · obtain ⟨h1, h2⟩ := mem_whereIdx.1 h
        exact ⟨h1, .inr (by simpa using h2)⟩
    refine ⟨i, hi'.1, hi'.2, ?_, rfl, ?_, ?_⟩
    · simp only [point, sineFreq]
      rcases hi'.2 with h | h
      · have hM' : (0 : ℝ) ≤ g.mMax := by exact_mod_cast hM
        rw [h]
        simp only [Spec.R.freq, specOf, Nat.cast_zero, if_pos hM, mul_zero, zero_div]
        rw [max_eq_right (by linarith), zero_div]
      · have h' : (g.mMax : ℝ) < (g.ms.getD i 0 : ℕ) := by exact_mod_cast h
        have : Spec.R.freq (specOf g) (g.ms.getD i 0) = 2 * π * ((g.ms.getD i 0 : ℕ) - g.mMax) / (g.b - g.a) := by
          exact if_neg (not_le.2 h)
        rw [this, max_eq_left (by linarith)]
        field_simp
    · simp [point]
    · simp [point]

/-- **C126 is false**: the constant feature is in the panel of cosines twice, and also in the panel of sines. -/
theorem c126_refuted (g : RgpcmModel) (hM : 0 ≤ g.mMax) {i : ℕ} (hi : i < g.ms.length) (h0 : g.ms.getD i 0 = 0) :
    (cosineInds g.ms g.mMax).count i = 2 ∧ (sineInds g.ms g.mMax).count i = 1 ∧
      ∀ τ, Spec.R.wave (specOf g) (g.ms.getD i 0) τ = 1 := by
  unfold cosineInds sineInds
  simp only [List.count_append, count_whereIdx, hi, true_and, beq_iff_eq, h0, if_true, decide_eq_true_eq]
  refine ⟨by simp [hM], by simp [hM], fun τ => ?_⟩
  simp [Spec.R.wave, Spec.R.freq, specOf, hM]

example : (0 : ℤ) ≤ 2 ∧ 0 < (List.range 5).length ∧ (List.range 5).getD 0 0 = 0 ∧ 3 < (List.range 5).length ∧
    (List.range 5).getD 3 0 ≠ 0 := by decide

example : cosineInds (List.range 5) 2 = [0, 0, 1, 2] ∧ sineInds (List.range 5) 2 = [0, 3, 4] := by decide

/-! ## C127 -/

/-- The time step that `estimate_psd` uses, given the default frequencies of `predict_psd`. -/
theorem truePsd_freqs {d : ℝ} (hd : 0 < d) (kern : ℝ → ℝ → ℝ) :
    ∃ out, truePsd kern ((List.range 2999).map fun i : ℕ => (i : ℝ) * d) = .ok out ∧
      out.map Prod.fst = (List.range 4998).map fun i : ℕ => (i : ℝ) / 9996 / d := by
  obtain ⟨x, hx⟩ : ∃ x, x = (List.range 2999).map fun i : ℕ => (i : ℝ) * d := ⟨_, rfl⟩
  have hlen : x.length = 2999 := by rw [hx]; simp
  obtain ⟨xs, hxs⟩ : ∃ xs, x = 0 :: d :: xs := by
    refine ⟨(List.range 2997).map fun i : ℕ => ((i + 1 + 1 : ℕ) : ℝ) * d, ?_⟩
    rw [hx, List.range_succ_eq_map, List.range_succ_eq_map]
    simp only [List.map_cons, List.map_map, Function.comp_def]
    simp
  rw [← hx]
  obtain ⟨nz, hnz⟩ : ∃ nz : ℕ, nz = 2000 := ⟨_, rfl⟩
  have hsym : (Util.symmetrise (kern 0 0 :: (d :: xs).map (kern 0)) nz).length = 9996 := by
    rw [length_symmetrise, hnz]
    rw [hxs] at hlen
    simp only [List.length_cons, List.length_map] at hlen ⊢
    omega
  have e : truePsd kern x = Util.estimatePsd (0 :: d :: xs) (kern 0 0 :: (d :: xs).map (kern 0)) nz true := by
    rw [hxs, hnz]
    rfl
  rw [e, Util.c53_output nz true hd, hsym]
  refine ⟨_, rfl, ?_⟩
  rw [List.map_map]
  norm_num [Function.comp_def]

/-- **C127** The true spectral density is computed whatever the true kernel, at equally spaced frequencies from zero. -/
theorem c127_partial {extent : ℝ} (he : 0 < extent) {approx : List ℝ → Except PyErr (List (List ℝ))}
    (ha : ∀ t, ∃ ks, approx t = .ok ks ∧ ks ≠ [] ∧ ∀ k ∈ ks, k.length = t.length) (kern : ℝ → ℝ → ℝ) :
    ∃ x ds out, psdSamples extent approx none = .ok (x, ds) ∧ truePsd kern x = .ok out ∧
      x = (List.range 2999).map (fun i : ℕ => (i : ℝ) * (999 / (5998 * (2 * extent)))) ∧
      out.map Prod.fst = (List.range 4998).map fun i : ℕ => (i : ℝ) * ((5998 * (2 * extent)) / (9996 * 999)) := by
  obtain ⟨ks, ds, h1, h2, -⟩ := c114_default he ha
  obtain ⟨out, h3, h4⟩ := truePsd_freqs (d := 999 / (5998 * (2 * extent))) (by positivity) kern
  refine ⟨_, ds, out, h2, h3, rfl, ?_⟩
  rw [h4]
  refine List.map_congr_left fun i _ => ?_
  field_simp

/-- The unit of time in which the extent is expressed is changed by the factor `c`: a frequency becomes `1 / c` times
what it was. -/
def ScalesAsFrequency (f : ℝ → List ℝ) : Prop :=
  ∀ e c, 0 < e → 0 < c → f (c * e) = (f e).map fun x => x / c

/-- **C127 is false**: the predicted frequencies scale as frequencies when the unit of time changes, but those at which
the true spectral density is plotted do not: they scale as times, because the predicted frequencies are used as lags. -/
theorem c127_refuted {approx : List ℝ → Except PyErr (List (List ℝ))}
    (ha : ∀ t, ∃ ks, approx t = .ok ks ∧ ks ≠ [] ∧ ∀ k ∈ ks, k.length = t.length) (kern : ℝ → ℝ → ℝ) :
    ∃ pred true : ℝ → List ℝ, (∀ e, 0 < e → ∃ ds out, psdSamples e approx none = .ok (pred e, ds) ∧
        truePsd kern (pred e) = .ok out ∧ out.map Prod.fst = true e) ∧
      ScalesAsFrequency pred ∧ ¬ ScalesAsFrequency true ∧
      ∀ e c, 0 < e → 0 < c → true (c * e) = (true e).map fun x => x * c := by
  refine ⟨fun e => (List.range 2999).map fun i : ℕ => (i : ℝ) * (999 / (5998 * (2 * e))),
    fun e => (List.range 4998).map fun i : ℕ => (i : ℝ) * ((5998 * (2 * e)) / (9996 * 999)), ?_, ?_, ?_, ?_⟩
  · intro e he
    obtain ⟨x, ds, out, h1, h2, hx, h3⟩ := c127_partial he ha kern
    rw [hx] at h1 h2
    exact ⟨ds, out, h1, h2, h3⟩
  · intro e c he hc
    simp only [List.map_map]
    refine List.map_congr_left fun i _ => ?_
    simp only [Function.comp]
    field_simp
  · intro h
    have h1 := h 1 2 one_pos two_pos
    simp only [List.map_map] at h1
    have h2 := List.map_inj_left.1 h1 1 (List.mem_range.2 (by norm_num))
    simp only [Function.comp] at h2
    norm_num at h2
  · intro e c he hc
    simp only [List.map_map]
    refine List.map_congr_left fun i _ => ?_
    simp only [Function.comp]
    ring

/-- **C127 is false** also for a fixed unit of time: with extent one the prediction reaches beyond frequency 249 while
the true spectral density stops at frequency seven. -/
theorem c127_refuted_range {approx : List ℝ → Except PyErr (List (List ℝ))}
    (ha : ∀ t, ∃ ks, approx t = .ok ks ∧ ks ≠ [] ∧ ∀ k ∈ ks, k.length = t.length) (kern : ℝ → ℝ → ℝ) :
    ∃ x ds out, psdSamples 1 approx none = .ok (x, ds) ∧ truePsd kern x = .ok out ∧
      (∃ f ∈ x, 249 < f) ∧ ∀ q ∈ out, q.1 < 7 := by
  obtain ⟨x, ds, out, h1, h2, hx, h3⟩ := c127_partial one_pos ha kern
  refine ⟨x, ds, out, h1, h2, ?_, ?_⟩
  · rw [hx]
    exact ⟨_, List.mem_map.2 ⟨2998, List.mem_range.2 (by norm_num), rfl⟩, by norm_num⟩
  intro q hq
  have : q.1 ∈ out.map Prod.fst := List.mem_map_of_mem hq
  rw [h3] at this
  obtain ⟨i, hi, h⟩ := List.mem_map.1 this
  have hi' : (i : ℝ) < 4998 := by exact_mod_cast List.mem_range.1 hi
  rw [← h]
  norm_num
  linarith

example : ∀ t : List ℝ, ∃ ks : List (List ℝ), (fun t : List ℝ => (.ok [t.map fun x => exp (-x)] :
    Except PyErr (List (List ℝ)))) t = .ok ks ∧ ks ≠ [] ∧ ∀ k ∈ ks, k.length = t.length :=
  fun t => ⟨_, rfl, by simp, by simp⟩

end Gpcm.Plots
