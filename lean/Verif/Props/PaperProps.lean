import Verif.Lemmas.PaperLemmas
import Verif.Props.PredictProps
import Verif.Props.ExperimentProps
import Mathlib.Analysis.Fourier.FourierTransform
import Mathlib.Probability.Moments.Covariance
import Mathlib.Analysis.Complex.ExponentialBounds

/-! # Properties of the data handling and post-processing in `experiments` (C117 to C122) -/

open Real MeasureTheory ProbabilityTheory FourierTransform

namespace Gpcm

open Paper

/-! ## C117 -/

/-- **C117** Data in original units are location plus scale times normalised data; their covariances are the square of
the scale times the normalised ones. -/
theorem c117_covariance {Ω : Type} [MeasurableSpace Ω] (P : Measure Ω) [IsProbabilityMeasure P] (n : Normaliser)
    {X Y : Ω → ℝ} (hX : MemLp X 2 P) (hY : MemLp Y 2 P) :
    cov[fun ω => X ω * n.scale + n.loc, fun ω => Y ω * n.scale + n.loc; P] = n.scale ^ 2 * cov[X, Y; P] := by
  have hX' : Integrable (fun ω => X ω * n.scale) P := (hX.integrable (by norm_num)).mul_const _
  have hY' : Integrable (fun ω => Y ω * n.scale) P := (hY.integrable (by norm_num)).mul_const _
  rw [covariance_add_const_left hX', covariance_add_const_right hY', covariance_mul_const_left,
    covariance_mul_const_right]
  ring

/-- **C117** The estimated spectral density of a kernel multiplied by a positive factor is multiplied by that factor. -/
theorem c117_density {c : ℝ} (hc : 0 < c) (t k : List ℝ) (n : ℕ) :
    Util.estimatePsd t (k.map (c * ·)) n false =
      (Util.estimatePsd t k n false).map fun l => l.map fun p => (p.1, c * p.2) :=
  estimatePsd_map_mul hc t k n

/-- **C117** The reported kernel is not the one of the data: with scale two, samples that are all one are four in
original units, and two is reported. -/
theorem c117_kernel_refuted : ∃ (n : Normaliser) (s : List ℝ), 0 < n.scale ∧ s ≠ [] ∧
    (untransformKernel n (summariseAt false s)).1 ≠ (summariseAt false (s.map (n.scale ^ 2 * ·))).mean := by
  refine ⟨⟨0, 2⟩, [1], by norm_num, by simp, ?_⟩
  simp [untransformKernel, summariseAt, Util.transform, Util.mean]
  norm_num

/-- **C117** What is reported for the kernel: the right mean divided by the scale and the right variance divided by the
square of the scale. Missing: the right values. They are reported if and only if the scale is one. -/
theorem c117_kernel_partial (n : Normaliser) (hn : 0 < n.scale) (s : List ℝ) :
    let right := summariseAt false (s.map (n.scale ^ 2 * ·))
    untransformKernel n (summariseAt false s) = (right.mean / n.scale, right.var / n.scale ^ 2) ∧
      (Util.mean s ≠ 0 → ((untransformKernel n (summariseAt false s)).1 = right.mean ↔ n.scale = 1)) ∧
      (std s ≠ 0 → ((untransformKernel n (summariseAt false s)).2 = right.var ↔ n.scale = 1)) := by
  have h1 : (summariseAt false (s.map (n.scale ^ 2 * ·))).mean = n.scale ^ 2 * Util.mean s := by
    simp only [summariseAt, Util.transform, Bool.false_eq_true, if_false]
    rw [mean_map_mul]
  have h2 : (summariseAt false (s.map (n.scale ^ 2 * ·))).var = n.scale ^ 4 * std s ^ 2 := by
    simp only [summariseAt, Util.transform, Bool.false_eq_true, if_false]
    rw [std_map_mul, abs_of_nonneg (sq_nonneg _)]
    ring
  have h3 : untransformKernel n (summariseAt false s) = (Util.mean s * n.scale, std s ^ 2 * n.scale ^ 2) := by
    simp only [untransformKernel, summariseAt, Util.transform, Bool.false_eq_true, if_false]
  intro right
  rw [h3, h1, h2]
  refine ⟨Prod.ext (by simp only; field_simp) (by simp only; field_simp), fun hm => ⟨fun h => ?_, fun h => ?_⟩,
    fun hm => ⟨fun h => ?_, fun h => ?_⟩⟩
  · have e : (n.scale - 1) * (n.scale * Util.mean s) = 0 := by linear_combination -h
    rcases mul_eq_zero.1 e with e | e
    · linarith
    · exact absurd e (mul_ne_zero hn.ne' hm)
  · simp only [h]; ring
  · have e : (n.scale - 1) * ((n.scale + 1) * n.scale ^ 2 * std s ^ 2) = 0 := by linear_combination -h
    rcases mul_eq_zero.1 e with e | e
    · linarith
    · exact absurd e (by positivity)
  · simp only [h]; ring

/-- **C117** The reported spectral density is not the one of the data. -/
theorem c117_psd_refuted : ∃ (n : Normaliser) (s : List ℝ), 0 < n.scale ∧ s ≠ [] ∧ (∀ x ∈ s, 0 < x) ∧
    (untransformPsd n (summariseAt true s)).1 ≠ (summariseAt true (s.map (n.scale ^ 2 * ·))).mean := by
  refine ⟨⟨0, 2⟩, [1], by norm_num, by simp, by simp, ?_⟩
  simp only [untransformPsd, summariseAt, Util.transform, Util.mean, if_true, List.map_cons, List.map_nil,
    List.sum_cons, List.sum_nil, List.length_cons, List.length_nil, logb]
  norm_num
  intro h
  have h4 : log 4 = 2 * log 2 := by
    rw [show (4 : ℝ) = 2 ^ 2 by norm_num, log_pow]
    norm_num
  have h2 : 0 < log 2 := log_pos (by norm_num)
  have h10 : 1 < log 10 := by
    have := log_lt_log (exp_pos 1) (exp_one_lt_d9.trans (by norm_num : (2.7182818286 : ℝ) < 10))
    rwa [log_exp] at this
  rw [h4] at h
  field_simp at h
  nlinarith

/-- **C117** What is reported for the spectral density: at every frequency the mean and both limits are too large by
`20 * log(scale) * (1 - 1 / log 10)`, with the natural logarithm. Missing: the right values. They are reported if and
only if the scale is one. -/
theorem c117_psd_partial (n : Normaliser) (hn : 0 < n.scale) {s : List ℝ} (hs : s ≠ []) (hpos : ∀ x ∈ s, 0 < x) :
    let right := summariseAt true (s.map (n.scale ^ 2 * ·))
    let off := 20 * log n.scale * (1 - 1 / log 10)
    untransformPsd n (summariseAt true s) =
        (right.mean + off, right.bands.err95Lower + off, right.bands.err95Upper + off) ∧ (off = 0 ↔ n.scale = 1) := by
  have h10 : 1 < log 10 := by
    have := log_lt_log (exp_pos 1) (exp_one_lt_d9.trans (by norm_num : (2.7182818286 : ℝ) < 10))
    rwa [log_exp] at this
  have hc : 0 < n.scale ^ 2 := by positivity
  have e : 10 * logb 10 (n.scale ^ 2) = 20 * log n.scale * (1 / log 10) := by
    rw [logb, log_pow]
    push_cast
    ring
  intro right off
  refine ⟨?_, ?_⟩
  · have hq : ∀ q : ℝ, 0 ≤ q → Util.transform true (Util.quantile (s.map (n.scale ^ 2 * ·)) q) =
        Util.transform true (Util.quantile s q) + 20 * log n.scale * (1 / log 10) := fun q hq => by
      rw [quantile_map_mul hc, transform_mul hc (Util.quantile_pos hs hpos hq), e]
    have hm : right.mean = Util.transform true (Util.mean s) + 20 * log n.scale * (1 / log 10) := by
      show Util.transform true (Util.mean (s.map (n.scale ^ 2 * ·))) = _
      rw [mean_map_mul, transform_mul hc (mean_pos hs hpos), e]
    have hl : right.bands.err95Lower = _ := hq 0.025 (by norm_num)
    have hu : right.bands.err95Upper = _ := hq (1 - 0.025) (by norm_num)
    rw [hm, hl, hu]
    simp only [untransformPsd, summariseAt, Util.bands, off]
    refine Prod.ext ?_ (Prod.ext ?_ ?_) <;> simp only <;> ring
  · have h1 : (1 - 1 / log 10) ≠ 0 := by
      have : 1 / log 10 < 1 := by
        rw [div_lt_one (by linarith)]
        exact h10
      linarith
    constructor
    · intro h
      have h2 : log n.scale = 0 := by
        rcases mul_eq_zero.1 h with h | h
        · linarith
        · exact absurd h h1
      rcases log_eq_zero.1 h2 with h | h | h <;> linarith
    · intro h
      simp [off, h]

example : (2 : ℝ) > 0 ∧ ([1, 2] : List ℝ) ≠ [] ∧ (∀ x ∈ ([1, 2] : List ℝ), 0 < x) ∧ Util.mean [1, 2] ≠ 0 ∧
    std [1, 2] ≠ 0 := by
  refine ⟨by norm_num, by simp, by simp, by norm_num [Util.mean], ?_⟩
  simp only [std, Util.mean]
  norm_num

/-- **C117** The other half of the script: predictions of the function are untransformed correctly. The mean and the
variance of normally distributed predictions in original units are the reported ones. -/
theorem c117_function (n : Normaliser) (m : ℝ) (v : NNReal) :
    ∃ v' : NNReal, (v' : ℝ) = (n.untransform (m, v)).2 ∧
      (gaussianReal m v).map (fun z => z * n.scale + n.loc) = gaussianReal (n.untransform (m, v)).1 v' := by
  refine ⟨NNReal.mk (n.scale ^ 2) (sq_nonneg _) * v, ?_, ?_⟩
  · simp only [Normaliser.untransform, NNReal.coe_mul]
    exact mul_comm _ _
  · have h : (fun z => z * n.scale + n.loc) = (fun z => z + n.loc) ∘ fun z => z * n.scale := rfl
    rw [h, ← Measure.map_map (by fun_prop) (by fun_prop), gaussianReal_map_mul_const, gaussianReal_map_add_const]
    simp only [Normaliser.untransform]
    rw [mul_comm n.scale m]

/-- **C117** Untransforming undoes transforming, and transformed training data have mean zero and variance one. -/
theorem c117_normaliser {y : List ℝ} (hy : y ≠ []) (hs : std y ≠ 0) :
    let n := Normaliser.fit y
    let z := n.transform y
    Util.mean z = 0 ∧ std z = 1 ∧ z.map (fun a => (n.untransform (a, 0)).1) = y := by
  have e : Normaliser.transform (Normaliser.fit y) y = y.map fun x => (std y)⁻¹ * x + -(std y)⁻¹ * Util.mean y := by
    simp only [Normaliser.transform, Normaliser.fit]
    exact List.map_congr_left fun x _ => by ring
  have hm : Util.mean (Normaliser.transform (Normaliser.fit y) y) = 0 := by
    rw [e, mean_map_affine hy]
    ring
  refine ⟨hm, ?_, ?_⟩
  · have h1 : std (Normaliser.transform (Normaliser.fit y) y) = |(std y)⁻¹| * std y := by
      unfold std
      rw [hm, Normaliser.transform, List.map_map]
      have h2 : ((fun x : ℝ => (x - 0) ^ 2) ∘ fun a => (a - (Normaliser.fit y).loc) / (Normaliser.fit y).scale) =
          (fun x => ((std y)⁻¹) ^ 2 * x) ∘ fun x => (x - Util.mean y) ^ 2 := by
        funext x
        simp only [Function.comp_apply, Normaliser.fit]
        ring
      rw [h2, ← List.map_map, mean_map_mul, sqrt_mul (sq_nonneg _), sqrt_sq_eq_abs]
      rfl
    rw [h1, abs_inv, abs_of_nonneg (by unfold std; positivity), inv_mul_cancel₀ hs]
  · rw [Normaliser.transform, List.map_map]
    conv_rhs => rw [← List.map_id y]
    refine List.map_congr_left fun x _ => ?_
    simp only [Function.comp_apply, Normaliser.untransform, Normaliser.fit, id]
    field_simp
    ring

/-! ## C118 -/

section
variable {ref monday : ℤ} {data : List (ℤ × ℝ)}

/-- What a row becomes: days since the origin and the logarithm of the price. -/
noncomputable def Spec.observation (ref : ℤ) (origin : ℤ × ℝ) (r : ℤ × ℝ) : ℤ × ℝ :=
  ((r.1 - ref) / (24 * 3600 * 1000000) - (origin.1 - ref) / (24 * 3600 * 1000000), log r.2)

/-- One week in microseconds. -/
def Spec.week : ℤ := 7 * (24 * 3600 * 1000000)

theorem getData_eq (a b : ℤ) : getData ref data a b =
    (Spec.window data a b).map fun r => ((r.1 - ref) / (24 * 3600 * 1000000), log r.2) := rfl

theorem weekLen_eq : Experiments.weekLen = Spec.week := by
  unfold Experiments.weekLen Spec.week
  norm_num

theorem vixTest_eq (i : ℕ) : vixTest ref data monday i =
    match Spec.window data (monday + i * Spec.week) (monday + (i + 4) * Spec.week) with
    | [] => .error .indexError
    | r :: l => .ok ((r :: l).map (Spec.observation ref r),
        (Spec.window data (monday + (i + 4) * Spec.week) (monday + (i + 5) * Spec.week)).map (Spec.observation ref r)) := by
  unfold vixTest
  simp only [getData_eq, weekLen_eq]
  push_cast
  rcases Spec.window data (monday + i * Spec.week) (monday + (i + 4) * Spec.week) with _ | ⟨r, l⟩
  · rfl
  · simp only [List.map_cons, List.map_map]
    rfl

/-- **C118** Test set `i` is conditioned on the rows of four weeks and predicts the rows of the week that follows; the
times of both are days since the first row of the four weeks. -/
theorem c118_sets {i : ℕ} {a b : List (ℤ × ℝ)} (h : vixTest ref data monday i = .ok (a, b)) :
    ∃ r, (Spec.window data (monday + i * Spec.week) (monday + (i + 4) * Spec.week)).head? = some r ∧
      a = (Spec.window data (monday + i * Spec.week) (monday + (i + 4) * Spec.week)).map (Spec.observation ref r) ∧
      b = (Spec.window data (monday + (i + 4) * Spec.week) (monday + (i + 5) * Spec.week)).map
        (Spec.observation ref r) := by
  rw [vixTest_eq] at h
  rcases hw : Spec.window data (monday + i * Spec.week) (monday + (i + 4) * Spec.week) with _ | ⟨r, l⟩
  · rw [hw] at h
    cases h
  · rw [hw] at h
    obtain ⟨rfl, rfl⟩ := Prod.mk.inj (Except.ok.inj h)
    exact ⟨r, rfl, rfl, rfl⟩

/-- **C118** No test set is conditioned on the present or the future of what it predicts, whatever the order of the
table. -/
theorem c118_no_leakage (hm : (24 * 3600 * 1000000 : ℤ) ∣ monday - ref) {i : ℕ} {a b : List (ℤ × ℝ)}
    (h : vixTest ref data monday i = .ok (a, b)) : ∀ x ∈ a, ∀ y ∈ b, x.1 < y.1 := by
  obtain ⟨r, -, rfl, rfl⟩ := c118_sets h
  intro x hx y hy
  obtain ⟨x, hx', rfl⟩ := List.mem_map.1 hx
  obtain ⟨y, hy', rfl⟩ := List.mem_map.1 hy
  have h1 := (mem_window.1 hx').2.2
  have h2 := (mem_window.1 hy').2.1
  obtain ⟨k, hk⟩ := hm
  simp only [Spec.observation, Spec.week] at *
  omega

/-- **C118** For a table in order of time: the first conditioning time is zero, conditioning times are in order and less
than 28 days, and the times to predict are in order, positive and less than 35 days. -/
theorem c118_times (hm : (24 * 3600 * 1000000 : ℤ) ∣ monday - ref) (hd : data.Pairwise fun r s => r.1 ≤ s.1) {i : ℕ}
    {a b : List (ℤ × ℝ)} (h : vixTest ref data monday i = .ok (a, b)) :
    (∃ y l, a = (0, y) :: l) ∧ (a.Pairwise fun x y => x.1 ≤ y.1) ∧ (b.Pairwise fun x y => x.1 ≤ y.1) ∧
      (∀ x ∈ a, 0 ≤ x.1 ∧ x.1 < 28) ∧ ∀ y ∈ b, 0 < y.1 ∧ y.1 < 35 := by
  have hleak := c118_no_leakage hm h
  obtain ⟨r, hr, rfl, rfl⟩ := c118_sets h
  have hp : ∀ u v, ((Spec.window data u v).map (Spec.observation ref r)).Pairwise fun x y => x.1 ≤ y.1 := fun u v => by
    rw [List.pairwise_map]
    refine (List.Pairwise.filter _ hd).imp fun {x y} hxy => ?_
    simp only [Spec.observation]
    omega
  obtain ⟨l, hl⟩ : ∃ l, Spec.window data (monday + i * Spec.week) (monday + (i + 4) * Spec.week) = r :: l := by
    rcases hw : Spec.window data (monday + i * Spec.week) (monday + (i + 4) * Spec.week) with _ | ⟨r', l⟩
    · rw [hw] at hr
      cases hr
    · rw [hw] at hr
      obtain rfl := Option.some.inj hr
      exact ⟨l, rfl⟩
  have hfirst : Spec.observation ref r r = (0, log r.2) := by simp [Spec.observation]
  have hrm := (mem_window.1 (hl ▸ List.mem_cons_self : r ∈ Spec.window data (monday + i * Spec.week)
    (monday + (i + 4) * Spec.week))).2
  have hpos : ∀ x ∈ (Spec.window data (monday + i * Spec.week) (monday + (i + 4) * Spec.week)).map
      (Spec.observation ref r), 0 ≤ x.1 := by
    have := hp (monday + i * Spec.week) (monday + (i + 4) * Spec.week)
    rw [hl, List.map_cons, hfirst, List.pairwise_cons] at this
    rw [hl, List.map_cons, hfirst]
    intro x hx
    rcases List.mem_cons.1 hx with rfl | hx
    · exact le_rfl
    · exact this.1 x hx
  obtain ⟨k, hk⟩ := hm
  refine ⟨⟨log r.2, l.map (Spec.observation ref r), by rw [hl, List.map_cons, hfirst]⟩, hp _ _, hp _ _,
    fun x hx => ⟨hpos x hx, ?_⟩, fun y hy => ⟨?_, ?_⟩⟩
  · obtain ⟨x, hx', rfl⟩ := List.mem_map.1 hx
    have h1 := (mem_window.1 hx').2
    simp only [Spec.observation, Spec.week] at *
    omega
  · have := hleak (Spec.observation ref r r) (List.mem_map_of_mem (hl ▸ List.mem_cons_self)) y hy
    rw [hfirst] at this
    exact this
  · obtain ⟨y, hy', rfl⟩ := List.mem_map.1 hy
    have h1 := (mem_window.1 hy').2
    simp only [Spec.observation, Spec.week] at *
    omega

/-- **C118** For a table in order of time, the values to predict over all test sets are the logarithms of the prices of
the hundred weeks from the fifth on, in order: every row is predicted exactly once. -/
theorem c118_cover (hd : data.Pairwise fun r s => r.1 ≤ s.1) {l : List (List (ℤ × ℝ) × List (ℤ × ℝ))}
    (h : vixTests ref data monday = .ok l) :
    l.length = 100 ∧ (l.flatMap fun p => p.2.map Prod.snd) =
      (Spec.window data (monday + 4 * Spec.week) (monday + 104 * Spec.week)).map fun r => log r.2 := by
  have hg : ∃ g : ℕ → List (ℤ × ℝ) × List (ℤ × ℝ), ∀ i ∈ List.range 100, vixTest ref data monday i = .ok (g i) := by
    have := mapE_ok_iff.1 h
    classical
    refine ⟨fun i => ((vixTest ref data monday i).toOption).getD ([], []), fun i hi => ?_⟩
    obtain ⟨b, hb⟩ : ∃ b, vixTest ref data monday i = .ok b := by
      obtain ⟨k, hk, rfl⟩ := List.mem_iff_getElem.1 hi
      have hlen := this.length_eq
      exact ⟨l[k]'(by omega), this.get (by omega) (by omega)⟩
    simp only [hb]
    rfl
  obtain ⟨g, hg⟩ := hg
  have hl : l = (List.range 100).map g := Except.ok.inj (h.symm.trans (mapE_eq_map hg))
  refine ⟨by simp [hl], ?_⟩
  have hw := windows_flatten hd (monday + 4 * Spec.week) (w := Spec.week) (by norm_num [Spec.week]) 100
  have e : monday + 104 * Spec.week = monday + 4 * Spec.week + (100 : ℕ) * Spec.week := by
    push_cast
    ring
  rw [e, ← hw, hl, List.map_flatMap, List.flatMap_map]
  refine List.flatMap_congr fun i hi => ?_
  obtain ⟨r, -, -, hb⟩ := c118_sets (hg i hi)
  rw [hb, List.map_map]
  have e1 : monday + ((i : ℤ) + 4) * Spec.week = monday + 4 * Spec.week + i * Spec.week := by ring
  have e2 : monday + ((i : ℤ) + 5) * Spec.week = monday + 4 * Spec.week + (i + 1) * Spec.week := by ring
  rw [e1, e2]
  rfl

/-- **C118** The script raises if and only if there is a conditioning window without rows, and then it raises
`IndexError`. -/
theorem c118_error {e : PyErr} : vixTests ref data monday = .error e ↔
    e = .indexError ∧ ∃ i : ℕ, i < 100 ∧
      Spec.window data (monday + i * Spec.week) (monday + (i + 4) * Spec.week) = [] := by
  have key : ∀ i e, vixTest ref data monday i = .error e ↔ e = .indexError ∧
      Spec.window data (monday + i * Spec.week) (monday + (i + 4) * Spec.week) = [] := fun i e => by
    rw [vixTest_eq]
    rcases Spec.window data (monday + i * Spec.week) (monday + (i + 4) * Spec.week) with _ | ⟨r, l⟩
    · simp [eq_comm]
    · simp
  constructor
  · intro h
    obtain ⟨i, hi, h'⟩ := mapE_error h
    obtain ⟨rfl, hw⟩ := (key i e).1 h'
    exact ⟨rfl, i, List.mem_range.1 hi, hw⟩
  · rintro ⟨rfl, i, hi, h⟩
    rcases hv : vixTests ref data monday with e | l
    · obtain ⟨j, -, h'⟩ := mapE_error hv
      rw [((key j e).1 h').1]
    · obtain ⟨b, hb⟩ : ∃ b, vixTest ref data monday i = .ok b := by
        have := mapE_ok_iff.1 hv
        have hlen := this.length_eq
        have hi' : i < (List.range 100).length := by simpa using hi
        refine ⟨l[i]'(by omega), ?_⟩
        have := this.get hi' (by omega)
        simpa using this
      rw [(key i .indexError).2 ⟨rfl, h⟩] at hb
      cases hb

/-- **C118** The training set consists of the rows between the two Mondays, with times since the first of them; all rows
of all test sets come later. -/
theorem c118_train {monday1 : ℤ} {a : List (ℤ × ℝ)} (h : vixTrain ref data monday1 monday = .ok a) :
    (∃ r, (Spec.window data monday1 monday).head? = some r ∧
      a = (Spec.window data monday1 monday).map (Spec.observation ref r)) ∧
    ∀ r ∈ Spec.window data monday1 monday, ∀ i j : ℕ,
      ∀ s ∈ Spec.window data (monday + i * Spec.week) (monday + j * Spec.week), r.1 < s.1 := by
  constructor
  · unfold vixTrain at h
    simp only [getData_eq] at h
    rcases hw : Spec.window data monday1 monday with _ | ⟨r, l⟩
    · simp only [hw, List.map_nil] at h
      cases h
    · simp only [hw, List.map_cons, List.map_map] at h
      obtain rfl := Except.ok.inj h
      exact ⟨r, rfl, rfl⟩
  · intro r hr i j s hs
    have h1 := (mem_window.1 hr).2.2
    have h2 := (mem_window.1 hs).2.1
    have : 0 ≤ (i : ℤ) * Spec.week := by
      have : (0 : ℤ) ≤ Spec.week := by norm_num [Spec.week]
      exact mul_nonneg (Int.natCast_nonneg i) this
    linarith

/-- Daily prices over 105 weeks from a Monday on satisfy the hypotheses. -/
example (monday : ℤ) : let data := (List.range 735).map fun k : ℕ => (monday + k * (24 * 3600 * 1000000), (20 : ℝ))
    (data.Pairwise fun r s => r.1 ≤ s.1) ∧ (24 * 3600 * 1000000 : ℤ) ∣ monday - monday ∧
      ∃ l, vixTests monday data monday = .ok l := by
  intro data
  refine ⟨?_, by simp, ?_⟩
  · rw [List.pairwise_map]
    refine List.pairwise_lt_range.imp fun {a b} hab => ?_
    show monday + (a : ℤ) * _ ≤ monday + (b : ℤ) * _
    omega
  · obtain ⟨v, h⟩ : ∃ v, v = vixTests monday data monday := ⟨_, rfl⟩
    rcases v with e | l
    · obtain ⟨-, i, hi, hw⟩ := c118_error.1 h.symm
      have : (monday + ((7 * i : ℕ) : ℤ) * (24 * 3600 * 1000000), (20 : ℝ)) ∈
          Spec.window data (monday + i * Spec.week) (monday + (i + 4) * Spec.week) := by
        rw [mem_window]
        refine ⟨List.mem_map.2 ⟨7 * i, List.mem_range.2 (by omega), rfl⟩, ?_, ?_⟩ <;> simp only [Spec.week] <;>
          push_cast <;> omega
      rw [hw] at this
      cases this
    · exact ⟨l, h.symm⟩

end

/-! ## C119 -/

section
variable {ι κ : Type} [Fintype ι] [DecidableEq ι] [Fintype κ] [DecidableEq κ] (C : Chols ι κ) {m : Inst ι κ}

theorem errorLines_eq {noise : ℝ} {p : ℝ × ℝ} (hp : 0 ≤ p.2) :
    errorLines noise p = (p.1 + 2 * √(p.2 + noise), p.1 - 2 * √(p.2 + noise)) := by
  simp only [errorLines]
  rw [sq_sqrt hp, add_comm noise]

/-- **C119** The dashed lines are not two standard deviations of an observation around the prediction. They never are:
the predicted variance is the one of the signal plus the noise, and the lines add the noise again, so that they are too
far apart for every valid model, posterior and time. -/
theorem c119_refuted (h : m.Valid) (s : Posts ι κ) (hu : (s.pU m).prec.PosDef) (hz : (s.pZ m).prec.PosDef)
    (t : List ℝ) : ∀ p ∈ MeanField.predict C m s t,
      p.1 + 2 * √p.2 < (errorLines m.noise p).1 ∧ (errorLines m.noise p).2 < p.1 - 2 * √p.2 := by
  intro p hp
  have h1 := (c28_mean_field C h s hu hz t).2 p hp
  have h2 := h.noise
  rw [errorLines_eq (by linarith)]
  have : √p.2 < √(p.2 + m.noise) := sqrt_lt_sqrt (by linarith) (by linarith)
  constructor <;> simp only <;> linarith

/-- **C119** What the lines are: two standard deviations of the signal plus twice the noise. In particular they contain
two standard deviations of an observation. Missing: equality. -/
theorem c119_partial (h : m.Valid) (s : Posts ι κ) (hu : (s.pU m).prec.PosDef) (hz : (s.pZ m).prec.PosDef)
    (t : List ℝ) : ∀ p ∈ MeanField.predict C m s t, ∃ v, 0 ≤ v ∧ p.2 = v + m.noise ∧
      errorLines m.noise p = (p.1 + 2 * √(v + 2 * m.noise), p.1 - 2 * √(v + 2 * m.noise)) := by
  intro p hp
  have h1 := (c28_mean_field C h s hu hz t).2 p hp
  have h2 := h.noise
  refine ⟨p.2 - m.noise, by linarith, by ring, ?_⟩
  rw [errorLines_eq (by linarith)]
  ring_nf

/-- **C119** The same for structured posteriors. -/
theorem c119_structured_partial (h : m.Valid) (d : List (ℝ × ℝ)) (t : List ℝ) (us : List (ι → ℝ)) (hus : us ≠ []) :
    ∃ l, Structured.predict C m (some (constructDataTerms C m d)) t us = .ok l ∧ ∀ p ∈ l, ∃ v, 0 ≤ v ∧
      p.2 = v + m.noise ∧
      errorLines m.noise p = (p.1 + 2 * √(v + 2 * m.noise), p.1 - 2 * √(v + 2 * m.noise)) := by
  obtain ⟨l, hl, -, hv⟩ := c28_structured C h d t us hus
  refine ⟨l, hl, fun p hp => ?_⟩
  have h1 := hv p hp
  have h2 := h.noise
  refine ⟨p.2 - m.noise, by linarith, by ring, ?_⟩
  rw [errorLines_eq (by linarith)]
  ring_nf

end

/-- A model and a prediction to which C119 applies: the prior at one time. -/
example (C : Chols (Fin 1) (Fin 1)) : ∃ p ∈ MeanField.predict C exInst (exPosts 0) [0],
    p.1 + 2 * √p.2 < (errorLines exInst.noise p).1 := by
  have h := c28_prior exInst_valid (exPosts 0) rfl
  have hl := (c28_mean_field C exInst_valid (exPosts 0) h.1 h.2 [0]).1
  obtain ⟨p, hp⟩ := List.exists_mem_of_length_pos (by rw [hl]; simp : 0 < (MeanField.predict C exInst (exPosts 0) [0]).length)
  exact ⟨p, hp, (c119_refuted C exInst_valid _ h.1 h.2 _ p hp).1⟩

/-! ## C120 -/

theorem equallySpaced_eq {t : List ℝ} {a b : ℝ} (ha : maxOf ((diff (diff t)).map abs) = .ok a)
    (hb : maxOf (t.map abs) = .ok b) : equallySpaced t = .ok (if b = 0 then false else decide (a / b < 5e-2)) := by
  unfold equallySpaced
  rw [ha, hb]
  rfl

/-- **C120** The check depends on the origin of time: the same times count as equally spaced or not. -/
theorem c120_refuted : ∃ (t : List ℝ) (c : ℝ), equallySpaced t = .ok false ∧ equallySpaced (t.map (· + c)) = .ok true := by
  refine ⟨[0, 1, 3], 100, ?_, ?_⟩
  · rw [equallySpaced_eq (a := 1) (b := 3)]
    · norm_num
    · norm_num [diff, maxOf]
    · norm_num [maxOf]
  · rw [equallySpaced_eq (a := 1) (b := 103)]
    · norm_num
    · norm_num [diff, maxOf]
    · norm_num [maxOf, abs_of_pos]

/-- **C120** Whatever the times are, they count as equally spaced when counted from early enough. -/
theorem c120_shift {t : List ℝ} (ht : 3 ≤ t.length) : ∃ c, equallySpaced (t.map (· + c)) = .ok true := by
  have hd : (diff (diff t)).map abs ≠ [] := by
    intro h
    have := congrArg List.length h
    rw [List.length_map, diff_length, diff_length] at this
    simp at this
    omega
  obtain ⟨a, ha⟩ := maxOf_ok hd
  have ha0 : 0 ≤ a := by
    obtain ⟨x, -, hx⟩ := List.mem_map.1 (maxOf_spec ha).1
    rw [← hx]
    exact abs_nonneg x
  obtain ⟨t0, ts, rfl⟩ : ∃ t0 ts, t = t0 :: ts := by
    cases t with
    | nil => simp at ht
    | cons a l => exact ⟨a, l, rfl⟩
  refine ⟨-t0 + (21 * a + 1), ?_⟩
  obtain ⟨b, hb⟩ := maxOf_ok (l := ((t0 :: ts).map (· + (-t0 + (21 * a + 1)))).map abs) (by simp)
  have hb' : 21 * a + 1 ≤ b := by
    have := (maxOf_spec hb).2 |t0 + (-t0 + (21 * a + 1))| (by simp)
    have h2 := le_abs_self (t0 + (-t0 + (21 * a + 1)))
    linarith
  rw [equallySpaced_eq (a := a) (by rw [diff_map_add]; exact ha) hb, if_neg (by linarith)]
  have : a / b < 5e-2 := by
    rw [div_lt_iff₀ (by linarith)]
    norm_num
    linarith
  rw [decide_eq_true this]

/-- **C120** What holds: times that are equally spaced pass, unless all are zero. Missing: the converse, even
approximately. -/
theorem c120_spaced_partial {n : ℕ} (hn : 3 ≤ n) {a d : ℝ} (h : a ≠ 0 ∨ d ≠ 0) :
    equallySpaced ((List.range n).map fun i : ℕ => a + i * d) = .ok true := by
  have e : (diff (diff ((List.range n).map fun i : ℕ => a + i * d))).map abs = List.replicate (n - 2) 0 := by
    rw [diff_arith, diff_replicate]
    simp
    omega
  obtain ⟨b, hb⟩ := maxOf_ok (l := ((List.range n).map fun i : ℕ => a + i * d).map abs) (by simp; omega)
  have ha : maxOf ((diff (diff ((List.range n).map fun i : ℕ => a + i * d))).map abs) = .ok 0 := by
    obtain ⟨x, hx⟩ := maxOf_ok (l := (diff (diff ((List.range n).map fun i : ℕ => a + i * d))).map abs)
      (by rw [e]; simp; omega)
    have := (maxOf_spec hx).1
    rw [e] at this
    rw [hx, (List.mem_replicate.1 this).2]
  have hb0 : 0 < b := by
    by_contra hneg
    have hle := (maxOf_spec hb).2
    have h0 := hle |a + (0 : ℕ) * d| (by
      rw [List.map_map]
      exact List.mem_map.2 ⟨0, List.mem_range.2 (by omega), rfl⟩)
    have h1 := hle |a + (1 : ℕ) * d| (by
      rw [List.map_map]
      exact List.mem_map.2 ⟨1, List.mem_range.2 (by omega), rfl⟩)
    have h0' : a + (0 : ℕ) * d = 0 := abs_nonpos_iff.1 (h0.trans (not_lt.1 hneg))
    have h1' : a + (1 : ℕ) * d = 0 := abs_nonpos_iff.1 (h1.trans (not_lt.1 hneg))
    have ha0 : a = 0 := by simpa using h0'
    have hd0 : d = 0 := by simpa [ha0] using h1'
    rcases h with h | h
    exacts [h ha0, h hd0]
  rw [equallySpaced_eq ha hb, if_neg hb0.ne']
  norm_num

/-- **C120** The check does not depend on the unit of time. -/
theorem c120_unit_partial {c : ℝ} (hc : c ≠ 0) (t : List ℝ) : equallySpaced (t.map (c * ·)) = equallySpaced t := by
  have e : ∀ l : List ℝ, (l.map (c * ·)).map abs = (l.map abs).map (|c| * ·) := fun l => by
    rw [List.map_map, List.map_map]
    exact List.map_congr_left fun x _ => by simp [abs_mul]
  unfold equallySpaced
  rw [diff_map_mul, diff_map_mul, e, e, maxOf_map_mul (abs_nonneg c), maxOf_map_mul (abs_nonneg c)]
  rcases maxOf ((diff (diff t)).map abs) with e | a
  · rfl
  rcases maxOf (t.map abs) with e | b
  · rfl
  have hc' : |c| ≠ 0 := abs_ne_zero.2 hc
  show Except.ok (if |c| * b = 0 then false else decide (|c| * a / (|c| * b) < 5e-2)) =
    Except.ok (if b = 0 then false else decide (a / b < 5e-2))
  rw [mul_div_mul_left _ _ hc']
  simp [hc]

/-- **C120** The check raises `ValueError` if and only if there are fewer than three times. -/
theorem c120_error_partial {t : List ℝ} {e : PyErr} : equallySpaced t = .error e ↔ e = .valueError ∧ t.length < 3 := by
  have hl : (diff (diff t)).map abs = [] ↔ t.length < 3 := by
    rw [← List.length_eq_zero_iff, List.length_map, diff_length, diff_length]
    omega
  constructor
  · intro h
    rcases lt_or_ge t.length 3 with h3 | h3
    · unfold equallySpaced at h
      rw [hl.2 h3] at h
      exact ⟨(Except.error.inj h).symm, h3⟩
    · obtain ⟨a, ha⟩ := maxOf_ok (l := (diff (diff t)).map abs) (by rw [Ne, hl]; omega)
      obtain ⟨b, hb⟩ := maxOf_ok (l := t.map abs) (by
        intro h
        have := congrArg List.length h
        simp at this
        simp [this] at h3)
      rw [equallySpaced_eq ha hb] at h
      cases h
  · rintro ⟨rfl, h3⟩
    unfold equallySpaced
    rw [hl.2 h3]
    rfl

example : equallySpaced [0, 1] = .error .valueError := c120_error_partial.2 ⟨rfl, by simp⟩

/-! ## C121 -/

/-- **C121** `psd_matern_12` is the Fourier transform of the kernel of a Matérn-1/2 process, at angular frequencies. -/
theorem c121_matern {lam : ℝ} (h : 0 < lam) (lamT f : ℝ) :
    𝓕 (fun t : ℝ => ((lamT * exp (-lam * |t|) : ℝ) : ℂ)) f = (RgpcmModel.psdMatern12 (2 * π * f) lam lamT : ℝ) := by
  rw [fourier_real_eq_integral_exp_smul]
  obtain ⟨a, ha⟩ : ∃ a : ℂ, a = ⟨-lam, -(2 * π * f)⟩ := ⟨_, rfl⟩
  obtain ⟨b, hb⟩ : ∃ b : ℂ, b = ⟨lam, -(2 * π * f)⟩ := ⟨_, rfl⟩
  have hare : a.re < 0 := by rw [ha]; simpa using h
  have hbre : 0 < b.re := by rw [hb]; simpa using h
  obtain ⟨F, hF⟩ : ∃ F : ℝ → ℂ, F = fun v : ℝ => Complex.exp (↑(-2 * π * v * f) * Complex.I) •
    ((lamT * exp (-lam * |v|) : ℝ) : ℂ) := ⟨_, rfl⟩
  have e1 : Set.EqOn F (fun v : ℝ => (lamT : ℂ) * Complex.exp (a * v)) (Set.Ioi 0) := fun v hv => by
    rw [hF, ha]
    simp only [smul_eq_mul, abs_of_pos (show 0 < v from hv), Complex.ofReal_mul, Complex.ofReal_exp]
    rw [mul_left_comm, ← Complex.exp_add]
    congr 2
    apply Complex.ext <;> simp <;> ring
  have e2 : Set.EqOn F (fun v : ℝ => (lamT : ℂ) * Complex.exp (b * v)) (Set.Iic 0) := fun v hv => by
    rw [hF, hb]
    simp only [smul_eq_mul, abs_of_nonpos (show v ≤ 0 from hv), Complex.ofReal_mul, Complex.ofReal_exp]
    rw [mul_left_comm, ← Complex.exp_add]
    congr 2
    apply Complex.ext <;> simp <;> ring
  have i1 : IntegrableOn F (Set.Ioi 0) := IntegrableOn.congr_fun
    ((integrableOn_exp_mul_complex_Ioi hare 0).const_mul (lamT : ℂ)) (fun v hv => (e1 hv).symm) measurableSet_Ioi
  have i2 : IntegrableOn F (Set.Iic 0) := IntegrableOn.congr_fun
    ((integrableOn_exp_mul_complex_Iic hbre 0).const_mul (lamT : ℂ)) (fun v hv => (e2 hv).symm) measurableSet_Iic
  rw [show (∫ v : ℝ, Complex.exp (↑(-2 * π * v * f) * Complex.I) • ((lamT * exp (-lam * |v|) : ℝ) : ℂ)) = ∫ v, F v by
    rw [hF], ← intervalIntegral.integral_Iic_add_Ioi i2 i1, setIntegral_congr_fun measurableSet_Iic e2,
    setIntegral_congr_fun measurableSet_Ioi e1, integral_const_mul, integral_const_mul,
    integral_exp_mul_complex_Iic hbre, integral_exp_mul_complex_Ioi hare]
  have hD : lam ^ 2 + (2 * π * f) ^ 2 ≠ 0 := by positivity
  have ha0 : a ≠ 0 := fun h0 => by simp [h0] at hare
  have hb0 : b ≠ 0 := fun h0 => by simp [h0] at hbre
  have hab : a * b = -((lam ^ 2 + (2 * π * f) ^ 2 : ℝ) : ℂ) := by
    rw [ha, hb]
    apply Complex.ext
    · simp only [Complex.mul_re, Complex.neg_re, Complex.ofReal_re]
      ring
    · simp only [Complex.mul_im, Complex.neg_im, Complex.ofReal_im]
      ring
  have hsub : a - b = ((-2 * lam : ℝ) : ℂ) := by
    rw [ha, hb]
    apply Complex.ext <;> simp <;> ring
  have key : (lamT : ℂ) * (Complex.exp (b * (0 : ℝ)) / b) + lamT * (-Complex.exp (a * (0 : ℝ)) / a) =
      lamT * (a - b) / (a * b) := by
    simp only [Complex.ofReal_zero, mul_zero, Complex.exp_zero]
    field_simp
    ring
  rw [key, hab, hsub]
  unfold RgpcmModel.psdMatern12
  rw [← Complex.ofReal_neg, ← Complex.ofReal_mul, ← Complex.ofReal_div, Complex.ofReal_inj]
  field_simp

/-- **C121** The spectrum of the excitation in `vix_analyse.py`, converted from decibels, is the Fourier transform of the
prior covariance of the RGPCM. -/
theorem c121_excitation (g : RgpcmModel) (hl : 0 < g.lam) (ha : 0 < g.alpha) (ht : g.alphaT ≠ 0) (f : ℝ) :
    𝓕 (fun t : ℝ => ((g.ihx t 0 : ℝ) : ℂ)) f = ((10 : ℝ) ^ (specX g.lam g.alphaT g.alpha f / 10) : ℝ) := by
  have e : (fun t : ℝ => ((g.ihx t 0 : ℝ) : ℂ)) =
      fun t : ℝ => ((g.alphaT ^ 2 / 2 / g.alpha * exp (-g.lam * |t|) : ℝ) : ℂ) := by
    funext t
    simp [RgpcmModel.ihx]
  rw [e, c121_matern hl, Complex.ofReal_inj]
  have hpos : 0 < 2 * g.lam / (g.lam ^ 2 + (2 * π * f) ^ 2) * (g.alphaT ^ 2 / (2 * g.alpha)) := by positivity
  have h10 : (0 : ℝ) < log 10 := log_pos (by norm_num)
  have e2 : specX g.lam g.alphaT g.alpha f / 10 =
      logb 10 (2 * g.lam / (g.lam ^ 2 + (2 * π * f) ^ 2) * (g.alphaT ^ 2 / (2 * g.alpha))) := by
    unfold specX logb
    field_simp
  rw [e2, rpow_logb (by norm_num) (by norm_num) hpos]
  unfold RgpcmModel.psdMatern12
  field_simp

/-- **C121** The two plotted components of a spectral density multiply to it. -/
theorem c121_components (value spec : ℝ) :
    (10 : ℝ) ^ ((decompose value spec).1 / 10) * (10 : ℝ) ^ ((decompose value spec).2 / 10) = (10 : ℝ) ^ (value / 10) := by
  rw [← rpow_add (by norm_num)]
  congr 1
  simp only [decompose]
  ring

/-! ## C122 -/

theorem normCdf_neg_le {x : ℝ} (hx : x ≤ 0) : normCdf x ≤ 1 / 2 := by
  obtain ⟨P, hP⟩ : ∃ P : Measure ℝ, P = gaussianReal 0 1 := ⟨_, rfl⟩
  have : IsProbabilityMeasure P := hP ▸ inferInstance
  have hsymm : P.map (fun z => -z) = P := by
    rw [hP, gaussianReal_map_neg, neg_zero]
  have h1 : P.real (Set.Iic x) = P.real (Set.Ici (-x)) := by
    conv_lhs => rw [← hsymm]
    rw [map_measureReal_apply (by fun_prop) measurableSet_Iic]
    congr 1
    ext z
    simp only [Set.mem_preimage, Set.mem_Iic, Set.mem_Ici]
    constructor <;> intro h <;> linarith
  have : NullSingletonClass P := hP ▸ nullSingletonClass_gaussianReal one_ne_zero
  have h2 : P.real (Set.Ici (-x)) = P.real (Set.Ioi (-x)) := measureReal_congr Ioi_ae_eq_Ici.symm
  have h3 : P.real (Set.Iic (-x)) + P.real (Set.Ioi (-x)) = 1 := by
    rw [← measureReal_union (by
      rw [Set.disjoint_left]
      intro z hz hz'
      exact absurd (show z ≤ -x from hz) (not_le.2 hz')) measurableSet_Ioi, Set.Iic_union_Ioi]
    exact probReal_univ
  have h4 : P.real (Set.Iic x) ≤ P.real (Set.Iic (-x)) := measureReal_mono (Set.Iic_subset_Iic.2 (by linarith))
  unfold normCdf
  rw [← hP]
  linarith

theorem normCdf_mono {x y : ℝ} (h : x ≤ y) : normCdf x ≤ normCdf y := measureReal_mono (Set.Iic_subset_Iic.2 h)

/-- **C122** Comparing two models in the other order changes the sign of the mean difference and nothing else. -/
theorem c122_swap (v1 v2 : List ℝ) : compareModels v2 v1 = (-(compareModels v1 v2).1, (compareModels v1 v2).2) := by
  have e : List.zipWith (fun x y => x - y) v2 v1 = (List.zipWith (fun x y => x - y) v1 v2).map (-1 * ·) := by
    rw [List.map_zipWith, List.zipWith_comm]
    congr 1
    funext x y
    ring
  simp only [compareModels, e]
  rw [mean_map_mul, std_map_mul, List.length_map]
  simp

/-- **C122** A reported p-value is a probability of at most one half. -/
theorem c122_half (v1 v2 : List ℝ) {q : ℝ} (h : (compareModels v1 v2).2.2 = some q) : 0 ≤ q ∧ q ≤ 1 / 2 := by
  simp only [compareModels] at h
  split at h
  · cases h
  · obtain rfl := Option.some.inj h
    refine ⟨measureReal_nonneg, normCdf_neg_le ?_⟩
    have h1 : 0 ≤ std (List.zipWith (fun x y => x - y) v1 v2) := by unfold std; positivity
    exact div_nonpos_of_nonpos_of_nonneg (by simp) (by positivity)

/-- **C122** The p-value is the probability that a normal variable with mean zero and the reported standard error is
further out than the mean, on one side; the more standard errors the mean is away from zero, the smaller the p-value. -/
theorem c122_tail (v1 v2 : List ℝ) {q : ℝ} (h : (compareModels v1 v2).2.2 = some q) :
    (0 < (compareModels v1 v2).2.1 ∧ q = (gaussianReal 0 1).real (Set.Iic (-|(compareModels v1 v2).1| / (compareModels v1 v2).2.1))) ∧
    ∀ (w1 w2 : List ℝ) (q' : ℝ), (compareModels w1 w2).2.2 = some q' →
      |(compareModels v1 v2).1| / (compareModels v1 v2).2.1 ≤ |(compareModels w1 w2).1| / (compareModels w1 w2).2.1 → q' ≤ q := by
  have key : ∀ (v1 v2 : List ℝ) (q : ℝ), (compareModels v1 v2).2.2 = some q → 0 < (compareModels v1 v2).2.1 ∧
      q = normCdf (-|(compareModels v1 v2).1| / (compareModels v1 v2).2.1) := fun v1 v2 q h => by
    simp only [compareModels] at h ⊢
    split at h
    · cases h
    · rename_i hs
      have h1 : 0 ≤ std (List.zipWith (fun x y => x - y) v1 v2) := by unfold std; positivity
      exact ⟨lt_of_le_of_ne (by positivity) (Ne.symm hs), (Option.some.inj h).symm⟩
  refine ⟨key v1 v2 q h, fun w1 w2 q' h' hle => ?_⟩
  rw [(key _ _ _ h).2, (key _ _ _ h').2]
  refine normCdf_mono ?_
  rw [neg_div, neg_div]
  linarith

/-- A comparison with a p-value. -/
example : ∃ q, (compareModels [1, 2] [0, 0]).2.2 = some q := by
  have h : std [(1 : ℝ), 2] ≠ 0 := by
    simp only [std, Util.mean]
    norm_num
  simp only [compareModels]
  rw [if_neg (by simpa using h)]
  exact ⟨_, rfl⟩

end Gpcm
