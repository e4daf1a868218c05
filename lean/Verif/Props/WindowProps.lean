import Verif.Props.OptimiseProps
import Verif.Model.Filter
import Mathlib.Analysis.SpecialFunctions.Gaussian.GaussianIntegral
import Mathlib.Analysis.SpecialFunctions.ImproperIntegrals
import Mathlib.MeasureTheory.Measure.Lebesgue.Integral

/-! # Property C214: the window is the length of the filter, and default inputs of predictions cover it -/

open Real MeasureTheory Set

namespace Gpcm.Window

/-! ## Specification -/

/-- The length of a filter with covariance `k`: the area under its standard deviation after time zero, relative to that at time zero. -/
noncomputable def Spec.length (k : ℝ → ℝ → ℝ) : ℝ := ∫ t in Ioi 0, √(k t t / k 0 0)

/-- The expected power of a filter with covariance `k`. -/
noncomputable def Spec.power (k : ℝ → ℝ → ℝ) : ℝ := ∫ t, k t t

/-- The expected power of a filter outside of the interval from `-E` to `E`. -/
noncomputable def Spec.beyond (k : ℝ → ℝ → ℝ) (E : ℝ) : ℝ := ∫ t in {t | E < |t|}, k t t

/-! ## Integrals -/

theorem gpcm_diag (g : GpcmModel) (t : ℝ) :
    g.filterKernel t t = if g.causal = true ∧ t < 0 then 0 else exp (-(2 * g.alpha) * |t| ^ 2) := by
  unfold GpcmModel.filterKernel
  have e : exp (-g.alpha * t ^ 2) * exp (-g.alpha * t ^ 2) = exp (-(2 * g.alpha) * |t| ^ 2) := by
    rw [← exp_add, sq_abs]
    ring_nf
  simp only [sub_self, zero_div, zero_pow two_ne_zero, mul_zero, exp_zero, one_mul, e]
  by_cases hc : g.causal = true
  · by_cases ht : t < 0
    · simp [hc, ht, not_le.2 ht]
    · simp [hc, ht, not_lt.1 ht]
  · simp [hc]

theorem rgpcm_diag (g : RgpcmModel) (t : ℝ) : g.filterKernel t t = if t < 0 then 0 else exp (-(2 * g.alpha) * |t|) := by
  unfold RgpcmModel.filterKernel
  have e : exp (-g.alpha * |t|) * exp (-g.alpha * |t|) = exp (-(2 * g.alpha) * |t|) := by
    rw [← exp_add]
    ring_nf
  simp only [sub_self, zero_div, abs_zero, neg_zero, exp_zero, one_mul, e]
  by_cases ht : t < 0
  · rw [if_pos ht, if_neg (not_le.2 ht)]
    ring
  · rw [if_neg ht, if_pos (not_lt.1 ht)]
    ring

theorem beyond_two (f : ℝ → ℝ) {E : ℝ} (hE : 0 ≤ E) : ∫ t in {t | E < |t|}, f |t| = 2 * ∫ t in Ioi E, f t := by
  have hm : MeasurableSet {t : ℝ | E < |t|} := (isOpen_lt continuous_const continuous_abs).measurableSet
  rw [← integral_indicator hm]
  have e : ({t : ℝ | E < |t|}.indicator fun t => f |t|) = fun t => (Ioi E).indicator f |t| := by
    funext t
    by_cases h : E < |t|
    · rw [indicator_of_mem (show t ∈ {t : ℝ | E < |t|} from h), indicator_of_mem (show |t| ∈ Ioi E from h)]
    · rw [indicator_of_notMem (show t ∉ {t : ℝ | E < |t|} from h), indicator_of_notMem (show |t| ∉ Ioi E from h)]
  rw [e, integral_comp_abs, setIntegral_indicator measurableSet_Ioi, Ioi_inter_Ioi, max_eq_right hE]

theorem beyond_one (f : ℝ → ℝ) {E : ℝ} (hE : 0 ≤ E) : ∫ t in {t | E < |t|}, (if t < 0 then 0 else f |t|) = ∫ t in Ioi E, f t := by
  have hm : MeasurableSet {t : ℝ | E < |t|} := (isOpen_lt continuous_const continuous_abs).measurableSet
  rw [← integral_indicator hm, ← integral_indicator measurableSet_Ioi]
  congr 1
  funext t
  by_cases h : E < t
  · have ht : 0 < t := hE.trans_lt h
    have h' : E < |t| := by rwa [abs_of_pos ht]
    rw [indicator_of_mem (show t ∈ {t : ℝ | E < |t|} from h'), indicator_of_mem (show t ∈ Ioi E from h), if_neg (not_lt.2 ht.le),
      abs_of_pos ht]
  · rw [indicator_of_notMem (show t ∉ Ioi E from h)]
    by_cases h' : E < |t|
    · rw [indicator_of_mem (show t ∈ {t : ℝ | E < |t|} from h'), if_pos]
      by_contra h0
      rw [abs_of_nonneg (not_lt.1 h0)] at h'
      exact h h'
    · rw [indicator_of_notMem (show t ∉ {t : ℝ | E < |t|} from h')]

theorem power_eq (k : ℝ → ℝ → ℝ) : Spec.power k = Spec.beyond k 0 := by
  unfold Spec.power Spec.beyond
  have e : {t : ℝ | 0 < |t|} = {0}ᶜ := by
    ext t
    simp
  rw [e, setIntegral_eq_integral_of_ae_compl_eq_zero]
  have h0 : ∀ᵐ t : ℝ, t ≠ 0 := by
    rw [ae_iff]
    simp
  filter_upwards [h0] with t ht hn
  simp [ht] at hn

/-- The number of sides of the filter. -/
def sides (g : GpcmModel) : ℝ := if g.causal then 1 else 2

theorem sides_pos (g : GpcmModel) : 0 < sides g := by
  unfold sides
  split_ifs <;> norm_num

theorem gpcm_beyond (g : GpcmModel) {E : ℝ} (hE : 0 ≤ E) :
    Spec.beyond g.filterKernel E = sides g * ∫ t in Ioi E, exp (-(2 * g.alpha) * t ^ 2) := by
  unfold Spec.beyond sides
  simp only [gpcm_diag]
  by_cases hc : g.causal = true
  · simp only [hc, true_and, if_true, one_mul]
    exact beyond_one (fun t => exp (-(2 * g.alpha) * t ^ 2)) hE
  · simp only [hc]
    exact beyond_two (fun t => exp (-(2 * g.alpha) * t ^ 2)) hE

theorem rgpcm_beyond (g : RgpcmModel) (hα : 0 < g.alpha) {E : ℝ} (hE : 0 ≤ E) :
    Spec.beyond g.filterKernel E = exp (-(2 * g.alpha) * E) / (2 * g.alpha) := by
  unfold Spec.beyond
  simp only [rgpcm_diag]
  rw [beyond_one (fun t => exp (-(2 * g.alpha) * t)) hE, integral_exp_mul_Ioi (by linarith)]
  rw [neg_div_neg_eq]

theorem gauss_tail {b E : ℝ} (hb : 0 < b) (hE : 0 ≤ E) :
    ∫ t in Ioi E, exp (-b * t ^ 2) ≤ exp (-b * E ^ 2) * ∫ t in Ioi 0, exp (-b * t ^ 2) := by
  have h1 : ∫ t in Ioi E, exp (-b * t ^ 2) = ∫ t in Ioi 0, exp (-b * (t + E) ^ 2) := by
    have A : MeasurableEmbedding fun x : ℝ => x + E := (Homeomorph.addRight E).isClosedEmbedding.measurableEmbedding
    have := (measurePreserving_add_right volume E).setIntegral_preimage_emb A (fun t => exp (-b * t ^ 2)) (Ioi E)
    rw [← this, preimage_add_const_Ioi, sub_self]
  rw [h1, ← integral_const_mul]
  have hint := integrable_exp_neg_mul_sq hb
  refine setIntegral_mono_on (hint.comp_add_right E).integrableOn (hint.const_mul _).integrableOn measurableSet_Ioi fun t ht => ?_
  have ht : 0 < t := ht
  rw [← exp_add, exp_le_exp]
  nlinarith [mul_nonneg (mul_nonneg hb.le ht.le) hE]

/-! ## C214 -/

/-- **C214** The length of the filter of a GPCM or a CGPCM is the length that belongs to `alpha`, also for learned parameters. -/
theorem c214_length_gpcm (g : GpcmModel) (hα : 0 < g.alpha) : Spec.length g.filterKernel = factorToScale g.alpha := by
  unfold Spec.length
  have e : ∀ t ∈ Ioi (0 : ℝ), √(g.filterKernel t t / g.filterKernel 0 0) = exp (-g.alpha * t ^ 2) := fun t ht => by
    have ht : 0 < t := ht
    rw [gpcm_diag, gpcm_diag, if_neg fun h => absurd h.2 (not_lt.2 ht.le), if_neg fun h => absurd h.2 (lt_irrefl _)]
    rw [abs_zero, zero_pow two_ne_zero, mul_zero, exp_zero, div_one, sq_abs, show -(2 * g.alpha) * t ^ 2 = -g.alpha * t ^ 2 + -g.alpha * t ^ 2 by
      ring, exp_add, sqrt_mul_self (exp_pos _).le]
  rw [setIntegral_congr_fun measurableSet_Ioi e, integral_gaussian_Ioi]
  have h1 := factorToScale_sq hα
  have h2 : (√(π / g.alpha) / 2) ^ 2 = π / (4 * g.alpha) := by
    rw [div_pow, sq_sqrt (by positivity)]
    field_simp
    norm_num
  exact (pow_left_inj₀ (by positivity) (factorToScale_pos hα).le two_ne_zero).1 (h2.trans h1.symm)

/-- **C214** The length of the filter of a GPCM or a CGPCM is the given window. -/
theorem c214_window_gpcm {a : GpcmArgs} {g : GpcmModel} (h : GpcmModel.new a = .ok g) (ha : a.alpha = none) {w : ℝ} (hw : a.window = some w)
    (h0 : 0 < w) : Spec.length g.filterKernel = w := by
  obtain ⟨h1, -⟩ := GpcmModel.new_ok h
  unfold initAlpha at h1
  rw [ha, hw] at h1
  have h1 : scaleToFactor w = g.alpha := Except.ok.inj h1
  rw [c214_length_gpcm g (h1 ▸ scaleToFactor_pos h0), ← h1, c58_inverse.2.2.1 w h0]

/-- **C214** The length of the filter of an RGPCM is the inverse of `alpha`, also for learned parameters. -/
theorem c214_length_rgpcm (g : RgpcmModel) (hα : 0 < g.alpha) : Spec.length g.filterKernel = 1 / g.alpha := by
  unfold Spec.length
  have e : ∀ t ∈ Ioi (0 : ℝ), √(g.filterKernel t t / g.filterKernel 0 0) = exp (-g.alpha * t) := fun t ht => by
    have ht : 0 < t := ht
    rw [rgpcm_diag, rgpcm_diag, if_neg (not_lt.2 ht.le), if_neg (lt_irrefl _)]
    rw [abs_zero, mul_zero, exp_zero, div_one, abs_of_pos ht, show -(2 * g.alpha) * t = -g.alpha * t + -g.alpha * t by ring, exp_add,
      sqrt_mul_self (exp_pos _).le]
  rw [setIntegral_congr_fun measurableSet_Ioi e, integral_exp_mul_Ioi (by linarith), mul_zero, exp_zero, neg_div_neg_eq]

/-- **C214** The length of the filter of an RGPCM is the given window. -/
theorem c214_window_rgpcm {x : RgpcmArgs} {g : RgpcmModel} (h : RgpcmModel.new x = .ok g) (ha : x.alpha = none) {w : ℝ} (hw : x.window = some w)
    (h0 : 0 < w) : Spec.length g.filterKernel = w := by
  obtain ⟨h1, -⟩ := Rgpcm.new_ok h
  rw [ha, hw] at h1
  have h1 : divE 1 w = .ok g.alpha := h1
  unfold divE at h1
  rw [if_neg h0.ne'] at h1
  have h1 : 1 / w = g.alpha := Except.ok.inj h1
  rw [c214_length_rgpcm g (h1 ▸ by positivity), ← h1, one_div_one_div]

/-- **C214** With a fixed window, training does not change the length of the filter. -/
theorem c214_fixed (f : Flags) (hf : f.window = true) :
    (∀ (g g' : GpcmModel) (vs vs' : Store), 0 < g.alpha → g.instantiate f vs = some (g', vs') →
      Spec.length g'.filterKernel = Spec.length g.filterKernel) ∧
    ∀ (g g' : RgpcmModel) (vs vs' : Store), 0 < g.alpha → g.instantiate f vs = some (g', vs') →
      Spec.length g'.filterKernel = Spec.length g.filterKernel := by
  constructor
  · intro g g' vs vs' h0 h
    obtain ⟨-, -, ha, -⟩ := c104_gpcm g f h
    rw [if_pos hf] at ha
    rw [c214_length_gpcm g h0, c214_length_gpcm g' (ha ▸ h0), ha]
  · intro g g' vs vs' h0 h
    obtain ⟨-, -, ha, -⟩ := c104_rgpcm g f h
    rw [if_pos hf] at ha
    rw [c214_length_rgpcm g h0, c214_length_rgpcm g' (ha ▸ h0), ha]

/-- **C214** (partial) After training, all but a share of `exp (-8 π α' / α)` of the expected power of the filter of a GPCM or a CGPCM is within the default
inputs, where `α` is the initial and `α'` the learned parameter of the window. Without training or with a fixed window, this is less than `10⁻¹⁰`. -/
theorem c214_covers_gpcm_partial {a : GpcmArgs} {g g' : GpcmModel} (h : GpcmModel.new a = .ok g) (h0 : 0 < g.alpha) {f : Flags}
    {vs vs' : Store} (hi : g.instantiate f vs = some (g', vs')) (h0' : 0 < g'.alpha) :
    Spec.beyond g'.filterKernel g'.extent ≤ exp (-(8 * π * (g'.alpha / g.alpha))) * Spec.power g'.filterKernel ∧
    0 < Spec.power g'.filterKernel := by
  obtain ⟨-, -, -, -, -, -, -, -, -, he⟩ := GpcmModel.new_ok h
  obtain ⟨-, -, -, -, -, -, -, -, -, -, he', -⟩ := c104_gpcm g f hi
  have hE : 0 ≤ g'.extent := by
    rw [he', he]
    have := factorToScale_pos h0
    positivity
  rw [power_eq, gpcm_beyond g' hE, gpcm_beyond g' le_rfl]
  have hs := sides_pos g'
  refine ⟨?_, mul_pos hs ?_⟩
  · have h1 := gauss_tail (b := 2 * g'.alpha) (by positivity) hE
    have h2 : -(2 * g'.alpha) * g'.extent ^ 2 = -(8 * π * (g'.alpha / g.alpha)) := by
      rw [he', he, mul_pow, factorToScale_sq h0]
      field_simp
      norm_num
    rw [h2] at h1
    calc sides g' * ∫ t in Ioi g'.extent, exp (-(2 * g'.alpha) * t ^ 2)
        ≤ sides g' * (exp (-(8 * π * (g'.alpha / g.alpha))) * ∫ t in Ioi 0, exp (-(2 * g'.alpha) * t ^ 2)) := mul_le_mul_of_nonneg_left h1 hs.le
      _ = _ := by ring
  · rw [integral_gaussian_Ioi]
    positivity

/-- **C214** (partial) After training, the share of the expected power of the filter of an RGPCM outside of the default inputs is exactly
`exp (-8 α' / α)`, where `α` is the initial and `α'` the learned parameter of the window. Without training or with a fixed window, this is
`exp (-8)`. -/
theorem c214_covers_rgpcm_partial {x : RgpcmArgs} {g : RgpcmModel} (h : RgpcmModel.new x = .ok g) (h0 : 0 < g.alpha) (fn fw fs : Bool)
    (θ : RgpcmLearned) (hθ : 0 < θ.alpha) :
    let g' := g.prior fn fw fs θ
    Spec.beyond g'.filterKernel g'.extent = exp (-(8 * (g'.alpha / g.alpha))) * Spec.power g'.filterKernel ∧
    0 < Spec.power g'.filterKernel := by
  intro g'
  have he : g.extent = 4 / g.alpha := by
    unfold RgpcmModel.new at h
    obtain ⟨alpha, h1, h⟩ := bind1_ok h
    obtain ⟨lam, h2, h⟩ := bind1_ok h
    obtain ⟨extent, h3, h⟩ := bind1_ok h
    obtain ⟨u, h4, h⟩ := bind1_ok h
    obtain ⟨a, h5, h⟩ := bind1_ok h
    obtain ⟨b, h6, h⟩ := bind1_ok h
    obtain ⟨m, h7, h⟩ := bind1_ok h
    obtain ⟨gamma, h8, h⟩ := bind1_ok h
    obtain rfl := Except.ok.inj h
    unfold divE at h3
    rw [if_neg h0.ne'] at h3
    exact (Except.ok.inj h3).symm
  have he' : g'.extent = 4 / g.alpha := he
  have h0' : 0 < g'.alpha := by
    show 0 < if fw = true then g.alpha else θ.alpha
    split_ifs
    · exact h0
    · exact hθ
  rw [power_eq, rgpcm_beyond g' h0' (by rw [he']; positivity), rgpcm_beyond g' h0' le_rfl, he', mul_zero, exp_zero]
  refine ⟨?_, by positivity⟩
  rw [show -(2 * g'.alpha) * (4 / g.alpha) = -(8 * (g'.alpha / g.alpha)) by ring, mul_one_div]

/-- **C214 is false for learned windows**: training can give an RGPCM a filter of which any share less than all of the expected power is outside of the
default inputs, since these are those for the initial window. -/
theorem c214_false : ∃ g, RgpcmModel.new Rgpcm.exArgs = .ok g ∧ ∀ ε > 0, ∃ θ : RgpcmLearned, θ.Valid g ∧
    (1 - ε) * Spec.power (g.prior false false false θ).filterKernel <
      Spec.beyond (g.prior false false false θ).filterKernel (g.prior false false false θ).extent := by
  obtain ⟨g, hg, h⟩ := Rgpcm.exArgs_new
  refine ⟨g, hg, fun ε hε => ?_⟩
  have hv : RgpcmLearned.Valid ⟨1, ε / 16, 1, 1, 2, [0, 1 / 10]⟩ g := by
    refine ⟨by norm_num, by positivity, by norm_num, by norm_num, by norm_num, by norm_num, by rw [h.2.2.2.1], ?_, ?_⟩
    · intro x hx
      simp only [List.mem_cons, List.not_mem_nil, or_false] at hx
      rcases hx with rfl | rfl <;> norm_num
    · intro hi hh x hx
      rw [h.2.2.2.1] at hh
      have : hi = 1 / 10 := by
        have := (Except.ok.inj hh).symm
        simpa using this
      simp only [List.mem_cons, List.not_mem_nil, or_false] at hx
      rw [this]
      rcases hx with rfl | rfl <;> norm_num
  refine ⟨_, hv, ?_⟩
  obtain ⟨h1, h2⟩ := c214_covers_rgpcm_partial hg (by rw [h.1]; norm_num) false false false _ hv.alpha
  rw [h1]
  refine mul_lt_mul_of_pos_right ?_ h2
  have e : (g.prior false false false ⟨1, ε / 16, 1, 1, 2, [0, 1 / 10]⟩).alpha = ε / 16 := rfl
  rw [e, h.1, div_one]
  have := add_one_le_exp (-(8 * (ε / 16)))
  linarith

/-- The hypotheses can be met. -/
example : ∃ g, RgpcmModel.new Rgpcm.exArgs = .ok g ∧ Rgpcm.exArgs.alpha = none ∧ Rgpcm.exArgs.window = some 1 ∧
    Spec.length g.filterKernel = 1 := by
  obtain ⟨g, hg, -⟩ := Rgpcm.exArgs_new
  exact ⟨g, hg, rfl, rfl, c214_window_rgpcm hg rfl rfl one_pos⟩

example : ∃ g, GpcmModel.new { witnessArgs true 1 1 with nU := some 3 } = .ok g ∧ 0 < g.alpha ∧ Spec.length g.filterKernel = 1 := by
  obtain ⟨g, hg, hm, -⟩ := witness_moderate true
  exact ⟨g, hg, by linarith [hm.alpha_lo], c214_window_gpcm hg rfl rfl one_pos⟩

end Gpcm.Window
