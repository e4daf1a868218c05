import Verif.Lemmas.ESSInv
import Mathlib.Probability.Distributions.Gaussian.Basic

/-!
# A target that `_sample` does not leave invariant

Standard normal prior on the line and a likelihood that is `1` on the right half and `exp (-1)` on the left half.
-/

open MeasureTheory ProbabilityTheory Set Real
open scoped ENNReal

namespace Gpcm.Ess

/-- All proposals fall in a rejected region when all uniform numbers are close to one. -/
theorem angles_none {S : Set ℝ} (hS : ∀ θ ∈ S, ¬ (2 * π / 3 < θ ∧ θ < 4 * π / 3)) (n : ℕ) :
    ∀ {w : Fin n → ℝ} {lo hi : ℝ}, (∀ i, 999 / 1000 < w i ∧ w i < 1) → lo < 0 → hi - lo ≤ 2 * π →
      2 * π / 3 + n * (2 * π / 1000) < hi → hi < 4 * π / 3 → angles S n w lo hi = none := by
  induction n with
  | zero => intros; rfl
  | succ n ih =>
    intro w lo hi hw hlo hle hlow hup
    have hpi := pi_pos
    push_cast at hlow
    have hn : (0 : ℝ) ≤ n * (2 * π / 1000) := by positivity
    obtain ⟨θ, hθ⟩ : ∃ θ, lo + (hi - lo) * w 0 = θ := ⟨_, rfl⟩
    have h1 : hi - 2 * π / 1000 ≤ θ := by nlinarith [(hw 0).1, (hw 0).2]
    have h2 : θ ≤ hi := by nlinarith [(hw 0).1, (hw 0).2]
    rw [angles_right hθ (fun hm => hS θ hm ⟨by linarith, by linarith⟩) (by linarith)]
    exact ih (fun i => hw i.succ) hlo (by linarith) (by linarith) (by linarith)

/-- The log-likelihood of the example. -/
noncomputable def stepLL (x : ℝ) : LL := some (if 0 ≤ x then ((0 : ℝ) : EReal) else ((-1 : ℝ) : EReal))

theorem stepLL_of_nonneg {x : ℝ} (h : 0 ≤ x) : stepLL x = some ((0 : ℝ) : EReal) := by rw [stepLL, if_pos h]

theorem stepLL_of_neg {x : ℝ} (h : x < 0) : stepLL x = some ((-1 : ℝ) : EReal) := by rw [stepLL, if_neg (not_le.2 h)]

theorem stepLL_finite (x : ℝ) : ∃ r : ℝ, stepLL x = some (r : EReal) := by
  by_cases h : 0 ≤ x
  · exact ⟨_, stepLL_of_nonneg h⟩
  · exact ⟨_, stepLL_of_neg (not_le.1 h)⟩

theorem gt_coe (a b : ℝ) : LL.gt (some (a : EReal)) (some (b : EReal)) ↔ b < a := by
  change (b : EReal) < (a : EReal) ↔ _
  exact EReal.coe_lt_coe_iff

theorem sub_coe (a b : ℝ) : LL.sub (some (a : EReal)) b = some ((a - b : ℝ) : EReal) := by
  simp [LL.sub]

theorem logLik_stepLL : LogLik stepLL := by
  refine ⟨fun c => ?_, fun x h => ?_⟩
  · have : {x : ℝ | (stepLL x).gt (some (c : EReal))} = {x | c < if 0 ≤ x then (0 : ℝ) else -1} := by
      ext x
      change (stepLL x).gt (some (c : EReal)) ↔ c < if 0 ≤ x then (0 : ℝ) else -1
      by_cases hx : 0 ≤ x
      · rw [stepLL_of_nonneg hx, gt_coe, if_pos hx]
      · rw [stepLL_of_neg (not_le.1 hx), gt_coe, if_neg hx]
    rw [this]
    exact measurableSet_lt measurable_const (Measurable.ite measurableSet_Ici measurable_const measurable_const)
  · obtain ⟨r, hr⟩ := stepLL_finite x
    rw [hr] at h
    exact EReal.coe_ne_top r (Option.some.inj h)

theorem lik_stepLL_ne_zero (x : ℝ) : lik stepLL x ≠ 0 := by
  obtain ⟨r, hr⟩ := stepLL_finite x
  rw [lik_eq, logLik, hr]
  simp [exp_pos]

/-- The uniform numbers of the example. -/
def nearOne (i : Fin 101) : Set ℝ := if i = 0 then Ioo (1 / 2) (3 / 5) else Ioo (999 / 1000) 1

/-- Random numbers for which the proposals fall on the left half. -/
def leftBox (x : ℝ) (E : Set ℝ) : Set (Block ℝ) := E ×ˢ (Ioo (-(x / 2)) (x / 2) ×ˢ Set.pi univ nearOne)

theorem leftBox_pos {x : ℝ} (hx : 0 < x) {a b : ℝ} (ha : 0 ≤ a) (hab : a < b) :
    0 < passLaw (gaussianReal 0 1) (leftBox x (Ioo a b)) := by
  unfold leftBox passLaw
  rw [Measure.prod_prod, Measure.prod_prod, Measure.pi_pi]
  have h1 : expMeasure 1 (Ioo a b) ≠ 0 := by
    rw [expMeasure, gammaMeasure, withDensity_apply _ measurableSet_Ioo]
    have hpdf : Measurable (gammaPDF 1 1) := by
      unfold gammaPDF
      exact (measurable_gammaPDFReal 1 1).ennreal_ofReal
    refine (setLIntegral_pos_iff hpdf).2 ?_ |>.ne'
    have : Ioo a b ⊆ Function.support (gammaPDF 1 1) ∩ Ioo a b := fun e he => by
      refine ⟨?_, he⟩
      have := exponentialPDF_of_nonneg (r := 1) (ha.trans he.1.le)
      have h0 : exponentialPDF 1 e ≠ 0 := by
        rw [this]
        simp [exp_pos]
      exact h0
    exact lt_of_lt_of_le (by simp [hab]) (measure_mono this)
  have h2 : gaussianReal 0 1 (Ioo (-(x / 2)) (x / 2)) ≠ 0 := fun h => by
    have := gaussianReal_absolutelyContinuous' 0 one_ne_zero h
    simp only [volume_Ioo, ENNReal.ofReal_eq_zero] at this
    linarith
  have h3 : ∀ i, unitLaw (nearOne i) ≠ 0 := fun i => by
    have h4 : Ioo (1 / 2 : ℝ) (3 / 5) ⊆ Ico 0 1 := fun t ht => ⟨by linarith [ht.1], by linarith [ht.2]⟩
    have h5 : Ioo (999 / 1000 : ℝ) 1 ⊆ Ico 0 1 := fun t ht => ⟨by linarith [ht.1], by linarith [ht.2]⟩
    unfold nearOne unitLaw
    split
    · rw [Measure.restrict_apply measurableSet_Ioo, inter_eq_left.2 h4]
      norm_num
    · rw [Measure.restrict_apply measurableSet_Ioo, inter_eq_left.2 h5]
      norm_num
  exact pos_iff_ne_zero.2 (mul_ne_zero h1 (mul_ne_zero h2 (Finset.prod_ne_zero_iff.2 fun i _ => h3 i)))

theorem point_neg {x y θ : ℝ} (hx : 0 < x) (hy : y ∈ Ioo (-(x / 2)) (x / 2)) (h1 : 2 * π / 3 < θ) (h2 : θ < 4 * π / 3) :
    point x y θ < 0 := by
  have hc : cos θ < -(1 / 2) := by
    have hpi := pi_pos
    have h3 := cos_lt_cos_of_nonneg_of_le_pi (abs_nonneg (θ - π)) (y := π / 3) (by linarith)
      (abs_lt.2 ⟨by linarith, by linarith⟩)
    rw [cos_abs, cos_sub_pi, cos_pi_div_three] at h3
    linarith
  have hs := sin_sq_add_cos_sq θ
  have hs1 : |sin θ| < 1 := by
    rw [abs_lt]
    constructor <;> nlinarith
  have : |sin θ * y| < x / 2 := by
    rw [abs_mul]
    have hy' : |y| < x / 2 := abs_lt.2 ⟨by linarith [hy.1], hy.2⟩
    nlinarith [abs_nonneg (sin θ), abs_nonneg y]
  have := (abs_lt.1 this).2
  simp only [point, smul_eq_mul]
  nlinarith

theorem leftBox_none {x : ℝ} (hx : 0 < x) {b : Block ℝ} (hb : b ∈ leftBox x (Ioo 0 1)) :
    outcome stepLL x b = none := by
  obtain ⟨he, hy, hw⟩ := hb
  have hpi := pi_pos
  have w0 : b.2.2 0 ∈ Ioo (1 / 2 : ℝ) (3 / 5) := by simpa [nearOne] using hw 0 (mem_univ _)
  have wi : ∀ i : Fin 100, b.2.2 i.succ ∈ Ioo (999 / 1000 : ℝ) 1 := fun i => by
    simpa [nearOne, Fin.succ_ne_zero] using hw i.succ (mem_univ _)
  unfold outcome
  rw [angles_none (w := Fin.tail b.2.2) ?_ 100 (fun i => wi i)]
  · rfl
  · nlinarith [w0.2]
  · linarith
  · push_cast
    nlinarith [w0.1]
  · nlinarith [w0.2]
  · rintro θ hθ ⟨h1, h2⟩
    have hn := point_neg hx hy h1 h2
    have hθ : (stepLL (point x b.2.1 θ)).gt ((stepLL x).sub b.1) := hθ
    rw [stepLL_of_neg hn, stepLL_of_nonneg hx.le, sub_coe, gt_coe] at hθ
    linarith [he.2]

theorem leftBox_some {x : ℝ} (hx : 0 < x) {b : Block ℝ} (hb : b ∈ leftBox x (Ioo 1 2)) :
    ∃ z, z < 0 ∧ outcome stepLL x b = some z := by
  obtain ⟨he, hy, hw⟩ := hb
  have hpi := pi_pos
  have w0 : b.2.2 0 ∈ Ioo (1 / 2 : ℝ) (3 / 5) := by simpa [nearOne] using hw 0 (mem_univ _)
  have w1 : b.2.2 1 ∈ Ioo (999 / 1000 : ℝ) 1 := by simpa [nearOne] using hw 1 (mem_univ _)
  obtain ⟨θ, hθ⟩ : ∃ θ, 2 * π * b.2.2 0 - 2 * π + (2 * π * b.2.2 0 - (2 * π * b.2.2 0 - 2 * π)) *
    (Fin.tail b.2.2 : Fin 100 → ℝ) 0 = θ := ⟨_, rfl⟩
  have ht : (Fin.tail b.2.2 : Fin 100 → ℝ) 0 = b.2.2 1 := rfl
  have h1 : 2 * π / 3 < θ := by rw [← hθ, ht]; nlinarith [w0.1, w1.1]
  have h2 : θ < 4 * π / 3 := by rw [← hθ, ht]; nlinarith [w0.2, w1.2]
  have hn := point_neg hx hy h1 h2
  refine ⟨point x b.2.1 θ, hn, ?_⟩
  unfold outcome
  rw [angles_accept hθ]
  · rfl
  · change (stepLL (point x b.2.1 θ)).gt ((stepLL x).sub b.1)
    rw [stepLL_of_neg hn, stepLL_of_nonneg hx.le, sub_coe, gt_coe]
    linarith [he.1]


/-- From the left half every pass succeeds. -/
theorem hop_left {x : ℝ} (hx : x < 0) : hop (gaussianReal 0 1) stepLL (fun _ => 1) x = 1 := by
  have hE : ∀ᵐ e ∂expMeasure 1, 0 < e := by
    rw [ae_iff]
    have hs : {e : ℝ | ¬ 0 < e} = Iic 0 := by
      ext e
      simp
    rw [hs, expMeasure, gammaMeasure, withDensity_apply _ measurableSet_Iic, ← setLIntegral_congr Iio_ae_eq_Iic]
    exact lintegral_gammaPDF_of_nonpos le_rfl
  have hB : ∀ᵐ b ∂passLaw (gaussianReal 0 1), 0 < b.1 := by
    unfold passLaw
    exact Measure.quasiMeasurePreserving_fst.ae hE
  have : hop (gaussianReal 0 1) stepLL (fun _ => 1) x = ∫⁻ _, 1 ∂passLaw (gaussianReal 0 1) := by
    refine lintegral_congr_ae ?_
    filter_upwards [hB] with b hb
    unfold outcome
    rw [angles_accept rfl]
    · rfl
    · change (stepLL _).gt ((stepLL x).sub b.1)
      rw [stepLL_of_neg hx, sub_coe]
      obtain ⟨z, hz⟩ : ∃ z, z = point x b.2.1 (2 * π * b.2.2 0 - 2 * π +
        (2 * π * b.2.2 0 - (2 * π * b.2.2 0 - 2 * π)) * (Fin.tail b.2.2 : Fin 100 → ℝ) 0) := ⟨_, rfl⟩
      rw [← hz]
      by_cases h0 : 0 ≤ z
      · rw [stepLL_of_nonneg h0, gt_coe]
        linarith
      · rw [stepLL_of_neg (not_le.1 h0), gt_coe]
        linarith
  rw [this, lintegral_const, measure_univ, one_mul]

/-- From the right half a pass may fail. -/
theorem hop_right {x : ℝ} (hx : 0 < x) : hop (gaussianReal 0 1) stepLL (fun _ => 1) x < 1 := by
  have hbox : MeasurableSet (leftBox x (Ioo 0 1)) :=
    measurableSet_Ioo.prod (measurableSet_Ioo.prod (MeasurableSet.univ_pi fun i => by
      unfold nearOne; split <;> exact measurableSet_Ioo))
  have hle : hop (gaussianReal 0 1) stepLL (fun _ => 1) x ≤
      ∫⁻ b, (leftBox x (Ioo 0 1))ᶜ.indicator 1 b ∂passLaw (gaussianReal 0 1) := by
    refine lintegral_mono fun b => ?_
    by_cases hb : b ∈ leftBox x (Ioo 0 1)
    · rw [leftBox_none hx hb]
      exact zero_le
    · rw [indicator_of_mem (show b ∈ (leftBox x (Ioo 0 1))ᶜ from hb)]
      cases outcome stepLL x b <;> simp
  refine hle.trans_lt ?_
  rw [lintegral_indicator_one hbox.compl, prob_compl_eq_one_sub hbox]
  exact ENNReal.sub_lt_self ENNReal.one_ne_top one_ne_zero (leftBox_pos hx le_rfl one_pos).ne'

/-- From the right half a pass may lead to the left half. -/
theorem hop_right_left {x : ℝ} (hx : 0 < x) :
    0 < hop (gaussianReal 0 1) stepLL ((Iio 0).indicator 1) x := by
  have hbox : MeasurableSet (leftBox x (Ioo 1 2)) :=
    measurableSet_Ioo.prod (measurableSet_Ioo.prod (MeasurableSet.univ_pi fun i => by
      unfold nearOne; split <;> exact measurableSet_Ioo))
  have hle : ∫⁻ b, (leftBox x (Ioo 1 2)).indicator 1 b ∂passLaw (gaussianReal 0 1) ≤
      hop (gaussianReal 0 1) stepLL ((Iio 0).indicator 1) x := by
    refine lintegral_mono fun b => ?_
    by_cases hb : b ∈ leftBox x (Ioo 1 2)
    · obtain ⟨z, hz, ho⟩ := leftBox_some hx hb
      rw [ho, indicator_of_mem hb]
      simp [hz]
    · rw [indicator_of_notMem hb]
      exact zero_le
  refine lt_of_lt_of_le ?_ hle
  rw [lintegral_indicator_one hbox]
  exact leftBox_pos hx zero_le_one one_lt_two

end Gpcm.Ess
