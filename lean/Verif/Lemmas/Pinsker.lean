import Mathlib.Analysis.SpecialFunctions.Log.Deriv
import Mathlib.Analysis.Calculus.Deriv.MeanValue
import Mathlib.MeasureTheory.Integral.Bochner.Basic
import Mathlib.MeasureTheory.Integral.Bochner.Set
import Mathlib.MeasureTheory.Measure.OpenPos

/-! # Pinsker's inequality for densities -/

open Real MeasureTheory

namespace Gpcm

private theorem pinsker_hasDeriv {x : ℝ} (hx : 0 < x) :
    HasDerivAt (fun x => log x - (x - 1) * (5 * x + 1) / (2 * x * (x + 2))) ((x - 1) ^ 3 / (x ^ 2 * (x + 2) ^ 2)) x := by
  have h1 := hasDerivAt_log hx.ne'
  have h2 : HasDerivAt (fun x : ℝ => (x - 1) * (5 * x + 1)) (1 * (5 * x + 1) + (x - 1) * (5 * 1)) x :=
    ((hasDerivAt_id x).sub_const 1).mul (((hasDerivAt_id x).const_mul 5).add_const 1)
  have h3 : HasDerivAt (fun x : ℝ => 2 * x * (x + 2)) (2 * 1 * (x + 2) + 2 * x * 1) x :=
    ((hasDerivAt_id x).const_mul 2).mul ((hasDerivAt_id x).add_const 2)
  have h4 := h1.sub (h2.div h3 (by positivity))
  refine h4.congr_deriv ?_
  field_simp
  ring

theorem pinsker_log {x : ℝ} (hx : 0 < x) : (x - 1) * (5 * x + 1) / (2 * x * (x + 2)) ≤ log x := by
  have h1 : (fun x => log x - (x - 1) * (5 * x + 1) / (2 * x * (x + 2))) 1 = 0 := by simp
  have hc : ContinuousOn (fun x => log x - (x - 1) * (5 * x + 1) / (2 * x * (x + 2))) (Set.Ioi 0) := fun y hy =>
    (pinsker_hasDeriv hy).continuousAt.continuousWithinAt
  rcases le_total x 1 with hle | hle
  · have hanti : AntitoneOn (fun x => log x - (x - 1) * (5 * x + 1) / (2 * x * (x + 2))) (Set.Ioc 0 1) := by
      refine antitoneOn_of_deriv_nonpos (convex_Ioc 0 1) (hc.mono fun y hy => hy.1) ?_ ?_
      · rw [interior_Ioc]
        exact fun y hy => (pinsker_hasDeriv hy.1).differentiableAt.differentiableWithinAt
      · rw [interior_Ioc]
        intro y hy
        rw [(pinsker_hasDeriv hy.1).deriv]
        refine div_nonpos_of_nonpos_of_nonneg ?_ (by positivity)
        have : (y - 1) ^ 3 = (y - 1) * (y - 1) ^ 2 := by ring
        rw [this]
        exact mul_nonpos_of_nonpos_of_nonneg (by linarith [hy.2]) (sq_nonneg _)
    have := hanti ⟨hx, hle⟩ ⟨one_pos, le_rfl⟩ hle
    rw [h1] at this
    simp only at this
    linarith
  · have hmono : MonotoneOn (fun x => log x - (x - 1) * (5 * x + 1) / (2 * x * (x + 2))) (Set.Ici 1) := by
      refine monotoneOn_of_deriv_nonneg (convex_Ici 1) (hc.mono fun y hy => Set.mem_Ioi.2 (lt_of_lt_of_le one_pos (Set.mem_Ici.1 hy))) ?_ ?_
      · rw [interior_Ici]
        exact fun y hy => (pinsker_hasDeriv (one_pos.trans hy)).differentiableAt.differentiableWithinAt
      · rw [interior_Ici]
        intro y hy
        have hy : (1 : ℝ) < y := hy
        rw [(pinsker_hasDeriv (one_pos.trans hy)).deriv]
        have : 0 < y - 1 := by linarith
        positivity
    have := hmono (Set.mem_Ici.2 le_rfl) (Set.mem_Ici.2 hle) hle
    rw [h1] at this
    simp only at this
    linarith

/-- The pointwise inequality behind Pinsker's. -/
theorem pinsker_pointwise {a b : ℝ} (ha : 0 < a) (hb : 0 < b) :
    3 * (a - b) ^ 2 ≤ (4 * b + 2 * a) * (a * (log a - log b) - a + b) := by
  have h := pinsker_log (div_pos ha hb)
  rw [log_div ha.ne' hb.ne', div_le_iff₀ (by positivity)] at h
  have h2 : (a / b - 1) * (5 * (a / b) + 1) * b ^ 2 ≤ (log a - log b) * (2 * (a / b) * (a / b + 2)) * b ^ 2 :=
    mul_le_mul_of_nonneg_right h (by positivity)
  have e1 : (a / b - 1) * (5 * (a / b) + 1) * b ^ 2 = (a - b) * (5 * a + b) := by field_simp
  have e2 : (log a - log b) * (2 * (a / b) * (a / b + 2)) * b ^ 2 = (log a - log b) * (2 * a * (a + 2 * b)) := by
    field_simp
  rw [e1, e2] at h2
  nlinarith

variable {X : Type} [MeasurableSpace X] {μ : Measure X}

/-- The divergence of one density from another. -/
noncomputable def densKl (μ : Measure X) (a b : X → ℝ) : ℝ := ∫ x, a x * (log (a x) - log (b x)) ∂μ

variable {a b : X → ℝ}

/-- **Pinsker's inequality.** -/
theorem pinsker (ha : ∀ x, 0 < a x) (hb : ∀ x, 0 < b x) (ia : Integrable a μ) (ib : Integrable b μ) (ea : ∫ x, a x ∂μ = 1)
    (eb : ∫ x, b x ∂μ = 1) (ik : Integrable (fun x => a x * (log (a x) - log (b x))) μ) :
    0 ≤ densKl μ a b ∧ ∫ x, |a x - b x| ∂μ ≤ 2 * √(densKl μ a b / 2) := by
  have hk : ∀ x, 0 ≤ a x * (log (a x) - log (b x)) - a x + b x := fun x => by
    have h := pinsker_pointwise (ha x) (hb x)
    have h2 : 0 < 4 * b x + 2 * a x := by linarith [ha x, hb x]
    by_contra h3
    nlinarith [sq_nonneg (a x - b x), mul_neg_of_pos_of_neg h2 (not_le.1 h3)]
  have ik2 : Integrable (fun x => a x * (log (a x) - log (b x)) - a x + b x) μ := (ik.sub ia).add ib
  have ek2 : ∫ x, a x * (log (a x) - log (b x)) - a x + b x ∂μ = densKl μ a b := by
    rw [integral_add (f := fun x => a x * (log (a x) - log (b x)) - a x) (ik.sub ia) ib, integral_sub ik ia, ea, eb, densKl]
    ring
  have hD : 0 ≤ densKl μ a b := by
    rw [← ek2]
    exact integral_nonneg hk
  have iab : Integrable (fun x => |a x - b x|) μ := (ia.sub ib).abs
  have key : ∀ s : ℝ, 0 < s → ∫ x, |a x - b x| ∂μ ≤ s + densKl μ a b / (2 * s) := fun s hs => by
    have hp : ∀ x, |a x - b x| ≤ s * ((4 * b x + 2 * a x) / 6) + 1 / (2 * s) * (a x * (log (a x) - log (b x)) - a x + b x) := fun x => by
      have h := pinsker_pointwise (ha x) (hb x)
      obtain ⟨k, hkd⟩ : ∃ k, k = a x * (log (a x) - log (b x)) - a x + b x := ⟨_, rfl⟩
      have hk0 := hk x
      rw [← hkd] at h hk0 ⊢
      obtain ⟨w, hw⟩ : ∃ w, w = (4 * b x + 2 * a x) / 3 := ⟨_, rfl⟩
      have hw0 : 0 < w := by rw [hw]; linarith [ha x, hb x]
      have h1 : (a x - b x) ^ 2 ≤ w * k := by rw [hw]; linarith
      have e : s * ((4 * b x + 2 * a x) / 6) + 1 / (2 * s) * k = (s ^ 2 * w + k) / (2 * s) := by
        rw [hw]
        field_simp
        ring
      rw [e, le_div_iff₀ (by positivity)]
      refine abs_le_of_sq_le_sq' ?_ (by positivity) |>.2
      rw [mul_pow, sq_abs]
      nlinarith [sq_nonneg (s ^ 2 * w - k), mul_le_mul_of_nonneg_left h1 (by positivity : 0 ≤ (2 * s) ^ 2)]
    have i1 : Integrable (fun x => s * ((4 * b x + 2 * a x) / 6)) μ := (((ib.const_mul 4).add (ia.const_mul 2)).div_const 6).const_mul s
    have i2 := ik2.const_mul (1 / (2 * s))
    refine (integral_mono iab (i1.add i2) hp).trans (le_of_eq ?_)
    rw [integral_add' i1 i2, integral_const_mul, integral_const_mul, ek2, integral_div,
      integral_add (ib.const_mul 4) (ia.const_mul 2), integral_const_mul, integral_const_mul, ea, eb]
    field_simp
    ring
  refine ⟨hD, ?_⟩
  rcases hD.eq_or_lt with h0 | h0
  · rw [← h0] at key ⊢
    simp only [zero_div, sqrt_zero, mul_zero]
    refine le_of_forall_pos_le_add fun s hs => ?_
    have := key s hs
    simpa using this
  · have hs : 0 < √(densKl μ a b / 2) := sqrt_pos.2 (by linarith)
    refine (key _ hs).trans (le_of_eq ?_)
    have h2 : √(densKl μ a b / 2) ^ 2 = densKl μ a b / 2 := sq_sqrt (by linarith)
    have : densKl μ a b = 2 * √(densKl μ a b / 2) ^ 2 := by rw [h2]; ring
    obtain ⟨r, hr⟩ : ∃ r, r = √(densKl μ a b / 2) := ⟨_, rfl⟩
    rw [← hr] at this hs ⊢
    rw [this]
    field_simp
    ring

/-- Expectations of a bounded function under two densities differ by at most the range times the square root of half the divergence. -/
theorem pinsker_expect (ha : ∀ x, 0 < a x) (hb : ∀ x, 0 < b x) (ia : Integrable a μ) (ib : Integrable b μ) (ea : ∫ x, a x ∂μ = 1)
    (eb : ∫ x, b x ∂μ = 1) (ik : Integrable (fun x => a x * (log (a x) - log (b x))) μ) {f : X → ℝ} (hf : AEStronglyMeasurable f μ)
    {lo hi : ℝ} (hlo : ∀ x, lo ≤ f x) (hhi : ∀ x, f x ≤ hi) :
    |∫ x, a x * f x ∂μ - ∫ x, b x * f x ∂μ| ≤ (hi - lo) * √(densKl μ a b / 2) := by
  obtain ⟨c, hc⟩ : ∃ c, c = (lo + hi) / 2 := ⟨_, rfl⟩
  have hfc : ∀ x, |f x - c| ≤ (hi - lo) / 2 := fun x => by
    rw [abs_le, hc]
    constructor <;> linarith [hlo x, hhi x]
  have hbound : ∀ x, ‖f x‖ ≤ |lo| + |hi| := fun x => by
    rw [norm_eq_abs, abs_le]
    constructor <;> linarith [hlo x, hhi x, le_abs_self hi, neg_abs_le lo, abs_nonneg lo, abs_nonneg hi]
  have i1 : Integrable (fun x => a x * f x) μ := ia.mul_bdd (c := |lo| + |hi|) hf (Filter.Eventually.of_forall hbound)
  have i2 : Integrable (fun x => b x * f x) μ := ib.mul_bdd (c := |lo| + |hi|) hf (Filter.Eventually.of_forall hbound)
  have i3 : Integrable (fun x => a x - b x) μ := ia.sub ib
  have e : ∫ x, a x * f x ∂μ - ∫ x, b x * f x ∂μ = ∫ x, (a x - b x) * (f x - c) ∂μ := by
    have e1 : ∀ x, (a x - b x) * (f x - c) = (a x * f x - b x * f x) - c * (a x - b x) := fun x => by ring
    simp only [e1]
    rw [integral_sub (f := fun x => a x * f x - b x * f x) (i1.sub i2) (i3.const_mul c), integral_sub i1 i2, integral_const_mul,
      integral_sub ia ib, ea, eb]
    ring
  have i4 : Integrable (fun x => (a x - b x) * (f x - c)) μ :=
    i3.mul_bdd (c := (hi - lo) / 2) (hf.sub aestronglyMeasurable_const) (Filter.Eventually.of_forall fun x => by
      rw [norm_eq_abs]; exact hfc x)
  rw [e]
  calc |∫ x, (a x - b x) * (f x - c) ∂μ| ≤ ∫ x, |(a x - b x) * (f x - c)| ∂μ := abs_integral_le_integral_abs
    _ ≤ ∫ x, (hi - lo) / 2 * |a x - b x| ∂μ := by
      refine integral_mono i4.abs (i3.abs.const_mul _) fun x => ?_
      simp only [abs_mul]
      rw [mul_comm]
      exact mul_le_mul_of_nonneg_right (hfc x) (abs_nonneg _)
    _ = (hi - lo) / 2 * ∫ x, |a x - b x| ∂μ := integral_const_mul _ _
    _ ≤ (hi - lo) / 2 * (2 * √(densKl μ a b / 2)) := by
      refine mul_le_mul_of_nonneg_left (pinsker ha hb ia ib ea eb ik).2 ?_
      by_cases hX : Nonempty X
      · obtain ⟨x⟩ := hX
        linarith [hlo x, hhi x]
      · rw [not_nonempty_iff] at hX
        rw [integral_of_isEmpty] at ea
        norm_num at ea
    _ = _ := by ring

/-- The divergence of continuous densities is zero only if they are equal. -/
theorem densKl_eq_zero [TopologicalSpace X] [OpensMeasurableSpace X] [μ.IsOpenPosMeasure] (ca : Continuous a) (cb : Continuous b)
    (ha : ∀ x, 0 < a x) (hb : ∀ x, 0 < b x) (ia : Integrable a μ) (ib : Integrable b μ) (ea : ∫ x, a x ∂μ = 1)
    (eb : ∫ x, b x ∂μ = 1) (ik : Integrable (fun x => a x * (log (a x) - log (b x))) μ) : densKl μ a b = 0 ↔ a = b := by
  constructor
  · intro h
    have h1 := (pinsker ha hb ia ib ea eb ik).2
    rw [h, zero_div, sqrt_zero, mul_zero] at h1
    have h2 : ∫ x, |a x - b x| ∂μ = 0 := le_antisymm h1 (integral_nonneg fun x => abs_nonneg _)
    have i : Integrable (fun x => |a x - b x|) μ := (ia.sub ib).abs
    rw [integral_eq_zero_iff_of_nonneg (fun x => abs_nonneg _) i] at h2
    refine (ca.ae_eq_iff_eq μ cb).1 ?_
    filter_upwards [h2] with x hx
    exact sub_eq_zero.1 (abs_eq_zero.1 hx)
  · rintro rfl
    simp [densKl]

end Gpcm
