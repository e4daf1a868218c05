import Verif.Lemmas.RgpcmSort

/-! # Properties C68 to C72: the integrals of the RGPCM -/

open MeasureTheory Real Set

namespace Gpcm.Rgpcm

/-- The parameters that the specification needs. -/
def specOf (g : RgpcmModel) : Spec.R.Params where
  alpha := g.alpha
  alphaT := g.alphaT
  lam := g.lam
  gamma := g.gamma
  gammaT := g.gammaT
  a := g.a
  b := g.b
  M := g.mMax

/-! ## C68 -/

/-- **C68.** `integral_abcd` is the signed double integral, for bounds of any sign. -/
theorem c68_box {c d : ℝ} (hc : c ≠ 0) (hcd : c ^ 2 ≠ d ^ 2) (a b : ℝ) :
    RgpcmModel.integralAbcd a b c d =
      ∫ x in (0 : ℝ)..a, ∫ y in (0 : ℝ)..b, exp (c * (x + y) - d * |x - y|) := by
  have := double_absE (d := d) hc (sub_ne_zero.2 hcd) 0 a 0 b
  unfold absE at this
  rw [this, integralAbcd_eq hc]

/-- **C68.** `integral_abcd_lu` is the signed double integral over any box. -/
theorem c68_box_lu {c d : ℝ} (hc : c ≠ 0) (hcd : c ^ 2 ≠ d ^ 2) (a₁ a₂ b₁ b₂ : ℝ) :
    RgpcmModel.integralAbcdLu a₁ a₂ b₁ b₂ c d =
      ∫ x in a₁..a₂, ∫ y in b₁..b₂, exp (c * (x + y) - d * |x - y|) := by
  have := double_absE (d := d) hc (sub_ne_zero.2 hcd) a₁ a₂ b₁ b₂
  unfold absE at this
  rw [this, integralAbcdLu_eq hc]

/-- Parameters and bounds of both signs that meet the hypotheses. -/
example : RgpcmModel.integralAbcdLu (-1) 2 (-3) 0 (-1) 2 =
    ∫ x in (-1 : ℝ)..2, ∫ y in (-3 : ℝ)..0, exp (-1 * (x + y) - 2 * |x - y|) :=
  c68_box_lu (by norm_num) (by norm_num) _ _ _ _

/-! ## C69 -/

variable (g : RgpcmModel)

/-- **C69, partial.** `compute_I_ux` is the defining integral with `t1` paired with the *last* index, so with
the inducing points in the other order than in the GPCM. Parameters at which the closed form divides by zero are
excluded. -/
theorem c69_transposed_partial (h1 : g.gamma ≠ g.alpha) (h2 : (g.gamma - g.alpha) ^ 2 ≠ g.lam ^ 2)
    (t1 t2 : ℝ) {u1 u2 : ℝ} (hu1 : 0 ≤ u1) (hu2 : 0 ≤ u2) :
    g.iuxEntry t1 t2 u1 u2 = .ok (Spec.R.iux (specOf g) t1 t2 u2 u1) := by
  have hc : g.gamma - g.alpha ≠ 0 := sub_ne_zero.2 h1
  rw [spec_iux_eq (specOf g) t1 t2 hu2 hu1]
  unfold RgpcmModel.iuxEntry
  simp only
  rw [if_neg (by rintro (h | h); exacts [hc h, h2 (sub_eq_zero.1 h)]), integralAbcdLu_eq hc]
  have := double_absE (d := g.lam) hc (sub_ne_zero.2 h2) (-t1) (u2 - t1) (-t2) (u1 - t2)
  simp only [specOf]
  rw [this, add_comm u1 u2]

/-- **C69.** At equal times, the only case that inference uses, the order does not matter: the entry is the
defining integral. -/
theorem c69_equal_times (h1 : g.gamma ≠ g.alpha) (h2 : (g.gamma - g.alpha) ^ 2 ≠ g.lam ^ 2)
    (t : ℝ) {u1 u2 : ℝ} (hu1 : 0 ≤ u1) (hu2 : 0 ≤ u2) :
    g.iuxEntry t t u1 u2 = .ok (Spec.R.iux (specOf g) t t u1 u2) := by
  rw [c69_transposed_partial g h1 h2 t t hu1 hu2]
  have hc : (specOf g).gamma - (specOf g).alpha ≠ 0 := sub_ne_zero.2 h1
  have hd : ((specOf g).gamma - (specOf g).alpha) ^ 2 - (specOf g).lam ^ 2 ≠ 0 := sub_ne_zero.2 h2
  rw [spec_iux_eq (specOf g) t t hu2 hu1, spec_iux_eq (specOf g) t t hu1 hu2, double_absE hc hd,
    double_absE hc hd, absP_symm _ _ (u2 - t) (u1 - t), absP_symm _ _ (-t) (u1 - t),
    absP_symm _ _ (u2 - t) (-t), add_comm u2 u1]
  congr 1
  ring

/-- A model with distinct decays. -/
def exRgpcm : RgpcmModel where
  noise := 1
  alpha := 2
  alphaT := 1
  lam := 3
  extent := 2
  a := -1
  b := 2
  mMax := 2
  ms := [3, 0, 4, 1, 2]
  nZ := 5
  nU := 2
  tU := [1, 2]
  gamma := 1
  gammaT := 1

example : exRgpcm.gamma ≠ exRgpcm.alpha ∧ (exRgpcm.gamma - exRgpcm.alpha) ^ 2 ≠ exRgpcm.lam ^ 2 := by
  constructor <;> norm_num [exRgpcm]

/-! ## C70 -/

theorem kzOmega_eq (m : ℕ) : g.kzOmega m = Spec.R.freq (specOf g) m := by
  unfold RgpcmModel.kzOmega Spec.R.freq
  by_cases h : (m : ℤ) ≤ g.mMax
  · rw [if_neg (not_lt.2 h), if_pos (show (m : ℤ) ≤ (specOf g).M from h)]
    simp [specOf]
  · rw [if_pos (lt_of_not_ge h), if_neg (show ¬ (m : ℤ) ≤ (specOf g).M from h)]
    simp [specOf]

theorem cosPart_eq {g : RgpcmModel} (hα : 0 < g.alpha) (n t : ℝ) :
    g.hxCos n t = g.alphaT ^ 2 * (exp (-(2 * g.alpha * (t - g.a))) / (2 * (g.alpha + g.lam)) +
      ∫ τ in g.a..t, exp (-(2 * g.alpha * (t - τ))) * cos (2 * π * n / (g.b - g.a) * (τ - g.a))) := by
  have h : (2 * g.alpha) ^ 2 + (2 * π * n / (g.b - g.a)) ^ 2 ≠ 0 := by positivity
  rw [integral_exp_cos h]
  unfold RgpcmModel.hxCos
  simp only [sub_self, mul_zero, cos_zero, sin_zero, mul_one, add_zero]
  rw [show -2 * g.alpha * (t - g.a) = -(2 * g.alpha * (t - g.a)) by ring,
    show 4 * g.alpha ^ 2 = (2 * g.alpha) ^ 2 by ring]
  ring

theorem sinPart_eq {g : RgpcmModel} (hα : 0 < g.alpha) (n t : ℝ) :
    g.hxSin n t = g.alphaT ^ 2 *
      ∫ τ in g.a..t, exp (-(2 * g.alpha * (t - τ))) * sin (2 * π * (n - g.mMax) / (g.b - g.a) * (τ - g.a)) := by
  have h : (2 * g.alpha) ^ 2 + (2 * π * (n - g.mMax) / (g.b - g.a)) ^ 2 ≠ 0 := by positivity
  rw [integral_exp_sin h]
  unfold RgpcmModel.hxSin
  simp only [sub_self, mul_zero, cos_zero, sin_zero, mul_one, zero_sub]
  rw [show -2 * g.alpha * (t - g.a) = -(2 * g.alpha * (t - g.a)) by ring,
    show 4 * g.alpha ^ 2 = (2 * g.alpha) ^ 2 by ring]
  ring

theorem wave_int (k a t : ℝ) {f f1 f2 : ℝ → ℝ} {σ : ℝ} (h1 : Continuous f1) (h2 : Continuous f2)
    (h : ∀ τ, f τ = 1 / 2 * (f1 τ + σ * f2 τ)) :
    ∫ τ in a..t, exp (-(k * (t - τ))) * f τ = 1 / 2 * ((∫ τ in a..t, exp (-(k * (t - τ))) * f1 τ) +
      σ * ∫ τ in a..t, exp (-(k * (t - τ))) * f2 τ) := by
  rw [← intervalIntegral.integral_const_mul, ← intervalIntegral.integral_add, ← intervalIntegral.integral_const_mul]
  · refine intervalIntegral.integral_congr fun τ _ => ?_
    rw [h]
    ring
  · exact Continuous.intervalIntegrable (by fun_prop) _ _
  · exact Continuous.intervalIntegrable (by fun_prop) _ _

theorem mixed_entry {g : RgpcmModel} (hα : 0 < g.alpha) {m n : ℕ} (hm : (m : ℤ) ≤ g.mMax)
    (hn : ¬ (n : ℤ) ≤ g.mMax) (t : ℝ) :
    hzEntry g m n t = g.alphaT ^ 2 * ∫ τ in g.a..t, exp (-(2 * g.alpha * (t - τ))) *
      (Spec.R.wave (specOf g) m τ * Spec.R.wave (specOf g) n τ) := by
  have hw : ∀ τ, Spec.R.wave (specOf g) m τ * Spec.R.wave (specOf g) n τ =
      1 / 2 * (sin (2 * π * ((m : ℝ) + n - g.mMax) / (g.b - g.a) * (τ - g.a)) +
        1 * sin (2 * π * (-(m : ℝ) + n - g.mMax) / (g.b - g.a) * (τ - g.a))) := fun τ => by
    have e1 : 2 * π * ((m : ℝ) + n - g.mMax) / (g.b - g.a) * (τ - g.a) =
        2 * π * ((n : ℝ) - g.mMax) / (g.b - g.a) * (τ - g.a) + 2 * π * m / (g.b - g.a) * (τ - g.a) := by ring
    have e2 : 2 * π * (-(m : ℝ) + n - g.mMax) / (g.b - g.a) * (τ - g.a) =
        2 * π * ((n : ℝ) - g.mMax) / (g.b - g.a) * (τ - g.a) - 2 * π * m / (g.b - g.a) * (τ - g.a) := by ring
    rw [e1, e2, sin_add, sin_sub, Spec.R.wave, Spec.R.wave, if_pos (show (m : ℤ) ≤ (specOf g).M from hm),
      if_neg (show ¬ (n : ℤ) ≤ (specOf g).M from hn), Spec.R.freq, Spec.R.freq,
      if_pos (show (m : ℤ) ≤ (specOf g).M from hm), if_neg (show ¬ (n : ℤ) ≤ (specOf g).M from hn)]
    simp only [specOf]
    ring
  rw [wave_int (2 * g.alpha) g.a t (by fun_prop) (by fun_prop) hw]
  have e := sinPart_eq hα ((m : ℝ) + n) t
  have e' := sinPart_eq hα (-(m : ℝ) + n) t
  rw [hzEntry, if_pos hm, if_neg hn]
  by_cases h0 : m = 0
  · subst h0
    rw [if_pos rfl, e]
    simp only [Nat.cast_zero, neg_zero]
    ring
  · rw [if_neg h0, e, e']
    ring

theorem hzEntry_symm (m n : ℕ) (t : ℝ) (h : (m : ℤ) ≤ g.mMax) (h' : ¬ (n : ℤ) ≤ g.mMax) :
    hzEntry g n m t = hzEntry g m n t := by
  rw [hzEntry, hzEntry, if_neg h', if_pos h, if_pos h, if_neg h']

/-- **C70.** Every entry for two frequencies is the defining integral. -/
theorem c70_entry {g : RgpcmModel} (hα : 0 < g.alpha) (hl : 0 < g.lam) {t : ℝ} (ha : g.a ≤ t) (hb : t ≤ g.b)
    (m n : ℕ) : hzEntry g m n t = Spec.R.ihz (specOf g) t m n := by
  rw [spec_ihz_eq (specOf g) hα hl ha hb]
  by_cases hm : (m : ℤ) ≤ g.mMax <;> by_cases hn : (n : ℤ) ≤ g.mMax
  · have hw : ∀ τ, Spec.R.wave (specOf g) m τ * Spec.R.wave (specOf g) n τ =
        1 / 2 * (cos (2 * π * (-(m : ℝ) + n) / (g.b - g.a) * (τ - g.a)) +
          1 * cos (2 * π * ((m : ℝ) + n) / (g.b - g.a) * (τ - g.a))) := fun τ => by
      have e1 : 2 * π * ((m : ℝ) + n) / (g.b - g.a) * (τ - g.a) =
          2 * π * (n : ℝ) / (g.b - g.a) * (τ - g.a) + 2 * π * m / (g.b - g.a) * (τ - g.a) := by ring
      have e2 : 2 * π * (-(m : ℝ) + n) / (g.b - g.a) * (τ - g.a) =
          2 * π * (n : ℝ) / (g.b - g.a) * (τ - g.a) - 2 * π * m / (g.b - g.a) * (τ - g.a) := by ring
      rw [e1, e2, cos_add, cos_sub, Spec.R.wave, Spec.R.wave, if_pos (show (m : ℤ) ≤ (specOf g).M from hm),
        if_pos (show (n : ℤ) ≤ (specOf g).M from hn), Spec.R.freq, Spec.R.freq,
        if_pos (show (m : ℤ) ≤ (specOf g).M from hm), if_pos (show (n : ℤ) ≤ (specOf g).M from hn)]
      simp only [specOf]
      ring
    have := wave_int (2 * g.alpha) g.a t (by fun_prop) (by fun_prop) hw
    rw [if_pos (show (m : ℤ) ≤ (specOf g).M from hm), if_pos (show (n : ℤ) ≤ (specOf g).M from hn), hzEntry,
      if_pos hm, if_pos hn, cosPart_eq hα, cosPart_eq hα]
    simp only [specOf] at this ⊢
    rw [this]
    ring
  · rw [mixed_entry hα hm hn]
    simp [specOf, hn]
  · rw [hzEntry_symm g n m t hn hm, mixed_entry hα hn hm]
    simp only [mul_comm (Spec.R.wave (specOf g) n _)]
    simp [specOf, hm]
  · have hw : ∀ τ, Spec.R.wave (specOf g) m τ * Spec.R.wave (specOf g) n τ =
        1 / 2 * (cos (2 * π * (-((m : ℝ) - g.mMax) + (n - g.mMax)) / (g.b - g.a) * (τ - g.a)) +
          -1 * cos (2 * π * (((m : ℝ) - g.mMax) + (n - g.mMax)) / (g.b - g.a) * (τ - g.a))) := fun τ => by
      have e1 : 2 * π * (((m : ℝ) - g.mMax) + (n - g.mMax)) / (g.b - g.a) * (τ - g.a) =
          2 * π * ((n : ℝ) - g.mMax) / (g.b - g.a) * (τ - g.a) +
            2 * π * (m - g.mMax) / (g.b - g.a) * (τ - g.a) := by ring
      have e2 : 2 * π * (-((m : ℝ) - g.mMax) + (n - g.mMax)) / (g.b - g.a) * (τ - g.a) =
          2 * π * ((n : ℝ) - g.mMax) / (g.b - g.a) * (τ - g.a) -
            2 * π * (m - g.mMax) / (g.b - g.a) * (τ - g.a) := by ring
      rw [e1, e2, cos_add, cos_sub, Spec.R.wave, Spec.R.wave, if_neg (show ¬ (m : ℤ) ≤ (specOf g).M from hm),
        if_neg (show ¬ (n : ℤ) ≤ (specOf g).M from hn), Spec.R.freq, Spec.R.freq,
        if_neg (show ¬ (m : ℤ) ≤ (specOf g).M from hm), if_neg (show ¬ (n : ℤ) ≤ (specOf g).M from hn)]
      simp only [specOf]
      ring
    have := wave_int (2 * g.alpha) g.a t (by fun_prop) (by fun_prop) hw
    rw [if_neg (show ¬ (m : ℤ) ≤ (specOf g).M from hm), if_neg (show ¬ (n : ℤ) ≤ (specOf g).M from hn), hzEntry,
      if_neg hm, if_neg hn, cosPart_eq hα, cosPart_eq hα]
    simp only [specOf] at this ⊢
    rw [this]
    ring

/-- **C70.** `compute_I_hz` is the matrix of the defining integrals, for frequencies in any order, with or
without repetitions. -/
theorem c70_ihz {g : RgpcmModel} (hα : 0 < g.alpha) (hl : 0 < g.lam) (hM : 0 ≤ g.mMax) {perm : List ℕ}
    (hp : IsArgsort perm g.ms) {t : ℝ} (ha : g.a ≤ t) (hb : t ≤ g.b) :
    g.computeIhz perm t = .ok (g.ms.map fun m => g.ms.map fun n => Spec.R.ihz (specOf g) t m n) := by
  rw [computeIhz_eq g hp hM]
  simp only [c70_entry hα hl ha hb]

example : IsArgsort [1, 3, 4, 0, 2] exRgpcm.ms := ⟨by decide, by decide⟩

/-! ## C71 -/

/-- **C71.** Every entry is the defining integral. -/
theorem c71_entry {g : RgpcmModel} (hαγ : g.alpha ≠ g.gamma) {t u : ℝ} (hu : 0 ≤ u) (ha : g.a ≤ t - u)
    (hb : t ≤ g.b) (m : ℕ) :
    g.alphaT * g.gammaT * exp (-g.gamma * u) * uzEntry g u m t = Spec.R.iuz (specOf g) t u m := by
  rw [spec_iuz_eq (specOf g) hu ha hb]
  have hag : g.alpha - g.gamma ≠ 0 := sub_ne_zero.2 hαγ
  have hne : ∀ ω : ℝ, (g.alpha - g.gamma) ^ 2 + ω ^ 2 ≠ 0 := fun ω => by positivity
  have hexp : exp (-((g.alpha - g.gamma) * (t - (t - u)))) = exp ((g.alpha - g.gamma) * (t - u - t)) := by
    congr 1
    ring
  have key : uzEntry g u m t = ∫ τ in (t - u)..t, exp (-((g.alpha - g.gamma) * (t - τ))) *
      Spec.R.wave (specOf g) m τ := by
    unfold Spec.R.wave uzEntry
    by_cases hm : (m : ℤ) ≤ g.mMax
    · rw [if_pos hm]
      have hm' : (m : ℤ) ≤ (specOf g).M := hm
      simp only [if_pos hm']
      simp only [specOf]
      rw [integral_exp_cos (hne _), hexp]
      by_cases h0 : m = 0
      · subst h0
        rw [if_pos rfl]
        unfold RgpcmModel.integralLu0
        rw [Spec.R.freq, if_pos hm]
        simp
        field_simp
      · rw [if_neg h0]
        unfold RgpcmModel.integralLukLeqM
        rw [Spec.R.freq, if_pos hm]
        simp only
        ring
    · rw [if_neg hm]
      have hm' : ¬ (m : ℤ) ≤ (specOf g).M := hm
      simp only [if_neg hm']
      simp only [specOf]
      rw [integral_exp_sin (hne _), hexp]
      unfold RgpcmModel.integralLukGM
      rw [Spec.R.freq, if_neg hm]
      simp only
      ring
  rw [key]
  rfl

/-- **C71.** `compute_I_uz` is the matrix of the defining integrals, for frequencies in any order. -/
theorem c71_iuz {g : RgpcmModel} (hαγ : g.alpha ≠ g.gamma) (hM : 0 ≤ g.mMax) {perm : List ℕ}
    (hp : IsArgsort perm g.ms) {t : ℝ} (hu : ∀ u ∈ g.tU, 0 ≤ u) (ha : ∀ u ∈ g.tU, g.a ≤ t - u)
    (hb : t ≤ g.b) :
    g.computeIuz perm t = .ok (g.tU.map fun u => g.ms.map fun m => Spec.R.iuz (specOf g) t u m) := by
  rw [computeIuz_eq g hp hM]
  congr 1
  exact List.map_congr_left fun u hu' => List.map_congr_left fun m _ =>
    c71_entry hαγ (hu u hu') (ha u hu') hb m

example : (∀ u ∈ exRgpcm.tU, 0 ≤ u) ∧ (∀ u ∈ exRgpcm.tU, exRgpcm.a ≤ 1 - u) ∧ 1 ≤ exRgpcm.b ∧
    exRgpcm.alpha ≠ exRgpcm.gamma := by
  norm_num [exRgpcm]

end Gpcm.Rgpcm
