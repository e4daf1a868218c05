import Verif.Props.FarProps

/-!
# C151: predictions and kernels are continuous functions of time
-/

open Matrix Real MeasureTheory Filter Topology

namespace Gpcm

/-! ## The integrals of the GPCM -/

section
variable (p : Spec.Params)

theorem measurable_specGate : Measurable (Spec.gate p) := by
  have e : Spec.gate p = (Set.Iio 0).piecewise (fun _ => if p.causal = true then 0 else 1) fun _ => 1 := by
    funext x
    by_cases hx : x < 0 <;> by_cases hc : p.causal = true <;> simp [Spec.gate, hx, hc]
  rw [e]
  exact Measurable.piecewise measurableSet_Iio measurable_const measurable_const

theorem continuousAt_gate {x : ℝ} (hx : x ≠ 0) : ContinuousAt (Spec.gate p) x := by
  rcases lt_or_gt_of_ne hx with h | h
  · refine (continuousAt_const (y := if p.causal = true then (0 : ℝ) else 1)).congr ?_
    filter_upwards [Iio_mem_nhds h] with y hy
    have hy : y < 0 := hy
    simp [Spec.gate, hy]
  · refine (continuousAt_const (y := (1 : ℝ))).congr ?_
    filter_upwards [Ioi_mem_nhds h] with y hy
    have hy : ¬ y < 0 := not_lt.2 (le_of_lt hy)
    simp [Spec.gate, hy]

theorem continuous_kH : Continuous fun q : ℝ × ℝ => Spec.kH p q.1 q.2 := by
  unfold Spec.kH
  fun_prop

theorem continuous_kXS : Continuous fun q : ℝ × ℝ => Spec.kXS p q.1 q.2 := by
  unfold Spec.kXS
  fun_prop

theorem iuz_lag (t u z : ℝ) : Spec.iuz p t u z = ∫ σ, Spec.gate p σ * (Spec.kH p σ u * Spec.kXS p (t - σ) z) := by
  rw [Spec.iuz, ← integral_sub_left_eq_self _ volume t]
  refine integral_congr_ae (Eventually.of_forall fun σ => ?_)
  simp only [sub_sub_cancel]

theorem ihz_lag (t z1 z2 : ℝ) : Spec.ihz p t z1 z2 = ∫ σ₁, ∫ σ₂, Spec.gate p σ₁ * Spec.gate p σ₂ *
    (Spec.kH p σ₁ σ₂ * Spec.kXS p (t - σ₁) z1 * Spec.kXS p z2 (t - σ₂)) := by
  rw [Spec.ihz, ← integral_sub_left_eq_self _ volume t]
  refine integral_congr_ae (Eventually.of_forall fun σ₁ => ?_)
  simp only [sub_sub_cancel]
  rw [← integral_sub_left_eq_self _ volume t]
  refine integral_congr_ae (Eventually.of_forall fun σ₂ => ?_)
  simp only [sub_sub_cancel]

theorem ihx_lag (s : ℝ) : Spec.ihx p s 0 = ∫ σ, Spec.gate p (s + σ) * Spec.gate p σ * Spec.kH p (s + σ) σ := by
  rw [Spec.ihx, ← integral_neg_eq_self]
  refine integral_congr_ae (Eventually.of_forall fun σ => ?_)
  simp only [zero_add, sub_neg_eq_add]

theorem iux_lag (s u1 u2 : ℝ) : Spec.iux p s 0 u1 u2 =
    ∫ σ, Spec.gate p (s + σ) * Spec.gate p σ * (Spec.kH p (s + σ) u1 * Spec.kH p u2 σ) := by
  rw [Spec.iux, ← integral_neg_eq_self]
  refine integral_congr_ae (Eventually.of_forall fun σ => ?_)
  simp only [zero_add, sub_neg_eq_add]

variable {p} {e : ℝ} (h1 : e ≤ p.alpha) (h2 : e ≤ p.alpha + 2 * p.gamma) (he : 0 < e)
include h1 h2 he

omit h1 h2 in
theorem integrable_gauss0 : Integrable fun σ : ℝ => exp (-e * σ ^ 2) := integrable_exp_neg_mul_sq he

omit h1 h2 in
theorem abs_kXS_le0 (h3 : e ≤ p.omega) (x y : ℝ) : |Spec.kXS p x y| ≤ |p.omegaT| :=
  (abs_kXS_le h3 x y).trans (mul_le_of_le_one_right (abs_nonneg _) (exp_le_one_iff.2 (by nlinarith [mul_nonneg he.le (sq_nonneg (x - y))])))

theorem continuous_iuz (h3 : e ≤ p.omega) (u z : ℝ) : Continuous fun t => Spec.iuz p t u z := by
  have hg := measurable_specGate p
  have hk := continuous_kH p
  have hx := continuous_kXS p
  simp only [iuz_lag]
  refine continuous_of_dominated (bound := fun σ => p.alphaT ^ 2 * exp (-e * σ ^ 2) * |p.omegaT|) (fun t => ?_) (fun t => ?_)
    (((integrable_gauss0 he).const_mul _).mul_const _) ?_
  · exact (hg.mul ((hk.comp (by fun_prop : Continuous fun σ : ℝ => (σ, u))).measurable.mul
      (hx.comp (by fun_prop : Continuous fun σ : ℝ => (t - σ, z))).measurable)).aestronglyMeasurable
  · refine Eventually.of_forall fun σ => ?_
    rw [norm_eq_abs, abs_mul, abs_mul]
    refine (mul_le_of_le_one_left (by positivity) (abs_gate_le p _)).trans ?_
    exact mul_le_mul (abs_kH_le' h1 h2 he _ _) (abs_kXS_le0 he h3 _ _) (abs_nonneg _) (by positivity)
  · refine Eventually.of_forall fun σ => ?_
    exact continuous_const.mul (continuous_const.mul (hx.comp (by fun_prop : Continuous fun t : ℝ => (t - σ, z))))

theorem continuous_ihz (h3 : e ≤ p.omega) (z1 z2 : ℝ) : Continuous fun t => Spec.ihz p t z1 z2 := by
  have hg := measurable_specGate p
  have hk := continuous_kH p
  have hx := continuous_kXS p
  simp only [ihz_lag]
  have hF : ∀ t : ℝ, Measurable fun q : ℝ × ℝ => Spec.gate p q.1 * Spec.gate p q.2 *
      (Spec.kH p q.1 q.2 * Spec.kXS p (t - q.1) z1 * Spec.kXS p z2 (t - q.2)) := fun t =>
    ((hg.comp measurable_fst).mul (hg.comp measurable_snd)).mul ((hk.measurable.mul
      (hx.comp (by fun_prop : Continuous fun q : ℝ × ℝ => (t - q.1, z1))).measurable).mul
      (hx.comp (by fun_prop : Continuous fun q : ℝ × ℝ => (z2, t - q.2))).measurable)
  have hb : ∀ t σ₁ σ₂ : ℝ, ‖Spec.gate p σ₁ * Spec.gate p σ₂ *
      (Spec.kH p σ₁ σ₂ * Spec.kXS p (t - σ₁) z1 * Spec.kXS p z2 (t - σ₂))‖ ≤
        p.alphaT ^ 2 * |p.omegaT| * |p.omegaT| * exp (-e * σ₁ ^ 2) * exp (-e * σ₂ ^ 2) := fun t σ₁ σ₂ => by
    rw [norm_eq_abs, abs_mul, abs_mul, abs_mul, abs_mul]
    refine (mul_le_of_le_one_left (by positivity) (mul_le_one₀ (abs_gate_le p _) (abs_nonneg _) (abs_gate_le p _))).trans ?_
    calc _ ≤ _ := mul_le_mul (mul_le_mul (abs_kH_le h1 h2 σ₁ σ₂) (abs_kXS_le0 he h3 (t - σ₁) z1) (abs_nonneg _) (by positivity))
          (abs_kXS_le0 he h3 z2 (t - σ₂)) (abs_nonneg _) (by positivity)
      _ = _ := by ring
  have hi : ∀ σ₁ : ℝ, Integrable fun σ₂ : ℝ => p.alphaT ^ 2 * |p.omegaT| * |p.omegaT| * exp (-e * σ₁ ^ 2) * exp (-e * σ₂ ^ 2) :=
    fun σ₁ => (integrable_gauss0 he).const_mul _
  refine continuous_of_dominated (bound := fun σ₁ => p.alphaT ^ 2 * |p.omegaT| * |p.omegaT| * exp (-e * σ₁ ^ 2) *
    ∫ σ₂, exp (-e * σ₂ ^ 2)) (fun t => ?_) (fun t => ?_) (((integrable_gauss0 he).const_mul _).mul_const _) ?_
  · exact (hF t).stronglyMeasurable.integral_prod_right.aestronglyMeasurable
  · refine Eventually.of_forall fun σ₁ => ?_
    refine (norm_integral_le_of_norm_le (hi σ₁) (Eventually.of_forall (hb t σ₁))).trans_eq ?_
    rw [integral_const_mul]
  · refine Eventually.of_forall fun σ₁ => ?_
    refine continuous_of_dominated (fun t => ?_) (fun t => Eventually.of_forall (hb t σ₁)) (hi σ₁) ?_
    · exact ((hF t).comp measurable_prodMk_left).aestronglyMeasurable
    · refine Eventually.of_forall fun σ₂ => ?_
      exact continuous_const.mul ((continuous_const.mul (hx.comp (by fun_prop : Continuous fun t : ℝ => (t - σ₁, z1)))).mul
        (hx.comp (by fun_prop : Continuous fun t : ℝ => (z2, t - σ₂))))

omit h1 h2 he in
theorem ae_gate (s₀ : ℝ) : ∀ᵐ σ : ℝ, ContinuousAt (fun s => Spec.gate p (s + σ)) s₀ := by
  filter_upwards [compl_mem_ae_iff.2 (measure_singleton (-s₀))] with σ hσ
  have h0 : s₀ + σ ≠ 0 := fun h => hσ (by rw [Set.mem_singleton_iff]; linarith)
  exact ContinuousAt.comp (f := fun s => s + σ) (continuousAt_gate p h0) (by fun_prop)

theorem continuous_ihx : Continuous fun s => Spec.ihx p s 0 := by
  have hg := measurable_specGate p
  have hk := continuous_kH p
  simp only [ihx_lag]
  refine continuous_iff_continuousAt.2 fun s₀ => ?_
  refine continuousAt_of_dominated (bound := fun σ => p.alphaT ^ 2 * exp (-e * σ ^ 2)) (Eventually.of_forall fun t => ?_)
    (Eventually.of_forall fun t => Eventually.of_forall fun σ => ?_) ((integrable_gauss0 he).const_mul _) ?_
  · exact (((hg.comp (by fun_prop)).mul hg).mul
      (hk.comp (by fun_prop : Continuous fun σ : ℝ => (t + σ, σ))).measurable).aestronglyMeasurable
  · rw [norm_eq_abs, abs_mul, abs_mul]
    refine (mul_le_of_le_one_left (by positivity) (mul_le_one₀ (abs_gate_le p _) (abs_nonneg _) (abs_gate_le p _))).trans ?_
    have e3 : Spec.kH p (t + σ) σ = Spec.kH p σ (t + σ) := by rw [kH_eq, kH_eq]; ring_nf
    rw [e3]
    exact abs_kH_le' h1 h2 he _ _
  · filter_upwards [ae_gate (p := p) s₀] with σ hσ
    exact (hσ.mul continuousAt_const).mul (hk.comp (by fun_prop : Continuous fun s : ℝ => (s + σ, σ))).continuousAt

theorem continuous_iux (u1 u2 : ℝ) : Continuous fun s => Spec.iux p s 0 u1 u2 := by
  have hg := measurable_specGate p
  have hk := continuous_kH p
  simp only [iux_lag]
  refine continuous_iff_continuousAt.2 fun s₀ => ?_
  refine continuousAt_of_dominated (bound := fun σ => p.alphaT ^ 2 * (p.alphaT ^ 2 * exp (-e * σ ^ 2)))
    (Eventually.of_forall fun t => ?_) (Eventually.of_forall fun t => Eventually.of_forall fun σ => ?_)
    (((integrable_gauss0 he).const_mul _).const_mul _) ?_
  · exact (((hg.comp (by fun_prop)).mul hg).mul
      ((hk.comp (by fun_prop : Continuous fun σ : ℝ => (t + σ, u1))).measurable.mul
        (hk.comp (by fun_prop : Continuous fun σ : ℝ => (u2, σ))).measurable)).aestronglyMeasurable
  · rw [norm_eq_abs, abs_mul, abs_mul, abs_mul]
    refine (mul_le_of_le_one_left (by positivity) (mul_le_one₀ (abs_gate_le p _) (abs_nonneg _) (abs_gate_le p _))).trans ?_
    have e3 : Spec.kH p u2 σ = Spec.kH p σ u2 := by rw [kH_eq, kH_eq]; ring_nf
    have e4 := abs_kH_le' h1 h2 he (t + σ) u1
    have e5 : p.alphaT ^ 2 * exp (-e * (t + σ) ^ 2) ≤ p.alphaT ^ 2 :=
      mul_le_of_le_one_right (by positivity) (exp_le_one_iff.2 (by nlinarith [mul_nonneg he.le (sq_nonneg (t + σ))]))
    rw [e3]
    exact mul_le_mul (e4.trans e5) (abs_kH_le' h1 h2 he _ _) (abs_nonneg _) (by positivity)
  · filter_upwards [ae_gate (p := p) s₀] with σ hσ
    exact (hσ.mul continuousAt_const).mul ((hk.comp (by fun_prop : Continuous fun s : ℝ => (s + σ, u1))).continuousAt.mul
      continuousAt_const)

end

/-! ## Predictions from continuous integrals -/

section
variable {ι κ : Type} [Fintype ι] [DecidableEq ι] [Fintype κ] [DecidableEq κ] (C : Chols ι κ) {m : Inst ι κ}

theorem continuous_list_sum' {α : Type} (us : List α) {f : α → ℝ → ℝ} (h : ∀ u, Continuous (f u)) :
    Continuous fun x => (us.map fun u => f u x).sum := by
  induction us with
  | nil => simpa using continuous_const
  | cons u us ih =>
    simp only [List.map_cons, List.sum_cons]
    exact (h u).add ih

theorem continuous_frob {α : Type} [Fintype α] {X Y : ℝ → Matrix α α ℝ} (hX : Continuous X) (hY : Continuous Y) :
    Continuous fun t => frob (X t) (Y t) := by
  unfold frob
  fun_prop

theorem continuous_ptMoments (hx : Continuous fun t => m.iHx t t) (hz : Continuous m.iHz) (huz : Continuous m.iUz)
    (u : ι → ℝ) (u2 : Matrix ι ι ℝ) (z : κ → ℝ) (z2 : Matrix κ κ ℝ) : Continuous fun t => ptMoments C m u u2 z z2 t := by
  unfold ptMoments ptA ptB ptC
  refine Continuous.prodMk (by fun_prop) ?_
  refine (((continuous_frob ?_ continuous_const).add (continuous_frob ?_ continuous_const)).add ?_).add
    (continuous_frob continuous_const ?_)
  · fun_prop
  · fun_prop
  · exact ((hx.sub continuous_const).sub (continuous_frob continuous_const hz)).add (continuous_frob continuous_const (by fun_prop))
  · fun_prop

theorem continuous_predictions (hx : Continuous fun t => m.iHx t t) (hz : Continuous m.iHz) (huz : Continuous m.iUz) :
    (∀ s : Posts ι κ, ∃ f : ℝ → ℝ × ℝ, Continuous f ∧ ∀ t, MeanField.predict C m s t = t.map f) ∧
      ∀ (ts : DataTerms ι κ) (us : List (ι → ℝ)), us ≠ [] → ∃ f : ℝ → ℝ × ℝ, Continuous f ∧
        ∀ t, Structured.predict C m (some ts) t us = .ok (t.map f) := by
  have hc : Continuous (toMeanVar m) := by unfold toMeanVar; fun_prop
  refine ⟨fun s => ⟨_, ?_, meanField_predict_map C m s⟩, fun ts us hus => ⟨_, ?_, structured_predict_map C m ts hus⟩⟩
  · exact hc.comp (continuous_ptMoments C hx hz huz _ _ _ _)
  · refine hc.comp (Continuous.prodMk ?_ ?_)
    · exact (continuous_list_sum' us fun u => continuous_fst.comp (continuous_ptMoments C hx hz huz _ _ _ _)).div_const _
    · exact (continuous_list_sum' us fun u => continuous_snd.comp (continuous_ptMoments C hx hz huz _ _ _ _)).div_const _

end

/-! ## C151 -/

section
variable (R : Runtime ℝ)

/-- **C151** (GPCM and CGPCM) The predicted means and variances are continuous functions of time. -/
theorem c151_gpcm (g : GpcmModel) (hm : g.Moderate) {m : Inst (Fin g.tU.length) (Fin g.tZ.length)} (h : g.IsInst R m)
    (C : Chols (Fin g.tU.length) (Fin g.tZ.length)) :
    (∀ s : Posts (Fin g.tU.length) (Fin g.tZ.length), ∃ f : ℝ → ℝ × ℝ, Continuous f ∧ ∀ t, MeanField.predict C m s t = t.map f) ∧
      ∀ (ts : DataTerms (Fin g.tU.length) (Fin g.tZ.length)) (us : List (Fin g.tU.length → ℝ)), us ≠ [] →
        ∃ f : ℝ → ℝ × ℝ, Continuous f ∧ ∀ t, Structured.predict C m (some ts) t us = .ok (t.map f) := by
  obtain rfl : m = g.specInst := (c98_instance R g hm).unique h (g.specInst_isInst R hm)
  obtain ⟨e, he, h1, h2, h3⟩ := hm.rate
  refine continuous_predictions C ?_ ?_ ?_
  · have : (fun t => g.specInst.iHx t t) = fun _ => Spec.ihx g.params 0 0 := by
      funext t
      have := Spec.ihx_shift g.params t 0 0
      rwa [zero_add] at this
    rw [this]
    exact continuous_const
  · exact continuous_pi fun i => continuous_pi fun j => continuous_ihz h1 h2 he h3 _ _
  · exact continuous_pi fun i => continuous_pi fun j => continuous_iuz h1 h2 he h3 _ _

/-- **C151** (GPCM and CGPCM) Every sampled kernel is a continuous function of the lag. -/
theorem c151_gpcm_kernel (g : GpcmModel) (hm : g.Moderate) (C : CholOracle (Fin g.tU.length)) (u : Fin g.tU.length → ℝ) :
    ∃ k : ℝ → ℝ, Continuous k ∧ ∀ t1 t2, g.kernelApprox R C t1 t2 u = .ok (t1.map fun a => t2.map fun b => k (a - b)) := by
  obtain ⟨k, -, hk⟩ := c67_stationary R g hm C u
  refine ⟨k, ?_, hk⟩
  obtain ⟨e, he, h1, h2, -⟩ := hm.rate
  have h4 : Continuous fun s => (Matrix.of fun i j => Spec.iux g.params s 0 (g.tU.get i) (g.tU.get j) :
      Matrix (Fin g.tU.length) (Fin g.tU.length) ℝ) :=
    continuous_pi fun i => continuous_pi fun j => continuous_iux h1 h2 he _ _
  have h5 := (continuous_kernelEntry C (.of fun i j => Spec.kH g.params (g.tU.get i) (g.tU.get j)) u).comp
    ((continuous_ihx h1 h2 he).prodMk h4)
  refine h5.congr fun s => ?_
  have h6 := (g.kernelApprox_eq R hm C [s] [0] u).symm.trans (hk [s] [0])
  simpa [kernelApprox] using h6

end

end Gpcm

namespace Gpcm.Rgpcm

theorem continuous_hzEntry (g : RgpcmModel) (m n : ℕ) : Continuous fun t => hzEntry g m n t := by
  have h1 : ∀ x, Continuous fun t => g.hxCos x t := fun x => by unfold RgpcmModel.hxCos; fun_prop
  have h2 : ∀ x, Continuous fun t => g.hxSin x t := fun x => by unfold RgpcmModel.hxSin; fun_prop
  unfold hzEntry
  split_ifs <;> fun_prop

theorem continuous_uzEntry (g : RgpcmModel) (tu : ℝ) (m : ℕ) : Continuous fun t => uzEntry g tu m t := by
  unfold uzEntry RgpcmModel.integralLu0 RgpcmModel.integralLukLeqM RgpcmModel.integralLukGM
  split_ifs <;> fun_prop

/-- **C151** (RGPCM) The predicted means and variances are continuous functions of time, also where the interval of the harmonics
ends. -/
theorem c151_rgpcm (g : RgpcmModel) (hM : 0 ≤ g.mMax) {perm : List ℕ} (hp : IsArgsort perm g.ms)
    {m : Inst (Fin g.tU.length) (Fin g.ms.length)} (h : g.Returns perm m) (C : Chols (Fin g.tU.length) (Fin g.ms.length)) :
    (∀ s : Posts (Fin g.tU.length) (Fin g.ms.length), ∃ f : ℝ → ℝ × ℝ, Continuous f ∧ ∀ t, MeanField.predict C m s t = t.map f) ∧
      ∀ (ts : DataTerms (Fin g.tU.length) (Fin g.ms.length)) (us : List (Fin g.tU.length → ℝ)), us ≠ [] →
        ∃ f : ℝ → ℝ × ℝ, Continuous f ∧ ∀ t, Structured.predict C m (some ts) t us = .ok (t.map f) := by
  have hZ : ∀ t i j, m.iHz t i j = hzEntry g (g.ms.get i) (g.ms.get j) t := fun t i j => by
    have := h.iHz t
    rw [computeIhz_eq g hp hM, map_rows] at this
    exact (congrFun (congrFun (rows_injective (Except.ok.inj this)) i) j).symm
  have hI : ∀ t i j, m.iUz t i j = g.alphaT * g.gammaT * exp (-g.gamma * g.tU.get i) * uzEntry g (g.tU.get i) (g.ms.get j) t :=
    fun t i j => by
      have := h.iUz t
      rw [computeIuz_eq g hp hM, map_rows] at this
      exact (congrFun (congrFun (rows_injective (Except.ok.inj this)) i) j).symm
  refine continuous_predictions C ?_ ?_ ?_
  · simp only [h.iHx, RgpcmModel.ihx, sub_self]
    exact continuous_const
  · refine continuous_pi fun i => continuous_pi fun j => ?_
    simp only [hZ]
    exact continuous_hzEntry g _ _
  · refine continuous_pi fun i => continuous_pi fun j => ?_
    simp only [hI]
    exact continuous_const.mul (continuous_uzEntry g _ _)

/-- The piecewise formula without case distinctions. -/
theorem integralAbcd_max (a b c d : ℝ) : RgpcmModel.integralAbcd a b c d =
    (d / c * ((1 - exp (2 * c * max 0 (min a b))) - (1 - exp (-(2 * c * max 0 (min (-a) (-b)))))) +
      (1 - exp (c * a - d * |a|) - exp (c * b - d * |b|) + exp (c * (a + b) - d * |a - b|))) / (c ^ 2 - d ^ 2) := by
  unfold RgpcmModel.integralAbcd
  simp only
  congr 2
  rcases lt_trichotomy a 0 with ha | rfl | ha
  · rcases lt_or_ge 0 b with hb | hb
    · have h1 : ¬ a * b ≥ 0 := not_le.2 (mul_neg_of_neg_of_pos ha hb)
      have h2 : max 0 (min a b) = 0 := max_eq_left ((min_le_left _ _).trans ha.le)
      have h3 : max 0 (min (-a) (-b)) = 0 := max_eq_left ((min_le_right _ _).trans (by linarith))
      rw [if_neg h1, h2, h3]
      simp
    · have h1 : a * b ≥ 0 := mul_nonneg_of_nonpos_of_nonpos ha.le hb
      have h2 : max 0 (min a b) = 0 := max_eq_left ((min_le_left _ _).trans ha.le)
      have h3 : max 0 (min (-a) (-b)) = min |a| |b| := by
        rw [abs_of_neg ha, abs_of_nonpos hb]
        exact max_eq_right (le_min (by linarith) (by linarith))
      rw [if_pos h1, h2, h3, Real.sign_of_neg ha]
      have h4 : 2 * c * -1 * min |a| |b| = -(2 * c * min |a| |b|) := by ring
      rw [h4]
      simp
      ring
  · simp only [Real.sign_zero, zero_mul, zero_div, mul_zero]
    have h2 : max 0 (min 0 b) = 0 := max_eq_left (min_le_left _ _)
    have h3 : max 0 (min (-0) (-b)) = 0 := by rw [neg_zero]; exact max_eq_left (min_le_left _ _)
    rw [h2, h3]
    simp
  · rcases lt_or_ge b 0 with hb | hb
    · have h1 : ¬ a * b ≥ 0 := not_le.2 (mul_neg_of_pos_of_neg ha hb)
      have h2 : max 0 (min a b) = 0 := max_eq_left ((min_le_right _ _).trans hb.le)
      have h3 : max 0 (min (-a) (-b)) = 0 := max_eq_left ((min_le_left _ _).trans (by linarith))
      rw [if_neg h1, h2, h3]
      simp
    · have h1 : a * b ≥ 0 := mul_nonneg ha.le hb
      have h2 : max 0 (min (-a) (-b)) = 0 := max_eq_left ((min_le_left _ _).trans (by linarith))
      have h3 : max 0 (min a b) = min |a| |b| := by
        rw [abs_of_pos ha, abs_of_nonneg hb]
        exact max_eq_right (le_min ha.le hb)
      rw [if_pos h1, h2, h3, Real.sign_of_pos ha]
      simp

theorem continuous_integralAbcd (c d : ℝ) : Continuous fun q : ℝ × ℝ => RgpcmModel.integralAbcd q.1 q.2 c d := by
  simp only [integralAbcd_max]
  fun_prop

/-- **C151** (RGPCM) Every sampled kernel is a continuous function of the lag. -/
theorem c151_rgpcm_kernel (g : RgpcmModel) (h1 : g.gamma ≠ g.alpha) (h2 : (g.gamma - g.alpha) ^ 2 ≠ g.lam ^ 2)
    (C : CholOracle (Fin g.tU.length)) (u : Fin g.tU.length → ℝ) :
    ∃ k : ℝ → ℝ, Continuous k ∧ ∀ t1 t2, g.kernelApprox C t1 t2 u = .ok (t1.map fun a => t2.map fun b => k (a - b)) := by
  obtain ⟨k, -, hk⟩ := c67_stationary_rgpcm g h1 h2 C u
  obtain ⟨I, hI, hK⟩ := kernelApprox_eq g h1 h2 C u
  refine ⟨k, ?_, hk⟩
  have hA := continuous_integralAbcd (g.gamma - g.alpha) g.lam
  have h4 : Continuous fun s => I s 0 := by
    refine continuous_pi fun i => continuous_pi fun j => ?_
    have e : ∀ s, I s 0 i j = g.alphaT ^ 2 * g.gammaT ^ 2 *
        exp (-g.gamma * (g.tU.get i + g.tU.get j) + (g.gamma - g.alpha) * (s + 0)) *
        RgpcmModel.integralAbcdLu (-s) (g.tU.get j - s) (-0) (g.tU.get i - 0) (g.gamma - g.alpha) g.lam := fun s => by
      have := hI s 0 i j
      unfold RgpcmModel.iuxEntry at this
      simp only at this
      split_ifs at this
      exact (Except.ok.inj this).symm
    simp only [e, RgpcmModel.integralAbcdLu]
    refine Continuous.mul (by fun_prop) ?_
    refine (((hA.comp (by fun_prop : Continuous fun s : ℝ => (g.tU.get j - s, g.tU.get i - 0))).add
      (hA.comp (by fun_prop : Continuous fun s : ℝ => (-s, (-0 : ℝ))))).add
      (hA.comp (by fun_prop : Continuous fun s : ℝ => (g.tU.get j - s, (-0 : ℝ)))).neg).add
      (hA.comp (by fun_prop : Continuous fun s : ℝ => (-s, g.tU.get i - 0))).neg
  have h3 : Continuous fun s => g.ihx s 0 := by unfold RgpcmModel.ihx; fun_prop
  have h5 := (continuous_kernelEntry C g.computeKu u).comp (h3.prodMk h4)
  refine h5.congr fun s => ?_
  have := (hK [s] [0]).symm.trans (hk [s] [0])
  simpa using this

end Gpcm.Rgpcm

namespace Gpcm

/-- A causal model: there are predictions to speak of. -/
example (R : Runtime ℝ) (causal : Bool) : ∃ (g : GpcmModel) (m : Inst (Fin g.tU.length) (Fin g.tZ.length)), g.IsInst R m ∧
    g.params.causal = causal ∧ ∀ (C : Chols (Fin g.tU.length) (Fin g.tZ.length)) (s : Posts (Fin g.tU.length) (Fin g.tZ.length)),
      ∃ f : ℝ → ℝ × ℝ, Continuous f ∧ ∀ t, MeanField.predict C m s t = t.map f := by
  obtain ⟨g, hg, hm, hz, -⟩ := witness_moderate causal
  have hc : g.params.causal = causal := by
    obtain ⟨-, -, -, -, -, -, -, hc, -⟩ := GpcmModel.new_ok hg
    exact hc
  exact ⟨g, g.specInst, g.specInst_isInst R hm, hc, fun C s => (c151_gpcm R g hm (g.specInst_isInst R hm) C).1 s⟩

end Gpcm
