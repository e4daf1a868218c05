import Mathlib.MeasureTheory.Measure.Prod
import Mathlib.MeasureTheory.Measure.WithDensity
import Mathlib.MeasureTheory.Measure.Typeclasses.Probability

/-! # Helper lemmas: Gibbs sampling from a positive joint density -/

set_option linter.unusedSectionVars false

open MeasureTheory ENNReal

namespace Gpcm

section unique

variable {W : Type} [MeasurableSpace W] {lam : Measure W} [SFinite lam]

/-- A Markov chain with positive transition density has at most one invariant distribution. -/
theorem invariant_unique {k : W → W → ℝ≥0∞} (hk : Measurable (Function.uncurry k))
    (hpos : ∀ w w', k w w' ≠ 0) (hone : ∀ w, ∫⁻ w', k w w' ∂lam = 1)
    {q : W → ℝ≥0∞} (hq : Measurable q) (hqone : ∫⁻ w, q w ∂lam = 1)
    (hqinv : ∀ A, MeasurableSet A → ∫⁻ w in A, q w ∂lam = ∫⁻ w, q w * ∫⁻ w' in A, k w w' ∂lam ∂lam)
    {rho : Measure W} [IsProbabilityMeasure rho]
    (hr : ∀ A, MeasurableSet A → rho A = ∫⁻ w, ∫⁻ w' in A, k w w' ∂lam ∂rho) :
    rho = lam.withDensity q := by
  obtain ⟨p, hpd⟩ : ∃ p : W → ℝ≥0∞, p = fun w' => ∫⁻ w, k w w' ∂rho := ⟨_, rfl⟩
  have hp : Measurable p := by
    rw [hpd]
    exact Measurable.lintegral_prod_left hk
  have hrho : rho = lam.withDensity p := by
    ext A hA
    rw [hr A hA, withDensity_apply _ hA, hpd, lintegral_lintegral_swap hk.aemeasurable]
  have hpone : ∫⁻ w, p w ∂lam = 1 := by
    have := measure_univ (μ := rho)
    rw [hrho, withDensity_apply _ MeasurableSet.univ, Measure.restrict_univ] at this
    exact this
  obtain ⟨E, hE⟩ : ∃ E : Set W, E = {w | q w < p w} := ⟨_, rfl⟩
  have hEm : MeasurableSet E := hE ▸ measurableSet_lt hq hp
  obtain ⟨g, hgd⟩ : ∃ g : W → ℝ≥0∞, g = fun w => ∫⁻ w' in E, k w w' ∂lam := ⟨_, rfl⟩
  have hg : Measurable g := by
    rw [hgd]
    exact Measurable.lintegral_prod_right hk
  have hg1 : ∀ w, g w ≤ 1 := fun w => by
    rw [hgd, ← hone w]
    exact setLIntegral_le_lintegral _ _
  have e1 : ∫⁻ w in E, p w ∂lam = ∫⁻ w, g w * p w ∂lam := by
    have h := hr E hEm
    have h2 : ∫⁻ w, g w ∂rho = ∫⁻ w, g w * p w ∂lam := by
      rw [hrho, lintegral_withDensity_eq_lintegral_mul _ hp hg]
      exact lintegral_congr fun w => mul_comm _ _
    rw [← h2, hgd, ← h, hrho, withDensity_apply _ hEm]
  have e2 : ∫⁻ w in E, q w ∂lam = ∫⁻ w, g w * q w ∂lam := by
    rw [hqinv E hEm, hgd]
    exact lintegral_congr fun w => mul_comm _ _
  have hgq : ∫⁻ w, g w * q w ∂lam ≠ ∞ := by
    refine ne_top_of_le_ne_top (hqone ▸ one_ne_top) (lintegral_mono fun w => ?_)
    exact (mul_le_mul_left (hg1 w) _).trans (one_mul _).le
  have hgp : ∫⁻ w, g w * p w ∂lam ≠ ∞ := by
    refine ne_top_of_le_ne_top (hpone ▸ one_ne_top) (lintegral_mono fun w => ?_)
    exact (mul_le_mul_left (hg1 w) _).trans (one_mul _).le
  have hqf : ∀ᵐ w ∂lam, q w < ∞ := ae_lt_top hq (hqone ▸ one_ne_top)
  have hpf : ∀ᵐ w ∂lam, p w < ∞ := ae_lt_top hp (hpone ▸ one_ne_top)
  have e3 : ∫⁻ w, (E.indicator q w + g w * p w) ∂lam = ∫⁻ w, (E.indicator p w + g w * q w) ∂lam := by
    rw [lintegral_add_left (hq.indicator hEm), lintegral_add_left (hp.indicator hEm),
      lintegral_indicator hEm, lintegral_indicator hEm, e1, e2, add_comm]
  have hle : ∀ᵐ w ∂lam, E.indicator q w + g w * p w ≤ E.indicator p w + g w * q w := by
    filter_upwards [hqf, hpf] with w h1 h2
    by_cases hw : w ∈ E
    · rw [Set.indicator_of_mem hw, Set.indicator_of_mem hw]
      have hlt : q w < p w := by rw [hE] at hw; exact hw
      have h3 := hg1 w
      have h4 : g w ≠ ∞ := ne_top_of_le_ne_top one_ne_top h3
      lift g w to NNReal using h4 with a
      lift q w to NNReal using h1.ne with b
      lift p w to NNReal using h2.ne with c
      norm_cast at h3 hlt ⊢
      have h3' : (a : ℝ) ≤ 1 := h3
      have hlt' : (b : ℝ) < c := hlt
      show (b + a * c : ℝ) ≤ c + a * b
      nlinarith
    · rw [Set.indicator_of_notMem hw, Set.indicator_of_notMem hw, zero_add, zero_add]
      have hge : p w ≤ q w := by rw [hE] at hw; exact not_lt.1 hw
      exact mul_le_mul_right hge _
  have hfin : ∫⁻ w, (E.indicator q w + g w * p w) ∂lam ≠ ∞ := by
    rw [lintegral_add_left (hq.indicator hEm), lintegral_indicator hEm, e2]
    exact add_ne_top.2 ⟨hgq, hgp⟩
  have hEae : ∀ᵐ w ∂lam, E.indicator q w + g w * p w = E.indicator p w + g w * q w :=
    ae_eq_of_ae_le_of_lintegral_le hle hfin ((hp.indicator hEm).add (hg.mul hq)).aemeasurable e3.ge
  have hE0 : lam E = 0 := by
    by_contra hne
    have hgpos : ∀ w, g w ≠ 0 := fun w h0 => by
      rw [hgd] at h0
      have hk' : Measurable (k w) := hk.comp measurable_prodMk_left
      rw [lintegral_eq_zero_iff hk'] at h0
      have : ∀ᵐ w' ∂lam.restrict E, False := h0.mono fun w' h => hpos w w' h
      rw [Filter.eventually_false_iff_eq_bot, ae_eq_bot, Measure.restrict_eq_zero] at this
      exact hne this
    have h1 : ∀ᵐ w ∂lam, w ∈ Eᶜ → p w = q w := by
      filter_upwards [hEae] with w h hw
      rw [Set.indicator_of_notMem hw, Set.indicator_of_notMem hw, zero_add, zero_add] at h
      exact (ENNReal.mul_right_inj (hgpos w) (ne_top_of_le_ne_top one_ne_top (hg1 w))).1 h
    have h2 : ∫⁻ w in Eᶜ, p w ∂lam = ∫⁻ w in Eᶜ, q w ∂lam := setLIntegral_congr_fun_ae hEm.compl h1
    have h3 := lintegral_add_compl p hEm (μ := lam)
    have h4 := lintegral_add_compl q hEm (μ := lam)
    rw [hpone] at h3
    rw [hqone, ← h2] at h4
    have h5 : ∫⁻ w in E, p w ∂lam = ∫⁻ w in E, q w ∂lam := by
      have hf : ∫⁻ w in Eᶜ, p w ∂lam ≠ ∞ :=
        ne_top_of_le_ne_top (hpone ▸ one_ne_top) (setLIntegral_le_lintegral _ _)
      exact (ENNReal.add_left_inj hf).1 (h3.trans h4.symm)
    have h6 : ∀ᵐ w ∂lam.restrict E, q w = p w := by
      refine ae_eq_of_ae_le_of_lintegral_le ?_ ?_ hp.aemeasurable h5.le
      · filter_upwards [ae_restrict_mem hEm] with w hw
        rw [hE] at hw
        exact le_of_lt hw
      · exact ne_top_of_le_ne_top (hqone ▸ one_ne_top) (setLIntegral_le_lintegral _ _)
    have h7 : ∀ᵐ w ∂lam.restrict E, False := by
      filter_upwards [h6, ae_restrict_mem hEm] with w h hw
      rw [hE] at hw
      exact absurd h (ne_of_lt hw)
    rw [Filter.eventually_false_iff_eq_bot, ae_eq_bot, Measure.restrict_eq_zero] at h7
    exact hne h7
  have hpq : ∀ᵐ w ∂lam, p w ≤ q w := by
    have : ∀ᵐ w ∂lam, w ∉ E := measure_eq_zero_iff_ae_notMem.1 hE0
    filter_upwards [this] with w h
    rw [hE] at h
    exact not_lt.1 h
  rw [hrho]
  refine withDensity_congr_ae ?_
  exact ae_eq_of_ae_le_of_lintegral_le hpq (hpone ▸ one_ne_top) hq.aemeasurable (hqone.trans hpone.symm).le

end unique

section gibbs

variable {X Y : Type} [MeasurableSpace X] [MeasurableSpace Y] {mu : Measure X} {nu : Measure Y}
  [SFinite mu] [SFinite nu]

/-- One sweep of the Gibbs sampler, in terms of densities. -/
noncomputable def gibbsOp (mu : Measure X) (nu : Measure Y) (j : X × Y → ℝ≥0∞) (f : X × Y → ℝ≥0∞)
    (w : X × Y) : ℝ≥0∞ :=
  ∫⁻ x, j (x, w.2) / (∫⁻ x', j (x', w.2) ∂mu) *
    ∫⁻ y, j (x, y) / (∫⁻ y', j (x, y') ∂nu) * f (x, y) ∂nu ∂mu

/-- The transition density. -/
noncomputable def gibbsDens (mu : Measure X) (nu : Measure Y) (j : X × Y → ℝ≥0∞) (w w' : X × Y) : ℝ≥0∞ :=
  j (w'.1, w.2) / (∫⁻ x', j (x', w.2) ∂mu) * (j w' / (∫⁻ y', j (w'.1, y') ∂nu))

variable {j : X × Y → ℝ≥0∞} (hj : Measurable j)

include hj

theorem gibbs_meas_c : Measurable fun y => ∫⁻ x', j (x', y) ∂mu := hj.lintegral_prod_left'
theorem gibbs_meas_r : Measurable fun x => ∫⁻ y', j (x, y') ∂nu := hj.lintegral_prod_right'

theorem gibbsDens_measurable : Measurable (Function.uncurry (gibbsDens mu nu j)) := by
  have hc := gibbs_meas_c (mu := mu) hj
  have hr := gibbs_meas_r (nu := nu) hj
  refine Measurable.mul (Measurable.div ?_ ?_) (Measurable.div ?_ ?_)
  · exact hj.comp ((measurable_fst.comp measurable_snd).prodMk (measurable_snd.comp measurable_fst))
  · exact hc.comp (measurable_snd.comp measurable_fst)
  · exact hj.comp measurable_snd
  · exact hr.comp (measurable_fst.comp measurable_snd)

theorem gibbsOp_eq {f : X × Y → ℝ≥0∞} (hf : Measurable f) (w : X × Y) :
    gibbsOp mu nu j f w = ∫⁻ w', gibbsDens mu nu j w w' * f w' ∂mu.prod nu := by
  have hd : Measurable fun w' => gibbsDens mu nu j w w' * f w' :=
    ((gibbsDens_measurable hj).comp measurable_prodMk_left).mul hf
  rw [lintegral_prod _ hd.aemeasurable]
  unfold gibbsOp
  refine lintegral_congr fun x => ?_
  have hr : Measurable fun y => j (x, y) / (∫⁻ y', j (x, y') ∂nu) * f (x, y) := by
    have h1 : Measurable fun y => j (x, y) := hj.comp measurable_prodMk_left
    have h2 : Measurable fun y => f (x, y) := hf.comp measurable_prodMk_left
    exact (h1.div_const _).mul h2
  rw [← lintegral_const_mul _ hr]
  exact lintegral_congr fun y => (mul_assoc _ _ _).symm

theorem gibbsOp_measurable {f : X × Y → ℝ≥0∞} (hf : Measurable f) : Measurable (gibbsOp mu nu j f) := by
  have : gibbsOp mu nu j f = fun w => ∫⁻ w', gibbsDens mu nu j w w' * f w' ∂mu.prod nu :=
    funext fun w => gibbsOp_eq hj hf w
  rw [this]
  exact Measurable.lintegral_prod_right
    (f := fun w w' => gibbsDens mu nu j w w' * f w') ((gibbsDens_measurable hj).mul (hf.comp measurable_snd))

variable (hc0 : ∀ y, ∫⁻ x, j (x, y) ∂mu ≠ 0) (hc1 : ∀ y, ∫⁻ x, j (x, y) ∂mu ≠ ∞)
  (hr0 : ∀ x, ∫⁻ y, j (x, y) ∂nu ≠ 0) (hr1 : ∀ x, ∫⁻ y, j (x, y) ∂nu ≠ ∞)

include hc0 hc1 hr0 hr1

/-- A sweep preserves the joint density. -/
theorem gibbsOp_invariant {f : X × Y → ℝ≥0∞} (hf : Measurable f) :
    ∫⁻ w, j w * gibbsOp mu nu j f w ∂mu.prod nu = ∫⁻ w, j w * f w ∂mu.prod nu := by
  have hF : Measurable fun x => ∫⁻ y, j (x, y) / (∫⁻ y', j (x, y') ∂nu) * f (x, y) ∂nu := by
    refine Measurable.lintegral_prod_right (f := fun x y => j (x, y) / (∫⁻ y', j (x, y') ∂nu) * f (x, y)) ?_
    exact (hj.div ((gibbs_meas_r hj).comp measurable_fst)).mul hf
  obtain ⟨F, hFd⟩ : ∃ F : X → ℝ≥0∞, F = fun x => ∫⁻ y, j (x, y) / (∫⁻ y', j (x, y') ∂nu) * f (x, y) ∂nu :=
    ⟨_, rfl⟩
  rw [← hFd] at hF
  have e1 : ∀ w, gibbsOp mu nu j f w = ∫⁻ x, j (x, w.2) / (∫⁻ x', j (x', w.2) ∂mu) * F x ∂mu := fun w => by
    rw [hFd]
    rfl
  have hm : Measurable fun w => j w * gibbsOp mu nu j f w := hj.mul (gibbsOp_measurable hj hf)
  rw [lintegral_prod_symm _ hm.aemeasurable]
  have e2 : ∀ y, ∫⁻ x, j (x, y) * gibbsOp mu nu j f (x, y) ∂mu = ∫⁻ x, j (x, y) * F x ∂mu := fun y => by
    have hjy : Measurable fun x => j (x, y) := hj.comp measurable_prodMk_right
    simp only [e1]
    have hjF : Measurable fun x => j (x, y) / (∫⁻ x', j (x', y) ∂mu) * F x := (hjy.div_const _).mul hF
    rw [lintegral_mul_const _ hjy, ← lintegral_const_mul _ hjF]
    refine lintegral_congr fun x => ?_
    rw [← mul_assoc, ENNReal.mul_div_cancel (hc0 y) (hc1 y)]
  simp only [e2]
  have hm2 : Measurable fun w : X × Y => j w * F w.1 := hj.mul (hF.comp measurable_fst)
  have hm3 : Measurable fun w : X × Y => j w * f w := hj.mul hf
  rw [← lintegral_prod_symm _ hm2.aemeasurable, lintegral_prod _ hm2.aemeasurable,
    lintegral_prod _ hm3.aemeasurable]
  refine lintegral_congr fun x => ?_
  have hjx : Measurable fun y => j (x, y) := hj.comp measurable_prodMk_left
  have hfx : Measurable fun y => f (x, y) := hf.comp measurable_prodMk_left
  have hjf : Measurable fun y => j (x, y) / (∫⁻ y', j (x, y') ∂nu) * f (x, y) := (hjx.div_const _).mul hfx
  show ∫⁻ y, j (x, y) * F x ∂nu = _
  rw [lintegral_mul_const _ hjx, hFd]
  simp only
  rw [← lintegral_const_mul _ hjf]
  refine lintegral_congr fun y => ?_
  rw [← mul_assoc, ENNReal.mul_div_cancel (hr0 x) (hr1 x)]

theorem gibbsOp_one (w : X × Y) : gibbsOp mu nu j (fun _ => 1) w = 1 := by
  unfold gibbsOp
  have e : ∀ x, ∫⁻ y, j (x, y) / (∫⁻ y', j (x, y') ∂nu) * 1 ∂nu = 1 := fun x => by
    have hjx : Measurable fun y => j (x, y) := hj.comp measurable_prodMk_left
    simp only [mul_one, div_eq_mul_inv]
    rw [lintegral_mul_const _ hjx, ENNReal.mul_inv_cancel (hr0 x) (hr1 x)]
  have hjy : Measurable fun x => j (x, w.2) := hj.comp measurable_prodMk_right
  simp only [e]
  simp only [mul_one, div_eq_mul_inv]
  rw [lintegral_mul_const _ hjy, ENNReal.mul_inv_cancel (hc0 _) (hc1 _)]

/-- The joint density is the only distribution preserved by a sweep. -/
theorem gibbsOp_unique (hpos : ∀ w, j w ≠ 0) {Z : ℝ≥0∞} (hZ : ∫⁻ w, j w ∂mu.prod nu = Z) (hZ0 : Z ≠ 0)
    (hZ1 : Z ≠ ∞) {rho : Measure (X × Y)} [IsProbabilityMeasure rho]
    (hr : ∀ f : X × Y → ℝ≥0∞, Measurable f → ∫⁻ w, gibbsOp mu nu j f w ∂rho = ∫⁻ w, f w ∂rho) :
    rho = (mu.prod nu).withDensity fun w => j w / Z := by
  have key : ∀ A, MeasurableSet A → ∀ w, gibbsOp mu nu j (A.indicator 1) w =
      ∫⁻ w' in A, gibbsDens mu nu j w w' ∂mu.prod nu := fun A hA w => by
    rw [gibbsOp_eq hj (measurable_one.indicator hA), ← lintegral_indicator hA]
    refine lintegral_congr fun w' => ?_
    by_cases h : w' ∈ A
    · rw [Set.indicator_of_mem h, Set.indicator_of_mem h, Pi.one_apply, mul_one]
    · rw [Set.indicator_of_notMem h, Set.indicator_of_notMem h, mul_zero]
  refine invariant_unique (k := gibbsDens mu nu j) (gibbsDens_measurable hj) ?_ ?_ (hj.div_const _) ?_ ?_ ?_
  · intro w w'
    unfold gibbsDens
    exact mul_ne_zero (ENNReal.div_ne_zero.2 ⟨hpos _, hc1 _⟩) (ENNReal.div_ne_zero.2 ⟨hpos _, hr1 _⟩)
  · intro w
    have := gibbsOp_one hj hc0 hc1 hr0 hr1 w
    rw [gibbsOp_eq hj measurable_const] at this
    simpa using this
  · simp only [div_eq_mul_inv]
    rw [lintegral_mul_const _ hj, hZ, ENNReal.mul_inv_cancel hZ0 hZ1]
  · intro A hA
    have h := gibbsOp_invariant hj hc0 hc1 hr0 hr1 (f := A.indicator 1) (measurable_one.indicator hA)
    simp only [← key A hA]
    have h1 : Measurable fun w => j w * gibbsOp mu nu j (A.indicator 1) w :=
      hj.mul (gibbsOp_measurable hj (measurable_one.indicator hA))
    have e1 : ∀ w, j w / Z * gibbsOp mu nu j (A.indicator 1) w =
        j w * gibbsOp mu nu j (A.indicator 1) w * Z⁻¹ := fun w => by
      rw [div_eq_mul_inv]
      ring
    simp only [e1]
    rw [lintegral_mul_const _ h1, h, ← lintegral_indicator hA]
    have h2 : Measurable fun w => j w * A.indicator 1 w := hj.mul (measurable_one.indicator hA)
    rw [← lintegral_mul_const _ h2]
    refine lintegral_congr fun w' => ?_
    by_cases h : w' ∈ A
    · rw [Set.indicator_of_mem h, Set.indicator_of_mem h, Pi.one_apply, mul_one, div_eq_mul_inv]
    · rw [Set.indicator_of_notMem h, Set.indicator_of_notMem h, mul_zero, zero_mul]
  · intro A hA
    simp only [← key A hA]
    rw [hr _ (measurable_one.indicator hA), lintegral_indicator_one hA]

end gibbs

end Gpcm
