import Verif.Lemmas.GibbsLemmas
import Mathlib.MeasureTheory.Integral.MeanInequalities
import Mathlib.MeasureTheory.Integral.DominatedConvergence
import Mathlib.MeasureTheory.Function.AEEqOfLIntegral
import Mathlib.MeasureTheory.Constructions.BorelSpace.Metrizable

/-! # Helper lemmas: convergence of two-block Gibbs sampling from a positive joint density -/

set_option linter.unusedSectionVars false

open MeasureTheory ENNReal Filter Topology

namespace Gpcm

section conv

variable {X Y : Type} [MeasurableSpace X] [MeasurableSpace Y] {mu : Measure X} {nu : Measure Y}
  [SFinite mu] [SFinite nu]

/-- The distance between two extended numbers. -/
noncomputable def absd (a b : ℝ≥0∞) : ℝ≥0∞ := (a - b) + (b - a)

theorem absd_comm (a b : ℝ≥0∞) : absd a b = absd b a := add_comm _ _

theorem absd_sq {a b : ℝ≥0∞} (ha : a ≠ ∞) (hb : b ≠ ∞) : absd a b ^ 2 + 2 * (a * b) = a * a + b * b := by
  wlog h : a ≤ b generalizing a b
  · rw [absd_comm, mul_comm a b, add_comm (a * a)]
    exact this hb ha (le_of_not_ge h)
  · obtain ⟨e, rfl⟩ := exists_add_of_le h
    have : absd a (a + e) = e := by
      rw [absd, tsub_eq_zero_of_le h, zero_add, ENNReal.add_sub_cancel_left ha]
    rw [this]
    ring

theorem le_add_absd (a b : ℝ≥0∞) : a ≤ b + absd a b := by
  calc a ≤ b + (a - b) := le_add_tsub
    _ ≤ b + absd a b := by gcongr; exact le_self_add

theorem absd_le {a b c : ℝ≥0∞} (h1 : a ≤ b + c) (h2 : b ≤ a + c) : absd a b ≤ c := by
  wlog h : a ≤ b generalizing a b
  · rw [absd_comm]
    exact this h2 h1 (le_of_not_ge h)
  · rw [absd, tsub_eq_zero_of_le h, zero_add]
    exact tsub_le_iff_left.2 h2

theorem absd_le_max {a b M : ℝ≥0∞} (ha : a ≤ M) (hb : b ≤ M) : absd a b ≤ M :=
  absd_le (ha.trans le_add_self) (hb.trans le_add_self)

theorem dist_toReal {a b : ℝ≥0∞} (ha : a ≠ ∞) (hb : b ≠ ∞) : dist a.toReal b.toReal = (absd a b).toReal := by
  wlog h : a ≤ b generalizing a b
  · rw [absd_comm, dist_comm]
    exact this hb ha (le_of_not_ge h)
  · rw [absd, tsub_eq_zero_of_le h, zero_add, ENNReal.toReal_sub_of_le h hb, dist_comm, Real.dist_eq, abs_of_nonneg]
    exact sub_nonneg.2 (ENNReal.toReal_mono hb h)

/-- The average over a weight. -/
noncomputable def wavg (mu : Measure X) (p : X → ℝ≥0∞) (h : X → ℝ≥0∞) : ℝ≥0∞ :=
  ∫⁻ x, p x / (∫⁻ x', p x' ∂mu) * h x ∂mu

theorem wavg_mul {p : X → ℝ≥0∞} (hp : Measurable p) (h0 : ∫⁻ x, p x ∂mu ≠ 0) (h1 : ∫⁻ x, p x ∂mu ≠ ∞) {h : X → ℝ≥0∞}
    (hh : Measurable h) : (∫⁻ x, p x ∂mu) * wavg mu p h = ∫⁻ x, p x * h x ∂mu := by
  unfold wavg
  have hm : Measurable fun x => p x / (∫⁻ x', p x' ∂mu) * h x := (hp.div_const _).mul hh
  rw [← lintegral_const_mul _ hm]
  refine lintegral_congr fun x => ?_
  rw [← mul_assoc, ENNReal.mul_div_cancel h0 h1]

theorem wavg_one {p : X → ℝ≥0∞} (hp : Measurable p) (h0 : ∫⁻ x, p x ∂mu ≠ 0) (h1 : ∫⁻ x, p x ∂mu ≠ ∞) :
    ∫⁻ x, p x / (∫⁻ x', p x' ∂mu) ∂mu = 1 := by
  simp only [div_eq_mul_inv]
  rw [lintegral_mul_const _ hp, ENNReal.mul_inv_cancel h0 h1]

theorem wavg_sq {p : X → ℝ≥0∞} (hp : Measurable p) (h0 : ∫⁻ x, p x ∂mu ≠ 0) (h1 : ∫⁻ x, p x ∂mu ≠ ∞) {h : X → ℝ≥0∞}
    (hh : Measurable h) : wavg mu p h ^ 2 ≤ wavg mu p fun x => h x ^ 2 := by
  obtain ⟨w, hw⟩ : ∃ w : X → ℝ≥0∞, w = fun x => p x / (∫⁻ x', p x' ∂mu) := ⟨_, rfl⟩
  have hwm : Measurable w := hw ▸ hp.div_const _
  have hw1 : ∫⁻ x, w x ∂mu = 1 := hw ▸ wavg_one hp h0 h1
  have e : ∀ g : X → ℝ≥0∞, Measurable g → wavg mu p g = ∫⁻ x, g x ∂(mu.withDensity w) := fun g hg => by
    rw [lintegral_withDensity_eq_lintegral_mul _ hwm hg, hw]
    rfl
  have hpr : (mu.withDensity w) Set.univ = 1 := by
    rw [withDensity_apply _ MeasurableSet.univ, Measure.restrict_univ, hw1]
  rw [e _ hh, e _ (hh.pow_const 2)]
  have := ENNReal.lintegral_mul_le_Lp_mul_Lq (mu.withDensity w) (p := 2) (q := 2)
    (Real.HolderConjugate.two_two) (f := h) (g := fun _ => 1) hh.aemeasurable aemeasurable_const
  simp only [Pi.mul_apply, mul_one, ENNReal.one_rpow, lintegral_const, hpr] at this
  calc (∫⁻ x, h x ∂(mu.withDensity w)) ^ 2 ≤ ((∫⁻ x, h x ^ (2 : ℝ) ∂(mu.withDensity w)) ^ (1 / 2 : ℝ)) ^ 2 := by
        gcongr
    _ = _ := by
        rw [← ENNReal.rpow_natCast, ← ENNReal.rpow_mul]
        norm_num

/-- Bounded functions that go to zero in mean square go to zero in the mean of any other distribution with a density. -/
theorem kernel_tendsto {K : Y → ℝ≥0∞} (hK : Measurable K) (hK1 : ∫⁻ y, K y ∂nu ≠ ∞) {c : Y → ℝ≥0∞} (hc : Measurable c)
    (hc0 : ∀ y, c y ≠ 0) (hZ : ∫⁻ y, c y ∂nu ≠ ∞) {M : ℝ≥0∞} (hM : M ≠ ∞) {S : Type} {l : Filter S}
    {ψ : S → Y → ℝ≥0∞} (hψ : ∀ s, Measurable (ψ s)) (hψM : ∀ s y, ψ s y ≤ M)
    (h : Tendsto (fun s => ∫⁻ y, c y * ψ s y ^ 2 ∂nu) l (𝓝 0)) : Tendsto (fun s => ∫⁻ y, K y * ψ s y ∂nu) l (𝓝 0) := by
  by_cases hZ0 : ∫⁻ y, c y ∂nu = 0
  · have hae := (lintegral_eq_zero_iff hc).1 hZ0
    have : ∀ s, ∫⁻ y, K y * ψ s y ∂nu = 0 := fun s => by
      have hm : Measurable fun y => K y * ψ s y := hK.mul (hψ s)
      rw [lintegral_eq_zero_iff hm]
      filter_upwards [hae] with y hy
      exact absurd hy (hc0 y)
    simp only [this]
    exact tendsto_const_nhds
  -- the first moment goes to zero
  have h1 : Tendsto (fun s => ∫⁻ y, c y * ψ s y ∂nu) l (𝓝 0) := by
    have hb : ∀ s, ∫⁻ y, c y * ψ s y ∂nu ≤ ((∫⁻ y, c y ∂nu) * ∫⁻ y, c y * ψ s y ^ 2 ∂nu) ^ (1 / 2 : ℝ) := fun s => by
      have := wavg_sq hc hZ0 hZ (hψ s)
      rw [← wavg_mul hc hZ0 hZ (hψ s), ← wavg_mul hc hZ0 hZ ((hψ s).pow_const 2), ← mul_assoc, ← pow_two]
      calc _ = (((∫⁻ y, c y ∂nu) * wavg nu c (ψ s)) ^ 2) ^ (1 / 2 : ℝ) := by
            rw [← ENNReal.rpow_natCast, ← ENNReal.rpow_mul]
            norm_num
        _ ≤ _ := by
            rw [mul_pow]
            gcongr
    refine tendsto_of_tendsto_of_tendsto_of_le_of_le tendsto_const_nhds ?_ (fun _ => zero_le) hb
    have h2 : Tendsto (fun s => (∫⁻ y, c y ∂nu) * ∫⁻ y, c y * ψ s y ^ 2 ∂nu) l (𝓝 0) := by
      have := ENNReal.Tendsto.const_mul (a := ∫⁻ y, c y ∂nu) h (Or.inr hZ)
      rwa [mul_zero] at this
    have := ((ENNReal.continuous_rpow_const (y := 1 / 2)).tendsto 0).comp h2
    rw [ENNReal.zero_rpow_of_pos (by norm_num)] at this
    exact this
  -- the tail of the density goes to zero
  have h2 : Tendsto (fun n : ℕ => ∫⁻ y, (K y - n * c y) ∂nu) atTop (𝓝 0) := by
    have : (0 : ℝ≥0∞) = ∫⁻ _, 0 ∂nu := by simp
    rw [this]
    refine tendsto_lintegral_of_dominated_convergence K (fun n => hK.sub (hc.const_mul _))
      (fun n => ae_of_all _ fun y => tsub_le_self) hK1 ?_
    filter_upwards [ae_lt_top hK hK1] with y hy
    refine tendsto_const_nhds.congr' ?_
    obtain ⟨n, hn⟩ := ENNReal.exists_nat_mul_gt (hc0 y) hy.ne
    filter_upwards [eventually_ge_atTop n] with k hk
    refine (tsub_eq_zero_of_le (hn.le.trans ?_)).symm
    gcongr
  rw [ENNReal.tendsto_nhds_zero]
  intro ε hε
  have hε2 := ENNReal.half_pos hε.ne'
  have h3 : Tendsto (fun n : ℕ => (∫⁻ y, (K y - n * c y) ∂nu) * M) atTop (𝓝 0) := by
    have := ENNReal.Tendsto.mul_const (b := M) h2 (Or.inr hM)
    rwa [zero_mul] at this
  obtain ⟨n, hn⟩ := ((ENNReal.tendsto_nhds_zero.1 h3) _ hε2).exists
  have h4 : Tendsto (fun s => n * ∫⁻ y, c y * ψ s y ∂nu) l (𝓝 0) := by
    have := ENNReal.Tendsto.const_mul (a := (n : ℝ≥0∞)) h1 (Or.inr (ENNReal.natCast_ne_top n))
    rwa [mul_zero] at this
  filter_upwards [(ENNReal.tendsto_nhds_zero.1 h4) _ hε2] with s hs
  have hm1 : Measurable fun y => c y * ψ s y := hc.mul (hψ s)
  have hm2 : Measurable fun y => K y - n * c y := hK.sub (hc.const_mul _)
  calc ∫⁻ y, K y * ψ s y ∂nu ≤ ∫⁻ y, (n * (c y * ψ s y) + (K y - n * c y) * M) ∂nu := by
        refine lintegral_mono fun y => ?_
        calc K y * ψ s y ≤ (n * c y + (K y - n * c y)) * ψ s y := by gcongr; exact le_add_tsub
          _ = n * (c y * ψ s y) + (K y - n * c y) * ψ s y := by rw [add_mul, mul_assoc]
          _ ≤ _ := by gcongr; exact hψM s y
    _ = n * (∫⁻ y, c y * ψ s y ∂nu) + (∫⁻ y, (K y - n * c y) ∂nu) * M := by
        rw [lintegral_add_left (hm1.const_mul _), lintegral_const_mul _ hm1, lintegral_mul_const _ hm2]
    _ ≤ ε / 2 + ε / 2 := add_le_add hs hn
    _ = ε := ENNReal.add_halves ε

/-- The conditional expectation given the second block. -/
noncomputable def condY (mu : Measure X) (j : X × Y → ℝ≥0∞) (h : X → ℝ≥0∞) (y : Y) : ℝ≥0∞ := wavg mu (fun x => j (x, y)) h

/-- The conditional expectation given the first block. -/
noncomputable def condX (nu : Measure Y) (j : X × Y → ℝ≥0∞) (g : Y → ℝ≥0∞) (x : X) : ℝ≥0∞ := wavg nu (fun y => j (x, y)) g

/-- The inner product of functions of the second block. -/
noncomputable def ipY (mu : Measure X) (nu : Measure Y) (j : X × Y → ℝ≥0∞) (g h : Y → ℝ≥0∞) : ℝ≥0∞ :=
  ∫⁻ y, (∫⁻ x, j (x, y) ∂mu) * (g y * h y) ∂nu

theorem ipY_comm (j : X × Y → ℝ≥0∞) (g h : Y → ℝ≥0∞) : ipY mu nu j g h = ipY mu nu j h g := by
  simp only [ipY, mul_comm (g _)]

variable {j : X × Y → ℝ≥0∞} (hj : Measurable j)

include hj

theorem condY_measurable {h : X → ℝ≥0∞} (hh : Measurable h) : Measurable (condY mu j h) := by
  refine Measurable.lintegral_prod_right (f := fun y x => j (x, y) / (∫⁻ x', j (x', y) ∂mu) * h x) ?_
  exact ((hj.comp measurable_swap).div ((gibbs_meas_c hj).comp measurable_fst)).mul (hh.comp measurable_snd)

theorem condX_measurable {g : Y → ℝ≥0∞} (hg : Measurable g) : Measurable (condX nu j g) := by
  refine Measurable.lintegral_prod_right (f := fun x y => j (x, y) / (∫⁻ y', j (x, y') ∂nu) * g y) ?_
  exact (hj.div ((gibbs_meas_r hj).comp measurable_fst)).mul (hg.comp measurable_snd)

theorem jy_meas (y : Y) : Measurable fun x => j (x, y) := hj.comp measurable_prodMk_right
theorem jx_meas (x : X) : Measurable fun y => j (x, y) := hj.comp measurable_prodMk_left

variable (hc0 : ∀ y, ∫⁻ x, j (x, y) ∂mu ≠ 0) (hc1 : ∀ y, ∫⁻ x, j (x, y) ∂mu ≠ ∞)
  (hr0 : ∀ x, ∫⁻ y, j (x, y) ∂nu ≠ 0) (hr1 : ∀ x, ∫⁻ y, j (x, y) ∂nu ≠ ∞)

include hc0 hc1 hr0 hr1

/-- The two conditional expectations are adjoint. -/
theorem cond_adjoint {g : Y → ℝ≥0∞} (hg : Measurable g) {h : X → ℝ≥0∞} (hh : Measurable h) :
    ipY mu nu j g (condY mu j h) = ∫⁻ x, (∫⁻ y, j (x, y) ∂nu) * (h x * condX nu j g x) ∂mu := by
  have e1 : ∀ y, (∫⁻ x, j (x, y) ∂mu) * (g y * condY mu j h y) = ∫⁻ x, g y * (j (x, y) * h x) ∂mu := fun y => by
    have hm : Measurable fun x => j (x, y) * h x := (jy_meas hj y).mul hh
    rw [lintegral_const_mul _ hm, ← wavg_mul (jy_meas hj y) (hc0 y) (hc1 y) hh, mul_left_comm]
    rfl
  have e2 : ∀ x, (∫⁻ y, j (x, y) ∂nu) * (h x * condX nu j g x) = ∫⁻ y, g y * (j (x, y) * h x) ∂nu := fun x => by
    have hm : Measurable fun y => j (x, y) * g y := (jx_meas hj x).mul hg
    have : ∀ y, g y * (j (x, y) * h x) = h x * (j (x, y) * g y) := fun y => by ring
    simp only [this]
    rw [lintegral_const_mul _ hm, ← wavg_mul (jx_meas hj x) (hr0 x) (hr1 x) hg, mul_left_comm]
    rfl
  unfold ipY
  simp only [e1, e2]
  refine (lintegral_lintegral_swap ?_)
  exact ((hg.comp measurable_fst).mul ((hj.comp measurable_swap).mul (hh.comp measurable_snd))).aemeasurable

theorem condX_one (x : X) : condX nu j (fun _ => 1) x = 1 := by
  simp only [condX, wavg, mul_one]
  exact wavg_one (jx_meas hj x) (hr0 x) (hr1 x)

theorem condY_one (y : Y) : condY mu j (fun _ => 1) y = 1 := by
  simp only [condY, wavg, mul_one]
  exact wavg_one (jy_meas hj y) (hc0 y) (hc1 y)

/-- One sweep on functions of the second block is symmetric. -/
theorem sweep_ip {g h : Y → ℝ≥0∞} (hg : Measurable g) (hh : Measurable h) :
    ipY mu nu j g (condY mu j (condX nu j h)) =
      ∫⁻ x, (∫⁻ y, j (x, y) ∂nu) * (condX nu j h x * condX nu j g x) ∂mu :=
  cond_adjoint hj hc0 hc1 hr0 hr1 hg (condX_measurable hj hh)

theorem sweep_symm {g h : Y → ℝ≥0∞} (hg : Measurable g) (hh : Measurable h) :
    ipY mu nu j g (condY mu j (condX nu j h)) = ipY mu nu j (condY mu j (condX nu j g)) h := by
  rw [ipY_comm j _ h, sweep_ip hj hc0 hc1 hr0 hr1 hg hh, sweep_ip hj hc0 hc1 hr0 hr1 hh hg]
  simp only [mul_comm (condX nu j h _)]

theorem half_sweep_le {g : Y → ℝ≥0∞} (hg : Measurable g) :
    ipY mu nu j g (condY mu j (condX nu j g)) ≤ ipY mu nu j g g := by
  rw [sweep_ip hj hc0 hc1 hr0 hr1 hg hg]
  have := cond_adjoint hj hc0 hc1 hr0 hr1 (hg.pow_const 2) (h := fun _ => 1) measurable_const
  have e : ipY mu nu j (fun y => g y ^ 2) (condY mu j fun _ => 1) = ipY mu nu j g g := by
    unfold ipY
    simp only [condY_one hj hc0 hc1 hr0 hr1, mul_one, pow_two]
  rw [← e, this]
  refine lintegral_mono fun x => ?_
  rw [one_mul, ← pow_two]
  exact mul_le_mul_right (wavg_sq (jx_meas hj x) (hr0 x) (hr1 x) hg) _

theorem full_sweep_le {g : Y → ℝ≥0∞} (hg : Measurable g) :
    ipY mu nu j (condY mu j (condX nu j g)) (condY mu j (condX nu j g)) ≤ ipY mu nu j g (condY mu j (condX nu j g)) := by
  have hb := condX_measurable (nu := nu) hj hg
  rw [sweep_ip hj hc0 hc1 hr0 hr1 hg hg]
  have := cond_adjoint hj hc0 hc1 hr0 hr1 (g := fun _ => 1) measurable_const (hb.pow_const 2)
  simp only [condX_one hj hc0 hc1 hr0 hr1, mul_one] at this
  simp only [← pow_two]
  rw [← this]
  unfold ipY
  refine lintegral_mono fun y => ?_
  rw [one_mul, ← pow_two]
  exact mul_le_mul_right (wavg_sq (jy_meas hj y) (hc0 y) (hc1 y) hb) _

/-- The transition density of the second block. -/
noncomputable def sweepDens (mu : Measure X) (nu : Measure Y) (j : X × Y → ℝ≥0∞) (y y' : Y) : ℝ≥0∞ :=
  condY mu j (fun x => j (x, y') / ∫⁻ y'', j (x, y'') ∂nu) y

omit hc0 hc1 hr0 hr1 in
theorem sweepDens_measurable : Measurable (Function.uncurry (sweepDens mu nu j)) := by
  refine Measurable.lintegral_prod_right (f := fun (p : Y × Y) x => j (x, p.1) / (∫⁻ x', j (x', p.1) ∂mu) *
    (j (x, p.2) / ∫⁻ y'', j (x, y'') ∂nu)) ?_
  refine Measurable.mul (Measurable.div ?_ ?_) (Measurable.div ?_ ?_)
  · exact hj.comp (measurable_snd.prodMk (measurable_fst.comp measurable_fst))
  · exact (gibbs_meas_c hj).comp (measurable_fst.comp measurable_fst)
  · exact hj.comp (measurable_snd.prodMk (measurable_snd.comp measurable_fst))
  · exact (gibbs_meas_r hj).comp measurable_snd

omit hc0 hc1 hr0 hr1 in
theorem sweepDens_eq {g : Y → ℝ≥0∞} (hg : Measurable g) (y : Y) :
    condY mu j (condX nu j g) y = ∫⁻ y', sweepDens mu nu j y y' * g y' ∂nu := by
  have hr := gibbs_meas_r (nu := nu) hj
  have e1 : ∀ y', sweepDens mu nu j y y' * g y' = ∫⁻ x, j (x, y) / (∫⁻ x', j (x', y) ∂mu) *
      (j (x, y') / ∫⁻ y'', j (x, y'') ∂nu) * g y' ∂mu := fun y' => by
    have hm : Measurable fun x => j (x, y) / (∫⁻ x', j (x', y) ∂mu) * (j (x, y') / ∫⁻ y'', j (x, y'') ∂nu) :=
      ((jy_meas hj y).div_const _).mul ((jy_meas hj y').div hr)
    rw [lintegral_mul_const _ hm]
    rfl
  simp only [e1]
  rw [lintegral_lintegral_swap]
  · refine lintegral_congr fun x => ?_
    have hm : Measurable fun y' => j (x, y') / (∫⁻ y'', j (x, y'') ∂nu) * g y' := ((jx_meas hj x).div_const _).mul hg
    simp only [mul_assoc]
    rw [lintegral_const_mul _ hm]
    rfl
  · refine Measurable.aemeasurable ?_
    refine Measurable.mul (Measurable.mul (Measurable.div ?_ measurable_const) (Measurable.div ?_ ?_)) ?_
    · exact (jy_meas hj y).comp measurable_snd
    · exact hj.comp measurable_swap
    · exact hr.comp measurable_snd
    · exact hg.comp measurable_fst

theorem sweepDens_one (y : Y) : ∫⁻ y', sweepDens mu nu j y y' ∂nu = 1 := by
  have := sweepDens_eq (mu := mu) (nu := nu) hj (g := fun _ => 1) measurable_const y
  rw [funext (condX_one hj hc0 hc1 hr0 hr1), condY_one hj hc0 hc1 hr0 hr1] at this
  simpa only [mul_one] using this.symm

theorem sweepDens_ne_zero (hpos : ∀ w, j w ≠ 0) (y y' : Y) : sweepDens mu nu j y y' ≠ 0 := by
  have hr := gibbs_meas_r (nu := nu) hj
  intro h
  have hm : Measurable fun x => j (x, y) / (∫⁻ x', j (x', y) ∂mu) * (j (x, y') / ∫⁻ y'', j (x, y'') ∂nu) :=
    ((jy_meas hj y).div_const _).mul ((jy_meas hj y').div hr)
  have h2 := (lintegral_eq_zero_iff hm).1 h
  refine hc0 y ((lintegral_eq_zero_iff (jy_meas hj y)).2 ?_)
  filter_upwards [h2] with x hx
  exact absurd hx (mul_ne_zero (ENNReal.div_ne_zero.2 ⟨hpos _, hc1 _⟩) (ENNReal.div_ne_zero.2 ⟨hpos _, hr1 _⟩))

/-! ## Iterates -/

section iter

variable {f : ℕ → Y → ℝ≥0∞} (hfm : ∀ n, Measurable (f n)) (hs : ∀ n, f (n + 1) = condY mu j (condX nu j (f n)))

include hfm hs

theorem iter_ip (n k : ℕ) : ipY mu nu j (f n) (f k) = ipY mu nu j (f (n + k)) (f 0) := by
  induction k generalizing n with
  | zero => rfl
  | succ k ih =>
    rw [hs k, sweep_symm hj hc0 hc1 hr0 hr1 (hfm n) (hfm k), ← hs n, ih, Nat.add_right_comm, Nat.add_assoc]

theorem iter_antitone : Antitone fun k => ipY mu nu j (f k) (f 0) := by
  refine antitone_nat_of_succ_le fun k => ?_
  rcases Nat.even_or_odd' k with ⟨n, rfl | rfl⟩
  · have h := half_sweep_le hj hc0 hc1 hr0 hr1 (hfm n)
    rw [← hs n, iter_ip hj hc0 hc1 hr0 hr1 hfm hs n, iter_ip hj hc0 hc1 hr0 hr1 hfm hs n, ← add_assoc, ← two_mul] at h
    exact h
  · have h := full_sweep_le hj hc0 hc1 hr0 hr1 (hfm n)
    rw [← hs n, iter_ip hj hc0 hc1 hr0 hr1 hfm hs (n + 1), iter_ip hj hc0 hc1 hr0 hr1 hfm hs n] at h
    have e1 : n + 1 + (n + 1) = 2 * n + 1 + 1 := by ring
    have e2 : n + (n + 1) = 2 * n + 1 := by ring
    rwa [e1, e2] at h

variable {M : ℝ≥0∞} (hM : M ≠ ∞) (hfM : ∀ n y, f n y ≤ M) (hZ : ∫⁻ y, ∫⁻ x, j (x, y) ∂mu ∂nu ≠ ∞)

include hM hfM hZ

/-- The iterates are a Cauchy sequence in mean square. -/
theorem iter_cauchy : Tendsto (fun s : ℕ × ℕ => ∫⁻ y, (∫⁻ x, j (x, y) ∂mu) * absd (f s.1 y) (f s.2 y) ^ 2 ∂nu) atTop
    (𝓝 0) := by
  have hanti := iter_antitone hj hc0 hc1 hr0 hr1 hfm hs
  have hip := iter_ip hj hc0 hc1 hr0 hr1 hfm hs
  have hc := gibbs_meas_c (mu := mu) hj
  obtain ⟨d, hd⟩ : ∃ d : ℕ → ℝ≥0∞, d = fun k => ipY mu nu j (f k) (f 0) := ⟨_, rfl⟩
  have hip' : ∀ n k, ipY mu nu j (f n) (f k) = d (n + k) := fun n k => by rw [hip, hd]
  rw [← hd] at hanti
  have hlim : Tendsto d atTop (𝓝 (⨅ k, d k)) := tendsto_atTop_iInf hanti
  have hL : (⨅ k, d k) ≠ ∞ := by
    refine ne_top_of_le_ne_top ?_ (iInf_le d 0)
    rw [hd]
    refine ne_top_of_le_ne_top (ENNReal.mul_ne_top hZ (ENNReal.mul_ne_top hM hM)) ?_
    rw [← lintegral_mul_const _ hc]
    exact lintegral_mono fun y => mul_le_mul_right (mul_le_mul' (hfM 0 y) (hfM 0 y)) _
  have hsq : ∀ n k, (∫⁻ y, (∫⁻ x, j (x, y) ∂mu) * absd (f n y) (f k y) ^ 2 ∂nu) + 2 * d (n + k) = d (n + n) + d (k + k) :=
    fun n k => by
      have hm : ∀ a b, Measurable fun y => (∫⁻ x, j (x, y) ∂mu) * (f a y * f b y) := fun a b =>
        hc.mul ((hfm a).mul (hfm b))
      rw [← hip', ← hip', ← hip']
      unfold ipY
      rw [← lintegral_const_mul _ (hm n k), ← lintegral_add_left (hm n n), ← lintegral_add_right _ ((hm n k).const_mul 2)]
      refine lintegral_congr fun y => ?_
      have := absd_sq (ne_top_of_le_ne_top hM (hfM n y)) (ne_top_of_le_ne_top hM (hfM k y))
      calc _ = (∫⁻ x, j (x, y) ∂mu) * (absd (f n y) (f k y) ^ 2 + 2 * (f n y * f k y)) := by ring
        _ = _ := by rw [this]; ring
  rw [ENNReal.tendsto_nhds_zero]
  intro ε hε
  have hε2 : (⨅ k, d k) < (⨅ k, d k) + ε / 2 := ENNReal.lt_add_right hL (ENNReal.half_pos hε.ne').ne'
  obtain ⟨N, hN⟩ := (hlim.eventually (gt_mem_nhds hε2)).exists
  filter_upwards [eventually_ge_atTop (N, N)] with s hs'
  have h1 := hanti (show N ≤ s.1 + s.1 from hs'.1.trans (Nat.le_add_left _ _))
  have h2 := hanti (show N ≤ s.2 + s.2 from hs'.2.trans (Nat.le_add_left _ _))
  have h3 : (⨅ k, d k) ≤ d (s.1 + s.2) := iInf_le d _
  have hL2 : 2 * (⨅ k, d k) ≠ ∞ := ENNReal.mul_ne_top (by simp) hL
  refine (ENNReal.add_le_add_iff_right hL2).1 ?_
  calc _ ≤ (∫⁻ y, (∫⁻ x, j (x, y) ∂mu) * absd (f s.1 y) (f s.2 y) ^ 2 ∂nu) + 2 * d (s.1 + s.2) := by gcongr
    _ = d (s.1 + s.1) + d (s.2 + s.2) := hsq _ _
    _ ≤ d N + d N := add_le_add h1 h2
    _ ≤ ((⨅ k, d k) + ε / 2) + ((⨅ k, d k) + ε / 2) := add_le_add hN.le hN.le
    _ = ε + 2 * (⨅ k, d k) := by
      rw [add_add_add_comm, ENNReal.add_halves, two_mul, add_comm]

omit hZ in
theorem iter_step (n : ℕ) (y : Y) : f (n + 1) y = ∫⁻ y', sweepDens mu nu j y y' * f n y' ∂nu := by
  rw [hs n]
  exact sweepDens_eq hj (hfm n) y

/-- The iterates converge at every point. -/
theorem iter_converges (y : Y) : ∃ l, Tendsto (fun n => f n y) atTop (𝓝 l) := by
  have hk1 := sweepDens_one hj hc0 hc1 hr0 hr1 y
  have hkm : Measurable (sweepDens mu nu j y) := (sweepDens_measurable hj).comp measurable_prodMk_left
  have hψ : ∀ s : ℕ × ℕ, Measurable fun y => absd (f s.1 y) (f s.2 y) := fun s =>
    ((hfm s.1).sub (hfm s.2)).add ((hfm s.2).sub (hfm s.1))
  have hcm := gibbs_meas_c (mu := mu) hj
  have h0 := kernel_tendsto (nu := nu) hkm (by rw [hk1]; exact one_ne_top) hcm hc0 hZ hM (l := atTop) hψ
    (fun s y => absd_le_max (hfM s.1 y) (hfM s.2 y)) (iter_cauchy hj hc0 hc1 hr0 hr1 hfm hs hM hfM hZ)
  have hle : ∀ n k, f (n + 1) y ≤ f (k + 1) y + ∫⁻ y', sweepDens mu nu j y y' * absd (f n y') (f k y') ∂nu := fun n k => by
    have hm : Measurable fun y' => sweepDens mu nu j y y' * f k y' := hkm.mul (hfm k)
    rw [iter_step hj hc0 hc1 hr0 hr1 hfm hs hM hfM, iter_step hj hc0 hc1 hr0 hr1 hfm hs hM hfM,
      ← lintegral_add_left hm]
    refine lintegral_mono fun y' => ?_
    rw [← mul_add]
    exact mul_le_mul_right (le_add_absd _ _) _
  have hfin : ∀ n, f n y ≠ ∞ := fun n => ne_top_of_le_ne_top hM (hfM n y)
  have hcau : CauchySeq fun n => (f (n + 1) y).toReal := by
    rw [cauchySeq_iff_tendsto_dist_atTop_0]
    have h0' := (ENNReal.tendsto_toReal ENNReal.zero_ne_top).comp h0
    refine squeeze_zero (fun _ => dist_nonneg) (fun s => ?_) h0'
    rw [dist_toReal (hfin _) (hfin _)]
    refine ENNReal.toReal_mono ?_ (absd_le (hle _ _) ?_)
    · refine ne_top_of_le_ne_top (b := M) hM ?_
      calc _ ≤ ∫⁻ y', sweepDens mu nu j y y' * M ∂nu :=
            lintegral_mono fun y' => mul_le_mul_right (absd_le_max (hfM _ y') (hfM _ y')) _
        _ = M := by rw [lintegral_mul_const _ hkm, hk1, one_mul]
    · simp only [absd_comm (f s.1 _)]
      exact hle _ _
  obtain ⟨l, hl⟩ := cauchySeq_tendsto_of_complete hcau
  refine ⟨ENNReal.ofReal l, (tendsto_add_atTop_iff_nat 1).1 ?_⟩
  have := ENNReal.tendsto_ofReal hl
  simp only [ENNReal.ofReal_toReal (hfin _)] at this
  exact this

/-- The iterates converge to the mean, at every point. -/
theorem iter_limit (hpos : ∀ w, j w ≠ 0) (y : Y) : Tendsto (fun n => f n y) atTop
    (𝓝 ((∫⁻ y, (∫⁻ x, j (x, y) ∂mu) * f 0 y ∂nu) / ∫⁻ y, ∫⁻ x, j (x, y) ∂mu ∂nu)) := by
  choose g hg using iter_converges hj hc0 hc1 hr0 hr1 hfm hs hM hfM hZ
  have hcm := gibbs_meas_c (mu := mu) hj
  have hgm : Measurable g := measurable_of_tendsto_metrizable hfm (tendsto_pi_nhds.2 hg)
  have hgM : ∀ y, g y ≤ M := fun y => le_of_tendsto' (hg y) fun n => hfM n y
  have hk1 := sweepDens_one hj hc0 hc1 hr0 hr1
  have hkm : ∀ y, Measurable (sweepDens mu nu j y) := fun y => (sweepDens_measurable hj).comp measurable_prodMk_left
  have hfix : ∀ y, g y = ∫⁻ y', sweepDens mu nu j y y' * g y' ∂nu := fun y => by
    refine tendsto_nhds_unique ((tendsto_add_atTop_iff_nat 1).2 (hg y)) ?_
    simp only [iter_step hj hc0 hc1 hr0 hr1 hfm hs hM hfM]
    refine tendsto_lintegral_of_dominated_convergence (fun y' => sweepDens mu nu j y y' * M)
      (fun n => (hkm y).mul (hfm n)) (fun n => ae_of_all _ fun y' => mul_le_mul_right (hfM n y') _) ?_ ?_
    · rw [lintegral_mul_const _ (hkm y), hk1, one_mul]
      exact hM
    · have hfin := ae_lt_top (hkm y) (by rw [hk1]; exact one_ne_top)
      filter_upwards [hfin] with y' hy'
      exact ENNReal.Tendsto.const_mul (hg y') (Or.inr hy'.ne)
  have hZ0 : ∫⁻ y, ∫⁻ x, j (x, y) ∂mu ∂nu ≠ 0 := fun h => by
    have hae := (lintegral_eq_zero_iff hcm).1 h
    have hk := hk1 y
    have : ∫⁻ y', sweepDens mu nu j y y' ∂nu = 0 := by
      rw [lintegral_eq_zero_iff (hkm y)]
      filter_upwards [hae] with y' hy'
      exact absurd hy' (hc0 y')
    rw [this] at hk
    exact zero_ne_one hk
  -- the mean is preserved
  have hmean : ∫⁻ y, (∫⁻ x, j (x, y) ∂mu) * g y ∂nu = ∫⁻ y, (∫⁻ x, j (x, y) ∂mu) * f 0 y ∂nu := by
    have h1 : ∀ n, ∫⁻ y, (∫⁻ x, j (x, y) ∂mu) * f n y ∂nu = ∫⁻ y, (∫⁻ x, j (x, y) ∂mu) * f 0 y ∂nu := fun n => by
      induction n with
      | zero => rfl
      | succ n ih =>
        rw [← ih]
        have := sweep_symm hj hc0 hc1 hr0 hr1 (g := fun _ => 1) measurable_const (hfm n)
        rw [← hs n] at this
        have e1 : condX nu j (fun _ => 1) = fun _ => 1 := funext (condX_one hj hc0 hc1 hr0 hr1)
        have e2 : condY mu j (fun _ => 1) = fun _ => 1 := funext (condY_one hj hc0 hc1 hr0 hr1)
        rw [e1, e2] at this
        simpa only [ipY, one_mul] using this
    refine tendsto_nhds_unique ?_ (tendsto_const_nhds (f := (atTop : Filter ℕ)))
    rw [show (fun _ : ℕ => ∫⁻ y, (∫⁻ x, j (x, y) ∂mu) * f 0 y ∂nu) = fun n => ∫⁻ y, (∫⁻ x, j (x, y) ∂mu) * f n y ∂nu from
      funext fun n => (h1 n).symm]
    refine tendsto_lintegral_of_dominated_convergence (fun y' => (∫⁻ x, j (x, y') ∂mu) * M)
      (fun n => hcm.mul (hfm n)) (fun n => ae_of_all _ fun y' => mul_le_mul_right (hfM n y') _) ?_ ?_
    · rw [lintegral_mul_const _ hcm]
      exact ENNReal.mul_ne_top hZ hM
    · exact ae_of_all _ fun y' => ENNReal.Tendsto.const_mul (hg y') (Or.inr (hc1 y'))
  obtain ⟨Z, hZd⟩ : ∃ Z, Z = ∫⁻ y, ∫⁻ x, j (x, y) ∂mu ∂nu := ⟨_, rfl⟩
  obtain ⟨I, hId⟩ : ∃ I, I = ∫⁻ y, (∫⁻ x, j (x, y) ∂mu) * f 0 y ∂nu := ⟨_, rfl⟩
  rw [← hZd] at hZ hZ0 ⊢
  rw [← hId] at hmean ⊢
  have hI : I ≠ ∞ := by
    rw [← hmean]
    refine ne_top_of_le_ne_top (ENNReal.mul_ne_top hZ hM) ?_
    rw [hZd, ← lintegral_mul_const _ hcm]
    exact lintegral_mono fun y => mul_le_mul_right (hgM y) _
  -- the limit is constant
  have hconst : ∀ᵐ y ∂nu, g y = I / Z := by
    by_cases hI0 : I = 0
    · rw [hI0] at hmean ⊢
      have := (lintegral_eq_zero_iff (hcm.mul hgm)).1 hmean
      filter_upwards [this] with y hy
      rcases mul_eq_zero.1 hy with h | h
      · exact absurd h (hc0 y)
      · rw [h, ENNReal.zero_div]
    · have hind : ∀ A : Set Y, ∀ (p : Y → ℝ≥0∞), MeasurableSet A → ∫⁻ y in A, p y ∂nu = ∫⁻ y, p y * A.indicator 1 y ∂nu :=
        fun A p hA => by
          rw [← lintegral_indicator hA]
          refine lintegral_congr fun y => ?_
          by_cases h : y ∈ A
          · rw [Set.indicator_of_mem h, Set.indicator_of_mem h, Pi.one_apply, mul_one]
          · rw [Set.indicator_of_notMem h, Set.indicator_of_notMem h, mul_zero]
      have hinv : ∀ (h : Y → ℝ≥0∞), Measurable h → (∀ y, h y = ∫⁻ y', sweepDens mu nu j y y' * h y' ∂nu) →
          ∀ A, MeasurableSet A → ∫⁻ y, (∫⁻ x, j (x, y) ∂mu) * h y * ∫⁻ y' in A, sweepDens mu nu j y y' ∂nu ∂nu =
            ∫⁻ y in A, (∫⁻ x, j (x, y) ∂mu) * h y ∂nu := fun h hh hfix A hA => by
        have hA1 : Measurable (A.indicator (1 : Y → ℝ≥0∞)) := measurable_one.indicator hA
        have := sweep_symm hj hc0 hc1 hr0 hr1 hh hA1
        have e1 : condY mu j (condX nu j h) = h := funext fun y => by
          rw [sweepDens_eq hj hh, ← hfix]
        rw [e1] at this
        unfold ipY at this
        simp only [sweepDens_eq hj hA1, ← mul_assoc] at this
        rw [hind A _ hA, ← this]
        exact lintegral_congr fun y => by rw [hind A _ hA]
      have hrho : IsProbabilityMeasure (nu.withDensity fun y => (∫⁻ x, j (x, y) ∂mu) * g y / I) := ⟨by
        rw [withDensity_apply _ MeasurableSet.univ, Measure.restrict_univ]
        simp only [div_eq_mul_inv]
        have hm : Measurable fun y => (∫⁻ x, j (x, y) ∂mu) * g y := hcm.mul hgm
        rw [lintegral_mul_const _ hm, hmean, ENNReal.mul_inv_cancel hI0 hI]⟩
      have hunif := invariant_unique (lam := nu) (k := sweepDens mu nu j) (sweepDens_measurable hj)
        (sweepDens_ne_zero hj hc0 hc1 hr0 hr1 hpos) hk1 (q := fun y => (∫⁻ x, j (x, y) ∂mu) / Z) (hcm.div_const _) ?_ ?_
        (rho := nu.withDensity fun y => (∫⁻ x, j (x, y) ∂mu) * g y / I) ?_
      · have hae := (withDensity_eq_iff ?_ ?_ ?_).1 hunif
        · filter_upwards [hae] with y hy
          have hc := hc0 y
          have hc' := hc1 y
          rw [mul_div_assoc, div_eq_mul_inv _ Z] at hy
          have := (ENNReal.mul_right_inj hc hc').1 hy
          rw [← ENNReal.div_mul_cancel (b := g y) hI0 hI, this, div_eq_mul_inv, mul_comm]
        · exact (((hcm.mul hgm).div_const _)).aemeasurable
        · exact (hcm.div_const _).aemeasurable
        · have := hrho.measure_univ
          rw [withDensity_apply _ MeasurableSet.univ, Measure.restrict_univ] at this
          rw [this]
          exact one_ne_top
      · simp only [div_eq_mul_inv]
        rw [lintegral_mul_const _ hcm, ← hZd, ENNReal.mul_inv_cancel hZ0 hZ]
      · intro A hA
        have h1 := hinv (fun _ => 1) measurable_const (fun y => by simp only [mul_one, hk1]) A hA
        simp only [mul_one] at h1
        have hm : Measurable fun y => (∫⁻ x, j (x, y) ∂mu) * ∫⁻ y' in A, sweepDens mu nu j y y' ∂nu :=
          hcm.mul (Measurable.lintegral_prod_right (sweepDens_measurable hj))
        simp only [div_eq_mul_inv]
        rw [lintegral_mul_const _ hcm, ← h1, ← lintegral_mul_const _ hm]
        exact lintegral_congr fun y => mul_right_comm _ _ _
      · intro A hA
        have h1 := hinv g hgm hfix A hA
        have hm : Measurable fun y => (∫⁻ x, j (x, y) ∂mu) * g y * ∫⁻ y' in A, sweepDens mu nu j y y' ∂nu :=
          (hcm.mul hgm).mul (Measurable.lintegral_prod_right (sweepDens_measurable hj))
        have hm2 : Measurable fun y => (∫⁻ x, j (x, y) ∂mu) * g y := hcm.mul hgm
        have hm3 : Measurable fun y => (∫⁻ x, j (x, y) ∂mu) * g y / I := hm2.div_const _
        rw [withDensity_apply _ hA, lintegral_withDensity_eq_lintegral_mul _ hm3
          (Measurable.lintegral_prod_right (sweepDens_measurable hj))]
        simp only [Pi.mul_apply, div_eq_mul_inv]
        rw [lintegral_mul_const _ hm2, ← h1, ← lintegral_mul_const _ hm]
        exact lintegral_congr fun y => mul_right_comm _ _ _
  have : g y = I / Z := by
    rw [hfix y, lintegral_congr_ae (g := fun y' => sweepDens mu nu j y y' * (I / Z))]
    · rw [lintegral_mul_const _ (hkm y), hk1, one_mul]
    · filter_upwards [hconst] with y' hy'
      rw [hy']
  rw [← this]
  exact hg y

end iter

/-- Iterated Gibbs sweeps take every bounded function to its mean, at every point. -/
theorem gibbsOp_limit (hpos : ∀ w, j w ≠ 0) (hZ : ∫⁻ w, j w ∂(mu.prod nu) ≠ ∞) {F : ℕ → X × Y → ℝ≥0∞}
    (hF0 : Measurable (F 0)) (hsucc : ∀ k, F (k + 1) = gibbsOp mu nu j (F k)) {M : ℝ≥0∞} (hM : M ≠ ∞) (hFM : ∀ x, F 0 x ≤ M)
    (w : X × Y) : Tendsto (fun k => F k w) atTop
      (𝓝 ((∫⁻ w', j w' * F 0 w' ∂(mu.prod nu)) / ∫⁻ w', j w' ∂(mu.prod nu))) := by
  have hFm : ∀ k, Measurable (F k) := fun k => by
    induction k with
    | zero => exact hF0
    | succ k ih =>
      rw [hsucc]
      exact gibbsOp_measurable hj ih
  have hFM' : ∀ k x, F k x ≤ M := fun k => by
    induction k with
    | zero => exact hFM
    | succ k ih =>
      intro x
      rw [hsucc, gibbsOp_eq hj (hFm k)]
      have h1 := gibbsOp_one hj hc0 hc1 hr0 hr1 x
      rw [gibbsOp_eq hj measurable_const] at h1
      simp only [mul_one] at h1
      have hm : Measurable (gibbsDens mu nu j x) := (gibbsDens_measurable hj).comp measurable_prodMk_left
      calc _ ≤ ∫⁻ w', gibbsDens mu nu j x w' * M ∂(mu.prod nu) := lintegral_mono fun w' => mul_le_mul_right (ih w') _
        _ = M := by rw [lintegral_mul_const _ hm, h1, one_mul]
  have hdep : ∀ k w', F (k + 1) w' = F (k + 1) (w.1, w'.2) := fun k w' => by
    rw [hsucc]
    rfl
  have hjm : ∫⁻ w', j w' ∂(mu.prod nu) = ∫⁻ y, ∫⁻ x, j (x, y) ∂mu ∂nu := by
    rw [lintegral_prod_symm _ hj.aemeasurable]
  have hinv := gibbsOp_invariant hj hc0 hc1 hr0 hr1 hF0
  rw [← hsucc] at hinv
  have hmean : ∫⁻ y, (∫⁻ x, j (x, y) ∂mu) * F 1 (w.1, y) ∂nu = ∫⁻ w', j w' * F 0 w' ∂(mu.prod nu) := by
    have hm : Measurable fun w' => j w' * F 1 w' := hj.mul (hFm 1)
    rw [← hinv, lintegral_prod_symm _ hm.aemeasurable]
    refine lintegral_congr fun y => ?_
    rw [← lintegral_mul_const _ (jy_meas hj y)]
    refine lintegral_congr fun u => ?_
    rw [hdep 0 (u, y)]
  have key := iter_limit hj hc0 hc1 hr0 hr1 (f := fun k y => F (k + 1) (w.1, y))
    (fun k => (hFm _).comp measurable_prodMk_left)
    (fun k => funext fun y => by
      rw [hsucc (k + 1)]
      unfold gibbsOp
      simp only [hdep k (_, _)]
      rfl) hM (fun k y => hFM' _ _) (by rw [← hjm]; exact hZ) hpos w.2
  rw [hjm, ← hmean]
  exact (tendsto_add_atTop_iff_nat 1).1 key

end conv

end Gpcm
