import Verif.Lemmas.GibbsMoments
import Verif.Lemmas.Doeblin

/-!
# The Gibbs sampler forgets its start at a geometric rate

One sweep leads into a fixed compact set with probability at least one half, whatever the state before; and from there, the
density of the next state is bounded from below on that set. Hence, some measure lies below the distribution after two
sweeps for every starting point.
-/

set_option linter.unusedSectionVars false

open Matrix Real MeasureTheory ProbabilityTheory ENNReal Filter Topology

namespace Gpcm

open Markov

variable {ι κ : Type} [Fintype ι] [DecidableEq ι] [Fintype κ] [DecidableEq κ]
variable {m : Inst ι κ}

theorem logPrior_le {n : Type} [Fintype n] [DecidableEq n] {K : Matrix n n ℝ} (hK : K.PosDef) (x : n → ℝ) :
    logPrior K x ≤ (log K.det - Fintype.card n * log (2 * π)) / 2 := by
  unfold logPrior
  have := hK.posSemidef.dotProduct_mulVec_nonneg x
  rw [star_trivial] at this
  linarith

theorem lintegral_logPrior {n : Type} [Fintype n] [DecidableEq n] {K : Matrix n n ℝ} (hK : K.PosDef) :
    ∫⁻ x : n → ℝ, ENNReal.ofReal (exp (logPrior K x)) = 1 := by
  obtain ⟨D⟩ := cholOracle_nonempty (n := n)
  simp only [logPrior_eq D hK]
  exact lexpect_one D (d := ⟨0, K⟩) hK

theorem joint_le (h : m.Valid) (d : List (ℝ × ℝ)) (u : ι → ℝ) (z : κ → ℝ) :
    joint m d (u, z) ≤ ENNReal.ofReal (exp (logPrior m.Ku u)) * (ENNReal.ofReal (exp (logPrior m.Kz z)) *
      ENNReal.ofReal (exp (d.length * (-(1 / 2) * log (2 * π * m.noise))))) := by
  rw [joint, ← ENNReal.ofReal_mul (exp_pos _).le, ← ENNReal.ofReal_mul (exp_pos _).le, ← exp_add, ← exp_add, logJoint]
  refine ENNReal.ofReal_le_ofReal (exp_le_exp.2 ?_)
  have := expLogLik_le h d (u := u) (u2 := vecMulVec u u) (z := z) (z2 := vecMulVec z z)
    (by rw [sub_self]; exact Matrix.PosSemidef.zero) (by rw [sub_self]; exact Matrix.PosSemidef.zero)
  simp only
  linarith

/-- The marginal densities are bounded. -/
theorem marg_le (h : m.Valid) (d : List (ℝ × ℝ)) : ∃ c : ℝ, (∀ z, ∫⁻ u, joint m d (u, z) ≤ ENNReal.ofReal (exp c)) ∧
    ∀ u, ∫⁻ z, joint m d (u, z) ≤ ENNReal.ofReal (exp c) := by
  obtain ⟨L, hL⟩ : ∃ L, L = d.length * (-(1 / 2) * log (2 * π * m.noise)) := ⟨_, rfl⟩
  obtain ⟨a, ha⟩ : ∃ a, a = (log m.Ku.det - Fintype.card ι * log (2 * π)) / 2 := ⟨_, rfl⟩
  obtain ⟨b, hb⟩ : ∃ b, b = (log m.Kz.det - Fintype.card κ * log (2 * π)) / 2 := ⟨_, rfl⟩
  refine ⟨max a b + L, fun z => ?_, fun u => ?_⟩
  · calc _ ≤ ∫⁻ u, ENNReal.ofReal (exp (logPrior m.Ku u)) * (ENNReal.ofReal (exp (logPrior m.Kz z)) * ENNReal.ofReal (exp L)) :=
          lintegral_mono fun u => by rw [hL]; exact joint_le h d u z
      _ = ENNReal.ofReal (exp (logPrior m.Kz z)) * ENNReal.ofReal (exp L) := by
          rw [lintegral_mul_const' _ _ (ENNReal.mul_ne_top ENNReal.ofReal_ne_top ENNReal.ofReal_ne_top),
            lintegral_logPrior h.Ku, one_mul]
      _ ≤ _ := by
          rw [← ENNReal.ofReal_mul (exp_pos _).le, ← exp_add]
          refine ENNReal.ofReal_le_ofReal (exp_le_exp.2 ?_)
          have := logPrior_le h.Kz z
          linarith [le_max_right a b]
  · calc _ ≤ ∫⁻ z, ENNReal.ofReal (exp (logPrior m.Ku u)) * (ENNReal.ofReal (exp (logPrior m.Kz z)) * ENNReal.ofReal (exp L)) :=
          lintegral_mono fun z => by rw [hL]; exact joint_le h d u z
      _ = ENNReal.ofReal (exp (logPrior m.Ku u)) * ENNReal.ofReal (exp L) := by
          rw [lintegral_const_mul' _ _ ENNReal.ofReal_ne_top, lintegral_mul_const' _ _ ENNReal.ofReal_ne_top,
            lintegral_logPrior h.Kz, one_mul]
      _ ≤ _ := by
          rw [← ENNReal.ofReal_mul (exp_pos _).le, ← exp_add]
          refine ENNReal.ofReal_le_ofReal (exp_le_exp.2 ?_)
          have := logPrior_le h.Ku u
          linarith [le_max_left a b]

theorem abs_coord_le {n : Type} [Fintype n] (x : n → ℝ) {R : ℝ} (hR : x ⬝ᵥ x ≤ R) (i : n) : ‖x i‖ ≤ R + 1 := by
  have h1 : x i * x i ≤ x ⬝ᵥ x := Finset.single_le_sum (f := fun i => x i * x i) (fun j _ => mul_self_nonneg _) (Finset.mem_univ i)
  rw [Real.norm_eq_abs]
  have h2 := abs_mul_abs_self (x i)
  nlinarith [abs_nonneg (x i), sq_nonneg (|x i| - 1)]

/-- The states of at most a given size form a compact set. -/
theorem isCompact_growth (h : m.Valid) (t : ℝ) : IsCompact {x | growth m x ≤ t} := by
  have hc : Continuous (growth m) := by
    unfold growth
    fun_prop
  obtain ⟨a, ha, hau⟩ := sq_le_quad h.Ku
  obtain ⟨b, hb, hbz⟩ := sq_le_quad h.Kz
  refine Metric.isCompact_of_isClosed_isBounded (isClosed_le hc continuous_const) ?_
  obtain ⟨R, hR⟩ : ∃ R, R = (a + b) * (8 * |log t|) := ⟨_, rfl⟩
  have hR0 : 0 ≤ R := by rw [hR]; positivity
  refine (Metric.isBounded_closedBall (x := (0 : (ι → ℝ) × (κ → ℝ))) (r := R + 1)).subset fun x hx => ?_
  have h1 := h.Ku.posSemidef.dotProduct_mulVec_nonneg x.1
  have h2 := h.Kz.posSemidef.dotProduct_mulVec_nonneg x.2
  rw [star_trivial] at h1 h2
  have ht : 0 < t := (exp_pos _).trans_le hx
  have h3 : 1 / 8 * (x.1 ⬝ᵥ (m.Ku *ᵥ x.1)) + 1 / 8 * (x.2 ⬝ᵥ (m.Kz *ᵥ x.2)) ≤ |log t| :=
    ((le_log_iff_exp_le ht).2 hx).trans (le_abs_self _)
  have h4 : x.1 ⬝ᵥ x.1 ≤ R := (hau x.1).trans (by
    rw [hR]
    nlinarith [mul_nonneg hb.le (abs_nonneg (log t))])
  have h5 : x.2 ⬝ᵥ x.2 ≤ R := (hbz x.2).trans (by
    rw [hR]
    nlinarith [mul_nonneg ha.le (abs_nonneg (log t))])
  rw [mem_closedBall_zero_iff, Prod.norm_def]
  exact max_le ((pi_norm_le_iff_of_nonneg (by linarith)).2 (abs_coord_le x.1 h4))
    ((pi_norm_le_iff_of_nonneg (by linarith)).2 (abs_coord_le x.2 h5))

/-- Whatever the state before, a sweep leads into a fixed compact set with probability at least one half. -/
theorem gibbs_returns (h : m.Valid) (d : List (ℝ × ℝ)) : ∃ K : Set ((ι → ℝ) × (κ → ℝ)), IsCompact K ∧ MeasurableSet K ∧
    ∀ x, 2⁻¹ ≤ gibbsKernel h d x K := by
  obtain ⟨G, hG⟩ : ∃ G, G = (growthBound m d).toReal := ⟨_, rfl⟩
  have hG0 : 0 ≤ G := by rw [hG]; exact ENNReal.toReal_nonneg
  have hm : Measurable fun y => ENNReal.ofReal (growth m y) := growth_measurable.ennreal_ofReal
  have hK : MeasurableSet {x | growth m x ≤ 2 * G + 1} := measurableSet_le growth_measurable measurable_const
  refine ⟨{x | growth m x ≤ 2 * G + 1}, isCompact_growth h _, hK, fun x => ?_⟩
  have h1 := (mul_meas_ge_le_lintegral (μ := gibbsKernel h d x) hm (ENNReal.ofReal (2 * G + 1))).trans (growth_kernel h d x)
  have h2 : gibbsKernel h d x {x | growth m x ≤ 2 * G + 1}ᶜ ≤ gibbsKernel h d x
      {x | ENNReal.ofReal (2 * G + 1) ≤ ENNReal.ofReal (growth m x)} :=
    measure_mono fun y hy => ENNReal.ofReal_le_ofReal (lt_of_not_ge (show ¬growth m y ≤ 2 * G + 1 from hy)).le
  have h3 : ENNReal.ofReal (2 * G + 1) * gibbsKernel h d x {x | growth m x ≤ 2 * G + 1}ᶜ ≤ ENNReal.ofReal G := by
    rw [hG, ENNReal.ofReal_toReal (growthBound_finite d), ← hG]
    exact (mul_le_mul_right h2 _).trans h1
  have h4 : (2 * G + 1) * (gibbsKernel h d x).real {x | growth m x ≤ 2 * G + 1}ᶜ ≤ G := by
    rw [← ENNReal.ofReal_le_ofReal_iff hG0, ENNReal.ofReal_mul (by linarith)]
    simpa only [Measure.real, ENNReal.ofReal_toReal (measure_ne_top _ _)] using h3
  rw [probReal_compl_eq_one_sub hK] at h4
  have h5 : 2⁻¹ ≤ (gibbsKernel h d x).real {x | growth m x ≤ 2 * G + 1} := by
    have : (0 : ℝ) ≤ (gibbsKernel h d x).real {x | growth m x ≤ 2 * G + 1} := measureReal_nonneg
    by_contra hc
    push Not at hc
    nlinarith
  have h6 := ENNReal.ofReal_le_ofReal h5
  rw [Measure.real, ENNReal.ofReal_toReal (measure_ne_top _ _)] at h6
  refine le_trans (le_of_eq ?_) h6
  rw [ENNReal.ofReal_inv_of_pos two_pos, ENNReal.ofReal_ofNat]

theorem gibbsKernel_apply (h : m.Valid) (d : List (ℝ × ℝ)) (x : (ι → ℝ) × (κ → ℝ)) :
    gibbsKernel h d x = (volume.prod volume).withDensity (gibbsDens volume volume (joint m d) x) := rfl

/-- The density of the next state is bounded from below on compact sets. -/
theorem gibbsDens_ge (h : m.Valid) (d : List (ℝ × ℝ)) {K : Set ((ι → ℝ) × (κ → ℝ))} (hK : IsCompact K) :
    ∃ c : ℝ, ∀ x ∈ K, ∀ y ∈ K, ENNReal.ofReal (exp c) ≤ gibbsDens volume volume (joint m d) x y := by
  obtain ⟨b, hb1, hb2⟩ := marg_le h d
  have hc : Continuous fun w : ((ι → ℝ) × (κ → ℝ)) × ((ι → ℝ) × (κ → ℝ)) =>
      logJoint m d w.2.1 w.1.2 + logJoint m d w.2.1 w.2.2 := by
    have hj := continuous_logJoint h d
    have h1 := hj.comp (((continuous_fst.comp continuous_snd).prodMk (continuous_snd.comp continuous_fst)) :
      Continuous fun w : ((ι → ℝ) × (κ → ℝ)) × ((ι → ℝ) × (κ → ℝ)) => (w.2.1, w.1.2))
    exact h1.add (hj.comp continuous_snd)
  obtain ⟨c, hc'⟩ := (hK.prod hK).bddBelow_image hc.continuousOn
  refine ⟨c - b - b, fun x hx y hy => ?_⟩
  have h1 : c ≤ logJoint m d y.1 x.2 + logJoint m d y.1 y.2 := hc' ⟨(x, y), ⟨hx, hy⟩, rfl⟩
  have e : ∀ a : ℝ, ENNReal.ofReal (exp a) / ENNReal.ofReal (exp b) = ENNReal.ofReal (exp (a - b)) := fun a => by
    rw [exp_sub, ENNReal.ofReal_div_of_pos (exp_pos _)]
  calc _ ≤ ENNReal.ofReal (exp (logJoint m d y.1 x.2 - b)) * ENNReal.ofReal (exp (logJoint m d y.1 y.2 - b)) := by
        rw [← ENNReal.ofReal_mul (exp_pos _).le, ← exp_add]
        exact ENNReal.ofReal_le_ofReal (exp_le_exp.2 (by linarith))
    _ = joint m d (y.1, x.2) / ENNReal.ofReal (exp b) * (joint m d y / ENNReal.ofReal (exp b)) := by
        rw [← e, ← e]
        rfl
    _ ≤ _ := mul_le_mul' (ENNReal.div_le_div_left (hb1 _) _) (ENNReal.div_le_div_left (hb2 _) _)

/-- Some measure lies below the distribution after two sweeps for every starting point. -/
theorem gibbs_minor (h : m.Valid) (d : List (ℝ × ℝ)) : ∃ nu : Measure ((ι → ℝ) × (κ → ℝ)), IsFiniteMeasure nu ∧
    nu.real Set.univ ≠ 0 ∧ ∀ x, nu ≤ pw (gibbsKernel h d) 2 x := by
  obtain ⟨K, hKc, hKm, hK⟩ := gibbs_returns h d
  obtain ⟨c, hc⟩ := gibbsDens_ge h d hKc
  obtain ⟨δ, hδ⟩ : ∃ δ, δ = ENNReal.ofReal (exp c) := ⟨_, rfl⟩
  rw [← hδ] at hc
  have hδ0 : δ ≠ 0 := by rw [hδ]; exact ofReal_exp_ne_zero c
  have hδ1 : δ ≠ ∞ := by rw [hδ]; exact ENNReal.ofReal_ne_top
  obtain ⟨V, hV⟩ : ∃ V : Measure ((ι → ℝ) × (κ → ℝ)), V = volume.prod volume := ⟨_, rfl⟩
  have hV1 : V K ≠ ∞ := by
    rw [hV, ← Measure.volume_eq_prod]
    exact hKc.measure_lt_top.ne
  have hV0 : V K ≠ 0 := fun h0 => by
    have := withDensity_absolutelyContinuous V (gibbsDens volume volume (joint m d) 0) h0
    rw [hV, ← gibbsKernel_apply h d] at this
    have h1 := hK 0
    rw [this] at h1
    simp at h1
  have he : (2⁻¹ * δ * V K) ≠ ∞ := ENNReal.mul_ne_top (ENNReal.mul_ne_top (by simp) hδ1) hV1
  have eu : ((2⁻¹ * δ) • V.restrict K) Set.univ = 2⁻¹ * δ * V K := by
    rw [Measure.smul_apply, Measure.restrict_apply_univ, smul_eq_mul]
  refine ⟨(2⁻¹ * δ) • V.restrict K, ⟨by rw [eu]; exact lt_top_iff_ne_top.2 he⟩, ?_, fun x => ?_⟩
  · rw [Measure.real, eu, Ne, ENNReal.toReal_eq_zero_iff, not_or]
    exact ⟨mul_ne_zero (mul_ne_zero (by simp) hδ0) hV0, he⟩
  · refine Measure.le_iff.2 fun A hA => ?_
    have hi : Measurable (A.indicator (1 : (ι → ℝ) × (κ → ℝ) → ℝ≥0∞)) := measurable_one.indicator hA
    have h1 : ∀ y ∈ K, δ * V (A ∩ K) ≤ gibbsKernel h d y A := fun y hy => by
      rw [gibbsKernel_apply, ← hV, withDensity_apply _ hA]
      calc δ * V (A ∩ K) = ∫⁻ _ in A ∩ K, δ ∂V := by rw [setLIntegral_const]
        _ ≤ ∫⁻ w in A ∩ K, gibbsDens volume volume (joint m d) y w ∂V := setLIntegral_mono' (hA.inter hKm) fun w hw => hc y hy w hw.2
        _ ≤ _ := lintegral_mono_set Set.inter_subset_left
    have h2 : pw (gibbsKernel h d) 2 x A = ∫⁻ y, gibbsKernel h d y A ∂gibbsKernel h d x := by
      rw [← lintegral_indicator_one hA, lintegral_pw_succ _ 1 x hi]
      refine lintegral_congr fun y => ?_
      rw [lintegral_pw_succ _ 0 y hi, ← lintegral_indicator_one hA]
      exact lintegral_congr fun w => lintegral_pw_zero _ w hi
    rw [h2, Measure.smul_apply, Measure.restrict_apply hA, smul_eq_mul]
    calc 2⁻¹ * δ * V (A ∩ K) ≤ gibbsKernel h d x K * (δ * V (A ∩ K)) := by
          rw [mul_assoc]
          exact mul_le_mul_left (hK x) _
      _ = ∫⁻ _ in K, δ * V (A ∩ K) ∂gibbsKernel h d x := by rw [setLIntegral_const, mul_comm]
      _ ≤ ∫⁻ y in K, gibbsKernel h d y A ∂gibbsKernel h d x := setLIntegral_mono' hKm h1
      _ ≤ _ := setLIntegral_le_lintegral _ _

end Gpcm
