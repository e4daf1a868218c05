import Verif.Lemmas.GramLemmas
import Verif.Props.RGPCMGramProps

/-! # Helper lemmas: the RGPCM's integrals as inner products of square-integrable functions -/

open MeasureTheory Matrix Real Set

namespace Gpcm.Rgpcm

open Spec.R

variable (p : Params)

/-- The parameters for which smoothed white noise is the noise of the model. -/
noncomputable def ouP : Params := { p with gamma := p.lam, gammaT := √(2 * p.lam) }

/-- The factor of the noise at time `τ`. -/
noncomputable def factX (τ r : ℝ) : ℝ := smooth (ouP p) τ r

/-- The factor of an inducing variable of the noise. -/
noncomputable def factZ (m : ℕ) (r : ℝ) : ℝ :=
  (Iic p.a).indicator (fun r => wave p m p.a * factX p p.a r) r +
    (Ioc p.a p.b).indicator (fun r => (p.lam * wave p m r + deriv (wave p m) r) / √(2 * p.lam)) r

/-- The factor of the signal at time `t`. -/
noncomputable def factS (t s r : ℝ) : ℝ := win p s * factX p (t - s) r

variable {p}

theorem measurable_smooth : Measurable fun q : ℝ × ℝ => smooth p q.1 q.2 := by
  unfold smooth
  refine Measurable.ite (measurableSet_le measurable_snd measurable_fst) ?_ measurable_const
  have : Continuous fun q : ℝ × ℝ => p.gammaT * exp (-(p.gamma * (q.1 - q.2))) := by fun_prop
  exact this.measurable

theorem memLp_smooth (h : 0 < p.gamma) (u : ℝ) : MemLp (smooth p u) 2 := by
  have hm : Measurable (smooth p u) := measurable_smooth.comp (measurable_const.prodMk measurable_id)
  rw [memLp_two_iff_integrable_sq hm.aestronglyMeasurable]
  simpa only [sq] using smooth_integrable h u u

theorem memLp_factX (h : 0 < p.lam) (τ : ℝ) : MemLp (factX p τ) 2 := memLp_smooth (p := ouP p) h τ

theorem integral_factX (h : 0 < p.lam) (τ τ' : ℝ) : ∫ r, factX p τ r * factX p τ' r = kx p τ τ' := by
  unfold factX
  simp_rw [smooth_mul]
  rw [integral_indicator measurableSet_Iic, integral_const_mul,
    integral_exp_mul_Iic (show 0 < 2 * (ouP p).gamma from by show 0 < 2 * p.lam; linarith)]
  show √(2 * p.lam) ^ 2 * exp (-(p.lam * (τ + τ'))) * (exp (2 * p.lam * min τ τ') / (2 * p.lam)) = kx p τ τ'
  rw [sq_sqrt (by linarith), kx]
  have : -(p.lam * |τ - τ'|) = -(p.lam * (τ + τ')) + 2 * p.lam * min τ τ' := by
    rcases le_total τ τ' with h | h
    · rw [abs_of_nonpos (by linarith), min_eq_left h]; ring
    · rw [abs_of_nonneg (by linarith), min_eq_right h]; ring
  rw [this, exp_add]
  field_simp

theorem factX_abs_le (h : 0 < p.lam) (τ r : ℝ) : |factX p τ r| ≤ √(2 * p.lam) := by
  unfold factX smooth
  split_ifs with hr
  · show |√(2 * p.lam) * exp (-(p.lam * (τ - r)))| ≤ _
    rw [abs_of_nonneg (by positivity)]
    have : exp (-(p.lam * (τ - r))) ≤ 1 := exp_le_one_iff.2 (by
      have : 0 ≤ p.lam * (τ - r) := mul_nonneg h.le (by linarith)
      linarith)
    exact mul_le_of_le_one_right (sqrt_nonneg _) this
  · rw [abs_zero]
    positivity

theorem memLp_win (h : 0 < p.alpha) : MemLp (win p) 2 := by
  have hm : Measurable (win p) := by
    unfold win
    refine Measurable.ite measurableSet_Ici ?_ measurable_const
    have : Continuous fun s : ℝ => p.alphaT * exp (-(p.alpha * s)) := by fun_prop
    exact this.measurable
  rw [memLp_two_iff_integrable_sq hm.aestronglyMeasurable]
  have e : ∀ s, win p s ^ 2 = (Ici (0 : ℝ)).indicator (fun s => p.alphaT ^ 2 * exp (-(2 * p.alpha) * s)) s := fun s => by
    unfold win
    by_cases hs : 0 ≤ s
    · rw [indicator_of_mem (mem_Ici.2 hs), if_pos hs, mul_pow, ← exp_nat_mul]
      congr 2
      push_cast
      ring
    · rw [indicator_of_notMem (fun h' => hs (mem_Ici.1 h')), if_neg hs]
      norm_num
  simp_rw [e]
  rw [integrable_indicator_iff measurableSet_Ici, integrableOn_Ici_iff_integrableOn_Ioi]
  exact (integrableOn_exp_mul_Ioi (by linarith) _).const_mul _

theorem continuous_drift (m : ℕ) : Continuous fun r => (p.lam * wave p m r + deriv (wave p m) r) / √(2 * p.lam) := by
  have h1 := continuous_wave (p := p) m
  have h2 : Continuous (deriv (wave p m)) := by
    rw [show deriv (wave p m) = _ from funext (deriv_wave p m)]
    split <;> fun_prop
  fun_prop

theorem memLp_factZ (h : 0 < p.lam) (m : ℕ) : MemLp (factZ p m) 2 := by
  unfold factZ
  refine (((memLp_factX h p.a).const_mul _).indicator measurableSet_Iic).add ?_
  have hm : Measurable ((Ioc p.a p.b).indicator fun r => (p.lam * wave p m r + deriv (wave p m) r) / √(2 * p.lam)) :=
    (continuous_drift m).measurable.indicator measurableSet_Ioc
  rw [memLp_two_iff_integrable_sq hm.aestronglyMeasurable]
  have e : ∀ r, (Ioc p.a p.b).indicator (fun r => (p.lam * wave p m r + deriv (wave p m) r) / √(2 * p.lam)) r ^ 2 =
      (Ioc p.a p.b).indicator (fun r => ((p.lam * wave p m r + deriv (wave p m) r) / √(2 * p.lam)) ^ 2) r := fun r => by
    by_cases hr : r ∈ Ioc p.a p.b
    · rw [indicator_of_mem hr, indicator_of_mem hr]
    · rw [indicator_of_notMem hr, indicator_of_notMem hr]; norm_num
  simp_rw [e]
  rw [integrable_indicator_iff measurableSet_Ioc]
  exact ((continuous_drift m).pow 2).integrableOn_Ioc

theorem factX_after {τ r : ℝ} (h : τ < r) : factX p τ r = 0 := if_neg (not_le.2 h)

theorem wave_ends (hab : p.a < p.b) (m : ℕ) : wave p m p.a = (if (m : ℤ) ≤ p.M then 1 else 0) ∧
    wave p m p.b = (if (m : ℤ) ≤ p.M then 1 else 0) := by
  have hL : p.b - p.a ≠ 0 := (sub_pos.2 hab).ne'
  constructor
  · rw [wave, sub_self, mul_zero, cos_zero, sin_zero]
  · unfold wave freq
    split_ifs with h
    · rw [div_mul_cancel₀ _ hL, show 2 * π * (m : ℝ) = m * (2 * π) by ring, cos_nat_mul_two_pi]
    · rw [div_mul_cancel₀ _ hL, show 2 * π * ((m : ℝ) - (p.M : ℝ)) = ((2 * ((m : ℤ) - p.M) : ℤ) : ℝ) * π by push_cast; ring]
      exact sin_int_mul_pi _

theorem integral_drift (m : ℕ) {c τ : ℝ} :
    ∫ r in p.a..c, exp (-(p.lam * (τ - r))) * (p.lam * wave p m r + deriv (wave p m) r) =
      exp (-(p.lam * (τ - c))) * wave p m c - exp (-(p.lam * (τ - p.a))) * wave p m p.a := by
  have hc : Continuous (deriv (wave p m)) := by
    rw [show deriv (wave p m) = _ from funext (deriv_wave p m)]
    split <;> fun_prop
  have hw := continuous_wave (p := p) m
  have hd : ∀ r ∈ uIcc p.a c, HasDerivAt (fun r => exp (-(p.lam * (τ - r))) * wave p m r)
      (exp (-(p.lam * (τ - r))) * (p.lam * wave p m r + deriv (wave p m) r)) r := by
    intro r _
    have h2 : HasDerivAt (fun r : ℝ => -(p.lam * (τ - r))) p.lam r := by
      simpa using ((hasDerivAt_id r).const_sub τ).const_mul (-p.lam)
    refine (h2.exp.mul (wave_diff p m r).hasDerivAt).congr_deriv ?_
    ring
  rw [intervalIntegral.integral_eq_sub_of_hasDerivAt hd]
  exact (by fun_prop : Continuous fun r => exp (-(p.lam * (τ - r))) * (p.lam * wave p m r + deriv (wave p m) r)).intervalIntegrable _ _

theorem integral_factX_factZ (h : 0 < p.lam) (hab : p.a < p.b) (m : ℕ) (τ : ℝ) :
    ∫ r, factX p τ r * factZ p m r = phi p m τ := by
  have hs : 0 < √(2 * p.lam) := sqrt_pos.2 (by linarith)
  have i1 : Integrable fun r => factX p τ r * (Iic p.a).indicator (fun r => wave p m p.a * factX p p.a r) r :=
    integrable_mul_L2 (memLp_factX h τ) (((memLp_factX h p.a).const_mul _).indicator measurableSet_Iic)
  have e0 : ∀ r, factX p τ r * factZ p m r =
      factX p τ r * (Iic p.a).indicator (fun r => wave p m p.a * factX p p.a r) r +
      (Ioc p.a (min τ p.b)).indicator (fun r => exp (-(p.lam * (τ - r))) * (p.lam * wave p m r + deriv (wave p m) r)) r :=
    fun r => by
      unfold factZ
      rw [mul_add]
      congr 1
      by_cases hr : r ∈ Ioc p.a p.b
      · rw [indicator_of_mem hr]
        by_cases hτ : r ≤ τ
        · rw [indicator_of_mem (show r ∈ Ioc p.a (min τ p.b) from ⟨hr.1, le_min hτ hr.2⟩)]
          unfold factX smooth
          rw [if_pos hτ]
          show √(2 * p.lam) * exp (-(p.lam * (τ - r))) * _ = _
          field_simp
        · rw [indicator_of_notMem (fun h' : r ∈ Ioc p.a (min τ p.b) => hτ (h'.2.trans (min_le_left _ _))),
            factX_after (not_le.1 hτ), zero_mul]
      · rw [indicator_of_notMem hr, mul_zero,
          indicator_of_notMem fun h' : r ∈ Ioc p.a (min τ p.b) => hr ⟨h'.1, h'.2.trans (min_le_right _ _)⟩]
  have e1 : ∫ r, factX p τ r * (Iic p.a).indicator (fun r => wave p m p.a * factX p p.a r) r =
      wave p m p.a * kx p τ p.a := by
    rw [← integral_factX h, ← integral_const_mul]
    congr 1
    funext r
    by_cases hr : r ≤ p.a
    · rw [indicator_of_mem (mem_Iic.2 hr)]
      ring
    · rw [indicator_of_notMem fun h' => hr (mem_Iic.1 h'), factX_after (not_le.1 hr)]
      ring
  have hc : Continuous fun r => exp (-(p.lam * (τ - r))) * (p.lam * wave p m r + deriv (wave p m) r) := by
    have hd : Continuous (deriv (wave p m)) := by
      rw [show deriv (wave p m) = _ from funext (deriv_wave p m)]
      split <;> fun_prop
    have hw := continuous_wave (p := p) m
    fun_prop
  have i2 : Integrable ((Ioc p.a (min τ p.b)).indicator fun r =>
      exp (-(p.lam * (τ - r))) * (p.lam * wave p m r + deriv (wave p m) r)) := by
    rw [integrable_indicator_iff measurableSet_Ioc]
    exact hc.integrableOn_Ioc
  simp only [e0]
  rw [integral_add i1 i2, e1, integral_indicator measurableSet_Ioc]
  obtain ⟨w1, w2⟩ := wave_ends hab m
  unfold kx phi
  rcases lt_or_ge τ p.a with hτ | hτ
  · rw [Ioc_eq_empty (by simp [hτ.le]), Measure.restrict_empty, integral_zero_measure, if_pos hτ,
      abs_of_nonpos (by linarith), w1, neg_sub]
    split_ifs <;> simp
  · have hm : p.a ≤ min τ p.b := le_min hτ hab.le
    rw [← intervalIntegral.integral_of_le hm, integral_drift, if_neg (not_lt.2 hτ),
      abs_of_nonneg (by linarith)]
    by_cases hb : τ ≤ p.b
    · rw [if_pos hb, min_eq_left hb, sub_self, mul_zero, neg_zero, exp_zero]
      ring
    · rw [if_neg hb, min_eq_right (not_le.1 hb).le, w2]
      split_ifs <;> ring

theorem integral_factZ (h : 0 < p.lam) (hab : p.a < p.b) (m n : ℕ) :
    ∫ r, factZ p m r * factZ p n r = Spec.R.inner p.lam p.a p.b (wave p m) (wave p n) := by
  have hs : 0 < √(2 * p.lam) := sqrt_pos.2 (by linarith)
  have e0 : ∀ r, factZ p m r * factZ p n r = wave p m p.a * wave p n p.a * (factX p p.a r * factX p p.a r) +
      (Ioc p.a p.b).indicator (fun r => 1 / (2 * p.lam) * ((p.lam * wave p m r + deriv (wave p m) r) *
        (p.lam * wave p n r + deriv (wave p n) r))) r := fun r => by
    unfold factZ
    by_cases hr : r ≤ p.a
    · have h2 : r ∉ Ioc p.a p.b := fun h' => absurd h'.1 (not_lt.2 hr)
      rw [indicator_of_mem (mem_Iic.2 hr), indicator_of_mem (mem_Iic.2 hr), indicator_of_notMem h2,
        indicator_of_notMem h2, indicator_of_notMem h2]
      ring
    · have h1 : r ∉ Iic p.a := fun h' => hr h'
      rw [indicator_of_notMem h1, indicator_of_notMem h1, factX_after (not_le.1 hr)]
      by_cases h2 : r ∈ Ioc p.a p.b
      · rw [indicator_of_mem h2, indicator_of_mem h2, indicator_of_mem h2]
        have : √(2 * p.lam) * √(2 * p.lam) = 2 * p.lam := mul_self_sqrt (by linarith)
        rw [mul_zero, mul_zero, zero_add, zero_add, zero_add, div_mul_div_comm, this]
        ring
      · rw [indicator_of_notMem h2, indicator_of_notMem h2, indicator_of_notMem h2]
        ring
  have hd : ∀ m, Continuous fun r => p.lam * wave p m r + deriv (wave p m) r := fun m => by
    have hd : Continuous (deriv (wave p m)) := by
      rw [show deriv (wave p m) = _ from funext (deriv_wave p m)]
      split <;> fun_prop
    have hw := continuous_wave (p := p) m
    fun_prop
  have i2 : Integrable ((Ioc p.a p.b).indicator fun r => 1 / (2 * p.lam) *
      ((p.lam * wave p m r + deriv (wave p m) r) * (p.lam * wave p n r + deriv (wave p n) r))) := by
    rw [integrable_indicator_iff measurableSet_Ioc]
    exact (((hd m).mul (hd n)).const_mul _).integrableOn_Ioc
  simp only [e0]
  rw [integral_add ((integrable_mul_L2 (memLp_factX h p.a) (memLp_factX h p.a)).const_mul _) i2, integral_const_mul,
    integral_factX h, integral_indicator measurableSet_Ioc, integral_const_mul, ← intervalIntegral.integral_of_le hab.le]
  unfold Spec.R.inner kx
  simp only [sub_self, abs_zero, mul_zero, neg_zero, exp_zero]
  ring

theorem biL2_factS (ha : 0 < p.alpha) (h : 0 < p.lam) (t : ℝ) : BiL2 volume volume (factS p t) where
  prod := by
    have hw : MemLp (win p) 2 := memLp_win ha
    have hr : ∀ s, MemLp (factS p t s) 2 := fun s => (memLp_factX h _).const_mul _
    have hwm : Measurable (win p) := by
      unfold win
      refine Measurable.ite measurableSet_Ici ?_ measurable_const
      have : Continuous fun s : ℝ => p.alphaT * exp (-(p.alpha * s)) := by fun_prop
      exact this.measurable
    have hm : Measurable fun q : ℝ × ℝ => factS p t q.1 q.2 := by
      have h1 : Measurable fun q : ℝ × ℝ => factX p (t - q.1) q.2 :=
        (measurable_smooth (p := ouP p)).comp ((measurable_const.sub measurable_fst).prodMk measurable_snd)
      exact (hwm.comp measurable_fst).mul h1
    rw [memLp_two_iff_integrable_sq hm.aestronglyMeasurable, integrable_prod_iff (hm.pow_const 2).aestronglyMeasurable]
    refine ⟨Filter.Eventually.of_forall fun s => (hr s).integrable_sq, ?_⟩
    have h1 : ∀ s, ∫ r, ‖factS p t s r ^ 2‖ = win p s ^ 2 := fun s => by
      have e : ∀ r, ‖factS p t s r ^ 2‖ = win p s ^ 2 * (factX p (t - s) r * factX p (t - s) r) := fun r => by
        rw [Real.norm_of_nonneg (sq_nonneg _)]
        unfold factS
        ring
      simp only [e]
      rw [integral_const_mul, integral_factX h, kx]
      simp
    simp only [h1]
    exact hw.integrable_sq
  right := fun s => (memLp_factX h _).const_mul _
  left := fun r => by
    have hw : MemLp (win p) 2 := memLp_win ha
    have h1 : Measurable fun s : ℝ => factX p (t - s) r :=
      (measurable_smooth (p := ouP p)).comp ((measurable_const.sub measurable_id).prodMk measurable_const)
    refine (hw.const_mul √(2 * p.lam)).mono (hw.1.mul h1.aestronglyMeasurable) (Filter.Eventually.of_forall fun s => ?_)
    unfold factS
    rw [Real.norm_eq_abs, Real.norm_eq_abs, abs_mul, abs_mul, abs_of_nonneg (sqrt_nonneg _), mul_comm]
    exact mul_le_mul_of_nonneg_right (factX_abs_le h _ _) (abs_nonneg _)

/-! ## The matrices -/

theorem integral_factS_factZ (h : 0 < p.lam) (hab : p.a < p.b) (t s : ℝ) (m : ℕ) :
    ∫ r, factS p t s r * factZ p m r = win p s * phi p m (t - s) := by
  unfold factS
  simp only [mul_assoc]
  rw [integral_const_mul, integral_factX_factZ h hab]

theorem integral_factS (h : 0 < p.lam) (t t' s s' : ℝ) :
    ∫ r, factS p t s r * factS p t' s' r = win p s * win p s' * kx p (t - s) (t' - s') := by
  have e : ∀ r, factS p t s r * factS p t' s' r = win p s * win p s' * (factX p (t - s) r * factX p (t' - s') r) :=
    fun r => by
      unfold factS
      ring
  simp only [e]
  rw [integral_const_mul, integral_factX h]

theorem win_smooth (s u : ℝ) : win p s * smooth p u s = khu p s u := rfl

theorem kx_symm (x y : ℝ) : kx p x y = kx p y x := by rw [kx, kx, abs_sub_comm]

variable {k n : ℕ} (u : Fin k → ℝ) (z : Fin n → ℕ)

theorem gram_smooth : gram volume (fun i => smooth p (u i)) (fun i => smooth p (u i)) =
    .of fun i j => ku p (u i) (u j) := rfl

theorem gram_factZ (h : 0 < p.lam) (hab : p.a < p.b) : gram volume (fun i => factZ p (z i)) (fun i => factZ p (z i)) =
    .of fun i j => Spec.R.inner p.lam p.a p.b (wave p (z i)) (wave p (z j)) := by
  ext i j
  exact integral_factZ h hab _ _

theorem gram_ihzR (h : 0 < p.lam) (hab : p.a < p.b) (t : ℝ) :
    gram volume (fun i s => ∫ r, factS p t s r * factZ p (z i) r) (fun i s => ∫ r, factS p t s r * factZ p (z i) r) =
      .of fun i j => Spec.R.ihz p t (z i) (z j) := by
  ext i j
  show ∫ s, _ = Spec.R.ihz p t (z i) (z j)
  unfold Spec.R.ihz
  rw [← integral_sub_left_eq_self _ volume t]
  congr 1
  funext s
  beta_reduce
  rw [integral_factS_factZ h hab, integral_factS_factZ h hab, sub_sub_cancel]
  ring

theorem gram_iuzR (h : 0 < p.lam) (hab : p.a < p.b) (t : ℝ) :
    gram volume (fun i s => ∫ r, factS p t s r * factZ p (z i) r) (fun i => smooth p (u i)) =
      (Matrix.of fun i j => Spec.R.iuz p t (u i) (z j))ᵀ := by
  ext i j
  show ∫ s, _ = Spec.R.iuz p t (u j) (z i)
  unfold Spec.R.iuz
  rw [← integral_sub_left_eq_self _ volume t]
  congr 1
  funext s
  beta_reduce
  rw [integral_factS_factZ h hab, sub_sub_cancel, ← win_smooth]
  ring

theorem gram_iuxR (ha : 0 < p.alpha) (h : 0 < p.lam) (hγ : 0 < p.gamma) (t : ℝ) :
    gram volume (fun i r => ∫ s, factS p t s r * smooth p (u i) s) (fun i r => ∫ s, factS p t s r * smooth p (u i) s) =
      .of fun i j => Spec.R.iux p t t (u i) (u j) := by
  ext i j
  show ∫ r, _ = Spec.R.iux p t t (u i) (u j)
  have hF := biL2_factS ha h t
  have hu : ∀ i, MemLp (smooth p (u i)) 2 := fun i => memLp_smooth hγ _
  rw [← hF.fubini (hF.swap.memLp_integral (hu j)) (hu i)]
  unfold Spec.R.iux
  congr 1
  funext s₁
  have e : ∫ r, factS p t s₁ r * ∫ s, factS p t s r * smooth p (u j) s =
      ∫ s₂, (∫ r, factS p t s₂ r * factS p t s₁ r) * smooth p (u j) s₂ := by
    rw [hF.fubini (hF.right s₁) (hu j)]
    congr 1
    funext s
    ring
  rw [e, ← integral_mul_const]
  congr 1
  funext s₂
  rw [integral_factS h, kx_symm, ← win_smooth, ← win_smooth]
  ring

theorem ihx_factS (h : 0 < p.lam) (t : ℝ) : ∫ s, ∫ r, factS p t s r ^ 2 = Spec.R.ihx p t t := by
  unfold Spec.R.ihx
  congr 1
  funext s
  rw [← integral_factS h]
  simp only [sq]

end Gpcm.Rgpcm
