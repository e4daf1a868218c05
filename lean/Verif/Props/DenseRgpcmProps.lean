import Verif.Props.DenseProps
import Verif.Props.RgpcmValidProps

/-!
# C190 for the RGPCM

The inducing variables of the filter of the RGPCM see the filter only up to the last inducing point
(gpcm/rgpcm.py:118-123, 211-240), which by default is `pi / alpha`. The filter goes on after that, so however many
inducing points and features there are, a share of the power of the signal stays unexplained.
-/

namespace Gpcm

open MeasureTheory Set Real Matrix Rgpcm RgpcmModel

variable {g : RgpcmModel}

/-- The power of the signal that the filter produces after `T`. -/
theorem Rgpcm.integral_win_Ioi (hα : 0 < g.alpha) {T : ℝ} (hT : 0 ≤ T) :
    ∫ s in Ioi T, Spec.R.win (specOf g) s * Spec.R.win (specOf g) s = exp (-(2 * g.alpha * T)) * (g.alphaT ^ 2 / (2 * g.alpha)) := by
  have e : ∀ s ∈ Ioi T, Spec.R.win (specOf g) s * Spec.R.win (specOf g) s = g.alphaT ^ 2 * exp (-(2 * g.alpha) * s) := by
    intro s hs
    unfold Spec.R.win
    rw [if_pos (hT.trans (mem_Ioi.1 hs).le)]
    have : exp (-(2 * g.alpha) * s) = exp (-(g.alpha * s)) * exp (-(g.alpha * s)) := by
      rw [← exp_add]
      congr 1
      ring
    rw [this]
    simp only [specOf]
    ring
  rw [setIntegral_congr_fun measurableSet_Ioi e, integral_const_mul, integral_exp_mul_Ioi (by linarith)]
  rw [neg_mul]
  field_simp

/-- What the inducing variables of the specified instance leave unexplained. -/
theorem RgpcmModel.unexplained_spec (h : g.Regular) {T : ℝ} (hT : 0 ≤ T) (hu : ∀ u ∈ g.tU, u ≤ T) (t : ℝ) :
    exp (-(2 * g.alpha * T)) * g.ihx t t ≤ Spec.unexplPower g.specInst t := by
  obtain ⟨p, hp⟩ : ∃ p, p = specOf g := ⟨_, rfl⟩
  have hα : 0 < p.alpha := hp ▸ h.alpha
  have hl : 0 < p.lam := hp ▸ h.lam
  have hγ : 0 < p.gamma := hp ▸ h.gamma
  have hv := specInst_valid h
  have hku : (Matrix.of fun i j => Spec.R.ku p (g.tU.get i) (g.tU.get j)).PosDef := by
    have := hv.Ku
    rwa [specInst, ← hp] at this
  have hψ : ∀ i, MemLp (Spec.R.smooth p (g.tU.get i)) 2 := fun i => memLp_smooth hγ _
  have hF := biL2_factS hα hl t
  have hsq := hF.swap.residual_sq hψ (by rw [gram_smooth]; exact hku)
  have hsw : ∫ s, ∫ τ, factS p t τ s ^ 2 = ∫ τ, ∫ s, factS p t τ s ^ 2 :=
    (integral_integral_swap (f := fun τ s => factS p t τ s ^ 2) hF.prod.integrable_sq).symm
  have hiux : g.specInst.iUx = .of fun i j => Spec.R.iux p t t (g.tU.get i) (g.tU.get j) := by
    ext i j
    rw [hp]
    exact (iux_shift t _ _).symm
  rw [gram_smooth, gram_iuxR _ hα hl hγ, hsw, ihx_factS hl, ← hiux] at hsq
  have hsq : ∫ r, ∫ s, residual volume (fun i => Spec.R.smooth p (g.tU.get i)) (fun r s => factS p t s r) r s ^ 2 =
      g.specInst.iHx t t - Spec.inner g.specInst.Ku⁻¹ g.specInst.iUx := by
    rw [hsq, hp]
    rfl
  have hR := hF.swap.residual hψ
  have hA' := frob_nonneg hv.Ku.inv.posSemidef (hv.A t)
  have hsub : ∀ {ι : Type} [Fintype ι] (P Q S : Matrix ι ι ℝ), frob P (Q - S) = Spec.inner P Q - Spec.inner P S :=
    fun P Q S => by simp only [frob_inner, Spec.inner, Matrix.sub_apply, mul_sub, Finset.sum_sub_distrib]
  rw [hsub] at hA'
  have key : exp (-(2 * g.alpha * T)) * g.ihx t t ≤
      ∫ r, ∫ s, residual volume (fun i => Spec.R.smooth p (g.tU.get i)) (fun r s => factS p t s r) r s ^ 2 := by
    rw [integral_integral_swap hR.prod.integrable_sq]
    have hint := hR.prod.integrable_sq.integral_prod_right
    have e : ∀ s ∈ Ioi T, ∫ r, residual volume (fun i => Spec.R.smooth p (g.tU.get i)) (fun r s => factS p t s r) r s ^ 2 =
        Spec.R.win (specOf g) s * Spec.R.win (specOf g) s := by
      intro s hs
      have hz : ∀ i, Spec.R.smooth p (g.tU.get i) s = 0 := fun i => by
        unfold Spec.R.smooth
        rw [if_neg]
        have := hu _ (List.get_mem g.tU i)
        exact not_le.2 (this.trans_lt (mem_Ioi.1 hs))
      have := integral_factS hl t t s s
      unfold residual
      simp only [hz, mul_zero, Finset.sum_const_zero, sub_zero, sq]
      rw [this, ← hp]
      unfold Spec.R.kx
      simp
    have h1 : ∫ s in Ioi T, ∫ r, residual volume (fun i => Spec.R.smooth p (g.tU.get i)) (fun r s => factS p t s r) r s ^ 2 ≤
        ∫ s, ∫ r, residual volume (fun i => Spec.R.smooth p (g.tU.get i)) (fun r s => factS p t s r) r s ^ 2 :=
      setIntegral_le_integral hint (Filter.Eventually.of_forall fun s => integral_nonneg fun r => sq_nonneg _)
    rw [setIntegral_congr_fun measurableSet_Ioi e, Rgpcm.integral_win_Ioi h.alpha hT] at h1
    refine le_trans (le_of_eq ?_) h1
    unfold RgpcmModel.ihx
    simp only [sub_self, abs_zero, mul_zero, exp_zero, mul_one, div_div]
  have hun : Spec.unexplPower g.specInst t = g.specInst.iHx t t -
    Spec.inner g.specInst.Ku⁻¹ (g.specInst.iUz t * g.specInst.Kz⁻¹ * (g.specInst.iUz t)ᵀ) := rfl
  rw [hun]
  linarith

/-- **C190** This fails for the RGPCM: when its inducing points lie before `T`, then at the times that its interval covers
the inducing variables leave at least a share `exp (-2 alpha T)` of the power unexplained, however many inducing points and
features there are. -/
theorem c190_rgpcm_false (h : g.Regular) {perm : List ℕ} (hp : IsArgsort perm g.ms)
    {m : Inst (Fin g.tU.length) (Fin g.ms.length)} (hm : g.IsInst perm g.times m) {T : ℝ} (hT : 0 ≤ T)
    (hu : ∀ u ∈ g.tU, u ≤ T) {t : ℝ} (ht : t ∈ g.times) :
    exp (-(2 * g.alpha * T)) * m.iHx t t ≤ Spec.unexplPower m t := by
  have ha := hm.agree (specInst_isInst h hp)
  have := RgpcmModel.unexplained_spec h hT hu t
  unfold Spec.unexplPower at this ⊢
  rw [ha.Ku, ha.Kz, ha.iHx, ha.iUz t ht]
  rwa [show g.specInst.iHx t t = g.ihx t t from (c63_covariance_rgpcm h.alpha t t).symm] at this ⊢

/-- **C190** With default inducing points, interval, features and inter-domain transform the inducing variables of the
RGPCM never explain the last share `exp (-2 pi)` of the power of the signal at its data, which is positive when
`alpha_t` is not zero. -/
theorem c190_rgpcm_default_false {x : RgpcmArgs} (hg : RgpcmModel.new x = .ok g) (hx : x.tU = none) (ha : x.a = none)
    (hb : x.b = none) (hms : x.ms = none) (hγ : x.gamma = none) (hγT : x.gammaT = none) (hα : 0 < g.alpha)
    (hl : 0 < g.lam) (hn : 0 < x.noise) (hM : 0 ≤ g.mMax) (hne : g.alpha - g.gamma ≠ g.lam) (h0 : g.alphaT ≠ 0)
    {perm : List ℕ} (hp : IsArgsort perm g.ms) {m : Inst (Fin g.tU.length) (Fin g.ms.length)}
    (hm : g.IsInst perm g.times m) :
    ∃ data, x.t = some data ∧ ∀ t ∈ data, 0 < m.iHx t t ∧ exp (-(2 * π)) * m.iHx t t ≤ Spec.unexplPower m t := by
  obtain ⟨h, data, hd, hdt⟩ := c109_constructed hg hx ha hb hms hγ hγT hα hl hn hM hne
  have hu : ∀ u ∈ g.tU, u ≤ π / g.alpha := by
    obtain ⟨-, -, h3, -⟩ := new_ok hg
    unfold Rgpcm.initTU at h3
    rw [hx] at h3
    dsimp only at h3
    obtain ⟨v, hv, h3⟩ := bind1_ok h3
    obtain ⟨n, hn', h3⟩ := bind1_ok h3
    obtain ⟨l, hlin, h3⟩ := bind1_ok h3
    obtain rfl : l = g.tU := congrArg Prod.snd (Except.ok.inj h3)
    have hmv : v = π / g.alpha := by
      unfold divE at hv
      rw [if_neg hα.ne'] at hv
      exact (Except.ok.inj hv).symm
    have hm0 : 0 < v := by rw [hmv]; positivity
    unfold linspace at hlin
    split_ifs at hlin with hneg
    have hlist := Except.ok.inj hlin
    intro u hu
    rw [← hlist] at hu
    obtain ⟨i, hi, rfl⟩ := List.mem_map.1 hu
    have hi := List.mem_range.1 hi
    rw [← hmv]
    rcases eq_or_ne n 1 with rfl | hn1
    · simp only [Int.cast_one, sub_self, div_zero, zero_mul, add_zero]
      exact hm0.le
    · have hn2 : (2 : ℤ) ≤ n := by omega
      have hn3 : (2 : ℝ) ≤ n := by exact_mod_cast hn2
      have hi2 : ((i : ℕ) : ℤ) ≤ n - 1 := by omega
      have hi3 : (i : ℝ) ≤ (n : ℝ) - 1 := by exact_mod_cast hi2
      have : (v - 0) / ((n : ℝ) - 1) * i ≤ (v - 0) / ((n : ℝ) - 1) * ((n : ℝ) - 1) :=
        mul_le_mul_of_nonneg_left hi3 (div_nonneg (by linarith) (by linarith))
      rw [div_mul_cancel₀ _ (by linarith)] at this
      linarith
  refine ⟨data, hd, fun t ht => ⟨?_, ?_⟩⟩
  · rw [hm.iHx]
    unfold RgpcmModel.ihx
    have := h.alpha
    positivity
  · have := c190_rgpcm_false h hp hm (div_nonneg pi_pos.le hα.le) hu (hdt t ht)
    rwa [show 2 * g.alpha * (π / g.alpha) = 2 * π by field_simp] at this

/-- The hypotheses of `c190_rgpcm_false` hold for a concrete model. -/
example : exRgpcm.Regular ∧ IsArgsort [1, 3, 4, 0, 2] exRgpcm.ms ∧ (∀ u ∈ exRgpcm.tU, u ≤ 2) ∧ (1 : ℝ) ∈ exRgpcm.times ∧
    ∃ m, exRgpcm.IsInst [1, 3, 4, 0, 2] exRgpcm.times m := by
  have h : exRgpcm.Regular := by constructor <;> norm_num [exRgpcm]
  have hp : IsArgsort [1, 3, 4, 0, 2] exRgpcm.ms := ⟨by decide, by decide⟩
  refine ⟨h, hp, ?_, ?_, _, specInst_isInst h hp⟩
  · intro u hu
    simp only [exRgpcm, List.mem_cons, List.not_mem_nil, or_false] at hu
    rcases hu with rfl | rfl <;> norm_num
  · constructor <;> norm_num [exRgpcm]

/-- Arguments without inducing points. -/
noncomputable def Rgpcm.exAuto : RgpcmArgs where
  window := some 1
  scale := some 3
  nU := some 2
  t := some [0, 1]
  nZ := some 4

/-- The hypotheses of `c190_rgpcm_default_false` hold for a concrete model. -/
example : ∃ g, RgpcmModel.new Rgpcm.exAuto = .ok g ∧ Rgpcm.exAuto.tU = none ∧ 0 < g.alpha ∧ 0 < g.lam ∧
    0 < Rgpcm.exAuto.noise ∧ 0 ≤ g.mMax ∧ g.alpha - g.gamma ≠ g.lam ∧ g.alphaT ≠ 0 := by
  have h1 : orElse exAuto.alpha (bind1 (need exAuto.window) (divE 1)) = .ok 1 := by
    simp [exAuto, orElse, need, bind1, divE]
  have h2 : orElse exAuto.lam (bind1 (need exAuto.scale) (divE 1)) = .ok (1 / 3) := by
    simp [exAuto, orElse, need, bind1, divE]
  have h3 : divE 4 1 = .ok 4 := by simp [divE]
  have hb : ∀ {α β : Type} (a : α) (f : α → Except PyErr β), bind1 (.ok a) f = f a := fun a f => rfl
  have h4 : Rgpcm.initTU exAuto 1 = .ok (2, [0, π]) := by
    have h : Rgpcm.autoNU exAuto = .ok 2 := rfl
    unfold Rgpcm.initTU
    rw [h]
    simp [exAuto, bind1, divE, linspace, List.range_succ]
    norm_num
  have h5 : initA exAuto [0, π] = .ok (-π) := by
    simp [initA, exAuto, orElse, need, bind1, pyMin, pyMax, pi_pos.le]
  have h6 : initB exAuto = .ok 1 := by simp [initB, exAuto, orElse, need, bind1, pyMax]
  have h7 : initMMax exAuto (-π) 1 = .ok 2 := by
    simp only [initMMax, exAuto]
    norm_num
  have h8 : Rgpcm.initGamma exAuto [0, π] = .ok (1 / (2 * π)) := by
    simp [Rgpcm.initGamma, exAuto, orElse, divE, pi_ne_zero]
  unfold RgpcmModel.new
  simp only [h1, h2, h3, h4, h5, h6, h7, h8, hb]
  refine ⟨_, rfl, rfl, by norm_num, by norm_num, by norm_num [exAuto], by norm_num, ?_, ?_⟩
  · have h9 : 1 / (2 * π) < 1 / 6 := one_div_lt_one_div_of_lt (by norm_num) (by linarith [pi_gt_three])
    have h10 : min (1 / (2 * π)) (1 / 1.5) ≤ 1 / (2 * π) := min_le_left _ _
    intro h
    have h : 1 - min (1 / (2 * π)) (1 / 1.5) = 1 / 3 := h
    linarith
  · show √(2 * 1) ≠ 0
    norm_num

end Gpcm
