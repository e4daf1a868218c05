import Verif.Lemmas.RgpcmValid
import Verif.Lemmas.KernelPsd

/-! # Helper lemmas: sampled kernels of the RGPCM as Gram matrices -/

open MeasureTheory Matrix Real Set Filter Topology

namespace Gpcm.Rgpcm

open Spec.R

/-- Functions that are cut off at different points are linearly independent. -/
theorem cut_independent {ι : Type} [Fintype ι] {x : ι → ℝ} (hx : Function.Injective x) {f : ι → ℝ → ℝ}
    (hf : ∀ i, ContinuousAt (f i) (x i)) (h0 : ∀ i, f i (x i) ≠ 0) {v : ι → ℝ}
    (h : ∀ᵐ s : ℝ, ∑ i, v i * (if s ≤ x i then f i s else 0) = 0) : v = 0 := by
  classical
  by_contra hv
  obtain ⟨i0, hi0⟩ : ∃ i, v i ≠ 0 := by
    by_contra hn
    push Not at hn
    exact hv (funext hn)
  obtain ⟨j, hj, hmax⟩ := (Finset.univ.filter fun i => v i ≠ 0).exists_max_image x
    ⟨i0, Finset.mem_filter.2 ⟨Finset.mem_univ _, hi0⟩⟩
  have hj : v j ≠ 0 := (Finset.mem_filter.1 hj).2
  have hother : ∀ i, i ≠ j → v i ≠ 0 → x i < x j := fun i hij hvi =>
    lt_of_le_of_ne (hmax i (Finset.mem_filter.2 ⟨Finset.mem_univ _, hvi⟩)) fun he => hij (hx he)
  -- just below the last cut only one term is left
  have h1 : ∀ᶠ s in 𝓝[<] x j, ∑ i, v i * (if s ≤ x i then f i s else 0) = v j * f j s := by
    have h2 : ∀ i, ∀ᶠ s in 𝓝[<] x j, i ≠ j → v i ≠ 0 → x i < s := fun i => by
      by_cases hi : i ≠ j ∧ v i ≠ 0
      · have : ∀ᶠ s in 𝓝 (x j), x i < s := lt_mem_nhds (hother i hi.1 hi.2)
        exact (this.filter_mono nhdsWithin_le_nhds).mono fun s hs _ _ => hs
      · exact .of_forall fun s a b => absurd ⟨a, b⟩ hi
    have h3 := eventually_all.2 h2
    filter_upwards [h3, self_mem_nhdsWithin] with s hs hsj
    rw [Finset.sum_eq_single j]
    · rw [if_pos (le_of_lt hsj)]
    · intro i _ hij
      by_cases hvi : v i = 0
      · rw [hvi, zero_mul]
      · rw [if_neg (not_le.2 (hs i hij hvi)), mul_zero]
    · exact fun hn => absurd (Finset.mem_univ _) hn
  have h2 : ∀ᶠ s in 𝓝[<] x j, v j * f j s ≠ 0 :=
    ((hf j).const_smul (v j) |>.tendsto.mono_left nhdsWithin_le_nhds).eventually_ne (mul_ne_zero hj (h0 j))
  obtain ⟨ε, hε, hs⟩ := mem_nhdsLT_iff_exists_Ioo_subset.1 (h1.and h2)
  have hpos : volume (Ioo ε (x j)) ≠ 0 := by
    rw [Real.volume_Ioo]
    simpa using hε
  obtain ⟨s, hs0, hsI⟩ := (h.and_frequently (frequently_ae_mem_iff.2 hpos)).exists
  obtain ⟨e1, e2⟩ := hs hsI
  exact e2 (e1 ▸ hs0)

variable {p : Params} {m n : ℕ} {u : Fin m → ℝ} {t : Fin n → ℝ}

theorem ihx_factS_mul (ha : 0 < p.alpha) (h : 0 < p.lam) (a b : ℝ) :
    ∫ r, ∫ s, factS p a s r * factS p b s r = Spec.R.ihx p a b := by
  have hi := integrable_mul_L2 (biL2_factS ha h a).prod (biL2_factS ha h b).prod
  rw [← integral_integral_swap hi]
  unfold Spec.R.ihx
  congr 1
  funext s
  rw [integral_factS h]

theorem gram_iuxR2 (ha : 0 < p.alpha) (h : 0 < p.lam) (hγ : 0 < p.gamma) (a b : ℝ) :
    gram volume (fun i r => ∫ s, factS p a s r * smooth p (u i) s) (fun i r => ∫ s, factS p b s r * smooth p (u i) s) =
      .of fun i j => Spec.R.iux p a b (u i) (u j) := by
  ext i j
  show ∫ r, _ = Spec.R.iux p a b (u i) (u j)
  have hFa := biL2_factS ha h a
  have hFb := biL2_factS ha h b
  have hu : ∀ i, MemLp (smooth p (u i)) 2 := fun i => memLp_smooth hγ _
  rw [← hFa.fubini (hFb.swap.memLp_integral (hu j)) (hu i)]
  unfold Spec.R.iux
  congr 1
  funext s₁
  have e : ∫ r, factS p a s₁ r * ∫ s, factS p b s r * smooth p (u j) s =
      ∫ s₂, (∫ r, factS p b s₂ r * factS p a s₁ r) * smooth p (u j) s₂ := by
    rw [hFb.fubini (hFa.right s₁) (hu j)]
    congr 1
    funext s
    ring
  rw [e, ← integral_mul_const]
  congr 1
  funext s₂
  rw [integral_factS h, kx_symm, ← win_smooth, ← win_smooth]
  ring

theorem win_factX (t r s : ℝ) : factS p t s r =
    if s ≤ t - r then (if 0 ≤ s then p.alphaT * exp (-(p.alpha * s)) * (√(2 * p.lam) *
      exp (-(p.lam * (t - s - r)))) else 0) else 0 := by
  unfold factS factX smooth win
  by_cases h1 : s ≤ t - r
  · rw [if_pos h1, if_pos (show r ≤ t - s by linarith)]
    split_ifs <;> simp [ouP]
  · rw [if_neg h1, if_neg (show ¬ r ≤ t - s by linarith), mul_zero]

/-- A combination of the signal at distinct times is not determined by the inducing points. -/
theorem residual_posR (ha : 0 < p.alpha) (h : 0 < p.lam) (hγ : 0 < p.gamma) (hα : p.alphaT ≠ 0)
    (hγT : p.gammaT ≠ 0) (hu : Function.Injective u) (ht : Function.Injective t) {v : Fin n → ℝ} (hv : v ≠ 0) :
    0 < ∫ r, ∫ s, residual volume (fun i => smooth p (u i)) (fun r s => ∑ k, v k * factS p (t k) s r) r s ^ 2 := by
  have hF := BiL2.sum (fun k => (biL2_factS ha h (t k)).swap) v
  have hβ : ∀ i, MemLp (smooth p (u i)) 2 := fun i => memLp_smooth hγ _
  have hr := hF.residual hβ
  have h0 : ∀ r, 0 ≤ ∫ s, residual volume (fun i => smooth p (u i))
      (fun r s => ∑ k, v k * factS p (t k) s r) r s ^ 2 := fun τ => integral_nonneg fun s => sq_nonneg _
  refine (integral_nonneg h0).lt_of_ne fun he => hv ?_
  have h1 := (integral_eq_zero_iff_of_nonneg h0 hr.prod.integrable_sq.integral_prod_left).1 he.symm
  obtain ⟨b, hb⟩ : ∃ b : ℝ, ∀ k, b ≤ t k := by
    obtain ⟨b, hb⟩ := (Set.finite_range t).bddBelow
    exact ⟨b, fun k => hb ⟨k, rfl⟩⟩
  have hfin : (⋃ k : Fin n, ⋃ i : Fin m, {t k - u i}).Countable :=
    Set.countable_iUnion fun k => Set.countable_iUnion fun i => Set.countable_singleton _
  have hpos : 0 < volume (Set.Iio b) := by simp
  have h2 : ∀ᵐ τ : ℝ, τ ∉ ⋃ k : Fin n, ⋃ i : Fin m, {t k - u i} := hfin.ae_notMem volume
  obtain ⟨r, hrb, hr1, hr2⟩ : ∃ r ∈ Set.Iio b, (∫ s, residual volume (fun i => smooth p (u i))
      (fun r s => ∑ k, v k * factS p (t k) s r) r s ^ 2) = 0 ∧ r ∉ ⋃ k : Fin n, ⋃ i : Fin m, {t k - u i} := by
    have h3 := h1.and h2
    obtain ⟨τ, hτ, hτb⟩ := (h3.and_frequently (frequently_ae_mem_iff.2 hpos.ne')).exists
    exact ⟨τ, hτb, hτ.1, hτ.2⟩
  have hrb : r < b := hrb
  obtain ⟨c, hc⟩ : ∃ c : Fin m → ℝ, ∀ s, residual volume (fun i => smooth p (u i))
      (fun r s => ∑ k, v k * factS p (t k) s r) r s =
        ∑ k, v k * factS p (t k) s r - ∑ i, c i * smooth p (u i) s :=
    ⟨(gram volume (fun i => smooth p (u i)) fun i => smooth p (u i))⁻¹ *ᵥ
      fun i => ∫ s, (∑ k, v k * factS p (t k) s r) * smooth p (u i) s, fun s => rfl⟩
  have h3 : ∀ᵐ s : ℝ, ∑ k, v k * factS p (t k) s r - ∑ i, c i * smooth p (u i) s = 0 := by
    have h4 : (fun s => (∑ k, v k * factS p (t k) s r - ∑ i, c i * smooth p (u i) s) ^ 2) =ᵐ[volume] 0 := by
      refine (integral_eq_zero_iff_of_nonneg (fun s => sq_nonneg _) ?_).1 ?_
      · have := (hr.right r).integrable_sq
        simpa only [hc] using this
      · simpa only [hc] using hr1
    exact h4.mono fun s hs => pow_eq_zero_iff (two_ne_zero) |>.1 hs
  have h4 := cut_independent (ι := Fin n ⊕ Fin m) (x := Sum.elim (fun k => t k - r) u)
    (Function.Injective.sumElim (fun i j h => ht (sub_left_injective h)) hu fun k i h => hr2 (by
      simp only [Set.mem_iUnion, Set.mem_singleton_iff]
      exact ⟨k, i, by linarith⟩))
    (f := Sum.elim (fun k s => if 0 ≤ s then p.alphaT * exp (-(p.alpha * s)) * (√(2 * p.lam) *
      exp (-(p.lam * (t k - s - r)))) else 0) fun i s => p.gammaT * exp (-(p.gamma * (u i - s))))
    (by
      rintro (k | i)
      · have hk : 0 < t k - r := by linarith [hb k]
        have hcont : Continuous fun s => p.alphaT * exp (-(p.alpha * s)) * (√(2 * p.lam) *
          exp (-(p.lam * (t k - s - r)))) := by fun_prop
        refine hcont.continuousAt.congr ?_
        filter_upwards [lt_mem_nhds hk] with s hs
        simp only [Sum.elim_inl]
        rw [if_pos (le_of_lt hs)]
      · have hcont : Continuous fun s => p.gammaT * exp (-(p.gamma * (u i - s))) := by fun_prop
        exact hcont.continuousAt)
    (by
      rintro (k | i)
      · have hk : 0 ≤ t k - r := by linarith [hb k]
        simp only [Sum.elim_inl]
        rw [if_pos hk]
        have : 0 < √(2 * p.lam) := sqrt_pos.2 (by linarith)
        exact mul_ne_zero (mul_ne_zero hα (exp_ne_zero _)) (mul_ne_zero this.ne' (exp_ne_zero _))
      · exact mul_ne_zero hγT (exp_ne_zero _))
    (v := Sum.elim v fun i => -c i) (by
      filter_upwards [h3] with s hs
      rw [Fintype.sum_sum_type]
      simp only [Sum.elim_inl, Sum.elim_inr, neg_mul, Finset.sum_neg_distrib, ← sub_eq_add_neg]
      refine Eq.trans ?_ hs
      congr 1
      refine Finset.sum_congr rfl fun k _ => ?_
      rw [win_factX]
      rfl)
  funext k
  exact congrFun h4 (.inl k)

/-- The covariance of the signal at distinct times given the inducing points, plus what they determine. -/
theorem kernel_posDefR (ha : 0 < p.alpha) (h : 0 < p.lam) (hγ : 0 < p.gamma) (hα : p.alphaT ≠ 0)
    (hγT : p.gammaT ≠ 0) (hu : Function.Injective u) (ht : Function.Injective t) (w : Fin m → ℝ)
    {Ku : Matrix (Fin m) (Fin m) ℝ} (hKu : Ku = .of fun i j => ku p (u i) (u j)) (hK : Ku.PosDef)
    {I : ℝ → ℝ → Matrix (Fin m) (Fin m) ℝ}
    (hI : I = fun a b => .of fun i j => Spec.R.iux p a b (u i) (u j)) (v : Fin n → ℝ) (hv : v ≠ 0) :
    0 < ∑ i, ∑ j, v i * v j * (Spec.R.ihx p (t i) (t j) - Spec.inner Ku⁻¹ (I (t i) (t j)) +
      w ⬝ᵥ (I (t i) (t j) *ᵥ w)) := by
  have hβ : ∀ i, MemLp (smooth p (u i)) 2 := fun i => memLp_smooth hγ _
  have hK' : (gram volume (fun i => smooth p (u i)) fun i => smooth p (u i)).PosDef := by
    rw [gram_smooth u, ← hKu]
    exact hK
  have h1 := residual_posR ha h hγ hα hγT hu ht hv
  rw [← BiL2.residual_gram (fun k => (biL2_factS ha h (t k)).swap) hβ hK', gram_smooth u, ← hKu] at h1
  simp only [ihx_factS_mul ha h, gram_iuxR2 ha h hγ] at h1
  have h2 := gram_quad (φ := fun k i r => ∫ s, factS p (t k) s r * smooth p (u i) s)
    (fun k i => (biL2_factS ha h (t k)).swap.memLp_integral (hβ i)) w v
  simp only [gram_iuxR2 ha h hγ] at h2
  have e : ∀ a b, (Matrix.of fun i j => Spec.R.iux p a b (u i) (u j)) = I a b := fun a b => by rw [hI]
  simp only [e] at h1 h2
  have e2 : ∀ a b c d : ℝ, a * b * (c + d) = a * b * c + a * b * d := fun a b c d => by ring
  simp only [e2, Finset.sum_add_distrib]
  linarith

end Gpcm.Rgpcm
