import Verif.Props.RGPCMIntProps
import Verif.Lemmas.GpcmPsd

/-! # Properties C72 to C74: frequency order and the covariance matrices of the RGPCM -/

open MeasureTheory Real Set

namespace Gpcm.Rgpcm

variable (g : RgpcmModel)

/-! ## C72 -/

/-- The frequencies in another order. -/
def reorder (σ : List ℕ) : RgpcmModel := { g with ms := σ.map fun i => g.ms.getD i 0 }

theorem hzEntry_reorder (σ : List ℕ) : hzEntry (reorder g σ) = hzEntry g := rfl

theorem uzEntry_reorder (σ : List ℕ) : uzEntry (reorder g σ) = uzEntry g := rfl

theorem getD_map_of_lt {β : Type} (F : ℕ → β) {l : List ℕ} {i : ℕ} (h : i < l.length) (d : β) :
    (l.map F).getD i d = F (l.getD i 0) := by
  simp [List.getD_eq_getElem?_getD, h]

/-- **C72.** Reordering the frequencies reorders both feature axes of `compute_I_hz`, whatever order the sort
leaves equal frequencies in. -/
theorem c72_ihz {perm perm' σ : List ℕ} (hσ : σ.Perm (List.range g.ms.length)) (hM : 0 ≤ g.mMax)
    (hp : IsArgsort perm g.ms) (hp' : IsArgsort perm' (reorder g σ).ms) (t : ℝ) :
    ∃ A, g.computeIhz perm t = .ok A ∧ (reorder g σ).computeIhz perm' t =
      .ok (σ.map fun i => σ.map fun j => (A.getD i []).getD j 0) := by
  refine ⟨_, computeIhz_eq g hp hM t, ?_⟩
  rw [computeIhz_eq (reorder g σ) hp' hM, hzEntry_reorder]
  have hlt : ∀ i ∈ σ, i < g.ms.length := fun i hi => List.mem_range.1 (hσ.mem_iff.1 hi)
  congr 1
  simp only [reorder, List.map_map]
  refine List.map_congr_left fun i hi => ?_
  simp only [Function.comp_apply]
  refine List.map_congr_left fun j hj => ?_
  simp only [Function.comp_apply]
  rw [getD_map_of_lt _ (hlt i hi), getD_map_of_lt _ (hlt j hj)]

/-- **C72.** Reordering the frequencies reorders the feature axis of `compute_I_uz`. -/
theorem c72_iuz {perm perm' σ : List ℕ} (hσ : σ.Perm (List.range g.ms.length)) (hM : 0 ≤ g.mMax)
    (hp : IsArgsort perm g.ms) (hp' : IsArgsort perm' (reorder g σ).ms) (t : ℝ) :
    ∃ A, g.computeIuz perm t = .ok A ∧ (reorder g σ).computeIuz perm' t =
      .ok (A.map fun row => σ.map fun j => row.getD j 0) := by
  refine ⟨_, computeIuz_eq g hp hM t, ?_⟩
  rw [computeIuz_eq (reorder g σ) hp' hM, uzEntry_reorder]
  have hlt : ∀ i ∈ σ, i < g.ms.length := fun i hi => List.mem_range.1 (hσ.mem_iff.1 hi)
  congr 1
  simp only [reorder, List.map_map]
  refine List.map_congr_left fun u _ => ?_
  simp only [Function.comp_apply]
  refine List.map_congr_left fun j hj => ?_
  simp only [Function.comp_apply]
  rw [getD_map_of_lt _ (hlt j hj)]

/-- **C72.** Reordering the frequencies reorders both axes of `compute_K_z`. -/
theorem c72_kz {σ : List ℕ} (hσ : σ.Perm (List.range g.ms.length)) (i j : Fin (reorder g σ).ms.length)
    (i' j' : Fin g.ms.length) (hi : σ[(i : ℕ)]? = some (i' : ℕ)) (hj : σ[(j : ℕ)]? = some (j' : ℕ)) :
    (reorder g σ).computeKz i j = g.computeKz i' j' := by
  have hnd : σ.Nodup := hσ.nodup_iff.2 List.nodup_range
  have hget : ∀ (k : Fin (reorder g σ).ms.length) (k' : Fin g.ms.length), σ[(k : ℕ)]? = some (k' : ℕ) →
      (reorder g σ).ms.get k = g.ms.get k' := by
    intro k k' hk
    have h1 : (reorder g σ).ms[(k : ℕ)]? = some (g.ms.getD k' 0) := by
      show (σ.map _)[(k : ℕ)]? = _
      rw [List.getElem?_map, hk]
      rfl
    rw [List.getElem?_eq_getElem k.2] at h1
    rw [List.get_eq_getElem, Option.some.inj h1]
    simp [List.getD_eq_getElem?_getD]
  have hij : i = j ↔ i' = j' := by
    obtain ⟨h1, e1⟩ := List.getElem?_eq_some_iff.1 hi
    obtain ⟨h2, e2⟩ := List.getElem?_eq_some_iff.1 hj
    constructor
    · rintro rfl
      exact Fin.ext (e1.symm.trans e2)
    · intro h
      refine Fin.ext ((List.Nodup.getElem_inj_iff hnd (hi := h1) (hj := h2)).1 ?_)
      rw [e1, e2, h]
  unfold RgpcmModel.computeKz
  rw [Matrix.of_apply, Matrix.of_apply, hget i i' hi, hget j j' hj]
  simp only [hij]
  rfl

example : [4, 2, 0, 3, 1].Perm (List.range exRgpcm.ms.length) ∧
    IsArgsort [4, 3, 0, 2, 1] (reorder exRgpcm [4, 2, 0, 3, 1]).ms := by
  refine ⟨by decide, by decide, by decide⟩

/-! ## C73 -/

theorem period_cos {a b : ℝ} (hab : a < b) (k : ℤ) :
    ∫ t in a..b, cos (2 * π * k / (b - a) * (t - a)) = if k = 0 then b - a else 0 := by
  by_cases hk : k = 0
  · subst hk
    simp
  · have hL : b - a ≠ 0 := (sub_pos.2 hab).ne'
    have hω : 2 * π * k / (b - a) ≠ 0 := by
      have : (k : ℝ) ≠ 0 := by exact_mod_cast hk
      positivity
    have hd : ∀ t ∈ uIcc a b, HasDerivAt (fun t => sin (2 * π * k / (b - a) * (t - a)) / (2 * π * k / (b - a)))
        (cos (2 * π * k / (b - a) * (t - a))) t := by
      intro t _
      have h2 : HasDerivAt (fun t : ℝ => 2 * π * k / (b - a) * (t - a)) (2 * π * k / (b - a)) t := by
        simpa using ((hasDerivAt_id t).sub_const a).const_mul (2 * π * k / (b - a))
      refine (h2.sin.div_const _).congr_deriv ?_
      field_simp
    rw [intervalIntegral.integral_eq_sub_of_hasDerivAt hd (Continuous.intervalIntegrable (by fun_prop) _ _),
      if_neg hk, div_mul_cancel₀ _ hL, show 2 * π * (k : ℝ) = k * (2 * π) by ring]
    have : sin ((k : ℝ) * (2 * π)) = 0 := by
      have := sin_int_mul_pi (2 * k)
      push_cast at this
      rw [← this]
      congr 1
      ring
    simp [this]

theorem period_sin {a b : ℝ} (hab : a < b) (k : ℤ) :
    ∫ t in a..b, sin (2 * π * k / (b - a) * (t - a)) = 0 := by
  by_cases hk : k = 0
  · subst hk
    simp
  · have hL : b - a ≠ 0 := (sub_pos.2 hab).ne'
    have hω : 2 * π * k / (b - a) ≠ 0 := by
      have : (k : ℝ) ≠ 0 := by exact_mod_cast hk
      positivity
    have hd : ∀ t ∈ uIcc a b, HasDerivAt (fun t => -cos (2 * π * k / (b - a) * (t - a)) / (2 * π * k / (b - a)))
        (sin (2 * π * k / (b - a) * (t - a))) t := by
      intro t _
      have h2 : HasDerivAt (fun t : ℝ => 2 * π * k / (b - a) * (t - a)) (2 * π * k / (b - a)) t := by
        simpa using ((hasDerivAt_id t).sub_const a).const_mul (2 * π * k / (b - a))
      have h3 : HasDerivAt (fun t : ℝ => -cos (2 * π * k / (b - a) * (t - a)))
          (sin (2 * π * k / (b - a) * (t - a)) * (2 * π * k / (b - a))) t := by
        simpa using h2.cos.fun_neg
      refine (h3.div_const _).congr_deriv ?_
      field_simp
    rw [intervalIntegral.integral_eq_sub_of_hasDerivAt hd (Continuous.intervalIntegrable (by fun_prop) _ _),
      div_mul_cancel₀ _ hL, show 2 * π * (k : ℝ) = k * (2 * π) by ring, cos_int_mul_two_pi]
    simp

/-- A combination of waves over a period. -/
theorem period_comb {a b : ℝ} (hab : a < b) (k l : ℤ) (A B C D : ℝ) :
    ∫ t in a..b, (A * cos (2 * π * k / (b - a) * (t - a)) + B * cos (2 * π * l / (b - a) * (t - a)) +
      (C * sin (2 * π * k / (b - a) * (t - a)) + D * sin (2 * π * l / (b - a) * (t - a)))) =
      A * (if k = 0 then b - a else 0) + B * (if l = 0 then b - a else 0) := by
  have hi : ∀ f : ℝ → ℝ, Continuous f → IntervalIntegrable f volume a b := fun f h => h.intervalIntegrable _ _
  rw [intervalIntegral.integral_add (hi _ (by fun_prop)) (hi _ (by fun_prop)),
    intervalIntegral.integral_add (hi _ (by fun_prop)) (hi _ (by fun_prop)),
    intervalIntegral.integral_add (hi _ (by fun_prop)) (hi _ (by fun_prop))]
  simp only [intervalIntegral.integral_const_mul, period_cos hab, period_sin hab]
  ring

open Spec.R in
theorem deriv_wave (p : Params) (m : ℕ) (t : ℝ) : deriv (wave p m) t =
    if (m : ℤ) ≤ p.M then -(freq p m * sin (freq p m * (t - p.a))) else freq p m * cos (freq p m * (t - p.a)) := by
  have h2 : HasDerivAt (fun t : ℝ => freq p m * (t - p.a)) (freq p m) t := by
    simpa using ((hasDerivAt_id t).sub_const p.a).const_mul (freq p m)
  by_cases h : (m : ℤ) ≤ p.M
  · rw [if_pos h]
    have : wave p m = fun t => cos (freq p m * (t - p.a)) := by
      funext t
      rw [wave, if_pos h]
    rw [this]
    refine (h2.cos.congr_deriv ?_).deriv
    ring
  · rw [if_neg h]
    have : wave p m = fun t => sin (freq p m * (t - p.a)) := by
      funext t
      rw [wave, if_neg h]
    rw [this]
    refine (h2.sin.congr_deriv ?_).deriv
    ring

open Spec.R in
theorem wave_diff (p : Params) (m : ℕ) (t : ℝ) : DifferentiableAt ℝ (wave p m) t := by
  unfold wave
  split <;> fun_prop

theorem deriv_kernel_lt {lam x t : ℝ} (h : t < x) :
    lam * exp (-(lam * |t - x|)) + deriv (fun t => exp (-(lam * |t - x|))) t = 2 * lam * exp (-(lam * (x - t))) := by
  have h1 : HasDerivAt (fun t : ℝ => exp (-(lam * (x - t)))) (lam * exp (-(lam * (x - t)))) t := by
    have h2 : HasDerivAt (fun t : ℝ => -(lam * (x - t))) lam t := by
      simpa using ((hasDerivAt_id t).const_sub x).const_mul (-lam)
    simpa [mul_comm] using h2.exp
  have h3 : HasDerivAt (fun t => exp (-(lam * |t - x|))) (lam * exp (-(lam * (x - t)))) t := by
    refine h1.congr_of_eventuallyEq ?_
    filter_upwards [Iio_mem_nhds h] with z hz
    rw [abs_of_neg (sub_neg.2 hz), neg_sub]
  rw [h3.deriv, abs_of_neg (sub_neg.2 h), neg_sub]
  ring

theorem deriv_kernel_gt {lam x t : ℝ} (h : x < t) :
    lam * exp (-(lam * |t - x|)) + deriv (fun t => exp (-(lam * |t - x|))) t = 0 := by
  have h1 : HasDerivAt (fun t : ℝ => exp (-(lam * (t - x)))) (-lam * exp (-(lam * (t - x)))) t := by
    have h2 : HasDerivAt (fun t : ℝ => -(lam * (t - x))) (-lam) t := by
      simpa using ((hasDerivAt_id t).sub_const x).const_mul (-lam)
    simpa [mul_comm] using h2.exp
  have h3 : HasDerivAt (fun t => exp (-(lam * |t - x|))) (-lam * exp (-(lam * (t - x)))) t := by
    refine h1.congr_of_eventuallyEq ?_
    filter_upwards [Ioi_mem_nhds h] with z hz
    rw [abs_of_pos (sub_pos.2 hz)]
  rw [h3.deriv, abs_of_pos (sub_pos.2 h)]
  ring

theorem inner_left {lam x a b : ℝ} (hab : a ≤ b) (hb : b ≤ x) {f : ℝ → ℝ} (hf : Differentiable ℝ f)
    (hf' : Continuous (deriv f)) :
    IntervalIntegrable (fun t => (lam * f t + deriv f t) *
      (lam * exp (-(lam * |t - x|)) + deriv (fun t => exp (-(lam * |t - x|))) t)) volume a b ∧
    ∫ t in a..b, (lam * f t + deriv f t) *
      (lam * exp (-(lam * |t - x|)) + deriv (fun t => exp (-(lam * |t - x|))) t) =
      2 * lam * (f b * exp (-(lam * (x - b))) - f a * exp (-(lam * (x - a)))) := by
  have hc : Continuous fun t => (lam * f t + deriv f t) * (2 * lam * exp (-(lam * (x - t)))) := by
    have := hf.continuous
    fun_prop
  have he : EqOn (fun t => (lam * f t + deriv f t) * (2 * lam * exp (-(lam * (x - t)))))
      (fun t => (lam * f t + deriv f t) *
        (lam * exp (-(lam * |t - x|)) + deriv (fun t => exp (-(lam * |t - x|))) t)) (Ioo a b) := fun t ht => by
    simp only
    rw [deriv_kernel_lt (ht.2.trans_le hb)]
  constructor
  · rw [intervalIntegrable_iff_integrableOn_Ioo_of_le hab]
    exact (hc.integrableOn_Ioc.mono_set Ioo_subset_Ioc_self).congr_fun he measurableSet_Ioo
  · have hd : ∀ t ∈ uIcc a b, HasDerivAt (fun t => 2 * lam * (f t * exp (-(lam * (x - t)))))
        ((lam * f t + deriv f t) * (2 * lam * exp (-(lam * (x - t))))) t := by
      intro t _
      have h2 : HasDerivAt (fun t : ℝ => -(lam * (x - t))) lam t := by
        simpa using ((hasDerivAt_id t).const_sub x).const_mul (-lam)
      refine (((hf t).hasDerivAt.mul h2.exp).const_mul (2 * lam)).congr_deriv ?_
      ring
    rw [intervalIntegral.integral_of_le hab, integral_Ioc_eq_integral_Ioo,
      ← setIntegral_congr_fun measurableSet_Ioo he, ← integral_Ioc_eq_integral_Ioo,
      ← intervalIntegral.integral_of_le hab,
      intervalIntegral.integral_eq_sub_of_hasDerivAt hd (hc.intervalIntegrable _ _)]
    ring

theorem inner_right {lam x a b : ℝ} (hab : a ≤ b) (ha : x ≤ a) (f : ℝ → ℝ) :
    IntervalIntegrable (fun t => (lam * f t + deriv f t) *
      (lam * exp (-(lam * |t - x|)) + deriv (fun t => exp (-(lam * |t - x|))) t)) volume a b ∧
    ∫ t in a..b, (lam * f t + deriv f t) *
      (lam * exp (-(lam * |t - x|)) + deriv (fun t => exp (-(lam * |t - x|))) t) = 0 := by
  have he : EqOn (fun _ => (0 : ℝ))
      (fun t => (lam * f t + deriv f t) *
        (lam * exp (-(lam * |t - x|)) + deriv (fun t => exp (-(lam * |t - x|))) t)) (Ioo a b) := fun t ht => by
    simp only
    rw [deriv_kernel_gt (ha.trans_lt ht.1), mul_zero]
  constructor
  · rw [intervalIntegrable_iff_integrableOn_Ioo_of_le hab]
    exact integrableOn_zero.congr_fun he measurableSet_Ioo
  · rw [intervalIntegral.integral_of_le hab, integral_Ioc_eq_integral_Ioo,
      ← setIntegral_congr_fun measurableSet_Ioo he]
    simp

/-- The inner product is the one of the reproducing kernel Hilbert space of the Matérn-1/2 kernel on `[a, b]`:
it reproduces values of functions. -/
theorem c73_reproducing {lam a b : ℝ} (hl : 0 < lam) {f : ℝ → ℝ} (hf : Differentiable ℝ f)
    (hf' : Continuous (deriv f)) {x : ℝ} (ha : a ≤ x) (hb : x ≤ b) :
    Spec.R.inner lam a b f (fun t => exp (-(lam * |t - x|))) = f x := by
  obtain ⟨h1, e1⟩ := inner_left (lam := lam) ha le_rfl hf hf'
  obtain ⟨h2, e2⟩ := inner_right (lam := lam) hb le_rfl f
  unfold Spec.R.inner
  rw [← intervalIntegral.integral_add_adjacent_intervals h1 h2, e1, e2]
  beta_reduce
  rw [abs_of_nonpos (sub_nonpos.2 ha), neg_sub]
  simp only [sub_self, mul_zero, neg_zero, exp_zero]
  field_simp
  ring

open Spec.R in
/-- The covariance of the noise and a feature is the inner product of the feature and the kernel, everywhere. -/
theorem c73_features {p : Params} (hl : 0 < p.lam) (hab : p.a < p.b) (m : ℕ) (τ : ℝ) :
    phi p m τ = Spec.R.inner p.lam p.a p.b (wave p m) (fun t => kx p t τ) := by
  have hL : p.b - p.a ≠ 0 := (sub_pos.2 hab).ne'
  have hf : Differentiable ℝ (wave p m) := wave_diff p m
  have hf' : Continuous (deriv (wave p m)) := by
    rw [show deriv (wave p m) = _ from funext (deriv_wave p m)]
    split <;> fun_prop
  have ha0 : wave p m p.a = if (m : ℤ) ≤ p.M then 1 else 0 := by
    rw [wave, sub_self, mul_zero, cos_zero, sin_zero]
  have hb0 : wave p m p.b = if (m : ℤ) ≤ p.M then 1 else 0 := by
    rw [wave]
    split
    · rw [freq, if_pos ‹_›, div_mul_cancel₀ _ hL, show 2 * π * (m : ℝ) = m * (2 * π) by ring,
        cos_nat_mul_two_pi]
    · rw [freq, if_neg ‹_›, div_mul_cancel₀ _ hL]
      have := sin_int_mul_pi (2 * ((m : ℤ) - p.M))
      push_cast at this
      rw [← this]
      congr 1
      ring
  unfold kx
  rcases lt_or_ge τ p.a with h | h
  · have e := (inner_right (lam := p.lam) hab.le h.le (wave p m)).2
    rw [Spec.R.inner, e, phi, if_pos h, ha0, abs_of_pos (sub_pos.2 h)]
    split <;> simp
  · rcases le_or_gt τ p.b with h' | h'
    · rw [c73_reproducing hl hf hf' h h', phi_inside p m h h']
    · have e := (inner_left (lam := p.lam) hab.le h'.le hf hf').2
      rw [Spec.R.inner, e, phi, if_neg (not_lt.2 h), if_neg (not_le.2 h'), ha0, hb0,
        abs_of_neg (sub_neg.2 (hab.trans h')), neg_sub]
      split
      · field_simp
        ring
      · simp

theorem period_cc {a b : ℝ} (hab : a < b) (k l : ℤ) (A B C D : ℝ) :
    ∫ t in a..b, (A * cos (2 * π * k / (b - a) * (t - a)) + B * sin (2 * π * k / (b - a) * (t - a))) *
      (C * cos (2 * π * l / (b - a) * (t - a)) + D * sin (2 * π * l / (b - a) * (t - a))) =
      (A * C + B * D) / 2 * (if k - l = 0 then b - a else 0) +
        (A * C - B * D) / 2 * (if k + l = 0 then b - a else 0) := by
  rw [← period_comb hab (k - l) (k + l) ((A * C + B * D) / 2) ((A * C - B * D) / 2) ((B * C - A * D) / 2)
    ((B * C + A * D) / 2)]
  refine intervalIntegral.integral_congr fun t _ => ?_
  have e1 : 2 * π * ((k - l : ℤ) : ℝ) / (b - a) * (t - a) =
      2 * π * k / (b - a) * (t - a) - 2 * π * l / (b - a) * (t - a) := by
    push_cast
    ring
  have e2 : 2 * π * ((k + l : ℤ) : ℝ) / (b - a) * (t - a) =
      2 * π * k / (b - a) * (t - a) + 2 * π * l / (b - a) * (t - a) := by
    push_cast
    ring
  rw [e1, e2, cos_sub, cos_add, sin_sub, sin_add]
  ring

/-- The harmonic of a feature. -/
def harm (M : ℤ) (m : ℕ) : ℤ := if (m : ℤ) ≤ M then m else m - M

open Spec.R in
/-- The inner products of the features. -/
theorem inner_waves {p : Params} (hl : 0 < p.lam) (hab : p.a < p.b) (hM : 0 ≤ p.M) (m n : ℕ) :
    Spec.R.inner p.lam p.a p.b (wave p m) (wave p n) =
      (if m = n then (p.b - p.a) / 2 * ((p.lam ^ 2 + freq p m ^ 2) / (2 * p.lam)) * (if m = 0 then 2 else 1) else 0) +
      (if (m : ℤ) ≤ p.M then 1 else 0) * (if (n : ℤ) ≤ p.M then 1 else 0) := by
  have ha0 : ∀ m, wave p m p.a = if (m : ℤ) ≤ p.M then 1 else 0 := fun m => by
    rw [wave, sub_self, mul_zero, cos_zero, sin_zero]
  have hfreq : ∀ m, freq p m = 2 * π * (harm p.M m : ℤ) / (p.b - p.a) := fun m => by
    unfold freq harm
    split <;> simp
  have hform : ∀ m t, p.lam * wave p m t + deriv (wave p m) t =
      (if (m : ℤ) ≤ p.M then p.lam else freq p m) * cos (2 * π * (harm p.M m : ℤ) / (p.b - p.a) * (t - p.a)) +
      (if (m : ℤ) ≤ p.M then -freq p m else p.lam) * sin (2 * π * (harm p.M m : ℤ) / (p.b - p.a) * (t - p.a)) := by
    intro m t
    rw [deriv_wave, ← hfreq, wave]
    split <;> ring
  unfold Spec.R.inner
  simp_rw [hform]
  rw [period_cc hab, ha0, ha0]
  have hz : ∀ m, harm p.M m = 0 → m = 0 := fun m h => by
    unfold harm at h
    split at h <;> omega
  by_cases hmn : m = n
  · subst hmn
    rw [if_pos rfl]
    simp only [sub_self, if_true]
    by_cases h0 : m = 0
    · subst h0
      have hh : harm p.M 0 = 0 := by simp [harm, hM]
      have hf0 : freq p 0 = 0 := by rw [hfreq, hh]; simp
      simp only [hh, hf0, Nat.cast_zero, hM, if_true]
      norm_num
      field_simp
      ring
    · have h1 : ¬ harm p.M m + harm p.M m = 0 := fun h => h0 (hz m (by omega))
      rw [if_neg h1, if_neg h0]
      split <;> ring
  · rw [if_neg hmn]
    have h1 : ¬ (harm p.M m + harm p.M n = 0) := by
      unfold harm
      split <;> split <;> omega
    rw [if_neg h1]
    by_cases h2 : harm p.M m - harm p.M n = 0
    · have h3 : freq p m = freq p n := by
        rw [hfreq, hfreq, show harm p.M m = harm p.M n by omega]
      have h4 : ((m : ℤ) ≤ p.M ∧ ¬ (n : ℤ) ≤ p.M) ∨ (¬ (m : ℤ) ≤ p.M ∧ (n : ℤ) ≤ p.M) := by
        unfold harm at h2
        split at h2 <;> split at h2 <;> omega
      rw [if_pos h2]
      rcases h4 with ⟨h5, h6⟩ | ⟨h5, h6⟩
      · simp only [h5, h6, if_true, if_false, h3]
        ring
      · simp only [h5, h6, if_true, if_false, h3]
        ring
    · rw [if_neg h2]
      ring

/-- **C73.** `compute_K_z` is the Gram matrix of the features, for distinct frequencies. -/
theorem c73_gram {g : RgpcmModel} (hl : 0 < g.lam) (hab : g.a < g.b) (hM : 0 ≤ g.mMax) (hd : g.ms.Nodup)
    (i j : Fin g.ms.length) :
    g.computeKz i j = Spec.R.inner g.lam g.a g.b (Spec.R.wave (specOf g) (g.ms.get i))
      (Spec.R.wave (specOf g) (g.ms.get j)) := by
  have h := inner_waves (p := specOf g) hl hab hM (g.ms.get i) (g.ms.get j)
  have hij : g.ms.get i = g.ms.get j ↔ i = j := ⟨fun h => List.nodup_iff_injective_get.1 hd h, fun h => h ▸ rfl⟩
  rw [show Spec.R.inner (specOf g).lam (specOf g).a (specOf g).b = Spec.R.inner g.lam g.a g.b from rfl] at h
  rw [h]
  unfold RgpcmModel.computeKz
  rw [Matrix.of_apply]
  simp only [hij]
  congr 1
  · refine if_congr Iff.rfl ?_ rfl
    unfold RgpcmModel.kzAlpha RgpcmModel.psdMatern12
    rw [kzOmega_eq]
    have : g.lam ^ 2 + Spec.R.freq (specOf g) (g.ms.get i) ^ 2 ≠ 0 := by positivity
    simp only [specOf] at this ⊢
    split <;> field_simp <;> ring
  · have e : ∀ m : ℕ, g.kzBeta m = if (m : ℤ) ≤ g.mMax then 1 else 0 := fun m => by
      unfold RgpcmModel.kzBeta
      simp
    rw [e, e]
    rfl

theorem kzAlpha_pos {g : RgpcmModel} (hl : 0 < g.lam) (hab : g.a < g.b) (m : ℕ) : 0 < g.kzAlpha m := by
  unfold RgpcmModel.kzAlpha RgpcmModel.psdMatern12
  have hL : 0 < g.b - g.a := sub_pos.2 hab
  simp only
  split <;> positivity

/-- **C73.** `compute_K_z` is positive definite. -/
theorem c73_posDef {g : RgpcmModel} (hl : 0 < g.lam) (hab : g.a < g.b) : g.computeKz.PosDef := by
  refine Matrix.PosDef.of_dotProduct_mulVec_pos ?_ fun x hx => ?_
  · ext i j
    rw [Matrix.conjTranspose_apply, star_trivial]
    unfold RgpcmModel.computeKz
    rw [Matrix.of_apply, Matrix.of_apply, mul_comm (g.kzBeta _)]
    congr 1
    by_cases h : i = j
    · subst h
      rfl
    · rw [if_neg h, if_neg (Ne.symm h)]
  · have e : dotProduct (star x) (g.computeKz.mulVec x) =
        ∑ i, g.kzAlpha (g.ms.get i) * x i ^ 2 + (∑ i, g.kzBeta (g.ms.get i) * x i) ^ 2 := by
      rw [sq (∑ i, g.kzBeta (g.ms.get i) * x i), Finset.sum_mul_sum, ← Finset.sum_add_distrib]
      simp only [dotProduct, Matrix.mulVec, star_trivial]
      refine Finset.sum_congr rfl fun i _ => ?_
      simp only [RgpcmModel.computeKz, Matrix.of_apply, add_mul, Finset.sum_add_distrib, ite_mul, zero_mul,
        Finset.sum_ite_eq, Finset.mem_univ, if_true, mul_add, Finset.mul_sum]
      congr 1
      · ring
      · exact Finset.sum_congr rfl fun j _ => by ring
    rw [e]
    obtain ⟨i, hi⟩ : ∃ i, x i ≠ 0 := by
      by_contra h
      push Not at h
      exact hx (funext h)
    refine add_pos_of_pos_of_nonneg (Finset.sum_pos' (fun j _ => ?_) ⟨i, Finset.mem_univ _, ?_⟩) (sq_nonneg _)
    · exact mul_nonneg (kzAlpha_pos hl hab _).le (sq_nonneg _)
    · exact mul_pos (kzAlpha_pos hl hab _) (by positivity)

example : 0 < exRgpcm.lam ∧ exRgpcm.a < exRgpcm.b ∧ 0 ≤ exRgpcm.mMax ∧ exRgpcm.ms.Nodup := by
  refine ⟨by norm_num [exRgpcm], by norm_num [exRgpcm], by norm_num [exRgpcm], by decide⟩

/-! ## C74 -/

open Spec.R in
theorem smooth_mul (p : Params) (u1 u2 s : ℝ) : smooth p u1 s * smooth p u2 s =
    (Iic (min u1 u2)).indicator (fun s => p.gammaT ^ 2 * exp (-(p.gamma * (u1 + u2))) * exp (2 * p.gamma * s)) s := by
  by_cases h : s ≤ min u1 u2
  · rw [indicator_of_mem (mem_Iic.2 h), smooth, smooth, if_pos (h.trans (min_le_left _ _)), if_pos (h.trans (min_le_right _ _))]
    have : exp (-(p.gamma * (u1 - s))) * exp (-(p.gamma * (u2 - s))) =
        exp (-(p.gamma * (u1 + u2))) * exp (2 * p.gamma * s) := by
      rw [← exp_add, ← exp_add]
      congr 1
      ring
    linear_combination p.gammaT ^ 2 * this
  · rw [indicator_of_notMem (fun h' => h (mem_Iic.1 h')), smooth, smooth]
    rcases not_and_or.1 (fun h' => h (le_min_iff.2 h')) with h1 | h1
    · rw [if_neg h1, zero_mul]
    · rw [if_neg h1, mul_zero]

open Spec.R in
theorem smooth_integrable {p : Params} (hγ : 0 < p.gamma) (u1 u2 : ℝ) :
    Integrable fun s => smooth p u1 s * smooth p u2 s := by
  simp_rw [smooth_mul]
  rw [integrable_indicator_iff measurableSet_Iic]
  exact (integrableOn_exp_mul_Iic (by linarith) _).const_mul _

/-- **C74.** `compute_K_u` is the covariance matrix of the smoothed white noise. -/
theorem c74_covariance {g : RgpcmModel} (hγ : 0 < g.gamma) (i j : Fin g.tU.length) :
    g.computeKu i j = Spec.R.ku (specOf g) (g.tU.get i) (g.tU.get j) := by
  unfold Spec.R.ku RgpcmModel.computeKu RgpcmModel.kuEntry
  simp_rw [smooth_mul]
  rw [Matrix.of_apply, integral_indicator measurableSet_Iic, integral_const_mul,
    integral_exp_mul_Iic (show 0 < 2 * (specOf g).gamma by simpa [specOf] using hγ)]
  simp only [specOf]
  have : -g.gamma * |g.tU.get i - g.tU.get j| =
      -(g.gamma * (g.tU.get i + g.tU.get j)) + 2 * g.gamma * min (g.tU.get i) (g.tU.get j) := by
    rcases le_total (g.tU.get i) (g.tU.get j) with h | h
    · rw [abs_of_nonpos (sub_nonpos.2 h), min_eq_left h]
      ring
    · rw [abs_of_nonneg (sub_nonneg.2 h), min_eq_right h]
      ring
  rw [this, exp_add]
  ring

/-- **C74.** `compute_K_u` is positive semi-definite for all inducing points. -/
theorem c74_posSemidef {g : RgpcmModel} (hγ : 0 < g.gamma) : g.computeKu.PosSemidef := by
  refine posSemidef_of (fun i j => ?_) fun c => ?_
  · rw [c74_covariance hγ, c74_covariance hγ]
    unfold Spec.R.ku
    simp only [mul_comm]
  · simp only [c74_covariance hγ]
    exact gram_nonneg (fun i s => Spec.R.smooth (specOf g) (g.tU.get i) s)
      (fun i j => smooth_integrable (p := specOf g) hγ _ _) c

theorem exists_gap {n : ℕ} (u : Fin n → ℝ) (m : Fin n) (S : Finset (Fin n)) (h : ∀ j ∈ S, u j < u m) :
    ∃ v, v < u m ∧ ∀ j ∈ S, u j ≤ v := by
  rcases S.eq_empty_or_nonempty with hS | hS
  · exact ⟨u m - 1, by linarith, by simp [hS]⟩
  · obtain ⟨k, hk, hmax⟩ := S.exists_max_image u hS
    exact ⟨u k, h k hk, hmax⟩

/-- **C74.** `compute_K_u` is positive definite for distinct inducing points. -/
theorem c74_posDef {g : RgpcmModel} (hγ : 0 < g.gamma) (hγT : g.gammaT ≠ 0) (hd : g.tU.Nodup) :
    g.computeKu.PosDef := by
  refine Matrix.PosDef.of_dotProduct_mulVec_pos (c74_posSemidef hγ).isHermitian fun x hx => ?_
  obtain ⟨p, hp⟩ : ∃ p, p = specOf g := ⟨_, rfl⟩
  have hpγ : 0 < p.gamma := by rw [hp]; exact hγ
  obtain ⟨u, hu⟩ : ∃ u : Fin g.tU.length → ℝ, u = g.tU.get := ⟨_, rfl⟩
  have hinj : Function.Injective u := hu ▸ List.nodup_iff_injective_get.1 hd
  have hint := fun i j => smooth_integrable hpγ (u i) (u j)
  have hexp : ∀ s, (∑ i, x i * Spec.R.smooth p (u i) s) ^ 2 =
      ∑ i, ∑ j, x i * x j * (Spec.R.smooth p (u i) s * Spec.R.smooth p (u j) s) := fun s => by
    rw [sq, Finset.sum_mul_sum]
    exact Finset.sum_congr rfl fun i _ => Finset.sum_congr rfl fun j _ => by ring
  have hI : Integrable fun s => (∑ i, x i * Spec.R.smooth p (u i) s) ^ 2 := by
    simp only [hexp]
    exact integrable_finsetSum _ fun i _ => integrable_finsetSum _ fun j _ => (hint i j).const_mul _
  have e : dotProduct (star x) (g.computeKu.mulVec x) = ∫ s, (∑ i, x i * Spec.R.smooth p (u i) s) ^ 2 := by
    simp only [hexp]
    rw [integral_finsetSum _ fun i _ => integrable_finsetSum _ fun j _ => (hint i j).const_mul _]
    simp only [dotProduct, Matrix.mulVec, star_trivial, Finset.mul_sum]
    refine Finset.sum_congr rfl fun i _ => ?_
    rw [integral_finsetSum _ fun j _ => (hint i j).const_mul _]
    refine Finset.sum_congr rfl fun j _ => ?_
    rw [integral_const_mul, c74_covariance hγ, ← hp, hu]
    unfold Spec.R.ku
    ring
  rw [e]
  have hne : (Finset.univ.filter fun i => x i ≠ 0).Nonempty := by
    by_contra h
    rw [Finset.not_nonempty_iff_eq_empty, Finset.filter_eq_empty_iff] at h
    exact hx (funext fun i => by simpa using h (Finset.mem_univ i))
  obtain ⟨m, hm, hmax⟩ := Finset.exists_max_image _ u hne
  have hxm : x m ≠ 0 := by simpa using hm
  obtain ⟨v, hv, hgap⟩ := exists_gap u m ((Finset.univ.filter fun i => x i ≠ 0).erase m) fun j hj => by
    obtain ⟨h1, h2⟩ := Finset.mem_erase.1 hj
    exact lt_of_le_of_ne (hmax j h2) (fun h => h1 (hinj h))
  have hval : ∀ s ∈ Ioc v (u m), (∑ i, x i * Spec.R.smooth p (u i) s) ^ 2 =
      (x m * p.gammaT) ^ 2 * exp (-(2 * p.gamma * (u m - s))) := by
    intro s hs
    have : ∑ i, x i * Spec.R.smooth p (u i) s = x m * Spec.R.smooth p (u m) s := by
      refine Finset.sum_eq_single m (fun i _ him => ?_) (by simp)
      by_cases hxi : x i = 0
      · rw [hxi, zero_mul]
      · have := hgap i (Finset.mem_erase.2 ⟨him, by simpa using hxi⟩)
        rw [Spec.R.smooth, if_neg (not_le.2 (this.trans_lt hs.1)), mul_zero]
    rw [this, Spec.R.smooth, if_pos hs.2]
    have : exp (-(2 * p.gamma * (u m - s))) = exp (-(p.gamma * (u m - s))) ^ 2 := by
      rw [← exp_nat_mul]
      congr 1
      push_cast
      ring
    rw [this]
    ring
  have hle : ∫ s in Ioc v (u m), (∑ i, x i * Spec.R.smooth p (u i) s) ^ 2 ≤
      ∫ s, (∑ i, x i * Spec.R.smooth p (u i) s) ^ 2 :=
    setIntegral_le_integral hI (Filter.Eventually.of_forall fun s => sq_nonneg _)
  refine lt_of_lt_of_le ?_ hle
  rw [setIntegral_congr_fun measurableSet_Ioc hval, ← intervalIntegral.integral_of_le hv.le]
  refine intervalIntegral.intervalIntegral_pos_of_pos (Continuous.intervalIntegrable (by fun_prop) _ _)
    (fun s => ?_) hv
  have hgT : p.gammaT ≠ 0 := by rw [hp]; exact hγT
  positivity

example : 0 < exRgpcm.gamma ∧ exRgpcm.gammaT ≠ 0 ∧ exRgpcm.tU.Nodup := by
  norm_num [exRgpcm]

end Gpcm.Rgpcm
