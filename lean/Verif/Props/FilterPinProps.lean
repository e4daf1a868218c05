import Verif.Props.FilterProps

/-!
# Property C170: the predicted filter at and between the inducing inputs
-/

open Matrix Real

namespace Gpcm

section
variable {ι κ : Type} [Fintype ι] [DecidableEq ι] [Fintype κ] [DecidableEq κ]

/-- Completing the square: a lower bound on a quadratic form of an inverse. -/
theorem inv_quad_ge {K : Matrix ι ι ℝ} (hK : K.PosDef) (b c : ι → ℝ) :
    2 * (c ⬝ᵥ b) - c ⬝ᵥ (K *ᵥ c) ≤ b ⬝ᵥ (K⁻¹ *ᵥ b) := by
  have hu := posDef_isUnit_det hK
  have h := hK.posSemidef.dotProduct_mulVec_nonneg (c - K⁻¹ *ᵥ b)
  have hs : Kᵀ = K := posDef_symm hK
  have hsi : (K⁻¹)ᵀ = K⁻¹ := by rw [transpose_nonsing_inv, hs]
  have e1 : K *ᵥ (K⁻¹ *ᵥ b) = b := by rw [mulVec_mulVec, mul_nonsing_inv _ hu, one_mulVec]
  have e2 : (K⁻¹ *ᵥ b) ⬝ᵥ (K *ᵥ c) = b ⬝ᵥ c := by
    rw [dotProduct_mulVec, ← mulVec_transpose, hs, e1]
  rw [star_trivial, mulVec_sub, e1, sub_dotProduct, dotProduct_sub, dotProduct_sub, e2, dotProduct_comm b c,
    dotProduct_comm (K⁻¹ *ᵥ b) b] at h
  linarith

omit [Fintype κ] [DecidableEq κ] in
/-- What the inducing variables leave open at a time is at most the variance of the difference to any single inducing variable. -/
theorem condCov_le {jitter : ℝ} {k : ℝ → ℝ → ℝ} (hk : ∀ x y, k x y = k y x) {tU : ι → ℝ} (tH : κ → ℝ)
    (hK : (gramMat k tU tU + jitter • 1).PosDef) (j : κ) (i : ι) :
    condCov jitter k tU tH j j ≤ k (tH j) (tH j) + k (tU i) (tU i) - 2 * k (tH j) (tU i) + jitter := by
  have h := inv_quad_ge hK (fun a => k (tU a) (tH j)) (Pi.single i 1)
  have e1 : (Pi.single i 1 : ι → ℝ) ⬝ᵥ (fun a => k (tU a) (tH j)) = k (tH j) (tU i) := by
    rw [single_one_dotProduct, hk]
  have e2 : (Pi.single i 1 : ι → ℝ) ⬝ᵥ ((gramMat k tU tU + jitter • 1) *ᵥ Pi.single i 1) = k (tU i) (tU i) + jitter := by
    rw [single_one_dotProduct, mulVec_single_one]
    simp [gramMat]
  have e3 : condCov jitter k tU tH j j = k (tH j) (tH j) -
      (fun a => k (tU a) (tH j)) ⬝ᵥ ((gramMat k tU tU + jitter • 1)⁻¹ *ᵥ fun a => k (tU a) (tH j)) := by
    rw [condCov, Matrix.sub_apply, Matrix.mul_assoc]
    congr 1
    rw [Matrix.mul_apply]
    refine Finset.sum_congr rfl fun a _ => ?_
    simp only [gramMat, of_apply, Matrix.mul_apply, mulVec, dotProduct]
    rw [hk]
  rw [e1, e2] at h
  rw [e3]
  linarith

/-- **C170** Around the value that the sampled inducing variables predict, sampled filters have the variance that the inducing variables
leave open. -/
theorem c170_spread (C : CholOracle ι) {fac : Matrix κ κ ℝ → Matrix κ κ ℝ} (jitter : ℝ) (k : ℝ → ℝ → ℝ) (Ku : Matrix ι ι ℝ)
    (p : NatNormal ι) (tU : ι → ℝ) (tH : κ → ℝ)
    (hfac : fac (condCov jitter k tU tH) * (fac (condCov jitter k tU tH))ᵀ = condCov jitter k tU tH) (w : ι → ℝ) (j : κ) :
    Spec.Avg (fun e => sampleH C fac jitter k Ku p tU tH w e j) (condMean jitter k tU tH (Ku *ᵥ p.sample C w) j) ∧
    Spec.Avg (fun e => (sampleH C fac jitter k Ku p tU tH w e j - condMean jitter k tU tH (Ku *ᵥ p.sample C w) j) ^ 2)
      (condCov jitter k tU tH j j) := by
  constructor
  · exact avg_linear _ (fac (condCov jitter k tU tH) j)
  · have h := avg_quad (κ := κ) 0 0 (fac (condCov jitter k tU tH) j) (fac (condCov jitter k tU tH) j)
    have e : condCov jitter k tU tH j j = fac (condCov jitter k tU tH) j ⬝ᵥ fac (condCov jitter k tU tH) j := by
      conv_lhs => rw [← hfac]
      simp [Matrix.mul_apply, dotProduct]
    rw [e]
    convert h using 2 with e
    · simp [sampleH, mulVec, pow_two]
    · simp

/-- **C170** At an inducing input, every sampled filter takes the value of the sampled inducing variable. -/
theorem c170_interpolates_partial (C : CholOracle ι) {fac : Matrix κ κ ℝ → Matrix κ κ ℝ} {k : ℝ → ℝ → ℝ} (hk : ∀ x y, k x y = k y x)
    (Ku : Matrix ι ι ℝ) (p : NatNormal ι) {tU : ι → ℝ} {tH : κ → ℝ} (hK : (gramMat k tU tU).PosDef)
    (hfac : fac (condCov 0 k tU tH) * (fac (condCov 0 k tU tH))ᵀ = condCov 0 k tU tH) {j : κ} {i : ι} (hji : tH j = tU i)
    (w : ι → ℝ) (e : κ → ℝ) : sampleH C fac 0 k Ku p tU tH w e j = (Ku *ᵥ p.sample C w) i := by
  obtain ⟨u, hu⟩ : ∃ u, u = Ku *ᵥ p.sample C w := ⟨_, rfl⟩
  have hunit := posDef_isUnit_det hK
  have h0 : condCov 0 k tU tH j j ≤ 0 := by
    have := condCov_le hk tH (jitter := 0) (by rw [zero_smul, add_zero]; exact hK) j i
    rw [hji] at this
    linarith
  obtain ⟨L, hL⟩ : ∃ L, L = fac (condCov 0 k tU tH) := ⟨_, rfl⟩
  rw [← hL] at hfac
  have hrow : ∀ a, L j a = 0 := by
    have h1 : ∑ a, L j a * L j a ≤ 0 := by
      rw [← hfac] at h0
      simpa [Matrix.mul_apply] using h0
    have h2 := (Finset.sum_eq_zero_iff_of_nonneg fun a _ => mul_self_nonneg (L j a)).1
      (le_antisymm h1 (Finset.sum_nonneg fun a _ => mul_self_nonneg (L j a)))
    exact fun a => mul_self_eq_zero.1 (h2 a (Finset.mem_univ a))
  have hmean : condMean 0 k tU tH u j = u i := by
    have e1 : gramMat k tU tU *ᵥ ((gramMat k tU tU + (0 : ℝ) • 1)⁻¹ *ᵥ u) = u := by
      rw [zero_smul, add_zero, mulVec_mulVec, mul_nonsing_inv _ hunit, one_mulVec]
    rw [← congrFun e1 i, condMean]
    simp only [mulVec, dotProduct, gramMat, of_apply, hji]
  have hz : (L *ᵥ e) j = 0 := by simp [mulVec, dotProduct, hrow]
  simp only [sampleH]
  rw [← hu, ← hL, Pi.add_apply, hmean, hz, add_zero]

end

/-! ## How far the kernels of the models let the filter move -/

theorem exp_sub_exp_sq {f : ℝ → ℝ} {L x y : ℝ} (hL : ∀ a b, |f a - f b| ≤ L * |a - b|) (q : ℝ) (hq : 0 ≤ q)
    (hf : ∀ a, 0 ≤ f a ∧ f a ≤ 1) :
    f x * f x + f y * f y - 2 * (exp (-q) * (f x * f y)) ≤ L ^ 2 * (x - y) ^ 2 + 2 * q := by
  have h1 : (f x - f y) ^ 2 ≤ L ^ 2 * (x - y) ^ 2 := by
    have := pow_le_pow_left₀ (abs_nonneg _) (hL x y) 2
    rwa [sq_abs, mul_pow, sq_abs] at this
  have h2 : 1 - exp (-q) ≤ q := by linarith [add_one_le_exp (-q)]
  have h3 : f x * f y * (1 - exp (-q)) ≤ q := by
    have h4 : f x * f y ≤ 1 := mul_le_one₀ (hf x).2 (hf y).1 (hf y).2
    have h5 : 0 ≤ 1 - exp (-q) := by linarith [exp_le_one_iff.2 (show -q ≤ 0 by linarith)]
    nlinarith [mul_nonneg (hf x).1 (hf y).1]
  nlinarith

/-- The Gaussian window is Lipschitz. -/
theorem gaussWindow_lipschitz {α : ℝ} (hα : 0 ≤ α) (a b : ℝ) :
    |exp (-α * a ^ 2) - exp (-α * b ^ 2)| ≤ √(2 * α) * |a - b| := by
  have hd : ∀ x : ℝ, HasDerivAt (fun x => exp (-α * x ^ 2)) (exp (-α * x ^ 2) * (-α * (2 * x))) x := fun x => by
    have := ((hasDerivAt_pow 2 x).const_mul (-α)).exp
    refine this.congr_deriv ?_
    norm_num
  have hb : ∀ x : ℝ, ‖exp (-α * x ^ 2) * (-α * (2 * x))‖ ≤ √(2 * α) := fun x => by
    rw [Real.norm_eq_abs, abs_mul, abs_of_pos (exp_pos _), neg_mul, exp_neg]
    rw [inv_mul_le_iff₀ (exp_pos _)]
    have h1 := add_one_le_exp (α * x ^ 2)
    have hs := Real.sq_sqrt (show 0 ≤ 2 * α by positivity)
    have h0 := Real.sqrt_nonneg (2 * α)
    obtain ⟨r, hr⟩ : ∃ r, r = √(2 * α) := ⟨_, rfl⟩
    rw [← hr] at hs h0 ⊢
    have h2 : |-α * (2 * x)| = r * (r * |x|) := by
      rw [abs_mul, abs_neg, abs_of_nonneg hα, abs_mul, abs_two]
      linear_combination (-|x|) * hs
    rw [h2, mul_comm (exp _)]
    refine mul_le_mul_of_nonneg_left ?_ h0
    have h3 : α * x ^ 2 = (r * |x|) ^ 2 / 2 := by
      rw [mul_pow, hs, sq_abs]
      ring
    nlinarith [sq_nonneg (r * |x| - 1)]
  have := Convex.norm_image_sub_le_of_norm_hasDerivWithin_le (fun x _ => (hd x).hasDerivWithinAt) (fun x _ => hb x) convex_univ
    (Set.mem_univ b) (Set.mem_univ a)
  simpa [Real.norm_eq_abs] using this

/-- The exponential window is Lipschitz. -/
theorem expWindow_lipschitz {α : ℝ} (hα : 0 ≤ α) (a b : ℝ) : |exp (-α * |a|) - exp (-α * |b|)| ≤ α * |a - b| := by
  have key : ∀ x y : ℝ, 0 ≤ x → 0 ≤ y → x ≤ y → exp (-α * x) - exp (-α * y) ≤ α * (y - x) := fun x y hx hy hxy => by
    have e : exp (-α * y) = exp (-α * x) * exp (-(α * (y - x))) := by rw [← exp_add]; ring_nf
    have h1 := add_one_le_exp (-(α * (y - x)))
    have h2 : exp (-α * x) ≤ 1 := exp_le_one_iff.2 (by nlinarith)
    have h3 : 0 ≤ α * (y - x) := mul_nonneg hα (by linarith)
    have h4 := exp_pos (-α * x)
    rw [e]
    have h5 : 1 - exp (-(α * (y - x))) ≤ α * (y - x) := by linarith
    have h6 : 0 ≤ 1 - exp (-(α * (y - x))) := by linarith [exp_le_one_iff.2 (show -(α * (y - x)) ≤ 0 by linarith)]
    nlinarith
  have mono : ∀ x y : ℝ, x ≤ y → exp (-α * y) ≤ exp (-α * x) := fun x y h => exp_le_exp.2 (by nlinarith)
  have hab := abs_abs_sub_abs_le a b
  rcases le_total |a| |b| with h | h
  · rw [abs_of_nonneg (by linarith [mono _ _ h])]
    refine (key _ _ (abs_nonneg _) (abs_nonneg _) h).trans (mul_le_mul_of_nonneg_left ?_ hα)
    rw [abs_sub_comm, abs_of_nonneg (by linarith)] at hab
    exact hab
  · rw [abs_sub_comm, abs_of_nonneg (by linarith [mono _ _ h])]
    refine (key _ _ (abs_nonneg _) (abs_nonneg _) h).trans (mul_le_mul_of_nonneg_left ?_ hα)
    rw [abs_of_nonneg (by linarith)] at hab
    exact hab

/-- **C170** (GPCM, and CGPCM at times and inducing inputs that are not negative). At a distance `δ` from an inducing input, sampled
filters have a variance of at most `(2 * alpha + 2 * gamma) * δ ** 2` plus the jitter around the value that the sampled inducing variables
predict. -/
theorem c170_gpcm (g : GpcmModel) (hα : 0 ≤ g.alpha) (hγ : 0 < g.gamma) {κ : Type} (tH : κ → ℝ) {jitter : ℝ}
    (hK : (gramMat g.filterKernel g.tU.get g.tU.get + jitter • 1).PosDef) (j : κ) (i : Fin g.tU.length)
    (hc : g.causal = false ∨ (0 ≤ tH j ∧ 0 ≤ g.tU.get i)) :
    condCov jitter g.filterKernel g.tU.get tH j j ≤ (2 * g.alpha + 2 * g.gamma) * (tH j - g.tU.get i) ^ 2 + jitter := by
  refine (condCov_le g.filterKernel_symm tH hK j i).trans ?_
  obtain ⟨x, hx⟩ : ∃ x, x = tH j := ⟨_, rfl⟩
  obtain ⟨y, hy⟩ : ∃ y, y = g.tU.get i := ⟨_, rfl⟩
  rw [← hx, ← hy] at hc ⊢
  have hg : (if g.causal then (if 0 ≤ x then 1 else 0) else (1 : ℝ)) = 1 ∧ (if g.causal then (if 0 ≤ y then 1 else 0) else (1 : ℝ)) = 1 := by
    rcases hc with hc | ⟨h1, h2⟩
    · simp [hc]
    · simp [h1, h2]
  have hs : ∀ a b : ℝ, -(1 / 2) * ((a - b) / √(1 / (2 * g.gamma))) ^ 2 = -(g.gamma * (a - b) ^ 2) := fun a b => by
    rw [div_pow, Real.sq_sqrt (by positivity)]
    field_simp
  have h := exp_sub_exp_sq (x := x) (y := y) (gaussWindow_lipschitz hα) (g.gamma * (x - y) ^ 2) (by positivity) fun a =>
    ⟨(exp_pos _).le, exp_le_one_iff.2 (by nlinarith [mul_nonneg hα (sq_nonneg a)])⟩
  rw [Real.sq_sqrt (by positivity)] at h
  have hk : ∀ a b, (if g.causal then (if 0 ≤ a then 1 else 0) else (1 : ℝ)) = 1 → (if g.causal then (if 0 ≤ b then 1 else 0) else (1 : ℝ)) = 1 →
      g.filterKernel a b = exp (-(g.gamma * (a - b) ^ 2)) * (exp (-g.alpha * a ^ 2) * exp (-g.alpha * b ^ 2)) := fun a b ga gb => by
    unfold GpcmModel.filterKernel
    dsimp only
    rw [hs, ga, gb, mul_one, mul_one]
  rw [hk x x hg.1 hg.1, hk y y hg.2 hg.2, hk x y hg.1 hg.2, sub_self, sub_self]
  rw [show g.gamma * (0 : ℝ) ^ 2 = 0 by ring, neg_zero, exp_zero, one_mul, one_mul]
  linarith

/-- **C170** (RGPCM, at times and inducing inputs that are not negative). The filter of the RGPCM is rougher: the variance is at most
linear in the distance to an inducing input. -/
theorem c170_rgpcm (g : RgpcmModel) (hα : 0 ≤ g.alpha) (hl : 0 < g.lam) {κ : Type} (tH : κ → ℝ) {jitter : ℝ}
    (hK : (gramMat g.filterKernel g.tU.get g.tU.get + jitter • 1).PosDef) (j : κ) (i : Fin g.tU.length)
    (hc : 0 ≤ tH j ∧ 0 ≤ g.tU.get i) :
    condCov jitter g.filterKernel g.tU.get tH j j ≤
      g.alpha ^ 2 * (tH j - g.tU.get i) ^ 2 + 2 * (g.lam * |tH j - g.tU.get i|) + jitter := by
  have hsym : ∀ x y, g.filterKernel x y = g.filterKernel y x := fun x y => by
    unfold RgpcmModel.filterKernel
    simp only
    rw [← neg_sub y x, neg_div, abs_neg]
    ring
  refine (condCov_le hsym tH hK j i).trans ?_
  obtain ⟨x, hx⟩ : ∃ x, x = tH j := ⟨_, rfl⟩
  obtain ⟨y, hy⟩ : ∃ y, y = g.tU.get i := ⟨_, rfl⟩
  rw [← hx, ← hy] at hc ⊢
  have hs : ∀ a b : ℝ, -|(a - b) / (1 / g.lam)| = -(g.lam * |a - b|) := fun a b => by
    rw [div_div_eq_mul_div, div_one, abs_mul, abs_of_pos hl, mul_comm]
  have h := exp_sub_exp_sq (x := x) (y := y) (expWindow_lipschitz hα) (g.lam * |x - y|) (by positivity) fun a =>
    ⟨(exp_pos _).le, exp_le_one_iff.2 (by nlinarith [mul_nonneg hα (abs_nonneg a)])⟩
  have hk : ∀ a b, 0 ≤ a → 0 ≤ b →
      g.filterKernel a b = exp (-(g.lam * |a - b|)) * (exp (-g.alpha * |a|) * exp (-g.alpha * |b|)) := fun a b ga gb => by
    unfold RgpcmModel.filterKernel
    dsimp only
    rw [hs, if_pos ga, if_pos gb, mul_one, mul_one]
  rw [hk x x hc.1 hc.1, hk y y hc.2 hc.2, hk x y hc.1 hc.2, sub_self, sub_self]
  rw [abs_zero, mul_zero, neg_zero, exp_zero, one_mul, one_mul]
  linarith

/-- **C170 is false** for the CGPCM at negative inducing inputs, which it has: there sampled filters are zero whatever the inducing
variables are, here with a posterior whose inducing variable is not zero. -/
theorem c170_causal_false (R : Runtime ℝ) : ∃ (a : GpcmArgs) (g : GpcmModel), GpcmModel.new a = .ok g ∧ g.causal = true ∧
    ∃ Ku, g.computeKu R = .ok (rows Ku) ∧ ∃ (i : Fin g.tU.length) (p : NatNormal (Fin g.tU.length)), p.prec.PosDef ∧
      ∀ (C : CholOracle (Fin g.tU.length)) (jitter : ℝ), ∃ fac : Matrix Unit Unit ℝ → Matrix Unit Unit ℝ,
        fac (condCov jitter g.filterKernel g.tU.get fun _ => g.tU.get i) * (fac (condCov jitter g.filterKernel g.tU.get fun _ => g.tU.get i))ᵀ =
          condCov jitter g.filterKernel g.tU.get (fun _ => g.tU.get i) ∧
        ∃ w, ∀ e, sampleH C fac jitter g.filterKernel Ku p g.tU.get (fun _ => g.tU.get i) w e () ≠ (Ku *ᵥ p.sample C w) i := by
  obtain ⟨g, hg, hm, -, -, hc, hγ, ht⟩ := witness_moderate true
  have ha : g.alphaT ≠ 0 := hm.alphaT
  have hu : g.tU.Nodup := by rw [ht]; norm_num
  have hK : g.computeKu R = .ok (rows (gramMat (Spec.kH g.params) g.tU.get g.tU.get)) := by
    rw [c65_K_u, map_rows]
    rfl
  have hpd : (gramMat (Spec.kH g.params) g.tU.get g.tU.get).PosDef :=
    ku_posDef g.tU.get (p := g.params) hγ ha (List.nodup_iff_injective_get.1 hu)
  obtain ⟨i, hi⟩ : ∃ i : Fin g.tU.length, g.tU.get i < 0 := ⟨⟨0, by rw [ht]; norm_num⟩, by simp [ht]⟩
  have hp : (⟨Pi.single i 1, 1⟩ : NatNormal (Fin g.tU.length)).prec.PosDef := Matrix.PosDef.one
  refine ⟨_, g, hg, hc, _, hK, i, ⟨Pi.single i 1, 1⟩, hp, fun C jitter => ?_⟩
  have h0 : ∀ y, g.filterKernel (g.tU.get i) y = 0 := fun y => by
    rw [g.filterKernel_symm]
    exact g.filterKernel_neg hc y hi
  have hcond : 0 ≤ condCov jitter g.filterKernel g.tU.get (fun _ : Unit => g.tU.get i) () () := by
    rw [condCov, Matrix.sub_apply, Matrix.mul_assoc, Matrix.mul_apply]
    simp only [gramMat, of_apply, h0, zero_mul, Finset.sum_const_zero, sub_self, le_refl]
  obtain ⟨fac, hfac⟩ := exists_fac hcond
  refine ⟨fac, hfac, 0, fun e he => ?_⟩
  rw [c103_causal g hc jitter _ C _ _ hfac 0 e () hi, NatNormal.sample_eq C hp, NatNormal.mean_eq C hp, mulVec_zero, add_zero] at he
  rw [inv_one, one_mulVec, mulVec_single_one] at he
  exact (hpd.diag_pos (i := i)).ne he

theorem GpcmModel.filterGram_posDef' (g : GpcmModel) (hc : g.causal = false) (hγ : 0 < g.gamma) (ha : g.alphaT ≠ 0) (hu : g.tU.Nodup) :
    (gramMat g.filterKernel g.tU.get g.tU.get).PosDef := by
  have hpd := ku_posDef (p := g.params) g.tU.get hγ ha (List.nodup_iff_injective_get.1 hu)
  have e : gramMat g.filterKernel g.tU.get g.tU.get =
      (g.alphaT ^ 2)⁻¹ • Matrix.of fun i j => Spec.kH g.params (g.tU.get i) (g.tU.get j) := by
    ext i j
    simp only [gramMat, of_apply, Matrix.smul_apply, smul_eq_mul]
    exact GpcmModel.filterKernel_eq hc hγ ha _ _
  rw [e]
  exact hpd.smul (by positivity)

/-- **C170** (GPCM, not causal.) At an inducing input, every sampled filter takes the value of the sampled inducing variable. -/
theorem c170_gpcm_interpolates_partial {κ : Type} [Fintype κ] [DecidableEq κ] (g : GpcmModel) (hc : g.causal = false) (hγ : 0 < g.gamma)
    (ha : g.alphaT ≠ 0) (hu : g.tU.Nodup) (Ku : Matrix (Fin g.tU.length) (Fin g.tU.length) ℝ) (C : CholOracle (Fin g.tU.length))
    (p : NatNormal (Fin g.tU.length)) {tH : κ → ℝ} {fac : Matrix κ κ ℝ → Matrix κ κ ℝ}
    (hfac : fac (condCov 0 g.filterKernel g.tU.get tH) * (fac (condCov 0 g.filterKernel g.tU.get tH))ᵀ =
      condCov 0 g.filterKernel g.tU.get tH) {j : κ} {i : Fin g.tU.length} (hji : tH j = g.tU.get i) (w : Fin g.tU.length → ℝ) (e : κ → ℝ) :
    sampleH C fac 0 g.filterKernel Ku p g.tU.get tH w e j = (Ku *ᵥ p.sample C w) i := by
  refine c170_interpolates_partial C g.filterKernel_symm Ku p ?_ hfac hji w e
  exact g.filterGram_posDef' hc hγ ha hu

/-- The hypotheses can be met: a freshly constructed GPCM with three inducing inputs, at the middle one. -/
example : ∃ (a : GpcmArgs) (g : GpcmModel), GpcmModel.new a = .ok g ∧ ∃ i : Fin g.tU.length, ∀ (Ku : Matrix (Fin g.tU.length) (Fin g.tU.length) ℝ)
    (C : CholOracle (Fin g.tU.length)) (p : NatNormal (Fin g.tU.length)), ∃ fac : Matrix Unit Unit ℝ → Matrix Unit Unit ℝ,
      ∀ w e, sampleH C fac 0 g.filterKernel Ku p g.tU.get (fun _ : Unit => g.tU.get i) w e () = (Ku *ᵥ p.sample C w) i := by
  obtain ⟨g, hg, hm, -, -, hc, hγ, ht⟩ := witness_moderate false
  have ha : g.alphaT ≠ 0 := hm.alphaT
  have hu : g.tU.Nodup := by rw [ht]; norm_num
  refine ⟨_, g, hg, ⟨1, by rw [ht]; norm_num⟩, fun Ku C p => ?_⟩
  obtain ⟨i, hi⟩ : ∃ i : Fin g.tU.length, i = ⟨1, by rw [ht]; norm_num⟩ := ⟨_, rfl⟩
  rw [← hi]
  have hcond : 0 ≤ condCov 0 g.filterKernel g.tU.get (fun _ : Unit => g.tU.get i) () () := by
    have e : condCov 0 g.filterKernel g.tU.get (fun _ : Unit => g.tU.get i) () () =
        (gramMat g.filterKernel g.tU.get g.tU.get - gramMat g.filterKernel g.tU.get g.tU.get *
          (gramMat g.filterKernel g.tU.get g.tU.get + (0 : ℝ) • 1)⁻¹ * gramMat g.filterKernel g.tU.get g.tU.get) i i := by
      simp only [condCov, Matrix.sub_apply, Matrix.mul_apply, gramMat, of_apply]
    rw [e, zero_smul, add_zero, mul_nonsing_inv _ (posDef_isUnit_det (g.filterGram_posDef' hc hγ ha hu)), Matrix.one_mul, sub_self]
    exact le_rfl
  obtain ⟨fac, hfac⟩ := exists_fac hcond
  exact ⟨fac, fun w e => c170_gpcm_interpolates_partial g hc hγ ha hu Ku C p hfac rfl w e⟩

end Gpcm
