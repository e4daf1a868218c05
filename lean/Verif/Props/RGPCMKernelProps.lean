import Verif.Props.RGPCMIntProps

/-! # Properties C67 and C69 for the RGPCM: stationarity, and the index convention -/

open MeasureTheory Real Set

namespace Gpcm.Rgpcm

variable (g : RgpcmModel)

/-! ## C67 -/

theorem iuxEntry_shift (t1 t2 s u1 u2 : ℝ) : g.iuxEntry (t1 + s) (t2 + s) u1 u2 = g.iuxEntry t1 t2 u1 u2 := by
  unfold RgpcmModel.iuxEntry
  simp only
  split
  · rfl
  · rename_i h
    have hc : g.gamma - g.alpha ≠ 0 := fun h' => h (.inl h')
    rw [integralAbcdLu_eq hc, integralAbcdLu_eq hc, show -(t1 + s) = -t1 - s by ring,
      show u2 - (t1 + s) = u2 - t1 - s by ring, show -(t2 + s) = -t2 - s by ring,
      show u1 - (t2 + s) = u1 - t2 - s by ring]
    simp only [absP_shift]
    have : exp (-g.gamma * (u1 + u2) + (g.gamma - g.alpha) * (t1 + s + (t2 + s))) *
        exp (-(2 * (g.gamma - g.alpha) * s)) =
        exp (-g.gamma * (u1 + u2) + (g.gamma - g.alpha) * (t1 + t2)) := by
      rw [← exp_add]
      congr 1
      ring
    rw [← this]
    congr 1
    ring

theorem iuxEntry_swap (t1 t2 u1 u2 : ℝ) : g.iuxEntry t2 t1 u2 u1 = g.iuxEntry t1 t2 u1 u2 := by
  unfold RgpcmModel.iuxEntry
  simp only
  split
  · rfl
  · rename_i h
    have hc : g.gamma - g.alpha ≠ 0 := fun h' => h (.inl h')
    rw [integralAbcdLu_eq hc, integralAbcdLu_eq hc, add_comm u2 u1, add_comm t2 t1,
      absP_symm _ _ (u1 - t2) (u2 - t1), absP_symm _ _ (-t2) (u2 - t1), absP_symm _ _ (u1 - t2) (-t1),
      absP_symm _ _ (-t2) (-t1)]
    congr 1
    ring

theorem ihx_shift (t1 t2 s : ℝ) : g.ihx (t1 + s) (t2 + s) = g.ihx t1 t2 := by
  unfold RgpcmModel.ihx
  rw [add_sub_add_right_eq_sub]

theorem ihx_symm (t1 t2 : ℝ) : g.ihx t1 t2 = g.ihx t2 t1 := by
  unfold RgpcmModel.ihx
  rw [abs_sub_comm]

/-- **C67** (RGPCM) Shifting both inputs does not change the sampled kernel. -/
theorem c67_shift_rgpcm (C : CholOracle (Fin g.tU.length)) (t1 t2 : List ℝ) (s : ℝ)
    (u : Fin g.tU.length → ℝ) :
    g.kernelApprox C (t1.map (· + s)) (t2.map (· + s)) u = g.kernelApprox C t1 t2 u := by
  have hmap : ∀ {β : Type} (f : ℝ → Except PyErr β) (l : List ℝ),
      mapE f (l.map (· + s)) = mapE (fun x => f (x + s)) l := fun f l => by
    induction l with
    | nil => rfl
    | cons x l ih => simp only [List.map_cons, mapE, ih]
  unfold RgpcmModel.kernelApprox
  rw [hmap]
  simp only [hmap, iuxEntry_shift, ihx_shift]

/-- The value of the kernel where it does not divide by zero. -/
theorem kernelApprox_eq (h1 : g.gamma ≠ g.alpha) (h2 : (g.gamma - g.alpha) ^ 2 ≠ g.lam ^ 2)
    (C : CholOracle (Fin g.tU.length)) (u : Fin g.tU.length → ℝ) :
    ∃ I : ℝ → ℝ → Matrix (Fin g.tU.length) (Fin g.tU.length) ℝ,
      (∀ a b i j, g.iuxEntry a b (g.tU.get i) (g.tU.get j) = .ok (I a b i j)) ∧ ∀ t1 t2,
      g.kernelApprox C t1 t2 u = .ok (t1.map fun a => t2.map fun b =>
        kernelEntry C g.computeKu (g.ihx a b) (I a b) u) := by
  have hc : ¬ (g.gamma - g.alpha = 0 ∨ (g.gamma - g.alpha) ^ 2 - g.lam ^ 2 = 0) := by
    rintro (h | h)
    exacts [h1 (sub_eq_zero.1 h), h2 (sub_eq_zero.1 h)]
  refine ⟨fun a b => .of fun i j => g.alphaT ^ 2 * g.gammaT ^ 2 *
    exp (-g.gamma * (g.tU.get i + g.tU.get j) + (g.gamma - g.alpha) * (a + b)) *
      RgpcmModel.integralAbcdLu (-a) (g.tU.get j - a) (-b) (g.tU.get i - b) (g.gamma - g.alpha) g.lam,
    fun a b i j => ?_, fun t1 t2 => ?_⟩
  · unfold RgpcmModel.iuxEntry
    simp only
    rw [if_neg hc]
    rfl
  · unfold RgpcmModel.kernelApprox
    refine mapE_eq_map fun a _ => mapE_eq_map fun b _ => ?_
    rw [matE_ok (M := .of fun i j => g.alphaT ^ 2 * g.gammaT ^ 2 *
      exp (-g.gamma * (g.tU.get i + g.tU.get j) + (g.gamma - g.alpha) * (a + b)) *
      RgpcmModel.integralAbcdLu (-a) (g.tU.get j - a) (-b) (g.tU.get i - b) (g.gamma - g.alpha) g.lam)]
    · rfl
    · intro i j
      unfold RgpcmModel.iuxEntry
      simp only
      rw [if_neg hc]
      rfl

/-- **C67** (RGPCM) For every sample of `u` there is an even function of the lag that gives the kernel matrix
for all inputs. -/
theorem c67_stationary_rgpcm (h1 : g.gamma ≠ g.alpha) (h2 : (g.gamma - g.alpha) ^ 2 ≠ g.lam ^ 2)
    (C : CholOracle (Fin g.tU.length)) (u : Fin g.tU.length → ℝ) :
    ∃ k : ℝ → ℝ, (∀ x, k (-x) = k x) ∧ ∀ t1 t2,
      g.kernelApprox C t1 t2 u = .ok (t1.map fun a => t2.map fun b => k (a - b)) := by
  obtain ⟨I, hI, hk⟩ := kernelApprox_eq g h1 h2 C u
  have hIs : ∀ a b s, I (a + s) (b + s) = I a b := fun a b s => by
    ext i j
    have := hI (a + s) (b + s) i j
    rw [iuxEntry_shift, hI a b i j] at this
    exact (Except.ok.inj this).symm
  have hIt : ∀ a b, I b a = (I a b).transpose := fun a b => by
    ext i j
    have := hI b a i j
    rw [iuxEntry_swap g a b, hI a b j i] at this
    exact (Except.ok.inj this).symm
  obtain ⟨e, he⟩ : ∃ e : ℝ → ℝ → ℝ, e = fun a b => kernelEntry C g.computeKu (g.ihx a b) (I a b) u := ⟨_, rfl⟩
  have hshift : ∀ a b s, e (a + s) (b + s) = e a b := fun a b s => by
    simp only [he, ihx_shift, hIs]
  have hsymm : ∀ a b, e a b = e b a := fun a b => by
    simp only [he]
    rw [ihx_symm, hIt a b]
    exact ((c41_symmetric_part C _ _ _ u).1).symm
  refine ⟨fun x => e x 0, fun x => ?_, fun t1 t2 => ?_⟩
  · show e (-x) 0 = e x 0
    rw [← hshift (-x) 0 x, neg_add_cancel, zero_add, hsymm]
  · have : ∀ a b, e (a - b) 0 = e a b := fun a b => by rw [← hshift (a - b) 0 b, sub_add_cancel, zero_add]
    rw [hk]
    simp only [this]
    simp only [he]

/-! ## C69 -/

/-- The hypotheses can be met. -/
example (C : CholOracle (Fin exRgpcm.tU.length)) (u : Fin exRgpcm.tU.length → ℝ) : ∃ k : ℝ → ℝ, (∀ x, k (-x) = k x) ∧ ∀ t1 t2,
    exRgpcm.kernelApprox C t1 t2 u = .ok (t1.map fun a => t2.map fun b => k (a - b)) :=
  c67_stationary_rgpcm exRgpcm (by norm_num [exRgpcm]) (by norm_num [exRgpcm]) C u

theorem absP_le {c d x y : ℝ} (h : x ≤ y) : absP c d x y =
    exp ((c + d) * x + (c - d) * y) - d / (2 * c) * (exp (2 * c * x) - exp (2 * c * y)) := by
  rw [absP, absE_le h, min_eq_left h, max_eq_right h]

/-- **C69** is false as stated: `compute_I_ux` pairs the first time with the second inducing point, so for
different times it is not the integral in the convention of the GPCM. -/
theorem c69_false : ∃ (g : RgpcmModel) (t1 t2 u1 u2 : ℝ), 0 < g.gamma ∧ g.gamma < g.alpha ∧ 0 < g.lam ∧
    0 ≤ u1 ∧ 0 ≤ u2 ∧ ∃ v, g.iuxEntry t1 t2 u1 u2 = .ok v ∧ v ≠ Spec.R.iux (specOf g) t1 t2 u1 u2 := by
  refine ⟨exRgpcm, 2, 0, 1, 2, by norm_num [exRgpcm], by norm_num [exRgpcm], by norm_num [exRgpcm],
    by norm_num, by norm_num, _, c69_transposed_partial exRgpcm (by norm_num [exRgpcm])
      (by norm_num [exRgpcm]) 2 0 (by norm_num) (by norm_num), ?_⟩
  rw [spec_iux_eq _ 2 0 (by norm_num) (by norm_num), spec_iux_eq _ 2 0 (by norm_num) (by norm_num),
    double_absE (by norm_num [specOf, exRgpcm]) (by norm_num [specOf, exRgpcm]),
    double_absE (by norm_num [specOf, exRgpcm]) (by norm_num [specOf, exRgpcm])]
  simp only [specOf, exRgpcm]
  rw [add_comm (2 : ℝ) 1]
  intro h
  have hpos : (1 : ℝ) ^ 2 * 1 ^ 2 * exp (-1 * (1 + 2) + (1 - 2) * (2 + 0)) ≠ 0 := by positivity
  have h := mul_left_cancel₀ hpos h
  rw [div_left_inj' (by norm_num)] at h
  rw [absP_le (by norm_num), absP_le (by norm_num), absP_le (by norm_num), absP_le (by norm_num),
    absP_le (by norm_num), absP_le (by norm_num), absP_le (by norm_num)] at h
  norm_num at h
  obtain ⟨z, hz⟩ : ∃ z, z = exp (-2) := ⟨_, rfl⟩
  have hz1 : z < 1 / 2 := by
    have := add_one_le_exp (2 : ℝ)
    rw [hz, exp_neg, inv_lt_comm₀ (exp_pos 2) (by norm_num)]
    linarith
  have hz0 : 0 < z := hz ▸ exp_pos _
  have e4 : exp (-4) = z ^ 2 := by rw [hz, ← exp_nat_mul]; norm_num
  have e8 : exp (-8) = z ^ 4 := by rw [hz, ← exp_nat_mul]; norm_num
  have e10 : exp (-10) = z ^ 5 := by rw [hz, ← exp_nat_mul]; norm_num
  have e12 : exp (-12) = z ^ 6 := by rw [hz, ← exp_nat_mul]; norm_num
  simp only [e4, e8, e10, e12, ← hz] at h
  have h2 : z ^ 2 < 1 / 4 := by nlinarith
  have h5 : 0 < z ^ 5 := by positivity
  have h6 : z ^ 6 ≤ z ^ 4 := by
    have : z ^ 6 = z ^ 4 * z ^ 2 := by ring
    rw [this]
    exact mul_le_of_le_one_right (by positivity) (by linarith)
  linarith

end Gpcm.Rgpcm
