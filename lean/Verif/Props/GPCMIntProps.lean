import Verif.Props.GPCMGridProps
import Verif.Lemmas.GpcmPsd
import Mathlib.LinearAlgebra.Matrix.Determinant.Basic
import Mathlib.Analysis.Matrix.PosDef

/-! # Properties C63-C66: the kernel integrals of the GPCM and the CGPCM -/

open MeasureTheory Real

namespace Gpcm

variable (R : Runtime ℝ)

/-- Parameters for which the clamp in `safe_sqrt` is inactive. The scales `alpha_t` and `omega_t` are
positive in the code; here it is enough that they are not zero. -/
structure GpcmModel.Moderate (g : GpcmModel) : Prop where
  alphaT : g.alphaT ≠ 0
  omegaT : g.omegaT ≠ 0
  alpha_lo : 1e-10 ≤ g.alpha
  alpha_hi : g.alpha ≤ 1e10
  gamma_lo : 1e-10 ≤ g.alpha + 2 * g.gamma
  gamma_hi : g.alpha + 2 * g.gamma ≤ 1e10
  omega_lo : 1e-10 ≤ g.omega
  omega_hi : g.omega ≤ 1e10

theorem mildNeg_of {x : ℝ} (h1 : 1e-10 ≤ x) (h2 : x ≤ 1e11) : MildNeg (-x) :=
  ⟨by linarith, by rw [neg_neg]; linarith, by rw [neg_neg]; linarith⟩

/-! ## C65 -/

/-- **C65.** `compute_K_u` returns the prior covariance of the filter at the inducing points. -/
theorem c65_K_u (g : GpcmModel) : g.computeKu R =
    .ok (g.tU.map fun a => g.tU.map fun b => Spec.kH g.params a b) :=
  mapE_eq_map fun _ _ => mapE_eq_map fun _ _ => kuEntry_eq g _ _

/-- **C65.** `compute_K_z` returns the covariance of the inter-domain transform. -/
theorem c65_K_z (g : GpcmModel) (h : g.Moderate) : g.computeKz R =
    .ok (g.tZ.map fun a => g.tZ.map fun b => Spec.kz g.params a b) :=
  mapE_eq_map fun _ _ => mapE_eq_map fun _ _ => kzEntry_eq g h.omegaT
    (mildNeg_of (by linarith [h.omega_lo]) (by linarith [h.omega_hi])) _ _

/-- **C65.** `compute_i_hx` returns the prior covariance of the signal. -/
theorem c65_i_hx (g : GpcmModel) (h : g.Moderate) (t1 t2 : ℝ) :
    g.ihx R t1 t2 = .ok (Spec.ihx g.params t1 t2) :=
  ihx_eq g h.alphaT (mildNeg_of (by linarith [h.alpha_lo]) (by linarith [h.alpha_hi])) t1 t2

theorem GpcmModel.Moderate.iux {g : GpcmModel} (h : g.Moderate) :
    MildNeg (-(2 * (g.alpha + g.gamma))) :=
  mildNeg_of (by linarith [h.alpha_lo, h.gamma_lo]) (by linarith [h.alpha_hi, h.gamma_hi])

/-- **C65.** `compute_I_ux` with inputs returns the integrals of products of the filter's covariance. -/
theorem c65_I_ux (g : GpcmModel) (h : g.Moderate) (t1 t2 : List ℝ) : g.computeIux R t1 t2 =
    .ok (t1.map fun a => t2.map fun b => g.tU.map fun u => g.tU.map fun v =>
      Spec.iux g.params a b u v) :=
  mapE_eq_map fun _ _ => mapE_eq_map fun _ _ => mapE_eq_map fun _ _ => mapE_eq_map fun _ _ =>
    iuxEntry_eq g h.alphaT h.iux _ _ _ _

/-- **C65.** `compute_I_ux` without inputs is the same at time zero. -/
theorem c65_I_ux_default (g : GpcmModel) (h : g.Moderate) : g.computeIux0 R =
    .ok (g.tU.map fun u => g.tU.map fun v => Spec.iux g.params 0 0 u v) :=
  mapE_eq_map fun _ _ => mapE_eq_map fun _ _ => iuxEntry_eq g h.alphaT h.iux _ _ _ _

/-- **C65.** `compute_I_hz` returns the double integrals of the filter's covariance against the
inter-domain noise. -/
theorem c65_I_hz (g : GpcmModel) (h : g.Moderate) (t : List ℝ) : g.computeIhz R t =
    .ok (t.map fun a => g.tZ.map fun z1 => g.tZ.map fun z2 => Spec.ihz g.params a z1 z2) :=
  mapE_eq_map fun _ _ => mapE_eq_map fun _ _ => mapE_eq_map fun _ _ =>
    ihzEntry_eq g h.alphaT h.omegaT rfl rfl
      (by linarith [h.alpha_lo, h.omega_lo]) (by linarith [h.alpha_hi, h.omega_hi])
      (by linarith [h.gamma_lo, h.omega_lo]) (by linarith [h.gamma_hi, h.omega_hi]) _ _ _

/-- **C65.** `compute_I_uz` returns the integrals of the filter's covariance against the inter-domain
noise. -/
theorem c65_I_uz (g : GpcmModel) (h : g.Moderate) (t : List ℝ) : g.computeIuz R t =
    .ok (t.map fun a => g.tU.map fun u => g.tZ.map fun z => Spec.iuz g.params a u z) :=
  mapE_eq_map fun _ _ => mapE_eq_map fun _ _ => mapE_eq_map fun _ _ =>
    iuzEntry_eq g h.alphaT h.omegaT (mildNeg_of
      (by linarith [h.alpha_lo, h.gamma_lo, h.omega_lo])
      (by linarith [h.alpha_hi, h.gamma_hi, h.omega_hi])) _ _ _

theorem scaleToFactor_range {s : ℝ} (h1 : 1e-4 ≤ s) (h2 : s ≤ 1e4) :
    1e-9 ≤ scaleToFactor s ∧ scaleToFactor s ≤ 1e9 := by
  have hs : 0 < s := by linarith
  have h3 := Real.pi_gt_three
  have h4 := Real.pi_lt_four
  unfold scaleToFactor
  rw [div_div, le_div_iff₀ (by positivity), div_le_iff₀ (by positivity)]
  have : s ^ 2 ≤ 1e4 ^ 2 := by gcongr
  have : (1e-4 : ℝ) ^ 2 ≤ s ^ 2 := by gcongr
  constructor <;> norm_num at * <;> nlinarith

/-- **C65.** The parameters that the constructor chooses are moderate when the window, the length scale
and half the spacing of the inducing points are between `1e-4` and `1e4`. So the theorems above apply to
freshly constructed models. -/
theorem c65_default_moderate {a : GpcmArgs} {g : GpcmModel} (h : GpcmModel.new a = .ok g)
    (h1 : a.alpha = none) (h2 : a.alphaT = none) (h3 : a.gamma = none) (h4 : a.omega = none) {w s : ℝ}
    (hw : a.window = some w) (hs : a.scale = some s) (w1 : 1e-4 ≤ w) (w2 : w ≤ 1e4) (s1 : 1e-4 ≤ s)
    (s2 : s ≤ 1e4)
    (hz : ∀ z0 z1 : ℝ, g.tZ[0]? = some z0 → g.tZ[1]? = some z1 → 2e-4 ≤ z1 - z0 ∧ z1 - z0 ≤ 2e4) :
    g.Moderate := by
  obtain ⟨ha, hg, -, -, ho, hat, hot, -⟩ := GpcmModel.new_ok h
  unfold initAlpha at ha
  rw [h1, hw] at ha
  unfold initGamma at hg
  rw [h3, hs] at hg
  have ha : scaleToFactor w = g.alpha := Except.ok.inj ha
  have hg : scaleToFactor s - 0.5 * g.alpha = g.gamma := Except.ok.inj hg
  have ⟨a1, a2⟩ := scaleToFactor_range w1 w2
  have ⟨b1, b2⟩ := scaleToFactor_range s1 s2
  obtain ⟨o1, o2⟩ : 1e-9 ≤ g.omega ∧ g.omega ≤ 1e9 := by
    unfold initOmega at ho
    rw [h4] at ho
    dsimp only at ho
    match hl : g.tZ, ho, hz with
    | z0 :: z1 :: l, ho, hz =>
      obtain ⟨q1, q2⟩ := hz z0 z1 rfl rfl
      rw [← Except.ok.inj ho]
      exact scaleToFactor_range (by linarith) (by linarith)
  have ha0 : 0 < g.alpha := by linarith
  have ho0 : 0 < g.omega := by linarith
  refine ⟨?_, ?_, by linarith, by linarith, by linarith, by linarith, by linarith, by linarith⟩
  · rw [hat]
    unfold initAlphaT
    rw [h2]
    dsimp only
    split_ifs <;> exact (rpow_pos_of_pos (by positivity) _).ne'
  · rw [hot]
    exact (rpow_pos_of_pos (by positivity) _).ne'

theorem toNat3 : Int.toNat 3 = 3 := rfl

/-- A model with default parameters to which the theorems apply. -/
theorem witness_moderate (causal : Bool) : ∃ g : GpcmModel,
    GpcmModel.new { witnessArgs causal 1 1 with nU := some 3 } = .ok g ∧ g.Moderate ∧ g.tZ = [0, 1] ∧
      g.omega = scaleToFactor 0.5 ∧ g.causal = causal ∧ 0 < g.gamma ∧
      g.tU = if causal then [-2, -1, 0, 1, 2] else [-2, 0, 2] := by
  have hu : initTU { witnessArgs causal 1 1 with nU := some 3 } (scaleToFactor 1) =
      .ok (if causal then (5, [-2, -1, 0, 1, 2]) else (3, [-2, 0, 2])) := by
    cases causal <;> simp [initTU, witnessArgs, autoNU, bind1] <;>
      norm_num [linspace, List.range_succ, c58_inverse.2.2.1, toNat5, toNat3]
  have hg := GpcmModel.new_of (a := { witnessArgs causal 1 1 with nU := some 3 }) (al := scaleToFactor 1)
    (ga := scaleToFactor 1 - 0.5 * scaleToFactor 1) (om := scaleToFactor 0.5) (z := (2, [0, 1]))
    (z0 := (2, [0, 1])) rfl rfl hu (witness_tz causal 1 1) rfl (by simp [initOmega, witnessArgs])
  refine ⟨_, hg, c65_default_moderate hg rfl rfl rfl rfl rfl rfl (by norm_num) (by norm_num)
    (by norm_num) (by norm_num) ?_, rfl, rfl, rfl, ?_, ?_⟩
  · rintro z0 z1 ⟨⟩ ⟨⟩
    norm_num
  · have := scaleToFactor_pos one_pos
    show 0 < scaleToFactor 1 - 0.5 * scaleToFactor 1
    linarith
  · cases causal <;> rfl

example : ∃ g : GpcmModel, g.Moderate ∧ g.causal = true ∧ g.computeKz R =
    .ok (g.tZ.map fun a => g.tZ.map fun b => Spec.kz g.params a b) := by
  obtain ⟨g, -, hm, -, -, hc, -⟩ := witness_moderate true
  exact ⟨g, hm, hc, c65_K_z R g hm⟩

/-! ## C63 -/

/-- **C63** (GPCM and CGPCM). With the default `alpha_t` the prior variance of the signal is one. -/
theorem c63_unit_power {a : GpcmArgs} {g : GpcmModel} (h : GpcmModel.new a = .ok g)
    (ha : a.alphaT = none) (hm : g.Moderate) (t : ℝ) : g.ihx R t t = .ok 1 := by
  obtain ⟨-, -, -, -, -, hat, -, hc, -⟩ := GpcmModel.new_ok h
  have ha0 : 0 < g.alpha := by linarith [hm.alpha_lo]
  rw [c65_i_hx R g hm, ihx_diag g.params ha0]
  congr 1
  show g.alphaT ^ 2 * (√(π / (2 * g.alpha)) * if g.causal then 1 / 2 else 1) = 1
  rw [hat, hc]
  unfold initAlphaT
  rw [ha]
  cases a.causal
  · simp only [Bool.false_eq_true, if_false, mul_one]
    rw [rpow_quarter_sq (by positivity), ← sqrt_mul (by positivity)]
    rw [show 2 * g.alpha / π * (π / (2 * g.alpha)) = 1 by field_simp, sqrt_one]
  · simp only [if_true]
    rw [rpow_quarter_sq (by positivity), ← mul_assoc, ← sqrt_mul (by positivity)]
    rw [show 8 * g.alpha / π * (π / (2 * g.alpha)) = 2 ^ 2 by field_simp; norm_num,
      sqrt_sq zero_le_two]
    norm_num

example : ∃ a g, GpcmModel.new a = .ok g ∧ a.alphaT = none ∧ g.Moderate ∧ g.causal = true := by
  obtain ⟨g, h, hm, -, -, hc, -⟩ := witness_moderate true
  exact ⟨_, g, h, rfl, hm, hc⟩

/-! ## C64 -/

/-- **C64** (GPCM and CGPCM). The diagonal of `compute_K_z` of a constructed model is one. Partial: not
after learning, see `c64_learned_false`. -/
theorem c64_unit_variance_partial {a : GpcmArgs} {g : GpcmModel} (h : GpcmModel.new a = .ok g)
    (hm : g.Moderate) : ∃ K, g.computeKz R = .ok K ∧ K.length = g.tZ.length ∧
      ∀ i < g.tZ.length, ∃ row, K[i]? = some row ∧ row[i]? = some 1 := by
  obtain ⟨-, -, -, -, -, -, hot, -⟩ := GpcmModel.new_ok h
  have ho0 : 0 < g.omega := by linarith [hm.omega_lo]
  refine ⟨_, c65_K_z R g hm, by simp, fun i hi => ⟨_, by
    rw [List.getElem?_map, List.getElem?_eq_getElem hi]; rfl, ?_⟩⟩
  rw [List.getElem?_map, List.getElem?_eq_getElem hi]
  show some (Spec.kz g.params g.tZ[i] g.tZ[i]) = some 1
  rw [kz_eq g.params ho0, sub_self]
  congr 1
  show g.omegaT ^ 2 * √(π / (2 * g.omega)) * _ = 1
  rw [hot, rpow_quarter_sq (by positivity), ← sqrt_mul (by positivity),
    show 2 * g.omega / π * (π / (2 * g.omega)) = 1 by field_simp]
  simp

/-- **C64 is false after learning**: `omega` is a learned parameter, `omega_t` is not recomputed. For the
witness the diagonal of `compute_K_z` is two. -/
theorem c64_learned_false : ∃ (a : GpcmArgs) (g : GpcmModel) (θ : GpcmLearned),
    GpcmModel.new a = .ok g ∧ g.Moderate ∧ θ.Valid g ∧ (g.prior false false false θ).Moderate ∧
    ∃ x y : ℝ, (g.prior false false false θ).computeKz R = .ok [[2, x], [y, 2]] := by
  obtain ⟨g, hg, hm, htz, hom, hc, hga, htu⟩ := witness_moderate false
  have hoT : g.omegaT = (2 * g.omega / π) ^ (0.25 : ℝ) := (GpcmModel.new_ok hg).2.2.2.2.2.2.1
  have ho : g.omega = π := by rw [hom]; unfold scaleToFactor; ring
  have p3 := Real.pi_gt_three
  have p4 := Real.pi_lt_four
  obtain ⟨θ, hθ⟩ : ∃ θ : GpcmLearned, θ = ⟨1, g.alpha, 1, g.gamma, π / 4, g.tU, g.tZ⟩ := ⟨_, rfl⟩
  have hval : θ.Valid g := by
    subst hθ
    refine ⟨one_pos, by linarith [hm.alpha_lo], one_pos, hga, by show 0 < π / 4; positivity, rfl, rfl, ?_, ?_⟩ <;>
      rw [htu] <;> simp [pyMin, pyMax] <;> norm_num
  have hm' : (g.prior false false false θ).Moderate := by
    subst hθ
    exact ⟨one_ne_zero, hm.omegaT, hm.alpha_lo, hm.alpha_hi, hm.gamma_lo, hm.gamma_hi,
      by show (1e-10 : ℝ) ≤ π / 4; linarith, by show π / 4 ≤ (1e10 : ℝ); linarith⟩
  refine ⟨_, g, θ, hg, hm, hval, hm', Spec.kz (g.prior false false false θ).params 0 1,
    Spec.kz (g.prior false false false θ).params 1 0, ?_⟩
  rw [c65_K_z R _ hm']
  have h2 : ∀ z, Spec.kz (g.prior false false false θ).params z z = 2 := fun z => by
    subst hθ
    rw [kz_eq _ (show 0 < π / 4 by positivity), sub_self]
    show g.omegaT ^ 2 * √(π / (2 * (π / 4))) * exp (-(_ * 0 ^ 2)) = 2
    rw [hoT, ho, rpow_quarter_sq (by positivity), ← sqrt_mul (by positivity),
      show 2 * π / π * (π / (2 * (π / 4))) = 2 ^ 2 by field_simp; norm_num, sqrt_sq zero_le_two]
    simp
  have : (g.prior false false false θ).tZ = [0, 1] := by subst hθ; exact htz
  rw [this]
  simp [h2]

example : ∃ a g, GpcmModel.new a = .ok g ∧ g.Moderate ∧ g.tZ.length = 2 := by
  obtain ⟨g, h, hm, hz, -⟩ := witness_moderate false
  exact ⟨_, g, h, hm, by rw [hz]; rfl⟩

/-! ## C66 -/

theorem map_map_ofFn {α : Type} (l : List α) (f : α → α → ℝ) :
    (l.map fun a => l.map fun b => f a b) =
      List.ofFn fun i : Fin l.length => List.ofFn fun j : Fin l.length => f (l.get i) (l.get j) := by
  have h : ∀ {β : Type} (g : α → β), l.map g = List.ofFn fun i : Fin l.length => g (l.get i) := fun g => by
    conv_lhs => rw [← List.ofFn_get l, List.map_ofFn]
    rfl
  rw [h]
  congr 1
  funext i
  rw [h]

/-- **C66.** `compute_K_z` is a symmetric positive semi-definite matrix. -/
theorem c66_K_z (g : GpcmModel) (hm : g.Moderate) :
    ∃ M : Matrix (Fin g.tZ.length) (Fin g.tZ.length) ℝ,
      g.computeKz R = .ok (List.ofFn fun i => List.ofFn fun j => M i j) ∧ M.PosSemidef :=
  ⟨_, by rw [c65_K_z R g hm, map_map_ofFn]; rfl,
    kz_psd g.params (by have := hm.omega_lo; show 0 < g.omega; linarith) g.tZ.get⟩

/-- **C66.** `compute_K_u` is a symmetric positive semi-definite matrix when `gamma` is not negative,
which holds for every learned value but not for every default (`c66_K_u_false`). -/
theorem c66_K_u_partial (g : GpcmModel) (hγ : 0 ≤ g.gamma) :
    ∃ M : Matrix (Fin g.tU.length) (Fin g.tU.length) ℝ,
      g.computeKu R = .ok (List.ofFn fun i => List.ofFn fun j => M i j) ∧ M.PosSemidef :=
  ⟨_, by rw [c65_K_u R g, map_map_ofFn]; rfl, kH_psd g.params hγ g.tU.get⟩

/-- The matrix is indefinite for every negative `gamma` as soon as zero and another point are inducing
points. -/
theorem not_psd_of_neg {p : Spec.Params} (hγ : p.gamma < 0) (hk : p.alphaT ≠ 0) {n : ℕ}
    {u : Fin n → ℝ} {i j : Fin n} (hi : u i = 0) (hj : u j ≠ 0) :
    ¬(Matrix.of fun i j => Spec.kH p (u i) (u j)).PosSemidef := by
  intro h
  have h2 := (h.submatrix ![i, j]).det_nonneg
  rw [Matrix.det_fin_two] at h2
  simp only [Matrix.submatrix_apply, Matrix.of_apply, Matrix.cons_val_zero, Matrix.cons_val_one, hi,
    kH_eq] at h2
  have e1 : p.alphaT ^ 2 * exp (-(p.alpha * (0 ^ 2 + 0 ^ 2) + p.gamma * (0 - 0) ^ 2)) *
      (p.alphaT ^ 2 * exp (-(p.alpha * (u j ^ 2 + u j ^ 2) + p.gamma * (u j - u j) ^ 2))) =
      p.alphaT ^ 4 * exp (-(p.alpha * (u j ^ 2 + u j ^ 2))) := by
    simp only [sub_self, ne_eq, OfNat.ofNat_ne_zero, not_false_eq_true, zero_pow, mul_zero, add_zero,
      neg_zero, exp_zero, mul_one]
    ring
  have e2 : p.alphaT ^ 2 * exp (-(p.alpha * (0 ^ 2 + u j ^ 2) + p.gamma * (0 - u j) ^ 2)) *
      (p.alphaT ^ 2 * exp (-(p.alpha * (u j ^ 2 + 0 ^ 2) + p.gamma * (u j - 0) ^ 2))) =
      p.alphaT ^ 4 * exp (-(p.alpha * (u j ^ 2 + u j ^ 2)) + -(2 * p.gamma * u j ^ 2)) := by
    rw [mul_mul_mul_comm, ← exp_add, ← pow_add]
    congr 2
    ring
  rw [e1, e2, ← mul_sub] at h2
  have h4 : 0 < p.alphaT ^ 4 := by positivity
  have h5 := nonneg_of_mul_nonneg_right h2 h4
  have h6 : exp (-(p.alpha * (u j ^ 2 + u j ^ 2))) <
      exp (-(p.alpha * (u j ^ 2 + u j ^ 2)) + -(2 * p.gamma * u j ^ 2)) := by
    refine exp_lt_exp.2 ?_
    have : 0 < u j ^ 2 := by positivity
    nlinarith
  linarith

/-- **C66 is false** for `compute_K_u` of a model with default parameters, window one and length scale
two: the default `gamma` is negative and the matrix is indefinite. -/
theorem c66_K_u_false : ∃ (a : GpcmArgs) (g : GpcmModel), GpcmModel.new a = .ok g ∧
    a.window = some 1 ∧ a.scale = some 2 ∧ a.gamma = none ∧ a.tU = none ∧
    ∃ M : Matrix (Fin g.tU.length) (Fin g.tU.length) ℝ,
      g.computeKu R = .ok (List.ofFn fun i => List.ofFn fun j => M i j) ∧ ¬M.PosSemidef := by
  obtain ⟨g, hg, -, hu, -, -, ha, hγ, -⟩ := witness_new false (w := 1) (s := 2) (u := (3, [-2, 0, 2])) (by
    simp [initTU, witnessArgs, autoNU, need, bind1]
    norm_num [linspace, List.range_succ, c58_inverse.2.2.1, toNat3])
  have hat := (GpcmModel.new_ok hg).2.2.2.2.2.1
  refine ⟨_, g, hg, rfl, rfl, rfl, rfl, _, by rw [c65_K_u R g, map_map_ofFn]; rfl, ?_⟩
  have hlen : g.tU.length = 3 := by rw [hu]; rfl
  refine not_psd_of_neg (p := g.params) (u := g.tU.get) (i := ⟨1, by omega⟩) (j := ⟨2, by omega⟩) ?_ ?_ ?_ ?_
  · show g.gamma < 0
    rw [hγ]
    unfold scaleToFactor
    linarith [Real.pi_pos]
  · show g.alphaT ≠ 0
    rw [hat, ha]
    have := scaleToFactor_pos one_pos
    exact (rpow_pos_of_pos (by positivity) _).ne'
  · simp [hu]
  · simp [hu]

example : ∃ g : GpcmModel, g.Moderate ∧ 0 ≤ g.gamma ∧ g.tU.length = 3 ∧ g.tZ.length = 2 := by
  obtain ⟨g, h, hm, hz, -, -, hγ, hu⟩ := witness_moderate false
  exact ⟨g, hm, hγ.le, by rw [hu]; rfl, by rw [hz]; rfl⟩

end Gpcm
