import Verif.Lemmas.GibbsChain
import Verif.Props.ShrinkProps
import Mathlib.Analysis.SpecialFunctions.Gaussian.GaussianIntegral
import Mathlib.MeasureTheory.Integral.Pi

/-!
# Moments of the states of the Gibbs sampler

Whatever the state before, the state after a sweep is bounded by the data and the size of the random numbers.
-/

set_option linter.unusedSectionVars false

open Matrix Real MeasureTheory ProbabilityTheory ENNReal Filter Topology

namespace Gpcm

open Markov

section
variable {n : Type} [Fintype n] [DecidableEq n]

theorem quad_add_le {P : Matrix n n ℝ} (hP : P.PosSemidef) (a b : n → ℝ) :
    (a + b) ⬝ᵥ (P *ᵥ (a + b)) ≤ 2 * (a ⬝ᵥ (P *ᵥ a)) + 2 * (b ⬝ᵥ (P *ᵥ b)) := by
  have h := hP.dotProduct_mulVec_nonneg (a - b)
  rw [star_trivial] at h
  simp only [mulVec_add, mulVec_sub, dotProduct_add, add_dotProduct, dotProduct_sub, sub_dotProduct] at h ⊢
  linarith

theorem symm_dot {P : Matrix n n ℝ} (hP : P.PosDef) (a b : n → ℝ) : b ⬝ᵥ (P *ᵥ a) = a ⬝ᵥ (P *ᵥ b) := by
  have : Pᵀ = P := by
    have := hP.isHermitian.eq
    rwa [conjTranspose_eq_transpose_of_trivial] at this
  rw [dotProduct_mulVec, ← mulVec_transpose, this, dotProduct_comm]

/-- The size of the mean of a posterior with a zero prior mean. -/
theorem tilt_mean_le {K : Matrix n n ℝ} (hK : K.PosDef) {s : ℝ} (hs : 0 < s)
    (S : ℝ → Matrix n n ℝ) (v : ℝ → n → ℝ) (hS : ∀ x, (S x - vecMulVec (v x) (v x)).PosSemidef) (d : List (ℝ × ℝ)) {b : n → ℝ}
    (hb : b = (d.map fun p => p.2 • v p.1).sum) {o : NatNormal n} (ho : o = NatNormal.tilt ⟨0, K⟩ s (d.map fun p => S p.1).sum b)
    (hp : o.prec.PosDef) : o.lam ⬝ᵥ (o.prec⁻¹ *ᵥ o.lam) ≤ s⁻¹ * (d.map fun p => p.2 ^ 2).sum := by
  obtain ⟨h1, -, h3⟩ := tilt_shrinks hK hs S v hS d hb ho hp
  obtain ⟨μ, hμ⟩ : ∃ μ, μ = o.prec⁻¹ *ᵥ o.lam := ⟨_, rfl⟩
  simp only [← hμ] at h1 h3 ⊢
  have e2 : o.lam ⬝ᵥ μ = s⁻¹ * (d.map fun p => v p.1 ⬝ᵥ μ * p.2).sum := by
    rw [dotProduct_comm, ho, hb]
    simp only [NatNormal.tilt, zero_add, one_div, dotProduct_smul, smul_eq_mul, dot_list_sum]
  rw [e2]
  refine mul_le_mul_of_nonneg_left ?_ (inv_nonneg.2 hs.le)
  have e : (d.map fun p => (p.2 - v p.1 ⬝ᵥ μ) ^ 2).sum = (d.map fun p => p.2 ^ 2).sum -
      2 * (d.map fun p => v p.1 ⬝ᵥ μ * p.2).sum + (d.map fun p => (v p.1 ⬝ᵥ μ) ^ 2).sum := by
    clear e2 h1 h3 ho hb
    induction d with
    | nil => simp
    | cons p d ih =>
      simp only [List.map_cons, List.sum_cons, ih]
      ring
  have h0 : 0 ≤ (d.map fun p => (p.2 - v p.1 ⬝ᵥ μ) ^ 2).sum :=
    List.sum_nonneg (by simp only [List.mem_map]; rintro _ ⟨p, -, rfl⟩; positivity)
  linarith

/-- The size of a sample. -/
theorem sample_quad (D : CholOracle n) {q : NatNormal n} (hq : q.prec.PosDef) {K : Matrix n n ℝ}
    (hK : (q.prec - K).PosSemidef) (w : n → ℝ) :
    q.sample D w ⬝ᵥ (K *ᵥ q.sample D w) ≤ 2 * (w ⬝ᵥ w) + 2 * (q.lam ⬝ᵥ (q.prec⁻¹ *ᵥ q.lam)) := by
  obtain ⟨u, hu⟩ : ∃ u, u = q.sample D w := ⟨_, rfl⟩
  have h1 := hK.dotProduct_mulVec_nonneg u
  rw [star_trivial, sub_mulVec, dotProduct_sub] at h1
  have e : u = q.prec⁻¹ *ᵥ (D.chol q.prec *ᵥ w + q.lam) := by
    rw [hu, NatNormal.sample, cholsolveVec_eq D hq]
  have e1 : u ⬝ᵥ (q.prec *ᵥ u) =
      (D.chol q.prec *ᵥ w + q.lam) ⬝ᵥ (q.prec⁻¹ *ᵥ (D.chol q.prec *ᵥ w + q.lam)) := by
    rw [e, mulVec_mulVec, mul_nonsing_inv _ (posDef_isUnit_det hq), one_mulVec, dotProduct_comm]
  have h2 := quad_add_le hq.inv.posSemidef (D.chol q.prec *ᵥ w) q.lam
  have e2 : (D.chol q.prec *ᵥ w) ⬝ᵥ (q.prec⁻¹ *ᵥ (D.chol q.prec *ᵥ w)) = w ⬝ᵥ w := by
    have hs := D.spec _ hq
    have hd : IsUnit (D.chol q.prec).det := by
      have := posDef_isUnit_det hq
      rw [← hs, det_mul] at this
      exact isUnit_of_mul_isUnit_left this
    have hd' : IsUnit (D.chol q.prec)ᵀ.det := by rwa [det_transpose]
    have : q.prec⁻¹ = (D.chol q.prec)ᵀ⁻¹ * (D.chol q.prec)⁻¹ := by rw [← Matrix.mul_inv_rev, hs]
    rw [this, mulVec_mulVec, Matrix.mul_assoc, nonsing_inv_mul _ hd, Matrix.mul_one, dotProduct_comm, dotProduct_mulVec,
      ← mulVec_transpose, mulVec_mulVec, mul_nonsing_inv _ hd', one_mulVec]
  rw [← hu]
  rw [e1] at h1
  rw [e2] at h2
  linarith

theorem normal_exp_finite : ∫⁻ w : n → ℝ, ENNReal.ofReal (stdPdf w * exp (1 / 4 * (w ⬝ᵥ w))) < ∞ := by
  have e : ∀ w : n → ℝ, stdPdf w * exp (1 / 4 * (w ⬝ᵥ w)) = ∏ i, (gaussianPDFReal 0 1 (w i) * exp (1 / 4 * (w i * w i))) :=
    fun w => by
      rw [Finset.prod_mul_distrib, stdPdf, dotProduct, Finset.mul_sum, exp_sum]
  have h1 : Integrable fun t : ℝ => gaussianPDFReal 0 1 t * exp (1 / 4 * (t * t)) := by
    refine ((integrable_exp_neg_mul_sq (b := 1 / 4) (by norm_num)).const_mul (√(2 * π * (1 : NNReal)))⁻¹).congr
      (Eventually.of_forall fun t => ?_)
    simp only
    rw [gaussianPDFReal, mul_assoc (√(2 * π * (1 : NNReal)))⁻¹, ← exp_add]
    congr 2
    simp
    ring
  have h2 : Integrable fun w : n → ℝ => ∏ i, (gaussianPDFReal 0 1 (w i) * exp (1 / 4 * (w i * w i))) :=
    Integrable.fintype_prod fun _ => h1
  simp only [e]
  exact h2.lintegral_lt_top

end

variable {ι κ : Type} [Fintype ι] [DecidableEq ι] [Fintype κ] [DecidableEq κ]
variable (C : Chols ι κ) {m : Inst ι κ}

theorem ptU_sub (h : m.Valid) (z : κ → ℝ) (x : ℝ) :
    (ptU C m (vecMulVec z z) x - vecMulVec (m.iUz x *ᵥ z) (m.iUz x *ᵥ z)).PosSemidef := by
  have e : ptU C m (vecMulVec z z) x - vecMulVec (m.iUz x *ᵥ z) (m.iUz x *ᵥ z) = ptA C m x := by
    rw [ptU, mul_vecMulVec, vecMulVec_mul, vecMul_transpose, add_sub_cancel_right]
  rw [e]
  exact ptA_psd C h x

theorem tilt_sub_psd {n : Type} [Fintype n] [DecidableEq n] {K D : Matrix n n ℝ} {s : ℝ} (hs : 0 < s) (hD : D.PosSemidef)
    (b : n → ℝ) : ((NatNormal.tilt ⟨0, K⟩ s D b).prec - K).PosSemidef := by
  simp only [NatNormal.tilt, add_sub_cancel_left]
  exact hD.smul (by positivity)

/-- The size of the data relative to the noise. -/
noncomputable def dataSize (m : Inst ι κ) (d : List (ℝ × ℝ)) : ℝ := m.noise⁻¹ * (d.map fun p => p.2 ^ 2).sum

theorem dataSize_nonneg (h : m.Valid) (d : List (ℝ × ℝ)) : 0 ≤ dataSize m d :=
  mul_nonneg (inv_nonneg.2 h.noise.le) (List.sum_nonneg (by simp only [List.mem_map]; rintro _ ⟨p, -, rfl⟩; positivity))

theorem quOptimal_lam_le (h : m.Valid) (d : List (ℝ × ℝ)) (z : κ → ℝ) :
    (quOptimal m (constructDataTerms C m d) z).lam ⬝ᵥ ((quOptimal m (constructDataTerms C m d) z).prec⁻¹ *ᵥ
      (quOptimal m (constructDataTerms C m d) z).lam) ≤ dataSize m d := by
  refine tilt_mean_le h.Ku h.noise (ptU C m (vecMulVec z z)) (fun x => m.iUz x *ᵥ z) (ptU_sub C h z) d (iUzSum_z C d z) ?_
    (quOptimal_posDef C h d z)
  rw [quOptimal_eq, uQuad_sum]

theorem qzOptimal_lam_le (h : m.Valid) (d : List (ℝ × ℝ)) (u : ι → ℝ) :
    (qzOptimal m (constructDataTerms C m d) u).lam ⬝ᵥ ((qzOptimal m (constructDataTerms C m d) u).prec⁻¹ *ᵥ
      (qzOptimal m (constructDataTerms C m d) u).lam) ≤ dataSize m d := by
  refine tilt_mean_le h.Kz h.noise (ptZ C m (vecMulVec u u)) (fun x => (m.iUz x)ᵀ *ᵥ u)
    (ptZ_sub C h (by simpa using Matrix.PosSemidef.zero)) d (iUzSum_u C d u) ?_ (qzOptimal_posDef C h d u)
  rw [qzOptimal_eq, zQuad_sum]

theorem quOptimal_sub (h : m.Valid) (d : List (ℝ × ℝ)) (z : κ → ℝ) :
    ((quOptimal m (constructDataTerms C m d) z).prec - m.Ku).PosSemidef := by
  rw [quOptimal_eq]
  exact tilt_sub_psd h.noise (uQuad_psd (ASum_psd C h d) (outer_psd z)) _

theorem qzOptimal_sub (h : m.Valid) (d : List (ℝ × ℝ)) (u : ι → ℝ) :
    ((qzOptimal m (constructDataTerms C m d) u).prec - m.Kz).PosSemidef := by
  rw [qzOptimal_eq]
  exact tilt_sub_psd h.noise (zQuad_psd (BSum_psd C h d) (outer_psd u)) _

/-- How large functions of the inducing variables are allowed to be. -/
noncomputable def growth (m : Inst ι κ) (x : (ι → ℝ) × (κ → ℝ)) : ℝ :=
  exp (1 / 8 * (x.1 ⬝ᵥ (m.Ku *ᵥ x.1)) + 1 / 8 * (x.2 ⬝ᵥ (m.Kz *ᵥ x.2)))

theorem growth_measurable : Measurable (growth m) := by
  refine Continuous.measurable ?_
  unfold growth
  fun_prop

theorem growth_sweep (h : m.Valid) (d : List (ℝ × ℝ)) (w x : (ι → ℝ) × (κ → ℝ)) :
    growth m (gibbsSweep C m (constructDataTerms C m d) w x) ≤
      exp (dataSize m d / 2) * (exp (1 / 4 * (w.1 ⬝ᵥ w.1)) * exp (1 / 4 * (w.2 ⬝ᵥ w.2))) := by
  rw [growth, ← exp_add, ← exp_add]
  refine exp_le_exp.2 ?_
  have h1 := sample_quad C.u (quOptimal_posDef C h d x.2) (quOptimal_sub C h d x.2) w.1
  have h2 := quOptimal_lam_le C h d x.2
  have h3 := sample_quad C.z (qzOptimal_posDef C h d ((quOptimal m (constructDataTerms C m d) x.2).sample C.u w.1))
    (qzOptimal_sub C h d _) w.2
  have h4 := qzOptimal_lam_le C h d ((quOptimal m (constructDataTerms C m d) x.2).sample C.u w.1)
  simp only [gibbsSweep]
  linarith

/-- The expected growth after a sweep. -/
noncomputable def growthBound (m : Inst ι κ) (d : List (ℝ × ℝ)) : ℝ≥0∞ :=
  ENNReal.ofReal (exp (dataSize m d / 2)) * ((∫⁻ w : ι → ℝ, ENNReal.ofReal (stdPdf w * exp (1 / 4 * (w ⬝ᵥ w)))) *
    ∫⁻ w : κ → ℝ, ENNReal.ofReal (stdPdf w * exp (1 / 4 * (w ⬝ᵥ w))))

theorem growthBound_finite (d : List (ℝ × ℝ)) : growthBound m d ≠ ∞ :=
  ENNReal.mul_ne_top ENNReal.ofReal_ne_top (ENNReal.mul_ne_top normal_exp_finite.ne normal_exp_finite.ne)

theorem stdPdf_nonneg {n : Type} [Fintype n] (w : n → ℝ) : 0 ≤ stdPdf w :=
  Finset.prod_nonneg fun i _ => gaussianPDFReal_nonneg 0 1 (w i)

theorem growth_kernel (h : m.Valid) (d : List (ℝ × ℝ)) (x : (ι → ℝ) × (κ → ℝ)) :
    ∫⁻ y, ENNReal.ofReal (growth m y) ∂gibbsKernel h d x ≤ growthBound m d := by
  obtain ⟨Cu⟩ := cholOracle_nonempty (n := ι)
  obtain ⟨Cz⟩ := cholOracle_nonempty (n := κ)
  have hm : Measurable fun y => ENNReal.ofReal (growth m y) := growth_measurable.ennreal_ofReal
  have e := chainExpect_eq_pw ⟨Cu, Cz⟩ h d hm 1 x
  rw [lintegral_pw_succ _ _ _ hm, lintegral_congr fun y => lintegral_pw_zero _ y hm] at e
  rw [← e, chainExpect]
  have h1 : ∀ w₁ w₂, ENNReal.ofReal (stdPdf w₂) * chainExpect ⟨Cu, Cz⟩ m (constructDataTerms ⟨Cu, Cz⟩ m d)
      (fun y => ENNReal.ofReal (growth m y)) 0 (gibbsSweep ⟨Cu, Cz⟩ m (constructDataTerms ⟨Cu, Cz⟩ m d) (w₁, w₂) x) ≤
      ENNReal.ofReal (exp (dataSize m d / 2)) * (ENNReal.ofReal (exp (1 / 4 * (w₁ ⬝ᵥ w₁))) *
        ENNReal.ofReal (stdPdf w₂ * exp (1 / 4 * (w₂ ⬝ᵥ w₂)))) := fun w₁ w₂ => by
    rw [ENNReal.ofReal_mul (stdPdf_nonneg w₂), mul_left_comm (ENNReal.ofReal (exp (1 / 4 * (w₁ ⬝ᵥ w₁)))), mul_left_comm]
    refine mul_le_mul_right ?_ _
    rw [chainExpect, ← ENNReal.ofReal_mul (exp_pos _).le, ← ENNReal.ofReal_mul (exp_pos _).le]
    exact ENNReal.ofReal_le_ofReal (growth_sweep _ h d (w₁, w₂) x)
  calc _ ≤ ∫⁻ w₁, ENNReal.ofReal (stdPdf w₁) * ∫⁻ w₂, ENNReal.ofReal (exp (dataSize m d / 2)) *
        (ENNReal.ofReal (exp (1 / 4 * (w₁ ⬝ᵥ w₁))) * ENNReal.ofReal (stdPdf w₂ * exp (1 / 4 * (w₂ ⬝ᵥ w₂)))) :=
        lintegral_mono fun w₁ => mul_le_mul_right (lintegral_mono fun w₂ => h1 w₁ w₂) _
    _ = ∫⁻ w₁, ENNReal.ofReal (exp (dataSize m d / 2)) * ((∫⁻ w₂ : κ → ℝ, ENNReal.ofReal (stdPdf w₂ * exp (1 / 4 * (w₂ ⬝ᵥ w₂)))) *
        ENNReal.ofReal (stdPdf w₁ * exp (1 / 4 * (w₁ ⬝ᵥ w₁)))) := lintegral_congr fun w₁ => by
        rw [lintegral_const_mul' _ _ ENNReal.ofReal_ne_top, lintegral_const_mul' _ _ ENNReal.ofReal_ne_top,
          ENNReal.ofReal_mul (stdPdf_nonneg w₁)]
        ring
    _ = growthBound m d := by
        rw [lintegral_const_mul' _ _ ENNReal.ofReal_ne_top, lintegral_const_mul' _ _ normal_exp_finite.ne, growthBound,
          mul_comm (∫⁻ w₂ : κ → ℝ, _)]

theorem growth_pw (h : m.Valid) (d : List (ℝ × ℝ)) (k : ℕ) (x : (ι → ℝ) × (κ → ℝ)) :
    ∫⁻ y, ENNReal.ofReal (growth m y) ∂pw (gibbsKernel h d) (k + 1) x ≤ growthBound m d := by
  have hm : Measurable fun y => ENNReal.ofReal (growth m y) := growth_measurable.ennreal_ofReal
  rw [lintegral_pw_add _ k 1 x hm]
  refine lintegral_le_of_le fun y => ?_
  rw [lintegral_pw_succ _ _ _ hm, lintegral_congr fun y => lintegral_pw_zero _ y hm]
  exact growth_kernel h d y

/-! ## Functions of polynomial growth -/

section
variable {n : Type} [Fintype n] [DecidableEq n]

theorem quad_le_sq (M : Matrix n n ℝ) (y : n → ℝ) : y ⬝ᵥ (M *ᵥ y) ≤ (∑ i, ∑ j, |M i j|) * (y ⬝ᵥ y) := by
  have h1 : ∀ i, y i ^ 2 ≤ y ⬝ᵥ y := fun i => by
    rw [sq]
    exact Finset.single_le_sum (f := fun i => y i * y i) (fun j _ => mul_self_nonneg _) (Finset.mem_univ i)
  have e : y ⬝ᵥ (M *ᵥ y) = ∑ i, ∑ j, y i * (M i j * y j) := by
    simp only [mulVec, dotProduct, Finset.mul_sum]
  rw [e, Finset.sum_mul]
  simp only [Finset.sum_mul]
  refine Finset.sum_le_sum fun i _ => Finset.sum_le_sum fun j _ => ?_
  have h2 : |y i * y j| ≤ y ⬝ᵥ y := by
    rw [abs_le]
    constructor <;> nlinarith [h1 i, h1 j, sq_nonneg (y i + y j), sq_nonneg (y i - y j)]
  calc y i * (M i j * y j) = M i j * (y i * y j) := by ring
    _ ≤ |M i j| * |y i * y j| := by rw [← abs_mul]; exact le_abs_self _
    _ ≤ |M i j| * (y ⬝ᵥ y) := mul_le_mul_of_nonneg_left h2 (abs_nonneg _)

theorem sq_le_quad {K : Matrix n n ℝ} (hK : K.PosDef) : ∃ a : ℝ, 0 < a ∧ ∀ x : n → ℝ, x ⬝ᵥ x ≤ a * (x ⬝ᵥ (K *ᵥ x)) := by
  obtain ⟨D⟩ := cholOracle_nonempty (n := n)
  obtain ⟨L, hL⟩ : ∃ L, L = D.chol K := ⟨_, rfl⟩
  have hs : L * Lᵀ = K := by rw [hL]; exact D.spec _ hK
  have hd : IsUnit Lᵀ.det := by
    have := posDef_isUnit_det hK
    rw [← hs, det_mul] at this
    exact isUnit_of_mul_isUnit_right this
  obtain ⟨a, ha⟩ : ∃ a, a = ∑ i, ∑ j, |((Lᵀ⁻¹)ᵀ * Lᵀ⁻¹) i j| := ⟨_, rfl⟩
  have ha0 : 0 ≤ a := by
    rw [ha]
    exact Finset.sum_nonneg fun i _ => Finset.sum_nonneg fun j _ => abs_nonneg _
  refine ⟨a + 1, by linarith, fun x => ?_⟩
  have h1 := quad_le_sq ((Lᵀ⁻¹)ᵀ * Lᵀ⁻¹) (Lᵀ *ᵥ x)
  have e1 : (Lᵀ *ᵥ x) ⬝ᵥ (Lᵀ *ᵥ x) = x ⬝ᵥ (K *ᵥ x) := by
    rw [← hs, ← mulVec_mulVec, dotProduct_mulVec x, mulVec_transpose]
  have e2 : (Lᵀ *ᵥ x) ⬝ᵥ (((Lᵀ⁻¹)ᵀ * Lᵀ⁻¹) *ᵥ (Lᵀ *ᵥ x)) = x ⬝ᵥ x := by
    have e3 : Lᵀ⁻¹ *ᵥ (Lᵀ *ᵥ x) = x := by rw [mulVec_mulVec, nonsing_inv_mul _ hd, one_mulVec]
    rw [← mulVec_mulVec (Lᵀ *ᵥ x), e3, dotProduct_mulVec, vecMul_transpose, e3]
  rw [← ha, e1, e2] at h1
  have h2 := hK.posSemidef.dotProduct_mulVec_nonneg x
  rw [star_trivial] at h2
  linarith

end

theorem growth_poly (h : m.Valid) {f : (ι → ℝ) × (κ → ℝ) → ℝ} {c : ℝ} {k : ℕ}
    (hf : ∀ x, |f x| ≤ c * (1 + x.1 ⬝ᵥ x.1 + x.2 ⬝ᵥ x.2) ^ k) : ∃ B, 0 ≤ B ∧ ∀ x, f x ^ 4 ≤ B * growth m x := by
  obtain ⟨a, ha, hau⟩ := sq_le_quad h.Ku
  obtain ⟨b, hb, hbz⟩ := sq_le_quad h.Kz
  obtain ⟨g, hg⟩ : ∃ g, g = a + b := ⟨_, rfl⟩
  have hg0 : 0 < g := by rw [hg]; linarith
  refine ⟨c ^ 4 * ((8 * g) ^ (k * 4) * ((k * 4).factorial * exp (1 / (8 * g)))), by positivity, fun x => ?_⟩
  have hu := h.Ku.posSemidef.dotProduct_mulVec_nonneg x.1
  have hz := h.Kz.posSemidef.dotProduct_mulVec_nonneg x.2
  rw [star_trivial] at hu hz
  obtain ⟨r, hr⟩ : ∃ r, r = x.1 ⬝ᵥ (m.Ku *ᵥ x.1) + x.2 ⬝ᵥ (m.Kz *ᵥ x.2) := ⟨_, rfl⟩
  have hr0 : 0 ≤ r := by rw [hr]; linarith
  have hu0 : 0 ≤ x.1 ⬝ᵥ x.1 := Finset.sum_nonneg fun i _ => mul_self_nonneg _
  have hz0 : 0 ≤ x.2 ⬝ᵥ x.2 := Finset.sum_nonneg fun i _ => mul_self_nonneg _
  have h1 : 1 + x.1 ⬝ᵥ x.1 + x.2 ⬝ᵥ x.2 ≤ 8 * g * (1 / (8 * g) + r / 8) := by
    have e : 8 * g * (1 / (8 * g) + r / 8) = 1 + g * r := by field_simp
    rw [e, hg, hr]
    have := hau x.1
    have := hbz x.2
    nlinarith
  have h2 : growth m x = exp (r / 8) := by rw [growth, hr]; congr 1; ring
  have h3 := Real.pow_div_factorial_le_exp (1 / (8 * g) + r / 8) (by positivity) (k * 4)
  rw [div_le_iff₀ (by positivity), exp_add] at h3
  calc f x ^ 4 = |f x| ^ 4 := (Even.pow_abs (by decide) _).symm
    _ ≤ (c * (1 + x.1 ⬝ᵥ x.1 + x.2 ⬝ᵥ x.2) ^ k) ^ 4 := pow_le_pow_left₀ (abs_nonneg _) (hf x) 4
    _ = c ^ 4 * (1 + x.1 ⬝ᵥ x.1 + x.2 ⬝ᵥ x.2) ^ (k * 4) := by rw [mul_pow, ← pow_mul]
    _ ≤ c ^ 4 * (8 * g * (1 / (8 * g) + r / 8)) ^ (k * 4) :=
        mul_le_mul_of_nonneg_left (pow_le_pow_left₀ (by linarith) h1 _) (by positivity)
    _ = c ^ 4 * ((8 * g) ^ (k * 4) * (1 / (8 * g) + r / 8) ^ (k * 4)) := by rw [mul_pow]
    _ ≤ c ^ 4 * ((8 * g) ^ (k * 4) * (exp (1 / (8 * g)) * exp (r / 8) * (k * 4).factorial)) := by gcongr
    _ = _ := by rw [h2]; ring

/-- The fourth moments of functions of polynomial growth. -/
theorem moment_poly (h : m.Valid) (d : List (ℝ × ℝ)) {f : (ι → ℝ) × (κ → ℝ) → ℝ} {c : ℝ} {k : ℕ}
    (hf : ∀ x, |f x| ≤ c * (1 + x.1 ⬝ᵥ x.1 + x.2 ⬝ᵥ x.2) ^ k) :
    ∃ B : ℝ, ∀ j x, ∫⁻ y, ENNReal.ofReal (f y ^ 4) ∂pw (gibbsKernel h d) (j + 1) x ≤ ENNReal.ofReal B := by
  obtain ⟨B, hB0, hB⟩ := growth_poly h hf
  refine ⟨B * (growthBound m d).toReal, fun j x => ?_⟩
  calc _ ≤ ∫⁻ y, ENNReal.ofReal B * ENNReal.ofReal (growth m y) ∂pw (gibbsKernel h d) (j + 1) x :=
        lintegral_mono fun y => by
          rw [← ENNReal.ofReal_mul hB0]
          exact ENNReal.ofReal_le_ofReal (hB y)
    _ = ENNReal.ofReal B * ∫⁻ y, ENNReal.ofReal (growth m y) ∂pw (gibbsKernel h d) (j + 1) x :=
        lintegral_const_mul' _ _ ENNReal.ofReal_ne_top
    _ ≤ ENNReal.ofReal B * growthBound m d := mul_le_mul_right (growth_pw h d j x) _
    _ = _ := by rw [ENNReal.ofReal_mul hB0, ENNReal.ofReal_toReal (growthBound_finite d)]

/-! ## What is predicted given a filter -/

/-- The predicted mean given the inducing variables of the filter. -/
noncomputable def meanGiven (m : Inst ι κ) (ts : DataTerms ι κ) (t : ℝ) (u : ι → ℝ) : ℝ :=
  ((m.iUz t)ᵀ *ᵥ u) ⬝ᵥ ((qzOptimal m ts u).prec⁻¹ *ᵥ (qzOptimal m ts u).lam)

theorem predict_one (h : m.Valid) (d : List (ℝ × ℝ)) (t : ℝ) {us : List (ι → ℝ)} (hus : us ≠ []) :
    ∃ v, Structured.predict C m (some (constructDataTerms C m d)) [t] us =
      .ok [((us.map (meanGiven m (constructDataTerms C m d) t)).sum / us.length, v)] := by
  rw [structured_predict_map C m _ hus]
  have key : ∀ (r : ℝ × ℝ) (a : ℝ), r.1 = a → ∃ v, (Except.ok [r] : Except PyErr _) = .ok [(a, v)] := fun r a hr =>
    ⟨r.2, by rw [← hr]⟩
  simp only [List.map_cons, List.map_nil]
  refine key _ _ ?_
  simp only [toMeanVar, ptMoments]
  congr 2
  refine List.map_congr_left fun u _ => ?_
  rw [meanGiven, mean_u, NatNormal.mean_eq C.z (qzOptimal_posDef C h d u)]

theorem meanGiven_continuous (h : m.Valid) (d : List (ℝ × ℝ)) (t : ℝ) :
    Continuous (meanGiven m (constructDataTerms C m d) t) := by
  obtain ⟨ts, hts⟩ : ∃ ts, ts = constructDataTerms C m d := ⟨_, rfl⟩
  have h0 : ∀ u, (qzOptimal m ts u).prec.det ≠ 0 := fun u => by
    rw [hts]
    exact (posDef_isUnit_det (qzOptimal_posDef C h d u)).ne_zero
  rw [← hts]
  have h1 : Continuous fun u => (qzOptimal m ts u).prec := by
    rw [show (fun u => (qzOptimal m ts u).prec) = fun u => m.Kz + (1 / m.noise) • zQuad ts (vecMulVec u u) from
      funext fun u => by rw [qzOptimal_eq]; rfl]
    have hl : ∀ l : List (Matrix ι κ ℝ), Continuous fun u : ι → ℝ => (l.map fun I => Iᵀ * vecMulVec u u * I).sum := fun l => by
      induction l with
      | nil => exact continuous_const
      | cons I l ih =>
        simp only [List.map_cons, List.sum_cons]
        refine Continuous.add ?_ ih
        have : Continuous fun u : ι → ℝ => vecMulVec u u := by
          refine continuous_matrix fun i j => ?_
          simp only [vecMulVec_apply]
          fun_prop
        exact (continuous_const.matrix_mul this).matrix_mul continuous_const
    have := hl ts.iUz
    unfold zQuad
    fun_prop
  have h2 : Continuous fun u => (qzOptimal m ts u).lam := by
    rw [show (fun u => (qzOptimal m ts u).lam) = fun u => (1 / m.noise) • (ts.iUzSumᵀ *ᵥ u) from
      funext fun u => by rw [qzOptimal_eq]; simp [NatNormal.tilt]]
    fun_prop
  have e : meanGiven m ts t = fun u => (qzOptimal m ts u).prec.det⁻¹ *
      (((m.iUz t)ᵀ *ᵥ u) ⬝ᵥ ((qzOptimal m ts u).prec.adjugate *ᵥ (qzOptimal m ts u).lam)) := funext fun u => by
    rw [meanGiven, Matrix.inv_def, Ring.inverse_eq_inv', smul_mulVec, dotProduct_smul, smul_eq_mul]
  rw [e]
  refine (h1.matrix_det.inv₀ h0).mul ?_
  exact (Continuous.matrix_mulVec continuous_const continuous_id).dotProduct (h1.matrix_adjugate.matrix_mulVec h2)

theorem meanGiven_le (h : m.Valid) (d : List (ℝ × ℝ)) (t : ℝ) : ∃ c, ∀ u : ι → ℝ, ∀ z : κ → ℝ,
    |meanGiven m (constructDataTerms C m d) t u| ≤ c * (1 + u ⬝ᵥ u + z ⬝ᵥ z) ^ 1 := by
  obtain ⟨a, ha⟩ : ∃ a, a = ∑ i, ∑ j, |(m.iUz t * m.Kz⁻¹ * (m.iUz t)ᵀ) i j| := ⟨_, rfl⟩
  have ha0 : 0 ≤ a := by
    rw [ha]
    exact Finset.sum_nonneg fun i _ => Finset.sum_nonneg fun j _ => abs_nonneg _
  have hd0 := dataSize_nonneg h d
  refine ⟨a + dataSize m d, fun u z => ?_⟩
  obtain ⟨v, hv⟩ : ∃ v, v = (m.iUz t)ᵀ *ᵥ u := ⟨_, rfl⟩
  obtain ⟨q, hq⟩ : ∃ q, q = qzOptimal m (constructDataTerms C m d) u := ⟨_, rfl⟩
  have hp : q.prec.PosDef := by rw [hq]; exact qzOptimal_posDef C h d u
  have h1 := quad_add_le hp.inv.posSemidef
  have h2 : q.lam ⬝ᵥ (q.prec⁻¹ *ᵥ q.lam) ≤ dataSize m d := by rw [hq]; exact qzOptimal_lam_le C h d u
  have h3 : v ⬝ᵥ (q.prec⁻¹ *ᵥ v) ≤ a * (u ⬝ᵥ u) := by
    have i1 := inv_antitone h.Kz hp (by rw [hq]; exact qzOptimal_sub C h d u)
    have i2 := i1.dotProduct_mulVec_nonneg v
    rw [star_trivial, sub_mulVec, dotProduct_sub] at i2
    have i3 := quad_le_sq (m.iUz t * m.Kz⁻¹ * (m.iUz t)ᵀ) u
    rw [← ha] at i3
    have i4 : u ⬝ᵥ ((m.iUz t * m.Kz⁻¹ * (m.iUz t)ᵀ) *ᵥ u) = v ⬝ᵥ (m.Kz⁻¹ *ᵥ v) := by
      rw [Matrix.mul_assoc, ← mulVec_mulVec, ← mulVec_mulVec, ← hv, dotProduct_mulVec, ← mulVec_transpose, ← hv]
    rw [i4] at i3
    linarith
  have hs := symm_dot hp.inv v q.lam
  have h4 := hp.inv.posSemidef.dotProduct_mulVec_nonneg (v + q.lam)
  have h5 := hp.inv.posSemidef.dotProduct_mulVec_nonneg (v - q.lam)
  rw [star_trivial] at h4 h5
  simp only [mulVec_add, mulVec_sub, dotProduct_add, add_dotProduct, dotProduct_sub, sub_dotProduct] at h4 h5
  have hu0 : 0 ≤ u ⬝ᵥ u := Finset.sum_nonneg fun i _ => mul_self_nonneg _
  have hz0 : 0 ≤ z ⬝ᵥ z := Finset.sum_nonneg fun i _ => mul_self_nonneg _
  rw [meanGiven, ← hv, ← hq, pow_one, abs_le]
  have h6 : a * (u ⬝ᵥ u) + dataSize m d ≤ (a + dataSize m d) * (1 + u ⬝ᵥ u + z ⬝ᵥ z) := by
    nlinarith [mul_nonneg ha0 hz0, mul_nonneg hd0 hz0, mul_nonneg hd0 hu0]
  constructor <;> linarith

end Gpcm
