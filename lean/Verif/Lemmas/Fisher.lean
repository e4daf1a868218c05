import Verif.Lemmas.PolyC1
import Verif.Lemmas.GibbsMoments
import Verif.Props.EvidenceProps
import Mathlib.Analysis.Calculus.ParametricIntegral
import Mathlib.MeasureTheory.Integral.Prod

/-!
# Derivatives of the evidence with respect to a parameter
-/

set_option linter.unusedSectionVars false

open Matrix Real MeasureTheory Filter Topology

namespace Gpcm

/-- The derivative of the logarithm of a normalising constant is an expectation. -/
theorem fisher {Ω : Type} [MeasurableSpace Ω] {μ : Measure Ω} {a : ℝ} {L L' : ℝ → Ω → ℝ} {G : Ω → ℝ}
    (h : ∀ᶠ θ in 𝓝 a, AEStronglyMeasurable (fun x => exp (L θ x)) μ ∧
      ∀ x, HasDerivAt (fun t => L t x) (L' θ x) θ ∧ |L' θ x| * exp (L θ x) ≤ G x)
    (hG : Integrable G μ) (hi : Integrable (fun x => exp (L a x)) μ)
    (hm : AEStronglyMeasurable (fun x => L' a x) μ) (hpos : 0 < ∫ x, exp (L a x) ∂μ) :
    Integrable (fun x => L' a x * exp (L a x)) μ ∧ HasDerivAt (fun θ => log (∫ x, exp (L θ x) ∂μ))
      ((∫ x, L' a x * exp (L a x) ∂μ) / ∫ x, exp (L a x) ∂μ) a := by
  obtain ⟨h1, h2⟩ := hasDerivAt_integral_of_dominated_loc_of_deriv_le (μ := μ) (F := fun θ x => exp (L θ x))
    (F' := fun θ x => L' θ x * exp (L θ x)) (bound := G) (x₀ := a) (s := {θ | AEStronglyMeasurable (fun x => exp (L θ x)) μ ∧
      ∀ x, HasDerivAt (fun t => L t x) (L' θ x) θ ∧ |L' θ x| * exp (L θ x) ≤ G x}) h (h.mono fun θ hθ => hθ.1) hi
    (hm.mul hi.aestronglyMeasurable) (Eventually.of_forall fun x θ hθ => by
      rw [norm_mul, norm_eq_abs, norm_eq_abs, abs_exp]
      exact (hθ.2 x).2) hG (Eventually.of_forall fun x θ hθ => by
      have := (hθ.2 x).1.exp
      rwa [mul_comm] at this)
  exact ⟨h1, h2.log hpos.ne'⟩

/-! ## Integrability -/

theorem integrable_gauss {n : Type} [Fintype n] {c : ℝ} (hc : 0 < c) : Integrable fun x : n → ℝ => exp (-c * (x ⬝ᵥ x)) := by
  have e : ∀ x : n → ℝ, exp (-c * (x ⬝ᵥ x)) = ∏ i, exp (-c * x i ^ 2) := fun x => by
    rw [dotProduct, Finset.mul_sum, exp_sum]
    exact Finset.prod_congr rfl fun i _ => by rw [sq]
  simp only [e]
  exact Integrable.fintype_prod fun _ => integrable_exp_neg_mul_sq hc

variable {ι κ : Type} [Fintype ι] [DecidableEq ι] [Fintype κ] [DecidableEq κ]

theorem pow_mul_gauss (k : ℕ) {c : ℝ} (hc : 0 < c) : ∃ B : ℝ, 0 ≤ B ∧ ∀ x : (ι → ℝ) × (κ → ℝ),
    sizeSq x ^ k * (exp (-c * (x.1 ⬝ᵥ x.1)) * exp (-c * (x.2 ⬝ᵥ x.2))) ≤
      B * (exp (-(c / 2) * (x.1 ⬝ᵥ x.1)) * exp (-(c / 2) * (x.2 ⬝ᵥ x.2))) := by
  refine ⟨(2 / c) ^ k * k.factorial * exp (c / 2), by positivity, fun x => ?_⟩
  have hs : 0 ≤ sizeSq x := zero_le_one.trans (sizeSq_one x)
  have h1 := Real.pow_div_factorial_le_exp (c / 2 * sizeSq x) (by positivity) k
  rw [div_le_iff₀ (by positivity), mul_pow] at h1
  have h2 : sizeSq x ^ k ≤ (2 / c) ^ k * (k.factorial * exp (c / 2 * sizeSq x)) := by
    calc sizeSq x ^ k = (2 / c) ^ k * ((c / 2) ^ k * sizeSq x ^ k) := by
          rw [← mul_assoc, ← mul_pow, div_mul_div_cancel₀ hc.ne', div_self two_ne_zero, one_pow, one_mul]
      _ ≤ (2 / c) ^ k * (k.factorial * exp (c / 2 * sizeSq x)) :=
          mul_le_mul_of_nonneg_left (by linarith) (by positivity)
  refine (mul_le_mul_of_nonneg_right h2 (by positivity)).trans (le_of_eq ?_)
  have e : exp (c / 2 * sizeSq x) * (exp (-c * (x.1 ⬝ᵥ x.1)) * exp (-c * (x.2 ⬝ᵥ x.2))) =
      exp (c / 2) * (exp (-(c / 2) * (x.1 ⬝ᵥ x.1)) * exp (-(c / 2) * (x.2 ⬝ᵥ x.2))) := by
    rw [← exp_add, ← exp_add, ← exp_add, ← exp_add]
    congr 1
    rw [sizeSq]
    ring
  calc _ = (2 / c) ^ k * k.factorial * (exp (c / 2 * sizeSq x) * (exp (-c * (x.1 ⬝ᵥ x.1)) * exp (-c * (x.2 ⬝ᵥ x.2)))) := by ring
    _ = _ := by rw [e]; ring

/-! ## Smooth families of models -/

/-- A family of instantiated models in which everything that the bounds depend on is a smooth function of the parameter near
`a`. -/
structure SmoothAt (M : ℝ → Inst ι κ) (d : List (ℝ × ℝ)) (a : ℝ) : Prop where
  Ku : MatC1 a fun θ => (M θ).Ku
  Kz : MatC1 a fun θ => (M θ).Kz
  noise : ContDiffAt ℝ 1 (fun θ => (M θ).noise) a
  iHx : ∀ p ∈ d, ContDiffAt ℝ 1 (fun θ => (M θ).iHx p.1 p.1) a
  iUx : MatC1 a fun θ => (M θ).iUx
  iHz : ∀ p ∈ d, MatC1 a fun θ => (M θ).iHz p.1
  iUz : ∀ p ∈ d, MatC1 a fun θ => (M θ).iUz p.1

variable {a : ℝ}

/-- The entries of a matrix are of the class `PolyC1`. -/
def PolyMat {m n : Type} (a : ℝ) (A : ℝ → (ι → ℝ) × (κ → ℝ) → Matrix m n ℝ) : Prop := ∀ i j, PolyC1 a fun θ x => A θ x i j

namespace PolyMat

variable {l m n : Type} [Fintype l] [Fintype m] [Fintype n]

theorem coeff {A : ℝ → Matrix m n ℝ} (h : MatC1 a A) : PolyMat a fun θ (_ : (ι → ℝ) × (κ → ℝ)) => A θ :=
  fun i j => PolyC1.coeff (h i j)

theorem mul {A : ℝ → (ι → ℝ) × (κ → ℝ) → Matrix l m ℝ} {B : ℝ → (ι → ℝ) × (κ → ℝ) → Matrix m n ℝ} (hA : PolyMat a A)
    (hB : PolyMat a B) : PolyMat a fun θ x => A θ x * B θ x := fun i j => by
  simp only [mul_apply]
  exact PolyC1.sum _ fun k _ => (hA i k).mul (hB k j)

theorem inner {A B : ℝ → (ι → ℝ) × (κ → ℝ) → Matrix m n ℝ} (hA : PolyMat a A) (hB : PolyMat a B) :
    PolyC1 a fun θ x => Spec.inner (A θ x) (B θ x) := by
  unfold Spec.inner
  exact PolyC1.sum _ fun i _ => PolyC1.sum _ fun j _ => (hA i j).mul (hB i j)

theorem u2 : PolyMat a fun _ (x : (ι → ℝ) × (κ → ℝ)) => vecMulVec x.1 x.1 := fun i j => by
  simp only [vecMulVec_apply]
  exact (PolyC1.fst i).mul (PolyC1.fst j)

theorem z2 : PolyMat a fun _ (x : (ι → ℝ) × (κ → ℝ)) => vecMulVec x.2 x.2 := fun i j => by
  simp only [vecMulVec_apply]
  exact (PolyC1.snd i).mul (PolyC1.snd j)

end PolyMat

theorem bilinear_poly {m n : Type} [Fintype m] [Fintype n] {A : ℝ → Matrix m n ℝ} (hA : MatC1 a A)
    {v : (ι → ℝ) × (κ → ℝ) → m → ℝ} {w : (ι → ℝ) × (κ → ℝ) → n → ℝ} (hv : ∀ i, PolyC1 a fun _ x => v x i)
    (hw : ∀ i, PolyC1 a fun _ x => w x i) : PolyC1 a fun θ x => v x ⬝ᵥ (A θ *ᵥ w x) := by
  simp only [dotProduct, mulVec]
  exact PolyC1.sum _ fun i _ => (hv i).mul (PolyC1.sum _ fun j _ => (PolyC1.coeff (hA i j)).mul (hw j))

theorem logDet_c1 {n : Type} [Fintype n] [DecidableEq n] {K : ℝ → Matrix n n ℝ} (hK : MatC1 a K) (hp : (K a).PosDef) :
    ContDiffAt ℝ 1 (fun θ => log (K θ).det) a := hK.det.log hp.det_pos.ne'

theorem logPrior_poly {n : Type} [Fintype n] [DecidableEq n] {K : ℝ → Matrix n n ℝ} (hK : MatC1 a K) (hp : (K a).PosDef)
    {v : (ι → ℝ) × (κ → ℝ) → n → ℝ} (hv : ∀ i, PolyC1 a fun _ x => v x i) : PolyC1 a fun θ x => logPrior (K θ) (v x) := by
  have h1 := (((PolyC1.coeff (logDet_c1 hK hp)).sub (PolyC1.const (Fintype.card n * log (2 * π)))).sub
    (bilinear_poly hK hv hv)).mul (PolyC1.const (1 / 2))
  refine Eq.mp (congrArg (PolyC1 a) (funext fun θ => funext fun x => ?_)) h1
  rw [logPrior]
  ring

/-- The joint density is a smooth function of the parameter. -/
theorem logJoint_poly {M : ℝ → Inst ι κ} {d : List (ℝ × ℝ)} (h : SmoothAt M d a) (hv : (M a).Valid) :
    PolyC1 a fun θ x => logJoint (M θ) d x.1 x.2 := by
  unfold logJoint
  refine ((logPrior_poly h.Ku hv.Ku PolyC1.fst).add (logPrior_poly h.Kz hv.Kz PolyC1.snd)).add ?_
  unfold expLogLik
  refine PolyC1.list_sum d (F := fun p θ x => Spec.ell (M θ).noise p.2
    (Spec.moments ((M θ).iHx p.1 p.1) (M θ).iUx ((M θ).iHz p.1) ((M θ).iUz p.1) (M θ).Ku⁻¹ (M θ).Kz⁻¹ x.1 (vecMulVec x.1 x.1) x.2
      (vecMulVec x.2 x.2)).1
    (Spec.moments ((M θ).iHx p.1 p.1) (M θ).iUx ((M θ).iHz p.1) ((M θ).iUz p.1) (M θ).Ku⁻¹ (M θ).Kz⁻¹ x.1 (vecMulVec x.1 x.1) x.2
      (vecMulVec x.2 x.2)).2) fun p hp => ?_
  have hn : ContDiffAt ℝ 1 (fun θ => log (2 * π * (M θ).noise)) a :=
    (contDiffAt_const.mul h.noise).log (by have := hv.noise; positivity)
  have hi : ContDiffAt ℝ 1 (fun θ => (2 * (M θ).noise)⁻¹) a :=
    (contDiffAt_const.mul h.noise).inv (by have := hv.noise; positivity)
  have hKu : MatC1 a fun θ => (M θ).Ku⁻¹ := h.Ku.inv hv.Ku.det_pos.ne'
  have hKz : MatC1 a fun θ => (M θ).Kz⁻¹ := h.Kz.inv hv.Kz.det_pos.ne'
  have hI := h.iUz p hp
  have hA : MatC1 a fun θ => (M θ).iUz p.1 * (M θ).Kz⁻¹ * ((M θ).iUz p.1)ᵀ := (hI.mul hKz).mul hI.transpose
  have hB : MatC1 a fun θ => ((M θ).iUz p.1)ᵀ * (M θ).Ku⁻¹ * (M θ).iUz p.1 := (hI.transpose.mul hKu).mul hI
  have hm1 : PolyC1 a fun θ (x : (ι → ℝ) × (κ → ℝ)) => x.1 ⬝ᵥ ((M θ).iUz p.1 *ᵥ x.2) :=
    bilinear_poly hI PolyC1.fst PolyC1.snd
  have t1 := (PolyMat.coeff (ι := ι) (κ := κ) (h.iUx.sub hA)).inner PolyMat.u2
  have t2 := (PolyMat.coeff (ι := ι) (κ := κ) ((h.iHz p hp).sub hB)).inner PolyMat.z2
  have t3 := (((PolyC1.coeff (ι := ι) (κ := κ) (h.iHx p hp)).sub ((PolyMat.coeff hKu).inner (PolyMat.coeff h.iUx))).sub
    ((PolyMat.coeff hKz).inner (PolyMat.coeff (h.iHz p hp)))).add ((PolyMat.coeff hKu).inner (PolyMat.coeff hA))
  have t4 := (PolyMat.u2 (ι := ι) (κ := κ) (a := a)).inner (((PolyMat.coeff hI).mul PolyMat.z2).mul (PolyMat.coeff hI.transpose))
  have hm2 := ((t1.add t2).add t3).add t4
  have key := ((PolyC1.coeff hn).mul (PolyC1.const (-(1 / 2)))).sub
    ((((PolyC1.const (p.2 ^ 2)).sub ((PolyC1.const (2 * p.2)).mul hm1)).add hm2).mul (PolyC1.coeff hi))
  refine Eq.mp (congrArg (PolyC1 a) (funext fun θ => funext fun x => ?_)) key
  simp only [Spec.ell, Spec.moments]
  rw [div_eq_mul_inv]
  ring

/-! ## Domination -/

theorem quad_near {n : Type} [Fintype n] [DecidableEq n] {K : ℝ → Matrix n n ℝ} (hK : MatC1 a K) (hp : (K a).PosDef) :
    ∃ c : ℝ, 0 < c ∧ ∀ᶠ θ in 𝓝 a, ∀ x : n → ℝ, c * (x ⬝ᵥ x) ≤ x ⬝ᵥ (K θ *ᵥ x) := by
  obtain ⟨α, hα, h⟩ := sq_le_quad hp
  have hc : ContinuousAt (fun θ => ∑ i, ∑ j, |(K a - K θ) i j|) a := by
    refine tendsto_finsetSum _ fun i _ => tendsto_finsetSum _ fun j _ => ?_
    exact (ContinuousAt.sub continuousAt_const (hK i j).continuousAt).abs
  have hz : (∑ i, ∑ j, |(K a - K a) i j|) = 0 := by simp
  have h1 := hc.eventually (gt_mem_nhds (show (∑ i, ∑ j, |(K a - K a) i j|) < 1 / (2 * α) by rw [hz]; positivity))
  refine ⟨1 / (2 * α), by positivity, h1.mono fun θ hθ x => ?_⟩
  have h2 := quad_le_sq (K a - K θ) x
  have h3 := h x
  have h4 := dot_self_nonneg' x
  rw [sub_mulVec, dotProduct_sub] at h2
  have h5 : (∑ i, ∑ j, |(K a - K θ) i j|) * (x ⬝ᵥ x) ≤ 1 / (2 * α) * (x ⬝ᵥ x) := mul_le_mul_of_nonneg_right hθ.le h4
  have h6 : 1 / α * (x ⬝ᵥ x) ≤ x ⬝ᵥ (K a *ᵥ x) := by
    rw [one_div_mul_eq_div, div_le_iff₀ hα]
    linarith
  have h7 : 1 / α * (x ⬝ᵥ x) = 1 / (2 * α) * (x ⬝ᵥ x) + 1 / (2 * α) * (x ⬝ᵥ x) := by
    field_simp
    ring
  linarith

theorem near_le {f : ℝ → ℝ} (hf : ContinuousAt f a) : ∀ᶠ θ in 𝓝 a, f θ ≤ f a + 1 :=
  (hf.eventually (gt_mem_nhds (show f a < f a + 1 by linarith))).mono fun _ h => le_of_lt h

theorem joint_bound {M : ℝ → Inst ι κ} {d : List (ℝ × ℝ)} (h : SmoothAt M d a) (hv : ∀ᶠ θ in 𝓝 a, (M θ).Valid) (k : ℕ) :
    ∃ B c : ℝ, 0 < c ∧ ∀ᶠ θ in 𝓝 a, ∀ x : (ι → ℝ) × (κ → ℝ), sizeSq x ^ k * exp (logJoint (M θ) d x.1 x.2) ≤
      B * (exp (-c * (x.1 ⬝ᵥ x.1)) * exp (-c * (x.2 ⬝ᵥ x.2))) := by
  have hva := hv.self_of_nhds
  obtain ⟨c1, hc1, q1⟩ := quad_near h.Ku hva.Ku
  obtain ⟨c2, hc2, q2⟩ := quad_near h.Kz hva.Kz
  have b1 := near_le (logDet_c1 h.Ku hva.Ku).continuousAt
  have b2 := near_le (logDet_c1 h.Kz hva.Kz).continuousAt
  have b3 := near_le (f := fun θ => d.length * (-(1 / 2) * log (2 * π * (M θ).noise))) (a := a)
    (ContinuousAt.mul continuousAt_const (ContinuousAt.mul continuousAt_const
      ((contDiffAt_const.mul h.noise).log (by have := hva.noise; positivity) : ContDiffAt ℝ 1 (fun θ => log (2 * π * (M θ).noise)) a).continuousAt))
  obtain ⟨c, hc⟩ : ∃ c, c = min c1 c2 / 2 := ⟨_, rfl⟩
  have hc0 : 0 < c := by rw [hc]; have := lt_min hc1 hc2; linarith
  obtain ⟨B, hB0, hB⟩ := pow_mul_gauss (ι := ι) (κ := κ) k hc0
  obtain ⟨E, hE⟩ : ∃ E, E = (log (M a).Ku.det + 1 - Fintype.card ι * log (2 * π)) / 2 +
    (log (M a).Kz.det + 1 - Fintype.card κ * log (2 * π)) / 2 + (d.length * (-(1 / 2) * log (2 * π * (M a).noise)) + 1) := ⟨_, rfl⟩
  refine ⟨exp E * B, c / 2, by linarith, ?_⟩
  filter_upwards [hv, q1, q2, b1, b2, b3] with θ hv q1 q2 b1 b2 b3 x
  have l1 := expLogLik_le hv d (u := x.1) (u2 := vecMulVec x.1 x.1) (z := x.2) (z2 := vecMulVec x.2 x.2)
    (by rw [sub_self]; exact Matrix.PosSemidef.zero) (by rw [sub_self]; exact Matrix.PosSemidef.zero)
  have n1 := dot_self_nonneg' x.1
  have n2 := dot_self_nonneg' x.2
  have m1 : c * (x.1 ⬝ᵥ x.1) ≤ x.1 ⬝ᵥ ((M θ).Ku *ᵥ x.1) / 2 := by
    have := q1 x.1
    have := mul_le_mul_of_nonneg_right (min_le_left c1 c2) n1
    rw [hc]
    linarith
  have m2 : c * (x.2 ⬝ᵥ x.2) ≤ x.2 ⬝ᵥ ((M θ).Kz *ᵥ x.2) / 2 := by
    have := q2 x.2
    have := mul_le_mul_of_nonneg_right (min_le_right c1 c2) n2
    rw [hc]
    linarith
  have l2 : logJoint (M θ) d x.1 x.2 ≤ E + (-c * (x.1 ⬝ᵥ x.1) + -c * (x.2 ⬝ᵥ x.2)) := by
    rw [logJoint, logPrior, logPrior, hE]
    linarith
  have l3 := exp_le_exp.2 l2
  rw [exp_add, exp_add] at l3
  have hs : 0 ≤ sizeSq x := zero_le_one.trans (sizeSq_one x)
  calc _ ≤ sizeSq x ^ k * (exp E * (exp (-c * (x.1 ⬝ᵥ x.1)) * exp (-c * (x.2 ⬝ᵥ x.2)))) :=
        mul_le_mul_of_nonneg_left l3 (by positivity)
    _ = exp E * (sizeSq x ^ k * (exp (-c * (x.1 ⬝ᵥ x.1)) * exp (-c * (x.2 ⬝ᵥ x.2)))) := by ring
    _ ≤ exp E * (B * (exp (-(c / 2) * (x.1 ⬝ᵥ x.1)) * exp (-(c / 2) * (x.2 ⬝ᵥ x.2)))) :=
        mul_le_mul_of_nonneg_left (hB x) (exp_pos E).le
    _ = _ := by ring

end Gpcm
