import Verif.Props.EvidenceProps
import Verif.Props.KernelPredProps
import Verif.Lemmas.GibbsMoments
import Mathlib.Probability.Moments.Variance

/-! # Property C188: what Monte Carlo estimates with independent samples are worth -/

set_option linter.unusedSectionVars false

open Matrix Real MeasureTheory ProbabilityTheory Filter Topology

namespace Gpcm

open Rgpcm RgpcmModel

section spec

variable {n : Type} [Fintype n]

/-- The law of a standard normal vector. -/
noncomputable def Spec.stdNormal (n : Type) [Fintype n] : Measure (n → ℝ) :=
  volume.withDensity fun w => ENNReal.ofReal (stdPdf w)

/-- The law of `k` independent standard normal vectors. -/
noncomputable def Spec.iid (n : Type) [Fintype n] (k : ℕ) : Measure (Fin k → n → ℝ) := Measure.pi fun _ => Spec.stdNormal n

end spec

section law

variable {n : Type} [Fintype n] [DecidableEq n]

theorem stdNormal_prob : IsProbabilityMeasure (Spec.stdNormal n) := by
  refine ⟨?_⟩
  rw [Spec.stdNormal, withDensity_apply _ MeasurableSet.univ, Measure.restrict_univ,
    ← ofReal_integral_eq_lintegral_ofReal (std_zeroth (n := n)).1 (Eventually.of_forall stdPdf_nonneg), std_zeroth.2, ENNReal.ofReal_one]

theorem iid_prob (k : ℕ) : IsProbabilityMeasure (Spec.iid n k) := by
  have := stdNormal_prob (n := n)
  unfold Spec.iid
  infer_instance

theorem stdNormal_integrable (g : (n → ℝ) → ℝ) : Integrable g (Spec.stdNormal n) ↔ Integrable fun w => stdPdf w * g w := by
  rw [Spec.stdNormal, integrable_withDensity_iff_integrable_smul' (measurable_stdPdf.ennreal_ofReal)
    (Eventually.of_forall fun w => ENNReal.ofReal_lt_top)]
  simp only [ENNReal.toReal_ofReal (stdPdf_nonneg _), smul_eq_mul]

theorem stdNormal_integral (g : (n → ℝ) → ℝ) : ∫ w, g w ∂Spec.stdNormal n = ∫ w, stdPdf w * g w := by
  rw [Spec.stdNormal, integral_withDensity_eq_integral_toReal_smul (measurable_stdPdf.ennreal_ofReal)
    (Eventually.of_forall fun w => ENNReal.ofReal_lt_top)]
  simp only [ENNReal.toReal_ofReal (stdPdf_nonneg _), smul_eq_mul]

/-- Functions of polynomial growth have all moments. -/
theorem poly_sq {g : (n → ℝ) → ℝ} (hg : Measurable g) {c : ℝ} {k : ℕ} (hc : ∀ w, |g w| ≤ c * (1 + w ⬝ᵥ w) ^ k) :
    MemLp g 2 (Spec.stdNormal n) := by
  have := stdNormal_prob (n := n)
  rw [memLp_two_iff_integrable_sq hg.aestronglyMeasurable, stdNormal_integrable]
  have hi : Integrable fun w : n → ℝ => stdPdf w * exp (1 / 4 * (w ⬝ᵥ w)) := by
    refine ⟨(measurable_stdPdf.mul (Continuous.measurable (by fun_prop))).aestronglyMeasurable, ?_⟩
    rw [hasFiniteIntegral_iff_ofReal (Eventually.of_forall fun w => mul_nonneg (stdPdf_nonneg w) (exp_pos _).le)]
    exact normal_exp_finite
  refine (hi.const_mul (c ^ 2 * (4 ^ (2 * k) * ((2 * k).factorial * exp (1 / 4))))).mono'
    (measurable_stdPdf.mul (hg.pow_const 2)).aestronglyMeasurable (Eventually.of_forall fun w => ?_)
  have hw : 0 ≤ w ⬝ᵥ w := Finset.sum_nonneg fun i _ => mul_self_nonneg _
  have h0 := stdPdf_nonneg w
  rw [norm_of_nonneg (mul_nonneg h0 (sq_nonneg _))]
  have h1 := Real.pow_div_factorial_le_exp (1 / 4 * (1 + w ⬝ᵥ w)) (by positivity) (2 * k)
  rw [div_le_iff₀ (by positivity), mul_pow, mul_add, mul_one, exp_add, div_pow, one_pow, div_mul_eq_mul_div, one_mul,
    div_le_iff₀ (by positivity)] at h1
  have h2 : g w ^ 2 ≤ c ^ 2 * (1 + w ⬝ᵥ w) ^ (2 * k) := by
    rw [← sq_abs, pow_mul' (1 + w ⬝ᵥ w), ← mul_pow]
    exact pow_le_pow_left₀ (abs_nonneg _) (hc w) 2
  have h3 := mul_le_mul_of_nonneg_left h1 (sq_nonneg c)
  calc stdPdf w * g w ^ 2 ≤ stdPdf w * (c ^ 2 * (exp (1 / 4) * exp (1 / 4 * (w ⬝ᵥ w)) * (2 * k).factorial * 4 ^ (2 * k))) :=
        mul_le_mul_of_nonneg_left (h2.trans h3) h0
    _ = _ := by ring

/-- Averages over independent samples. -/
theorem monte_carlo {g : (n → ℝ) → ℝ} (hg : MemLp g 2 (Spec.stdNormal n)) {k : ℕ} (hk : k ≠ 0) {μ V : ℝ}
    (hμ : ∫ w, stdPdf w * g w = μ) (hV : ∫ w, stdPdf w * (g w - μ) ^ 2 = V) :
    (Integrable (fun W => ((∑ i, g (W i)) / k - μ) ^ 2) (Spec.iid n k) ∧
      ∫ W, ((∑ i, g (W i)) / k - μ) ^ 2 ∂Spec.iid n k = V / k) ∧
    (Integrable (fun W => (∑ i, (g (W i) - (∑ j, g (W j)) / k) ^ 2) / k) (Spec.iid n k) ∧
      ∫ W, (∑ i, (g (W i) - (∑ j, g (W j)) / k) ^ 2) / k ∂Spec.iid n k = V * (1 - 1 / k)) := by
  have := stdNormal_prob (n := n)
  have := iid_prob (n := n) k
  have hk' : (k : ℝ) ≠ 0 := by exact_mod_cast hk
  have mp : ∀ i : Fin k, MeasurePreserving (fun W : Fin k → n → ℝ => W i) (Spec.iid n k) (Spec.stdNormal n) := fun i =>
    measurePreserving_eval _ i
  have hl : ∀ i : Fin k, MemLp (fun W : Fin k → n → ℝ => g (W i)) 2 (Spec.iid n k) := fun i => hg.comp_measurePreserving (mp i)
  have hm : ∫ w, g w ∂Spec.stdNormal n = μ := by rw [stdNormal_integral, hμ]
  have hmi : ∀ i : Fin k, ∫ W, g (W i) ∂Spec.iid n k = μ := fun i => by
    rw [← hm, ← (mp i).map_eq, integral_map (mp i).measurable.aemeasurable]
    rw [(mp i).map_eq]
    exact hg.1
  have hv : Var[g; Spec.stdNormal n] = V := by
    rw [variance_eq_integral hg.1.aemeasurable, hm, stdNormal_integral, hV]
  have hvs := variance_sum_pi (μ := fun _ : Fin k => Spec.stdNormal n) (X := fun _ => g) fun _ => hg
  rw [Finset.sum_const, Finset.card_univ, Fintype.card_fin, nsmul_eq_mul, hv] at hvs
  have hL : MemLp (fun W : Fin k → n → ℝ => (∑ i, g (W i)) / k - μ) 2 (Spec.iid n k) := by
    simp only [div_eq_inv_mul]
    exact ((memLp_finsetSum _ fun i _ => hl i).const_mul _).sub (memLp_const μ)
  have hms : ∫ W, ∑ i, g (W i) ∂Spec.iid n k = k * μ := by
    rw [integral_finsetSum _ fun i _ => (hl i).integrable (by norm_num)]
    simp [hmi]
  have e1 : Integrable (fun W => ((∑ i, g (W i)) / k - μ) ^ 2) (Spec.iid n k) := hL.integrable_sq
  have e2 : ∫ W, ((∑ i, g (W i)) / k - μ) ^ 2 ∂Spec.iid n k = V / k := by
    change Var[∑ i, fun W : Fin k → n → ℝ => g (W i); Spec.iid n k] = _ at hvs
    rw [variance_eq_integral (Finset.aemeasurable_sum _ fun i _ => (hl i).1.aemeasurable)] at hvs
    simp only [Finset.sum_apply] at hvs
    change ∫ W, (∑ i, g (W i) - ∫ W', ∑ i, g (W' i) ∂Spec.iid n k) ^ 2 ∂Spec.iid n k = _ at hvs
    rw [hms] at hvs
    have e : ∀ W : Fin k → n → ℝ, ((∑ i, g (W i)) / k - μ) ^ 2 = (k ^ 2 : ℝ)⁻¹ * (∑ i, g (W i) - k * μ) ^ 2 := fun W => by
      field_simp
    simp only [e]
    rw [integral_const_mul, hvs]
    field_simp
  have e3 : ∀ W : Fin k → n → ℝ, (∑ i, (g (W i) - (∑ j, g (W j)) / k) ^ 2) / k =
      (k : ℝ)⁻¹ * (∑ i, (g (W i) - μ) ^ 2) - ((∑ i, g (W i)) / k - μ) ^ 2 := fun W => by
    obtain ⟨a, ha⟩ : ∃ a, a = (∑ j, g (W j)) / k := ⟨_, rfl⟩
    have hs : ∑ j, g (W j) = k * a := by rw [ha]; field_simp
    rw [← ha]
    have e : ∀ i, (g (W i) - a) ^ 2 = (g (W i) - μ) ^ 2 - (2 * (a - μ) * g (W i) - (a ^ 2 - μ ^ 2)) := fun i => by ring
    simp only [e]
    rw [Finset.sum_sub_distrib, Finset.sum_sub_distrib, ← Finset.mul_sum, hs, Finset.sum_const, Finset.card_univ,
      Fintype.card_fin, nsmul_eq_mul]
    field_simp
    ring
  have hsq : ∀ i : Fin k, Integrable (fun W : Fin k → n → ℝ => (g (W i) - μ) ^ 2) (Spec.iid n k) := fun i =>
    ((hl i).sub (memLp_const μ)).integrable_sq
  have hsv : ∀ i : Fin k, ∫ W : Fin k → n → ℝ, (g (W i) - μ) ^ 2 ∂Spec.iid n k = V := fun i => by
    rw [← hV, ← stdNormal_integral, ← (mp i).map_eq, integral_map (mp i).measurable.aemeasurable]
    rw [(mp i).map_eq]
    exact (hg.sub (memLp_const μ)).integrable_sq.1
  have hS := (integrable_finsetSum Finset.univ fun i _ => hsq i).const_mul (k : ℝ)⁻¹
  refine ⟨⟨e1, e2⟩, ?_⟩
  simp only [e3]
  refine ⟨hS.sub e1, ?_⟩
  rw [integral_sub hS e1, e2, integral_const_mul, integral_finsetSum _ fun i _ => hsq i]
  simp only [hsv]
  rw [Finset.sum_const, Finset.card_univ, Fintype.card_fin, nsmul_eq_mul]
  field_simp

theorem chebyshev {k : ℕ} {f : (Fin k → n → ℝ) → ℝ} {V ε : ℝ} (hi : Integrable (fun W => f W ^ 2) (Spec.iid n k))
    (hV : ∫ W, f W ^ 2 ∂Spec.iid n k = V / k) (hε : 0 < ε) : (Spec.iid n k).real {W | ε ≤ |f W|} ≤ V / (k * ε ^ 2) := by
  have h1 := mul_meas_ge_le_integral_of_nonneg (Eventually.of_forall fun W => sq_nonneg (f W)) hi (ε ^ 2)
  rw [hV] at h1
  have e : {W | ε ^ 2 ≤ f W ^ 2} = {W | ε ≤ |f W|} := by
    ext W
    simp only [Set.mem_setOf_eq]
    rw [sq_le_sq, abs_of_pos hε]
  rw [e] at h1
  rw [← div_div, le_div_iff₀ (by positivity), mul_comm]
  exact h1

variable (C : CholOracle n)

/-- Functions of polynomial growth of a sample. -/
theorem sample_sq {q : NatNormal n} (hq : q.prec.PosDef) {f : (n → ℝ) → ℝ} (hf : Measurable f) {c : ℝ} {k : ℕ}
    (hc : ∀ u, |f u| ≤ c * (1 + u ⬝ᵥ u) ^ k) : MemLp (fun w => f (q.sample C w)) 2 (Spec.stdNormal n) := by
  obtain ⟨S, hS⟩ : ∃ S, S = q.samplePart C := ⟨_, rfl⟩
  obtain ⟨a, ha⟩ : ∃ a, a = 1 + 2 * (q.mean C ⬝ᵥ q.mean C) + 2 * ∑ i, ∑ j, |(Sᵀ * S) i j| := ⟨_, rfl⟩
  have hm0 : 0 ≤ q.mean C ⬝ᵥ q.mean C := Finset.sum_nonneg fun i _ => mul_self_nonneg _
  have hs0 : 0 ≤ ∑ i, ∑ j, |(Sᵀ * S) i j| := Finset.sum_nonneg fun i _ => Finset.sum_nonneg fun j _ => abs_nonneg _
  have he : ∀ w, q.sample C w = q.mean C + S *ᵥ w := fun w => by rw [hS, NatNormal.sample_eq C hq]
  have hc0 : 0 ≤ c := by
    have := hc 0
    simp only [dotProduct_zero, add_zero, one_pow, mul_one] at this
    exact (abs_nonneg _).trans this
  refine poly_sq (c := c * a ^ k) (k := k) ?_ fun w => ?_
  · simp only [he]
    exact hf.comp (Continuous.measurable (continuous_const.add (continuous_const.matrix_mulVec continuous_id)))
  · refine (hc _).trans ?_
    rw [mul_assoc, ← mul_pow]
    have hw0 : 0 ≤ w ⬝ᵥ w := Finset.sum_nonneg fun i _ => mul_self_nonneg _
    have h1 : 0 ≤ q.sample C w ⬝ᵥ q.sample C w := Finset.sum_nonneg fun i _ => mul_self_nonneg _
    refine mul_le_mul_of_nonneg_left (pow_le_pow_left₀ (by linarith) ?_ k) hc0
    have h2 : (S *ᵥ w) ⬝ᵥ (S *ᵥ w) ≤ (∑ i, ∑ j, |(Sᵀ * S) i j|) * (w ⬝ᵥ w) := by
      refine le_trans (le_of_eq ?_) (quad_le_sq (Sᵀ * S) w)
      rw [← mulVec_mulVec, dotProduct_mulVec w, vecMul_transpose]
    have h3 : 0 ≤ (q.mean C - S *ᵥ w) ⬝ᵥ (q.mean C - S *ᵥ w) := Finset.sum_nonneg fun i _ => mul_self_nonneg _
    have h4 : (q.mean C - S *ᵥ w) ⬝ᵥ (q.mean C - S *ᵥ w) + (q.mean C + S *ᵥ w) ⬝ᵥ (q.mean C + S *ᵥ w) =
        2 * (q.mean C ⬝ᵥ q.mean C) + 2 * ((S *ᵥ w) ⬝ᵥ (S *ᵥ w)) := by
      simp only [dotProduct_add, add_dotProduct, dotProduct_sub, sub_dotProduct]
      ring
    rw [he, ha]
    nlinarith [mul_nonneg hm0 hw0]

end law

variable {ι κ : Type} [Fintype ι] [DecidableEq ι] [Fintype κ] [DecidableEq κ]
variable (C : Chols ι κ) {m : Inst ι κ}

/-- The expected log-likelihood grows at most quadratically with the sample. -/
theorem expLogLik_growth (h : m.Valid) (d : List (ℝ × ℝ)) (z : κ → ℝ) (z2 : Matrix κ κ ℝ) :
    ∃ c, 0 ≤ c ∧ ∀ u : ι → ℝ, |expLogLik m d u (vecMulVec u u) z z2| ≤ c * (1 + u ⬝ᵥ u) ^ 1 := by
  obtain ⟨C⟩ : Nonempty (Chols ι κ) := ⟨⟨Classical.choice cholOracle_nonempty, Classical.choice cholOracle_nonempty⟩⟩
  simp only [← sumEll_expLogLik C h, pow_one]
  obtain ⟨ts, hts⟩ : ∃ ts, ts = constructDataTerms C m d := ⟨_, rfl⟩
  rw [← hts]
  obtain ⟨Q, hQ⟩ : ∃ Q, Q = uQuad ts z2 := ⟨_, rfl⟩
  obtain ⟨b, hb⟩ : ∃ b, b = ts.iUzSum *ᵥ z := ⟨_, rfl⟩
  obtain ⟨e, he⟩ : ∃ e, e = sumEll ts m.noise 0 0 z z2 := ⟨_, rfl⟩
  obtain ⟨q, hq⟩ : ∃ q, q = ∑ i, ∑ j, |Q i j| := ⟨_, rfl⟩
  have hq0 : 0 ≤ q := by
    rw [hq]
    exact Finset.sum_nonneg fun i _ => Finset.sum_nonneg fun j _ => abs_nonneg _
  have hb0 : 0 ≤ b ⬝ᵥ b := Finset.sum_nonneg fun i _ => mul_self_nonneg _
  have hn := h.noise
  obtain ⟨r, hr⟩ : ∃ r, r = 1 / m.noise := ⟨_, rfl⟩
  have hr0 : 0 ≤ r := by rw [hr]; positivity
  refine ⟨|e| + r * q + r * (b ⬝ᵥ b + 1), by positivity, fun u => ?_⟩
  have hu0 : 0 ≤ u ⬝ᵥ u := Finset.sum_nonneg fun i _ => mul_self_nonneg _
  have f : sumEll ts m.noise u (vecMulVec u u) z z2 = e - r / 2 * (u ⬝ᵥ (Q *ᵥ u)) + r * (b ⬝ᵥ u) := by
    rw [sumEll_u, frob_vecMulVec, ← hQ, ← hb, ← he, hr]
    field_simp
    ring
  have h1 : |u ⬝ᵥ (Q *ᵥ u)| ≤ q * (u ⬝ᵥ u) := by
    have a1 := quad_le_sq Q u
    have a2 := quad_le_sq (-Q) u
    simp only [neg_mulVec, dotProduct_neg, Matrix.neg_apply, abs_neg] at a2
    rw [← hq] at a1 a2
    exact abs_le.2 ⟨by linarith, a1⟩
  have h2 : |b ⬝ᵥ u| ≤ b ⬝ᵥ b + u ⬝ᵥ u := by
    have a1 : 0 ≤ (b - u) ⬝ᵥ (b - u) := Finset.sum_nonneg fun i _ => mul_self_nonneg _
    have a2 : 0 ≤ (b + u) ⬝ᵥ (b + u) := Finset.sum_nonneg fun i _ => mul_self_nonneg _
    simp only [dotProduct_add, add_dotProduct, dotProduct_sub, sub_dotProduct, dotProduct_comm u b] at a1 a2
    exact abs_le.2 ⟨by linarith, by linarith⟩
  rw [f]
  have h3 : |e - r / 2 * (u ⬝ᵥ (Q *ᵥ u)) + r * (b ⬝ᵥ u)| ≤ |e| + r / 2 * |u ⬝ᵥ (Q *ᵥ u)| + r * |b ⬝ᵥ u| := by
    refine (abs_add_le _ _).trans (add_le_add ((abs_sub _ _).trans (le_of_eq ?_)) (le_of_eq ?_))
    · rw [abs_mul, abs_of_nonneg (by positivity : 0 ≤ r / 2)]
    · rw [abs_mul, abs_of_nonneg hr0]
  have h4 := mul_le_mul_of_nonneg_left h1 (by positivity : 0 ≤ r / 2)
  have h5 := mul_le_mul_of_nonneg_left h2 hr0
  have p1 := mul_nonneg (abs_nonneg e) hu0
  have p2 := mul_nonneg (mul_nonneg hr0 hq0) hu0
  have p3 := mul_nonneg (mul_nonneg hr0 hb0) hu0
  have p4 := mul_nonneg hr0 hq0
  nlinarith

theorem logZu_growth (h : m.Valid) (d : List (ℝ × ℝ)) :
    ∃ c, ∀ u : ι → ℝ, |logZu C m (constructDataTerms C m d) u| ≤ c * (1 + u ⬝ᵥ u) ^ 1 := by
  have p : (⟨0, m.Kz⟩ : NatNormal κ).prec.PosDef := h.Kz
  obtain ⟨c, hc0, hc⟩ := expLogLik_growth h d ((⟨0, m.Kz⟩ : NatNormal κ).mean C.z) ((⟨0, m.Kz⟩ : NatNormal κ).m2 C.z)
  obtain ⟨e, he⟩ : ∃ e : ℝ, e = d.length * (-(1 / 2) * log (2 * π * m.noise)) := ⟨_, rfl⟩
  refine ⟨c + |e|, fun u => ?_⟩
  have h1 := logZu_le C h d u
  rw [← he] at h1
  have h2 := ((c25_maximum C h d u).2 _ p).1
  simp only [kl_self C.z (q := ⟨0, m.Kz⟩) h.Kz, sub_zero] at h2
  have h3 := neg_le_of_abs_le (hc u)
  have hu0 : 0 ≤ u ⬝ᵥ u := Finset.sum_nonneg fun i _ => mul_self_nonneg _
  have h4 := mul_nonneg (abs_nonneg e) hu0
  have h5 := mul_nonneg hc0 hu0
  rw [pow_one] at h3 ⊢
  rw [abs_le]
  constructor <;> nlinarith [le_abs_self e, abs_nonneg e]

/-- **C188** The estimate of the structured bound has a mean square error of exactly the variance of an estimate with one sample
divided by the number of samples; so it is unlikely to be far off if there are many samples. -/
theorem c188_elbo (h : m.Valid) (s : Posts ι κ) (hs : s.qi = 0) (d : List (ℝ × ℝ)) (hu : s.qU.prec.PosDef) :
    ∃ v : (ι → ℝ) → ℝ, (∀ u, elboCollapsedZ C m s d [u] = .ok (v u)) ∧
    ∃ V : ℝ, Integrable (fun u => exp (s.qU.logpdf C.u u) * (v u - structuredBound C m d s.qU) ^ 2) ∧
      V = ∫ u, exp (s.qU.logpdf C.u u) * (v u - structuredBound C m d s.qU) ^ 2 ∧
      ∀ k : ℕ, k ≠ 0 → ∃ b : (Fin k → ι → ℝ) → ℝ,
        (∀ W, elboCollapsedZ C m s d (List.ofFn fun i => s.qU.sample C.u (W i)) = .ok (b W)) ∧
        Integrable (fun W => (b W - structuredBound C m d s.qU) ^ 2) (Spec.iid ι k) ∧
        ∫ W, (b W - structuredBound C m d s.qU) ^ 2 ∂Spec.iid ι k = V / k ∧
        ∀ ε > 0, (Spec.iid ι k).real {W | ε ≤ |b W - structuredBound C m d s.qU|} ≤ V / (k * ε ^ 2) := by
  have ep : s.pU m = ⟨0, m.Ku⟩ := if_pos hs
  obtain ⟨L, hL⟩ : ∃ L, L = logZu C m (constructDataTerms C m d) := ⟨_, rfl⟩
  obtain ⟨D, hD⟩ : ∃ D, D = s.qU.kl C.u ⟨0, m.Ku⟩ := ⟨_, rfl⟩
  obtain ⟨c, hc⟩ := logZu_growth C h d
  obtain ⟨μ, hμ⟩ : ∃ μ, ∫ w, stdPdf w * L (s.qU.sample C.u w) = μ := ⟨_, rfl⟩
  have hb : structuredBound C m d s.qU = μ - D := by
    rw [structuredBound, ← hμ, (NatNormal.expect_sample C.u hu L).2, hD, hL]
  have hm := sample_sq C.u hu (measurable_logZu C h d) hc
  rw [← hL] at hm
  have := stdNormal_prob (n := ι)
  have hsq := (stdNormal_integrable _).1 (hm.sub (memLp_const μ)).integrable_sq
  have ev := NatNormal.expect_sample C.u hu fun u => (L u - μ) ^ 2
  refine ⟨fun u => L u - D, fun u => ?_, _, ?_, rfl, fun k hk => ?_⟩
  · rw [elboCollapsedZ, if_neg (by simp), ep, hL, hD]
    simp
  · simp only [hb, sub_sub_sub_cancel_right]
    exact ev.1.1 hsq
  refine ⟨fun W => (∑ i, L (s.qU.sample C.u (W i))) / k - D, fun W => ?_, ?_⟩
  · rw [elboCollapsedZ, if_neg (by simpa using hk), ep, List.map_ofFn, List.sum_ofFn, List.length_ofFn, hL, hD]
    rfl
  · have h1 := (monte_carlo hm hk hμ rfl).1
    rw [ev.2] at h1
    simp only [hb, sub_sub_sub_cancel_right]
    exact ⟨h1.1, h1.2, fun ε hε => chebyshev h1.1 h1.2 hε⟩

section kernel

variable {D : CholOracle ι} {kern : Kern ι} {Ku : Matrix ι ι ℝ} {ihx : ℝ → ℝ → ℝ} {I : ℝ → ℝ → Matrix ι ι ℝ}

/-- What `predict_kernel` is worth: `V s` is the variance of one sampled kernel at lag `s`, and `M s` the expected kernel. -/
def Spec.KernelWorth (extent : ℝ) (approx : List (ι → ℝ) → List ℝ → Except PyErr (List (List ℝ))) (M V : ℝ → ℝ) : Prop :=
  ∀ k : ℕ, k ≠ 0 → ∀ tK : List ℝ, tK ≠ [] → ∃ S : (Fin k → ι → ℝ) → List (ℝ × Summary),
    (∀ W, predictKernel extent (approx (List.ofFn W)) (some tK) = .ok (S W) ∧ (S W).map Prod.fst = tK) ∧
    ∀ i (hi : i < tK.length), ∃ a b : (Fin k → ι → ℝ) → ℝ,
      (∀ W, ((S W)[i]?.map fun x => (x.2.mean, x.2.var)) = some (a W, b W)) ∧
      Integrable (fun W => (a W - M tK[i]) ^ 2) (Spec.iid ι k) ∧
      ∫ W, (a W - M tK[i]) ^ 2 ∂Spec.iid ι k = V tK[i] / k ∧
      Integrable b (Spec.iid ι k) ∧ ∫ W, b W ∂Spec.iid ι k = V tK[i] * (1 - 1 / k)

theorem GoodKern.worth (h : GoodKern D kern Ku ihx I) {p : NatNormal ι} (hp : p.prec.PosDef) (extent : ℝ) :
    ∃ k : (ι → ℝ) → ℝ → ℝ,
      (∀ tK w, sampleKernelMeanField D kern Ku p tK [w] = .ok [tK.map (k w)]) ∧
      (∀ s, Integrable fun w => stdPdf w * (k w s - Spec.expectedKernel (ihx s 0) Ku⁻¹ (I s 0)
        (p.prec⁻¹ + vecMulVec (p.prec⁻¹ *ᵥ p.lam) (p.prec⁻¹ *ᵥ p.lam))) ^ 2) ∧
      Spec.KernelWorth extent (fun ws tK => sampleKernelMeanField D kern Ku p tK ws)
        (fun s => Spec.expectedKernel (ihx s 0) Ku⁻¹ (I s 0) (p.prec⁻¹ + vecMulVec (p.prec⁻¹ *ᵥ p.lam) (p.prec⁻¹ *ᵥ p.lam)))
        (fun s => ∫ w, stdPdf w * (k w s - Spec.expectedKernel (ihx s 0) Ku⁻¹ (I s 0)
          (p.prec⁻¹ + vecMulVec (p.prec⁻¹ *ᵥ p.lam) (p.prec⁻¹ *ᵥ p.lam))) ^ 2) := by
  obtain ⟨k, -, h2, h3⟩ := h.mean_field hp
  obtain ⟨M, hM⟩ : ∃ M : ℝ → ℝ, M = fun s => Spec.expectedKernel (ihx s 0) Ku⁻¹ (I s 0)
    (p.prec⁻¹ + vecMulVec (p.prec⁻¹ *ᵥ p.lam) (p.prec⁻¹ *ᵥ p.lam)) := ⟨_, rfl⟩
  have hMs : ∀ s, Spec.expectedKernel (ihx s 0) Ku⁻¹ (I s 0)
    (p.prec⁻¹ + vecMulVec (p.prec⁻¹ *ᵥ p.lam) (p.prec⁻¹ *ᵥ p.lam)) = M s := fun s => by rw [hM]
  have hm : ∀ s, MemLp (fun w => k w s) 2 (Spec.stdNormal ι) := fun s => by
    obtain ⟨k', -, h2', h3'⟩ := h.row
    have e : ∀ w, k w s = k' (p.sample D w) s := fun w => by
      have := h2 [s] [w] (by simp)
      unfold sampleKernelMeanField columns at this
      simp [mapE, h2', stack, bind1] at this
      exact this.symm
    simp only [e]
    obtain ⟨q, hq⟩ : ∃ q, q = ∑ i, ∑ j, |I s 0 i j| := ⟨_, rfl⟩
    have hq0 : 0 ≤ q := by
      rw [hq]
      exact Finset.sum_nonneg fun i _ => Finset.sum_nonneg fun j _ => abs_nonneg _
    obtain ⟨r, hr⟩ : ∃ r, r = ihx s 0 - (Ku⁻¹ * I s 0).trace := ⟨_, rfl⟩
    refine sample_sq D hp (f := fun u => k' u s) (c := |r| + q) (k := 1) ?_ fun u => ?_
    · simp only [h3']
      exact Continuous.measurable (continuous_const.add (continuous_id.dotProduct (continuous_const.matrix_mulVec continuous_id)))
    · have a1 := quad_le_sq (I s 0) u
      have a2 := quad_le_sq (-I s 0) u
      simp only [neg_mulVec, dotProduct_neg, Matrix.neg_apply, abs_neg] at a2
      rw [← hq] at a1 a2
      have hu0 : 0 ≤ u ⬝ᵥ u := Finset.sum_nonneg fun i _ => mul_self_nonneg _
      rw [h3', ← hr, pow_one]
      refine (abs_add_le _ _).trans ?_
      have := abs_le.2 ⟨by linarith, a1⟩
      nlinarith [abs_nonneg r, mul_nonneg (abs_nonneg r) hu0]
  have := stdNormal_prob (n := ι)
  simp only [hMs] at h3 ⊢
  refine ⟨k, fun tK w => h2 tK [w] (by simp), fun s => (stdNormal_integrable _).1 ((hm s).sub (memLp_const (M s))).integrable_sq,
    fun n hn tK ht => ?_⟩
  have hW : ∀ W : Fin n → ι → ℝ, List.ofFn W ≠ [] := fun W => by simpa using hn
  have hP := fun W : Fin n → ι → ℝ => c113_kernel (extent := extent)
    (approx := fun tK => sampleKernelMeanField D kern Ku p tK (List.ofFn W)) (h2 tK (List.ofFn W) (hW W)) (by simpa using hn)
    (by simp) ht
  choose S hS1 hS2 hS3 using hP
  refine ⟨S, fun W => ⟨hS1 W, hS2 W⟩, fun i hi => ?_⟩
  have hl : ∀ W, i < (S W).length := fun W => by
    have := congrArg List.length (hS2 W)
    rw [List.length_map] at this
    omega
  have mc := monte_carlo (hm tK[i]) hn (h3 tK[i]).2 rfl
  refine ⟨_, _, fun W => ?_, mc.1.1, mc.1.2, mc.2.1, mc.2.2⟩
  have e1 : ∀ F : ℝ → ℝ, (((List.ofFn W).map fun w => tK.map (k w)).map fun x => F (x.getD i 0)).sum = ∑ j, F (k (W j) tK[i]) :=
    fun F => by
      rw [List.map_map, List.map_ofFn, List.sum_ofFn]
      refine Finset.sum_congr rfl fun j _ => ?_
      simp [List.getD_eq_getElem?_getD, hi]
  obtain ⟨m1, m2⟩ := hS3 W i (hl W)
  rw [m1] at m2
  rw [e1 fun x => x, List.length_map, List.length_ofFn] at m1 m2
  rw [e1 fun x => (x - (∑ j, k (W j) tK[i]) / n) ^ 2] at m2
  rw [List.getElem?_eq_getElem (hl W), Option.map_some, m1, m2]

variable (R : Runtime ℝ)

/-- **C188** (GPCM and CGPCM) The mean of `predict_kernel` has a mean square error of the variance of one sample divided by the
number of samples; and the variances that it reports are on average the variance of one sample, up to a factor that tends to one. -/
theorem c188_kernel (g : GpcmModel) (hm : g.Moderate) (hγ : 0 < g.gamma) (hu : g.tU.Nodup)
    (C : CholOracle (Fin g.tU.length)) {Ku : Matrix (Fin g.tU.length) (Fin g.tU.length) ℝ}
    (hKu : g.computeKu R = .ok (rows Ku)) {p : NatNormal (Fin g.tU.length)} (hp : p.prec.PosDef) (extent : ℝ) :
    ∃ (M : ℝ → ℝ) (k : (Fin g.tU.length → ℝ) → ℝ → ℝ),
      (∀ s, M s = Spec.expectedKernel (Spec.ihx g.params s 0) Ku⁻¹
        (.of fun i j => Spec.iux g.params s 0 (g.tU.get i) (g.tU.get j))
        (p.prec⁻¹ + vecMulVec (p.prec⁻¹ *ᵥ p.lam) (p.prec⁻¹ *ᵥ p.lam))) ∧
      (∀ tK w, sampleKernelMeanField C (g.kernelApprox R C) Ku p tK [w] = .ok [tK.map (k w)]) ∧
      (∀ s, Integrable fun w => stdPdf w * (k w s - M s) ^ 2) ∧
      Spec.KernelWorth extent (fun ws tK => sampleKernelMeanField C (g.kernelApprox R C) Ku p tK ws) M
        (fun s => ∫ w, stdPdf w * (k w s - M s) ^ 2) := by
  obtain ⟨k, h1, h2, h3⟩ := (g.goodKern R hm hγ hu C hKu).worth hp extent
  exact ⟨_, k, fun s => rfl, h1, h2, h3⟩

/-- **C188** (RGPCM) The same. -/
theorem c188_kernel_rgpcm {g : RgpcmModel} (h : g.Regular) (hα : g.alphaT ≠ 0) (C : CholOracle (Fin g.tU.length))
    {p : NatNormal (Fin g.tU.length)} (hp : p.prec.PosDef) (extent : ℝ) :
    ∃ (M : ℝ → ℝ) (k : (Fin g.tU.length → ℝ) → ℝ → ℝ),
      (∀ s, M s = Spec.expectedKernel (Spec.R.ihx (specOf g) s 0) g.computeKu⁻¹
        (.of fun i j => Spec.R.iux (specOf g) s 0 (g.tU.get i) (g.tU.get j))
        (p.prec⁻¹ + vecMulVec (p.prec⁻¹ *ᵥ p.lam) (p.prec⁻¹ *ᵥ p.lam))) ∧
      (∀ tK w, sampleKernelMeanField C (g.kernelApprox C) g.computeKu p tK [w] = .ok [tK.map (k w)]) ∧
      (∀ s, Integrable fun w => stdPdf w * (k w s - M s) ^ 2) ∧
      Spec.KernelWorth extent (fun ws tK => sampleKernelMeanField C (g.kernelApprox C) g.computeKu p tK ws) M
        (fun s => ∫ w, stdPdf w * (k w s - M s) ^ 2) := by
  obtain ⟨k, h1, h2, h3⟩ := (RgpcmModel.goodKern h hα C).worth hp extent
  refine ⟨_, k, fun s => ?_, h1, h2, h3⟩
  unfold Spec.expectedKernel
  rw [inner_swap (inv_symm (c74_posDef h.gamma h.gammaT h.tU)), inner_swap (A := p.prec⁻¹ + _) (by
    rw [transpose_add, inv_symm hp, transpose_vecMulVec])]

/-- **C188** Before conditioning, the structured scheme samples kernels like the mean-field scheme, so that the same holds for it. -/
theorem c188_structured (ws : List (ι → ℝ)) (tK : List ℝ) :
    sampleKernelStructured D kern Ku none tK ws = sampleKernelMeanField D kern Ku ⟨0, Ku⟩ tK ws := rfl

end kernel

example (D : Chols (Fin 1) (Fin 1)) : (exPosts 0).qi = 0 ∧ (exPosts 0).qU.prec.PosDef ∧
    ∃ b, elboCollapsedZ D exInst (exPosts 0) [(0, 1), (2, 3)] [1, 2] = .ok b :=
  ⟨rfl, Matrix.PosDef.one, _, rfl⟩

example (causal : Bool) : (∃ g : GpcmModel, g.Moderate ∧ 0 < g.gamma ∧ g.tU.Nodup ∧ g.causal = causal) ∧
    exRgpcm.Regular ∧ exRgpcm.alphaT ≠ 0 ∧ exNormal.prec.PosDef := by
  obtain ⟨g, hg, hm, -, -, hc, hγ, ht⟩ := witness_moderate causal
  refine ⟨⟨g, hm, hγ, ?_, hc⟩, ?_, by norm_num [exRgpcm], exNormal_posDef⟩
  · rw [ht]
    cases causal <;> norm_num
  · constructor <;> norm_num [exRgpcm]

end Gpcm
