import Verif.Lemmas.GpcmValid
import Mathlib.Probability.Moments.MGFAnalytic
import Mathlib.Probability.Moments.ComplexMGF
import Mathlib.Analysis.InnerProductSpace.Projection.Submodule
import Mathlib.MeasureTheory.Function.L2Space
import Mathlib.MeasureTheory.Measure.WithDensity
import Mathlib.Algebra.Order.Chebyshev

/-! # Helper lemmas: combinations of Gaussians of one width approximate square-integrable functions

Translates of one Gaussian to the points of an interval have a dense span; so do, in the limit, translates to
points that eventually fill the interval. -/

open MeasureTheory Matrix Real ProbabilityTheory Filter
open scoped Topology ENNReal

namespace Gpcm

/-- The Gaussian of inverse width `w` around `x`. -/
noncomputable def gaussAt (w x s : ℝ) : ℝ := exp (-(w * (x - s) ^ 2))

theorem memLp_gaussAt {w : ℝ} (hw : 0 < w) (x : ℝ) : MemLp (gaussAt w x) 2 := by
  have := memLp_gauss hw 1 x
  simp only [one_mul] at this
  exact this

theorem gaussAt_exp {w : ℝ} (hw : 0 < w) (t s : ℝ) :
    exp (t * s) * exp (-(w * s ^ 2)) = exp (t ^ 2 / (4 * w)) * gaussAt w (t / (2 * w)) s := by
  unfold gaussAt
  rw [← exp_add, ← exp_add]
  congr 1
  field_simp
  ring

/-- A function orthogonal to all translates to the points of an interval vanishes. -/
theorem gauss_total {w : ℝ} (hw : 0 < w) {a b : ℝ} (hab : a < b) {f : ℝ → ℝ} (hm : Measurable f)
    (hf : MemLp f 2) (h : ∀ z ∈ Set.Ioo a b, ∫ s, f s * gaussAt w z s = 0) : f =ᵐ[volume] 0 := by
  let G : ℝ → ℝ := fun s => f s * exp (-(w * s ^ 2))
  have hG : Measurable G := hm.mul (by fun_prop)
  have hGe : ∀ t s, exp (t * s) * G s = exp (t ^ 2 / (4 * w)) * (f s * gaussAt w (t / (2 * w)) s) := fun t s => by
    have := gaussAt_exp hw t s
    simp only [G]
    linear_combination f s * this
  have hint : ∀ t, Integrable fun s => exp (t * s) * G s := fun t => by
    simp only [hGe]
    exact (integrable_mul_L2 hf (memLp_gaussAt hw _)).const_mul _
  -- positive and negative parts as measures
  have key : ∀ g : ℝ → ℝ, Measurable g → (∀ t, Integrable fun s => exp (t * s) * g s) →
      (∀ t, Integrable (fun s => exp (t * id s)) (volume.withDensity fun s => ENNReal.ofReal (g s))) ∧
      ∀ t, mgf id (volume.withDensity fun s => ENNReal.ofReal (g s)) t = ∫ s, exp (t * s) * max (g s) 0 := by
    intro g hg hi
    have e : ∀ t s, (ENNReal.ofReal (g s)).toReal • exp (t * s) = exp (t * s) * max (g s) 0 := fun t s => by
      rw [ENNReal.toReal_ofReal', smul_eq_mul, mul_comm]
    refine ⟨fun t => ?_, fun t => ?_⟩
    · rw [integrable_withDensity_iff_integrable_smul' (by fun_prop) (by simp)]
      simp only [id, e]
      refine (hi t).mono (by fun_prop) (Eventually.of_forall fun s => ?_)
      rw [norm_mul, norm_mul]
      refine mul_le_mul_of_nonneg_left ?_ (norm_nonneg _)
      rw [norm_eq_abs, norm_eq_abs, abs_of_nonneg (le_max_right _ _)]
      exact max_le (le_abs_self _) (abs_nonneg _)
    · rw [mgf, integral_withDensity_eq_integral_toReal_smul (by fun_prop) (by simp)]
      simp only [id, e]
  obtain ⟨hp1, hp2⟩ := key G hG hint
  obtain ⟨hn1, hn2⟩ := key (fun s => -G s) hG.neg fun t => by
    simp only [mul_neg]
    exact (hint t).neg
  set μ := volume.withDensity fun s => ENNReal.ofReal (G s) with hμ
  set ν := volume.withDensity fun s => ENNReal.ofReal (-G s) with hν
  have sμ : integrableExpSet id μ = Set.univ := Set.eq_univ_of_forall hp1
  have sν : integrableExpSet id ν = Set.univ := Set.eq_univ_of_forall hn1
  have fμ : IsFiniteMeasure μ := by
    have := hp1 0
    simp only [zero_mul, exp_zero] at this
    exact (integrable_const_iff_isFiniteMeasure one_ne_zero).1 this
  have fν : IsFiniteMeasure ν := by
    have := hn1 0
    simp only [zero_mul, exp_zero] at this
    exact (integrable_const_iff_isFiniteMeasure one_ne_zero).1 this
  have hmax : ∀ g : ℝ → ℝ, Measurable g → ∀ t, Integrable (fun s => exp (t * s) * g s) →
      Integrable fun s => exp (t * s) * max (g s) 0 := fun g hg t hi => by
    refine hi.mono (by fun_prop) (Eventually.of_forall fun s => ?_)
    rw [norm_mul, norm_mul]
    refine mul_le_mul_of_nonneg_left ?_ (norm_nonneg _)
    rw [norm_eq_abs, norm_eq_abs, abs_of_nonneg (le_max_right _ _)]
    exact max_le (le_abs_self _) (abs_nonneg _)
  have hloc : ∀ t ∈ Set.Ioo (2 * w * a) (2 * w * b), mgf id μ t = mgf id ν t := fun t ht => by
    rw [hp2, hn2, ← sub_eq_zero, ← integral_sub (hmax _ hG t (hint t))
      (hmax (fun s => -G s) hG.neg t (by simp only [mul_neg]; exact (hint t).neg))]
    have e : ∀ s, exp (t * s) * max (G s) 0 - exp (t * s) * max (-G s) 0 =
        exp (t ^ 2 / (4 * w)) * (f s * gaussAt w (t / (2 * w)) s) := fun s => by
      rw [← hGe, ← mul_sub]
      congr 1
      rcases le_total (G s) 0 with h | h
      · rw [max_eq_right h, max_eq_left (by linarith)]
        ring
      · rw [max_eq_left h, max_eq_right (by linarith)]
        ring
    simp only [e]
    rw [integral_const_mul, h _ ⟨by rw [lt_div_iff₀ (by positivity)]; linarith [ht.1],
      by rw [div_lt_iff₀ (by positivity)]; linarith [ht.2]⟩, mul_zero]
  have aμ : AnalyticOnNhd ℝ (mgf id μ) Set.univ := by
    have := analyticOnNhd_mgf (X := id) (μ := μ)
    rwa [sμ, interior_univ] at this
  have aν : AnalyticOnNhd ℝ (mgf id ν) Set.univ := by
    have := analyticOnNhd_mgf (X := id) (μ := ν)
    rwa [sν, interior_univ] at this
  have hmid : w * (a + b) ∈ Set.Ioo (2 * w * a) (2 * w * b) := ⟨by nlinarith, by nlinarith⟩
  have hmgf : mgf id μ = mgf id ν := by
    funext t
    refine aμ.eqOn_of_preconnected_of_eventuallyEq aν isPreconnected_univ (Set.mem_univ (w * (a + b))) ?_
      (Set.mem_univ t)
    exact eventually_of_mem (isOpen_Ioo.mem_nhds hmid) hloc
  have hz : ∀ ρ : Measure ℝ, IsFiniteMeasure ρ → (ρ = 0 ↔ mgf id ρ 0 = 0) := fun ρ _ => by
    rw [mgf_zero', measureReal_eq_zero_iff, Measure.measure_univ_eq_zero]
  have hc : complexMGF id μ = complexMGF id ν := by
    funext z
    refine eqOn_complexMGF_of_mgf' hmgf ?_ ?_
    · rw [hz μ fμ, hz ν fν, hmgf]
    · show z.re ∈ interior (integrableExpSet id μ)
      rw [sμ, interior_univ]
      trivial
  have hμν : μ = ν := Measure.ext_of_complexMGF_id_eq hc
  rw [hμ, hν, withDensity_eq_iff_of_sigmaFinite (by fun_prop) (by fun_prop)] at hμν
  filter_upwards [hμν] with s hs
  have hG0 : G s = 0 := by
    have := congrArg ENNReal.toReal hs
    rw [ENNReal.toReal_ofReal', ENNReal.toReal_ofReal'] at this
    rcases le_total (G s) 0 with h | h
    · rw [max_eq_right h, max_eq_left (by linarith)] at this
      linarith
    · rw [max_eq_left h, max_eq_right (by linarith)] at this
      exact this
  exact (mul_eq_zero.1 hG0).resolve_right (exp_ne_zero _)

/-- Combinations of translates to the points of an interval come arbitrarily close. -/
theorem gauss_dense {w : ℝ} (hw : 0 < w) {a b : ℝ} (hab : a < b) {f : ℝ → ℝ} (hf : MemLp f 2) {ε : ℝ}
    (hε : 0 < ε) : ∃ (k : ℕ) (x v : Fin k → ℝ), (∀ i, x i ∈ Set.Ioo a b) ∧
      ∫ s, (f s - ∑ i, v i * gaussAt w (x i) s) ^ 2 < ε := by
  let g : ℝ → Lp ℝ 2 (volume : Measure ℝ) := fun x => (memLp_gaussAt hw x).toLp
  let K : Submodule ℝ (Lp ℝ 2 (volume : Measure ℝ)) := Submodule.span ℝ (g '' Set.Ioo a b)
  have hK : K.topologicalClosure = ⊤ := by
    rw [Submodule.topologicalClosure_eq_top_iff, Submodule.eq_bot_iff]
    intro F hF
    rw [Submodule.mem_orthogonal'] at hF
    have h0 := gauss_total hw hab (Lp.stronglyMeasurable F).measurable (Lp.memLp F) fun z hz => by
      have := hF (g z) (Submodule.subset_span ⟨z, hz, rfl⟩)
      rw [L2.inner_def] at this
      rw [← this]
      refine integral_congr_ae ?_
      filter_upwards [(memLp_gaussAt hw z).coeFn_toLp] with s hs
      rw [hs]
      show _ = gaussAt w z s * F s
      ring
    exact Lp.eq_zero_iff_ae_eq_zero.2 h0
  have hmem : hf.toLp ∈ closure (K : Set (Lp ℝ 2 (volume : Measure ℝ))) := by
    have : hf.toLp ∈ K.topologicalClosure := by rw [hK]; trivial
    exact this
  obtain ⟨y, hy, hd⟩ := Metric.mem_closure_iff.1 hmem (√ε) (sqrt_pos.2 hε)
  obtain ⟨k, c, q, hq⟩ := Submodule.mem_span_set'.1 (show y ∈ K from hy)
  choose x hx hxg using fun i => (q i).2
  refine ⟨k, x, c, hx, ?_⟩
  have hfe : MemLp (fun s => f s - ∑ i, c i * gaussAt w (x i) s) 2 :=
    hf.sub (memLp_sum (fun i => memLp_gaussAt hw (x i)) c)
  have e : hf.toLp - y = hfe.toLp := by
    rw [← hq]
    have h1 : (memLp_sum (fun i => memLp_gaussAt hw (x i)) c).toLp = ∑ i, c i • ((q i : Lp ℝ 2 (volume : Measure ℝ))) := by
      refine Lp.ext ?_
      have h2 := Lp.coeFn_finsetSum (μ := (volume : Measure ℝ)) (p := 2) Finset.univ fun i => c i • (q i : Lp ℝ 2 (volume : Measure ℝ))
      have h3 : ∀ᵐ s, ∀ i, (c i • (q i : Lp ℝ 2 (volume : Measure ℝ)) : Lp ℝ 2 (volume : Measure ℝ)) s = c i * gaussAt w (x i) s := by
        rw [ae_all_iff]
        intro i
        filter_upwards [Lp.coeFn_smul (c i) (q i : Lp ℝ 2 (volume : Measure ℝ)), (memLp_gaussAt hw (x i)).coeFn_toLp] with s hs1 hs2
        rw [hs1, Pi.smul_apply, ← hxg i, hs2, smul_eq_mul]
      filter_upwards [MemLp.coeFn_toLp (memLp_sum (fun i => memLp_gaussAt hw (x i)) c), h2, h3] with s hs hs2 hs3
      rw [hs, hs2, Finset.sum_apply]
      exact Finset.sum_congr rfl fun i _ => (hs3 i).symm
    rw [← h1, ← MemLp.toLp_sub]
    rfl
  rw [dist_eq_norm, e] at hd
  have h4 : ‖hfe.toLp‖ ^ 2 = ∫ s, (f s - ∑ i, c i * gaussAt w (x i) s) ^ 2 := by
    rw [← real_inner_self_eq_norm_sq, L2.inner_def]
    refine integral_congr_ae ?_
    filter_upwards [hfe.coeFn_toLp] with s hs
    rw [hs, real_inner_self_eq_norm_sq, norm_eq_abs, sq_abs]
  rw [← h4]
  calc _ < √ε ^ 2 := by gcongr
    _ = ε := sq_sqrt hε.le

/-! ## Grids that fill an interval -/

theorem gaussAt_sub_sq {w : ℝ} (hw : 0 < w) (x y : ℝ) :
    ∫ s, (gaussAt w x s - gaussAt w y s) ^ 2 = 2 * √(π / (2 * w)) * (1 - exp (-(w / 2 * (x - y) ^ 2))) := by
  have hp : ∀ x y, ∫ s, gaussAt w x s * gaussAt w y s = √(π / (2 * w)) * exp (-(w / 2 * (x - y) ^ 2)) :=
    fun x y => by
      rw [← (gauss_prod hw x y).2]
      congr 1
      funext s
      unfold gaussAt
      rw [← neg_sub s y, neg_sq]
  have hi : ∀ x y, Integrable fun s => gaussAt w x s * gaussAt w y s := fun x y =>
    integrable_mul_L2 (memLp_gaussAt hw x) (memLp_gaussAt hw y)
  have e : ∀ s, (gaussAt w x s - gaussAt w y s) ^ 2 =
      gaussAt w x s * gaussAt w x s - 2 * (gaussAt w x s * gaussAt w y s) + gaussAt w y s * gaussAt w y s :=
    fun s => by ring
  simp only [e]
  rw [integral_add (f := fun s => gaussAt w x s * gaussAt w x s - 2 * (gaussAt w x s * gaussAt w y s))
    ((hi x x).sub ((hi x y).const_mul 2)) (hi y y), integral_sub (hi x x) ((hi x y).const_mul 2),
    integral_const_mul, hp, hp, hp]
  simp
  ring

theorem gaussAt_tendsto {w : ℝ} (hw : 0 < w) (x : ℝ) {η : ℝ} (hη : 0 < η) :
    ∃ δ > 0, ∀ y, |y - x| < δ → ∫ s, (gaussAt w x s - gaussAt w y s) ^ 2 < η := by
  have hc : Continuous fun y => 2 * √(π / (2 * w)) * (1 - exp (-(w / 2 * (x - y) ^ 2))) := by fun_prop
  have h0 : 2 * √(π / (2 * w)) * (1 - exp (-(w / 2 * (x - x) ^ 2))) = 0 := by simp
  obtain ⟨δ, hδ, h⟩ := Metric.continuousAt_iff.1 (hc.continuousAt (x := x)) η hη
  refine ⟨δ, hδ, fun y hy => ?_⟩
  have h1 := h (show dist y x < δ by rwa [dist_eq])
  rw [h0, dist_zero_right, norm_eq_abs] at h1
  rw [gaussAt_sub_sq hw]
  exact (le_abs_self _).trans_lt h1

/-- Translates to points that eventually fill an interval come arbitrarily close, eventually. -/
theorem gauss_fill {w : ℝ} (hw : 0 < w) {a b : ℝ} (hab : a < b) {m : ℕ → ℕ} {x k : ∀ n, Fin (m n) → ℝ}
    (hk : ∀ n i, k n i ≠ 0)
    (hx : ∀ y ∈ Set.Ioo a b, ∀ δ > 0, ∀ᶠ n in atTop, ∃ i, |x n i - y| < δ) {f : ℝ → ℝ} (hf : MemLp f 2)
    {ε : ℝ} (hε : 0 < ε) : ∀ᶠ n in atTop, ∃ v : Fin (m n) → ℝ,
      ∫ s, (f s - ∑ i, v i * (k n i * gaussAt w (x n i) s)) ^ 2 < ε := by
  obtain ⟨q, c, v, hc, hv⟩ := gauss_dense hw hab hf (show (0 : ℝ) < ε / 4 by linarith)
  obtain ⟨V, hV⟩ : ∃ V, V = ∑ j, v j ^ 2 := ⟨_, rfl⟩
  have hV0 : 0 ≤ V := hV ▸ Finset.sum_nonneg fun j _ => sq_nonneg _
  have hη : 0 < ε / (4 * (q + 1) * (1 + V)) := by positivity
  choose δ hδ0 hδ using fun j => gaussAt_tendsto hw (c j) hη
  have hev : ∀ᶠ n in atTop, ∀ j, ∃ i, |x n i - c j| < δ j :=
    eventually_all.2 fun j => hx (c j) (hc j) (δ j) (hδ0 j)
  filter_upwards [hev] with n hn
  choose i hi using hn
  refine ⟨fun l => ∑ j, if i j = l then v j / k n l else 0, ?_⟩
  have e1 : ∀ s, ∑ l, (∑ j, if i j = l then v j / k n l else 0) * (k n l * gaussAt w (x n l) s) =
      ∑ j, v j * gaussAt w (x n (i j)) s := fun s => by
    simp only [Finset.sum_mul]
    rw [Finset.sum_comm]
    refine Finset.sum_congr rfl fun j _ => ?_
    rw [Finset.sum_eq_single (i j)]
    · rw [if_pos rfl]
      field_simp [hk n (i j)]
    · intro l _ hl
      rw [if_neg (Ne.symm hl), zero_mul]
    · intro h
      exact absurd (Finset.mem_univ _) h
  simp only [e1]
  have hA : MemLp (fun s => f s - ∑ j, v j * gaussAt w (c j) s) 2 :=
    hf.sub (memLp_sum (fun j => memLp_gaussAt hw (c j)) v)
  have hD : ∀ j, MemLp (fun s => gaussAt w (c j) s - gaussAt w (x n (i j)) s) 2 := fun j =>
    (memLp_gaussAt hw _).sub (memLp_gaussAt hw _)
  have hi1 : Integrable fun s => 2 * (f s - ∑ j, v j * gaussAt w (c j) s) ^ 2 := hA.integrable_sq.const_mul 2
  have hi2 : ∀ j, Integrable fun s => v j ^ 2 * (gaussAt w (c j) s - gaussAt w (x n (i j)) s) ^ 2 := fun j =>
    (hD j).integrable_sq.const_mul _
  have hi3 : Integrable fun s => 2 * q * ∑ j, v j ^ 2 * (gaussAt w (c j) s - gaussAt w (x n (i j)) s) ^ 2 :=
    (integrable_finsetSum _ fun j _ => hi2 j).const_mul _
  have hB : MemLp (fun s => f s - ∑ j, v j * gaussAt w (x n (i j)) s) 2 :=
    hf.sub (memLp_sum (fun j => memLp_gaussAt hw (x n (i j))) v)
  have hle : ∫ s, (f s - ∑ j, v j * gaussAt w (x n (i j)) s) ^ 2 ≤
      ∫ s, (2 * (f s - ∑ j, v j * gaussAt w (c j) s) ^ 2 +
        2 * q * ∑ j, v j ^ 2 * (gaussAt w (c j) s - gaussAt w (x n (i j)) s) ^ 2) := by
    refine integral_mono hB.integrable_sq (hi1.add hi3) fun s => ?_
    have e2 : f s - ∑ j, v j * gaussAt w (x n (i j)) s = (f s - ∑ j, v j * gaussAt w (c j) s) +
        ∑ j, v j * (gaussAt w (c j) s - gaussAt w (x n (i j)) s) := by
      simp only [mul_sub, Finset.sum_sub_distrib]
      ring
    have e3 := sq_sum_le_card_mul_sum_sq (s := (Finset.univ : Finset (Fin q)))
      (f := fun j => v j * (gaussAt w (c j) s - gaussAt w (x n (i j)) s))
    simp only [Finset.card_univ, Fintype.card_fin, mul_pow] at e3
    show (f s - ∑ j, v j * gaussAt w (x n (i j)) s) ^ 2 ≤ _
    rw [e2]
    have e4 := sq_nonneg ((f s - ∑ j, v j * gaussAt w (c j) s) -
        ∑ j, v j * (gaussAt w (c j) s - gaussAt w (x n (i j)) s))
    nlinarith [e3, e4]
  refine hle.trans_lt ?_
  rw [integral_add hi1 hi3, integral_const_mul, integral_const_mul, integral_finsetSum _ fun j _ => hi2 j]
  simp only [integral_const_mul]
  have hs : ∑ j, v j ^ 2 * ∫ s, (gaussAt w (c j) s - gaussAt w (x n (i j)) s) ^ 2 ≤
      V * (ε / (4 * (q + 1) * (1 + V))) := by
    rw [hV, Finset.sum_mul]
    refine Finset.sum_le_sum fun j _ => mul_le_mul_of_nonneg_left ?_ (sq_nonneg _)
    rw [← hV]
    exact (hδ j _ (hi j)).le
  have hs2 : 2 * (q : ℝ) * (V * (ε / (4 * (q + 1) * (1 + V)))) ≤ ε / 2 := by
    rw [show 2 * (q : ℝ) * (V * (ε / (4 * (q + 1) * (1 + V)))) = ε / 2 * ((q / (q + 1)) * (V / (1 + V))) by
      field_simp; ring]
    have h1 : (q : ℝ) / (q + 1) ≤ 1 := by rw [div_le_one (by positivity)]; linarith
    have h2 : V / (1 + V) ≤ 1 := by rw [div_le_one (by positivity)]; linarith
    have h3 : (q : ℝ) / (q + 1) * (V / (1 + V)) ≤ 1 := mul_le_one₀ h1 (by positivity) h2
    nlinarith
  nlinarith [mul_le_mul_of_nonneg_left hs (show (0 : ℝ) ≤ 2 * q by positivity)]

/-! ## Residuals -/

/-- The projection is the best approximation. -/
theorem residual_sq_le_of {ι : Type} [Fintype ι] [DecidableEq ι] {f : ℝ → ℝ} (hf : MemLp f 2) {β : ι → ℝ → ℝ}
    (hβ : ∀ i, MemLp (β i) 2) (hK : (gram volume β β).PosDef) {a : ι → ℝ} (ha : ∀ i, a i = ∫ s, f s * β i s)
    (v : ι → ℝ) : ∫ s, (f s - ∑ i, ((gram volume β β)⁻¹ *ᵥ a) i * β i s) ^ 2 ≤
      ∫ s, (f s - ∑ i, v i * β i s) ^ 2 := by
  obtain ⟨w, hw⟩ : ∃ w, w = (gram volume β β)⁻¹ *ᵥ a := ⟨_, rfl⟩
  have hKw : gram volume β β *ᵥ w = a := by
    rw [hw, mulVec_mulVec, mul_nonsing_inv _ ((isUnit_iff_isUnit_det _).1 hK.isUnit), one_mulVec]
  rw [← hw]
  have hρ : MemLp (fun s => f s - ∑ i, w i * β i s) 2 := hf.sub (memLp_sum hβ w)
  have hσ : MemLp (fun s => ∑ i, (w i - v i) * β i s) 2 := memLp_sum hβ _
  have horth : ∀ i, ∫ s, (f s - ∑ j, w j * β j s) * β i s = 0 := fun i => by
    have e : ∀ s, (f s - ∑ j, w j * β j s) * β i s = f s * β i s - β i s * ∑ j, w j * β j s := fun s => by ring
    simp only [e]
    rw [integral_sub (integrable_mul_L2 hf (hβ i)) (integrable_mul_L2 (hβ i) (memLp_sum hβ w)),
      integral_mul_sum (hβ i) hβ, ← ha, ← hKw, sub_eq_zero]
    simp only [mulVec, dotProduct, gram, of_apply, mul_comm]
  have h0 : ∫ s, (f s - ∑ j, w j * β j s) * ∑ i, (w i - v i) * β i s = 0 := by
    rw [integral_mul_sum hρ hβ]
    simp only [horth, mul_zero, Finset.sum_const_zero]
  have e : ∀ s, (f s - ∑ i, v i * β i s) ^ 2 = (f s - ∑ i, w i * β i s) ^ 2 +
      2 * ((f s - ∑ j, w j * β j s) * ∑ i, (w i - v i) * β i s) + (∑ i, (w i - v i) * β i s) ^ 2 := fun s => by
    simp only [sub_mul, Finset.sum_sub_distrib]
    ring
  simp only [e]
  have i1 := hρ.integrable_sq
  have i2 := (integrable_mul_L2 hρ hσ).const_mul 2
  rw [integral_add (f := fun s => (f s - ∑ i, w i * β i s) ^ 2 +
      2 * ((f s - ∑ j, w j * β j s) * ∑ i, (w i - v i) * β i s)) (i1.add i2) hσ.integrable_sq,
    integral_add i1 i2, integral_const_mul, h0]
  have : 0 ≤ ∫ s, (∑ i, (w i - v i) * β i s) ^ 2 := integral_nonneg fun s => sq_nonneg _
  linarith

/-- What inducing points that fill an interval leave unexplained vanishes. -/
theorem BiL2.residual_tendsto {F : ℝ → ℝ → ℝ} (hF : BiL2 volume volume F) {w : ℝ} (hw : 0 < w) {a b : ℝ}
    (hab : a < b) {m : ℕ → ℕ} {x k : ∀ n, Fin (m n) → ℝ} (hk : ∀ n i, k n i ≠ 0)
    (hx : ∀ y ∈ Set.Ioo a b, ∀ δ > 0, ∀ᶠ n in atTop, ∃ i, |x n i - y| < δ)
    {β : ∀ n, Fin (m n) → ℝ → ℝ} (hβ : ∀ n i s, β n i s = k n i * gaussAt w (x n i) s)
    (hK : ∀ n, (gram volume (β n) (β n)).PosDef) :
    Tendsto (fun n => ∫ τ, ∫ s, Gpcm.residual volume (β n) F τ s ^ 2) atTop (𝓝 0) := by
  have hm : ∀ n i, MemLp (β n i) 2 := fun n i => by
    have e : β n i = fun s => k n i * gaussAt w (x n i) s := funext (hβ n i)
    rw [e]
    exact (memLp_gaussAt hw _).const_mul _
  have h0 : ∀ n τ, 0 ≤ ∫ s, Gpcm.residual volume (β n) F τ s ^ 2 := fun n τ => integral_nonneg fun s => sq_nonneg _
  have hle : ∀ n τ (v : Fin (m n) → ℝ), ∫ s, Gpcm.residual volume (β n) F τ s ^ 2 ≤
      ∫ s, (F τ s - ∑ i, v i * β n i s) ^ 2 := fun n τ v =>
    residual_sq_le_of (hF.right τ) (hm n) (hK n) (fun i => rfl) v
  have := tendsto_integral_of_dominated_convergence (μ := volume)
    (F := fun n τ => ∫ s, Gpcm.residual volume (β n) F τ s ^ 2) (f := fun _ => 0)
    (fun τ => ∫ s, F τ s ^ 2) (fun n => ?_) ?_ (fun n => Eventually.of_forall fun τ => ?_)
    (Eventually.of_forall fun τ => ?_)
  · simpa only [integral_zero] using this
  · exact (hF.residual (hm n)).prod.integrable_sq.integral_prod_left.1
  · exact hF.prod.integrable_sq.integral_prod_left
  · rw [norm_of_nonneg (h0 n τ)]
    have := hle n τ 0
    simpa using this
  · rw [Metric.tendsto_atTop']
    intro ε hε
    have hev := gauss_fill hw hab hk hx (hF.right τ) hε
    obtain ⟨N, hN⟩ := eventually_atTop.1 hev
    refine ⟨N, fun n hn => ?_⟩
    obtain ⟨v, hv⟩ := hN n hn.le
    rw [dist_zero_right, norm_of_nonneg (h0 n τ)]
    refine (hle n τ v).trans_lt ?_
    simpa only [hβ] using hv

end Gpcm
