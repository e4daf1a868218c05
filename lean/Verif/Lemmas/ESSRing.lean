import Verif.Lemmas.ESSKernel
import Verif.Spec.ESS
import Mathlib.Probability.Distributions.Gaussian.Fernique
import Mathlib.MeasureTheory.Constructions.BorelSpace.Real

/-!
# Elliptical slice sampling is reversible

The expectation over ellipse, slice height, bracket and proposals is symmetric in the old and the new state,
when the prior is invariant under rotations of pairs.
-/

open MeasureTheory Set Real
open scoped ENNReal

namespace Gpcm.Ess

theorem setLIntegral_Ico_split (f : ℝ → ℝ≥0∞) {a b c : ℝ} (hab : a ≤ b) (hbc : b ≤ c) :
    ∫⁻ θ in Ico a c, f θ = (∫⁻ θ in Ico a b, f θ) + ∫⁻ θ in Ico b c, f θ := by
  rw [← Ico_union_Ico_eq_Ico hab hbc, lintegral_union measurableSet_Ico Ico_disjoint_Ico_same]

/-- The integral of a periodic function over a period. -/
theorem setLIntegral_periodic {f : ℝ → ℝ≥0∞} {T : ℝ} (hf : ∀ θ, f (θ + T) = f θ) {d : ℝ} (h0 : 0 ≤ d)
    (h1 : d ≤ T) : ∫⁻ θ in Ico (-d) (T - d), f θ = ∫⁻ θ in Ico 0 T, f θ := by
  rw [setLIntegral_Ico_split f (by linarith : -d ≤ 0) (by linarith : 0 ≤ T - d),
    setLIntegral_Ico_split f (by linarith : 0 ≤ T - d) (by linarith : T - d ≤ T), add_comm]
  congr 1
  have := setLIntegral_Ico_add f T (-d) 0
  simp only [hf] at this
  rw [this]
  congr 3 <;> ring

theorem setLIntegral_reflect (f : ℝ → ℝ≥0∞) (t T : ℝ) :
    ∫⁻ d in Ico 0 T, f (t - d) = ∫⁻ α in Ico (t - T) t, f α := by
  have e : ∫⁻ α in Ico (t - T) t, f α = ∫⁻ α in Ioc (t - T) t, f α :=
    setLIntegral_congr Ico_ae_eq_Ioc
  rw [e, ← lintegral_indicator measurableSet_Ico, ← lintegral_indicator measurableSet_Ioc,
    ← lintegral_sub_left_eq_self ((Ioc (t - T) t).indicator f) t]
  refine lintegral_congr fun θ => ?_
  by_cases h : θ ∈ Ico 0 T
  · rw [indicator_of_mem h, indicator_of_mem (show t - θ ∈ Ioc (t - T) t from
      ⟨by linarith [h.2], by linarith [h.1]⟩)]
  · rw [indicator_of_notMem h, indicator_of_notMem fun h' : t - θ ∈ Ioc (t - T) t =>
      h ⟨by linarith [h'.2], by linarith [h'.1]⟩]

theorem measurable_acc' {S : Set ℝ} (hS : MeasurableSet S) {φ : ℝ → ℝ≥0∞} (hφ : Measurable φ) (n : ℕ) :
    Measurable fun q : ℝ × ℝ × ℝ => acc S φ n q.1 q.2.1 q.2.2 :=
  (measurable_acc (Ω := Unit) (S := fun _ => S) (φ := fun _ => φ) (hS.preimage measurable_snd)
    (hφ.comp measurable_snd) n).comp (f := fun q : ℝ × ℝ × ℝ => ((), q)) (by fun_prop)

/-- Averaging over the starting angle and the bracket. -/
theorem ring_eq {S : Set ℝ} (hS : MeasurableSet S) {φ ψ : ℝ → ℝ≥0∞} (hφ : Measurable φ)
    (hψ : Measurable ψ) {T : ℝ} (hSp : ∀ θ, θ + T ∈ S ↔ θ ∈ S) (hφp : ∀ θ, φ (θ + T) = φ θ)
    (hψp : ∀ θ, ψ (θ + T) = ψ θ) (n : ℕ) :
    ∫⁻ α in Ico 0 T, S.indicator ψ α * ∫⁻ d in Ico 0 T, acc S φ n α (d + α - T) (d + α) =
      ∫⁻ t in Ico 0 T, ∫⁻ α in Ico (t - T) t, S.indicator ψ α * acc S φ n α (t - T) t := by
  have hm := measurable_acc' hS hφ n
  have hi : Measurable (S.indicator ψ) := hψ.indicator hS
  have m1 : Measurable fun q : ℝ × ℝ => S.indicator ψ q.1 * acc S φ n q.1 (q.2 + q.1 - T) (q.2 + q.1) :=
    (hi.comp measurable_fst).mul (hm.comp (f := fun q : ℝ × ℝ => (q.1, q.2 + q.1 - T, q.2 + q.1)) (by fun_prop))
  have m2 : Measurable fun q : ℝ × ℝ => S.indicator ψ (q.2 - q.1) * acc S φ n (q.2 - q.1) (q.2 - T) q.2 :=
    (hi.comp (measurable_snd.sub measurable_fst)).mul
      (hm.comp (f := fun q : ℝ × ℝ => (q.2 - q.1, q.2 - T, q.2)) (by fun_prop))
  have e1 : ∀ α, S.indicator ψ α * ∫⁻ d in Ico 0 T, acc S φ n α (d + α - T) (d + α) =
      ∫⁻ d in Ico 0 T, S.indicator ψ α * acc S φ n α (d + α - T) (d + α) := fun α => by
    rw [lintegral_const_mul]
    exact hm.comp (f := fun d : ℝ => (α, d + α - T, d + α)) (by fun_prop)
  simp only [e1]
  rw [lintegral_lintegral_swap m1.aemeasurable]
  have hip : ∀ θ, S.indicator ψ (θ + T) = S.indicator ψ θ := fun θ => by
    by_cases h : θ ∈ S
    · rw [indicator_of_mem h, indicator_of_mem ((hSp θ).2 h), hψp]
    · rw [indicator_of_notMem h, indicator_of_notMem fun h' => h ((hSp θ).1 h')]
  have hS' : {θ | θ + T ∈ S} = S := by ext θ; exact hSp θ
  have hφ' : (fun θ => φ (θ + T)) = φ := funext hφp
  have hap : ∀ p lo hi, acc S φ n (p + T) (lo + T) (hi + T) = acc S φ n p lo hi := fun p lo hi => by
    rw [← acc_shift S φ T n p lo hi, hS', hφ']
  have e2 : ∫⁻ d in Ico 0 T, ∫⁻ α in Ico 0 T, S.indicator ψ α * acc S φ n α (d + α - T) (d + α) =
      ∫⁻ d in Ico 0 T, ∫⁻ t in Ico 0 T, S.indicator ψ (t - d) * acc S φ n (t - d) (t - T) t := by
    refine setLIntegral_congr_fun measurableSet_Ico fun d hd => ?_
    rw [← setLIntegral_periodic (d := d) (T := T) (fun θ => ?_) hd.1 hd.2.le]
    · have := setLIntegral_Ico_add (fun t => S.indicator ψ (t - d) * acc S φ n (t - d) (t - T) t) d (-d) (T - d)
      simp only [add_sub_cancel_right, neg_add_cancel, sub_add_cancel] at this
      rw [← this]
      refine lintegral_congr fun α => ?_
      rw [add_comm d α]
    · rw [hip, ← hap θ (d + θ - T) (d + θ)]
      congr 2 <;> ring
  rw [e2, lintegral_lintegral_swap m2.aemeasurable]
  refine lintegral_congr fun t => ?_
  exact setLIntegral_reflect (fun α => S.indicator ψ α * acc S φ n α (t - T) t) t T

theorem ring_symm {S : Set ℝ} (hS : MeasurableSet S) {φ ψ : ℝ → ℝ≥0∞} (hφ : Measurable φ)
    (hψ : Measurable ψ) {T : ℝ} (hSp : ∀ θ, θ + T ∈ S ↔ θ ∈ S) (hφp : ∀ θ, φ (θ + T) = φ θ)
    (hψp : ∀ θ, ψ (θ + T) = ψ θ) (n : ℕ) :
    ∫⁻ α in Ico 0 T, S.indicator ψ α * ∫⁻ d in Ico 0 T, acc S φ n α (d + α - T) (d + α) =
      ∫⁻ α in Ico 0 T, S.indicator φ α * ∫⁻ d in Ico 0 T, acc S ψ n α (d + α - T) (d + α) := by
  rw [ring_eq hS hφ hψ hSp hφp hψp, ring_eq hS hψ hφ hSp hψp hφp]
  exact lintegral_congr fun t => acc_symm hS hφ hψ n _ _

section ellipse

variable {V : Type} [NormedAddCommGroup V] [NormedSpace ℝ V]

/-- The acceptable angles on the ellipse through a pair of points. -/
def slice (ℓ : V → EReal) (z : V × V) (u : ℝ) : Set ℝ := {θ | (u : EReal) < ℓ (point z.1 z.2 θ)}

/-- The expectation of `φ` at the new state over bracket and proposals. -/
noncomputable def ring (ℓ : V → EReal) (φ : V → ℝ≥0∞) (n : ℕ) (z : V × V) (u : ℝ) : ℝ≥0∞ :=
  (ENNReal.ofReal (2 * π))⁻¹ * ∫⁻ θ₀ in Ico 0 (2 * π),
    acc (slice ℓ z u) (fun θ => φ (point z.1 z.2 θ)) n 0 (θ₀ - 2 * π) θ₀

/-- The flow from `ψ` to `φ` on the ellipse through a pair of points. -/
noncomputable def flow (ℓ : V → EReal) (ψ φ : V → ℝ≥0∞) (n : ℕ) (z : V × V) : ℝ≥0∞ :=
  ∫⁻ u : ℝ, ENNReal.ofReal (exp u) * ((slice ℓ z u).indicator (fun θ => ψ (point z.1 z.2 θ)) 0 * ring ℓ φ n z u)

open ContinuousLinearMap (rotation rotation_apply)

theorem point_rotation (z : V × V) (α θ : ℝ) :
    point (rotation α z).1 (rotation α z).2 θ = point z.1 z.2 (θ + α) := by
  simp only [rotation_apply, point, cos_add, sin_add]
  module

theorem point_periodic (x y : V) (θ : ℝ) : point x y (θ + 2 * π) = point x y θ := by simp [point]

theorem slice_rotation (ℓ : V → EReal) (z : V × V) (α u : ℝ) :
    slice ℓ (rotation α z) u = {θ | θ + α ∈ slice ℓ z u} := by
  ext θ
  change (u : EReal) < ℓ (point _ _ θ) ↔ (u : EReal) < ℓ (point _ _ (θ + α))
  rw [point_rotation]

theorem ring_rotation (ℓ : V → EReal) (φ : V → ℝ≥0∞) (n : ℕ) (z : V × V) (α u : ℝ) :
    ring ℓ φ n (rotation α z) u = (ENNReal.ofReal (2 * π))⁻¹ * ∫⁻ d in Ico 0 (2 * π),
      acc (slice ℓ z u) (fun θ => φ (point z.1 z.2 θ)) n α (d + α - 2 * π) (d + α) := by
  unfold ring
  congr 1
  refine lintegral_congr fun d => ?_
  rw [slice_rotation]
  simp only [point_rotation]
  rw [acc_shift (slice ℓ z u) (fun θ => φ (point z.1 z.2 θ)) α n 0]
  congr 1 <;> ring

variable [MeasurableSpace V] [BorelSpace V] [SecondCountableTopology V]

theorem measurable_point : Measurable fun q : (V × V) × ℝ => point q.1.1 q.1.2 q.2 := by
  have : Continuous fun q : (V × V) × ℝ => point q.1.1 q.1.2 q.2 := by
    unfold point
    fun_prop
  exact this.measurable

theorem measurableSet_slice {ℓ : V → EReal} (hℓ : Measurable ℓ) :
    MeasurableSet {q : ((V × V) × ℝ) × ℝ | q.2 ∈ slice ℓ q.1.1 q.1.2} := by
  have h1 : Measurable fun q : ((V × V) × ℝ) × ℝ => (q.1.2 : EReal) :=
    measurable_coe_real_ereal.comp (by fun_prop)
  have h2 : Measurable fun q : ((V × V) × ℝ) × ℝ => ℓ (point q.1.1.1 q.1.1.2 q.2) :=
    hℓ.comp (measurable_point.comp (f := fun q : ((V × V) × ℝ) × ℝ => (q.1.1, q.2)) (by fun_prop))
  exact measurableSet_lt h1 h2

theorem measurable_ring {ℓ : V → EReal} (hℓ : Measurable ℓ) {φ : V → ℝ≥0∞} (hφ : Measurable φ) (n : ℕ) :
    Measurable fun q : (V × V) × ℝ => ring ℓ φ n q.1 q.2 := by
  unfold ring
  refine Measurable.const_mul ?_ _
  have := measurable_acc (Ω := (V × V) × ℝ) (S := fun q => slice ℓ q.1 q.2)
    (φ := fun q θ => φ (point q.1.1 q.1.2 θ)) (measurableSet_slice hℓ)
    (hφ.comp (measurable_point.comp (f := fun q : ((V × V) × ℝ) × ℝ => (q.1.1, q.2)) (by fun_prop))) n
  exact (this.comp (f := fun r : ((V × V) × ℝ) × ℝ => (r.1, (0 : ℝ), r.2 - 2 * π, r.2))
    (by fun_prop)).lintegral_prod_right'

theorem measurable_sliceInd {ℓ : V → EReal} (hℓ : Measurable ℓ) {ψ : V → ℝ≥0∞} (hψ : Measurable ψ) :
    Measurable fun q : ((V × V) × ℝ) × ℝ =>
      (slice ℓ q.1.1 q.1.2).indicator (fun θ => ψ (point q.1.1.1 q.1.1.2 θ)) q.2 := by
  have h : Measurable fun q : ((V × V) × ℝ) × ℝ => ψ (point q.1.1.1 q.1.1.2 q.2) :=
    hψ.comp (measurable_point.comp (f := fun q : ((V × V) × ℝ) × ℝ => (q.1.1, q.2)) (by fun_prop))
  exact h.indicator (measurableSet_slice hℓ)

theorem measurable_flow {ℓ : V → EReal} (hℓ : Measurable ℓ) {ψ φ : V → ℝ≥0∞} (hψ : Measurable ψ)
    (hφ : Measurable φ) (n : ℕ) : Measurable (flow ℓ ψ φ n) := by
  have m : Measurable fun q : (V × V) × ℝ => ENNReal.ofReal (exp q.2) *
      ((slice ℓ q.1 q.2).indicator (fun θ => ψ (point q.1.1 q.1.2 θ)) 0 * ring ℓ φ n q.1 q.2) := by
    refine Measurable.mul (by fun_prop) (Measurable.mul ?_ (measurable_ring hℓ hφ n))
    exact (measurable_sliceInd hℓ hψ).comp (f := fun q : (V × V) × ℝ => (q, (0 : ℝ))) (by fun_prop)
  exact m.lintegral_prod_right'

/-- On each ellipse the flow is symmetric after averaging over the starting angle. -/
theorem flow_rotation_symm {ℓ : V → EReal} (hℓ : Measurable ℓ) {ψ φ : V → ℝ≥0∞} (hψ : Measurable ψ)
    (hφ : Measurable φ) (n : ℕ) (z : V × V) :
    ∫⁻ α in Ico 0 (2 * π), flow ℓ ψ φ n (rotation α z) = ∫⁻ α in Ico 0 (2 * π), flow ℓ φ ψ n (rotation α z) := by
  have key : ∀ {χ ξ : V → ℝ≥0∞}, Measurable χ → Measurable ξ →
      ∫⁻ α in Ico 0 (2 * π), flow ℓ ξ χ n (rotation α z) =
      ∫⁻ u : ℝ, ENNReal.ofReal (exp u) * ((ENNReal.ofReal (2 * π))⁻¹ * ∫⁻ α in Ico 0 (2 * π),
        (slice ℓ z u).indicator (fun θ => ξ (point z.1 z.2 θ)) α * ∫⁻ d in Ico 0 (2 * π),
        acc (slice ℓ z u) (fun θ => χ (point z.1 z.2 θ)) n α (d + α - 2 * π) (d + α)) := by
    intro χ ξ hχ hξ
    unfold flow
    have hind : ∀ α u, (slice ℓ (rotation α z) u).indicator
        (fun θ => ξ (point (rotation α z).1 (rotation α z).2 θ)) 0 =
        (slice ℓ z u).indicator (fun θ => ξ (point z.1 z.2 θ)) α := fun α u => by
      rw [slice_rotation]
      have h0 : (0 : ℝ) ∈ {θ | θ + α ∈ slice ℓ z u} ↔ α ∈ slice ℓ z u := by
        rw [mem_ofPred_eq, zero_add]
      by_cases h : α ∈ slice ℓ z u
      · rw [indicator_of_mem h, indicator_of_mem (h0.2 h), point_rotation, zero_add]
      · rw [indicator_of_notMem h, indicator_of_notMem fun h' => h (h0.1 h')]
    simp only [hind, ring_rotation]
    have hacc := measurable_acc (Ω := ℝ) (S := fun u => slice ℓ z u) (φ := fun _ θ => χ (point z.1 z.2 θ))
      ((measurableSet_slice hℓ).preimage (f := fun q : ℝ × ℝ => ((z, q.1), q.2)) (by fun_prop))
      (hχ.comp (measurable_point.comp (f := fun q : ℝ × ℝ => (z, q.2)) (by fun_prop))) n
    have mi : Measurable fun q : ℝ × ℝ => (slice ℓ z q.2).indicator (fun θ => ξ (point z.1 z.2 θ)) q.1 :=
      (measurable_sliceInd hℓ hξ).comp (f := fun q : ℝ × ℝ => ((z, q.2), q.1)) (by fun_prop)
    have ma : Measurable fun q : ℝ × ℝ => ∫⁻ d in Ico 0 (2 * π),
        acc (slice ℓ z q.2) (fun θ => χ (point z.1 z.2 θ)) n q.1 (d + q.1 - 2 * π) (d + q.1) :=
      (hacc.comp (f := fun r : (ℝ × ℝ) × ℝ => (r.1.2, r.1.1, r.2 + r.1.1 - 2 * π, r.2 + r.1.1))
        (by fun_prop)).lintegral_prod_right'
    have me : Measurable fun q : ℝ × ℝ => ENNReal.ofReal (exp q.2) := by fun_prop
    rw [lintegral_lintegral_swap (Measurable.aemeasurable (by exact me.mul (mi.mul (ma.const_mul _))))]
    refine lintegral_congr fun u => ?_
    have mu : Measurable fun α : ℝ => (slice ℓ z u).indicator (fun θ => ξ (point z.1 z.2 θ)) α *
        ∫⁻ d in Ico 0 (2 * π), acc (slice ℓ z u) (fun θ => χ (point z.1 z.2 θ)) n α (d + α - 2 * π) (d + α) :=
      (mi.mul ma).comp (f := fun α : ℝ => (α, u)) (by fun_prop)
    rw [← lintegral_const_mul _ mu, ← lintegral_const_mul _ (by exact mu.const_mul _)]
    refine lintegral_congr fun α => ?_
    rw [mul_left_comm ((slice ℓ z u).indicator _ _)]
  rw [key hφ hψ, key hψ hφ]
  refine lintegral_congr fun u => ?_
  congr 2
  have hp : Measurable fun θ : ℝ => point z.1 z.2 θ :=
    measurable_point.comp (f := fun θ : ℝ => (z, θ)) (by fun_prop)
  refine ring_symm ((measurableSet_slice hℓ).preimage (f := fun θ : ℝ => ((z, u), θ)) (by fun_prop))
    (hφ.comp hp) (hψ.comp hp) (fun θ => ?_) (fun θ => ?_) (fun θ => ?_) n
  · change (u : EReal) < ℓ _ ↔ (u : EReal) < ℓ _
    rw [point_periodic]
  · simp only [Function.comp_apply, point_periodic]
  · simp only [Function.comp_apply, point_periodic]

/-- **Reversibility**: the flow from `ψ` to `φ` is the flow from `φ` to `ψ`. -/
theorem flow_symm {γ : Measure V} [SFinite γ] (hγ : ∀ α, (γ.prod γ).map (rotation α) = γ.prod γ)
    {ℓ : V → EReal} (hℓ : Measurable ℓ) {ψ φ : V → ℝ≥0∞} (hψ : Measurable ψ) (hφ : Measurable φ) (n : ℕ) :
    ∫⁻ z, flow ℓ ψ φ n z ∂γ.prod γ = ∫⁻ z, flow ℓ φ ψ n z ∂γ.prod γ := by
  have key : ∀ {χ ξ : V → ℝ≥0∞}, Measurable χ → Measurable ξ →
      ENNReal.ofReal (2 * π) * ∫⁻ z, flow ℓ ξ χ n z ∂γ.prod γ =
        ∫⁻ z, (∫⁻ α in Ico 0 (2 * π), flow ℓ ξ χ n (rotation α z)) ∂γ.prod γ := by
    intro χ ξ hχ hξ
    have hf := measurable_flow hℓ hξ hχ n
    have hr : Measurable fun q : (V × V) × ℝ => rotation q.2 q.1 := by
      have : Continuous fun q : (V × V) × ℝ => rotation q.2 q.1 := by
        simp only [rotation_apply]
        fun_prop
      exact this.measurable
    rw [lintegral_lintegral_swap (f := fun (z : V × V) (α : ℝ) => flow ℓ ξ χ n (rotation α z))
      (Measurable.aemeasurable (by exact hf.comp hr))]
    have : ∀ α, ∫⁻ z, flow ℓ ξ χ n (rotation α z) ∂γ.prod γ = ∫⁻ z, flow ℓ ξ χ n z ∂γ.prod γ := fun α => by
      conv_rhs => rw [← hγ α]
      rw [lintegral_map hf (rotation α).continuous.measurable]
    simp only [this, lintegral_const, Measure.restrict_apply MeasurableSet.univ, univ_inter, Real.volume_Ico,
      sub_zero]
    rw [mul_comm]
  have h0 : ENNReal.ofReal (2 * π) ≠ 0 := by
    rw [Ne, ENNReal.ofReal_eq_zero, not_le]; positivity
  rw [← ENNReal.mul_right_inj h0 ENNReal.ofReal_ne_top, key hφ hψ, key hψ hφ]
  exact lintegral_congr fun z => flow_rotation_symm hℓ hψ hφ n z

end ellipse

end Gpcm.Ess
