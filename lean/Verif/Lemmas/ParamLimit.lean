import Verif.Props.DataContModelProps
import Verif.Props.TimeProps

/-! # Lemmas about limits of the integrals when parameters approach limits -/

open Matrix Real MeasureTheory Filter Topology

namespace Gpcm

namespace Spec

/-- Parameters that approach parameters. -/
structure ParamsNear {α : Type} (l : Filter α) (p : α → Params) (p' : Params) : Prop where
  causal : ∀ a, (p a).causal = p'.causal
  alpha : Tendsto (fun a => (p a).alpha) l (𝓝 p'.alpha)
  alphaT : Tendsto (fun a => (p a).alphaT) l (𝓝 p'.alphaT)
  gamma : Tendsto (fun a => (p a).gamma) l (𝓝 p'.gamma)
  omega : Tendsto (fun a => (p a).omega) l (𝓝 p'.omega)
  omegaT : Tendsto (fun a => (p a).omegaT) l (𝓝 p'.omegaT)

end Spec

open Spec

section
variable {α : Type} {l : Filter α} {p : α → Params} {p' : Params} (hp : ParamsNear l p p')
include hp

theorem Spec.ParamsNear.gate (a : α) : Spec.gate (p a) = Spec.gate p' := by
  funext x
  simp only [Spec.gate, hp.causal a]

theorem Spec.ParamsNear.kH {x y : α → ℝ} {x' y' : ℝ} (hx : Tendsto x l (𝓝 x')) (hy : Tendsto y l (𝓝 y')) :
    Tendsto (fun a => Spec.kH (p a) (x a) (y a)) l (𝓝 (Spec.kH p' x' y')) := by
  unfold Spec.kH
  have h1 := hp.alpha
  have h2 := hp.alphaT
  have h3 := hp.gamma
  exact (((h2.pow 2).mul (h1.mul (hx.pow 2)).neg.rexp).mul (h1.mul (hy.pow 2)).neg.rexp).mul (h3.mul ((hx.sub hy).pow 2)).neg.rexp

theorem Spec.ParamsNear.kXS {x y : α → ℝ} {x' y' : ℝ} (hx : Tendsto x l (𝓝 x')) (hy : Tendsto y l (𝓝 y')) :
    Tendsto (fun a => Spec.kXS (p a) (x a) (y a)) l (𝓝 (Spec.kXS p' x' y')) := by
  unfold Spec.kXS
  exact hp.omegaT.mul (hp.omega.mul ((hx.sub hy).pow 2)).neg.rexp

theorem Spec.ParamsNear.kz (h0 : ∀ a, 0 < (p a).omega) (h0' : 0 < p'.omega) {x y : α → ℝ} {x' y' : ℝ} (hx : Tendsto x l (𝓝 x'))
    (hy : Tendsto y l (𝓝 y')) : Tendsto (fun a => Spec.kz (p a) (x a) (y a)) l (𝓝 (Spec.kz p' x' y')) := by
  simp only [kz_eq p' h0', fun a => kz_eq (p a) (h0 a)]
  exact ((hp.omegaT.pow 2).mul (tendsto_const_nhds.div (hp.omega.const_mul 2) (by positivity)).sqrt).mul
    ((hp.omega.div_const 2).mul ((hx.sub hy).pow 2)).neg.rexp

variable [l.IsCountablyGenerated] {e : ℝ} (he : 0 < e) (h1 : ∀ a, e ≤ (p a).alpha) (h2 : ∀ a, e ≤ (p a).alpha + 2 * (p a).gamma)
include he h1 h2

theorem Spec.ParamsNear.ihx : Tendsto (fun a => Spec.ihx (p a) 0 0) l (𝓝 (Spec.ihx p' 0 0)) := by
  have hg := measurable_specGate p'
  simp only [ihx_lag, hp.gate]
  refine tendsto_integral_filter_of_dominated_convergence (fun σ => (p'.alphaT ^ 2 + 1) * exp (-e * σ ^ 2))
    (Eventually.of_forall fun a => ?_) ?_ ((integrable_gauss0 he).const_mul _) (Eventually.of_forall fun σ => ?_)
  · exact (((hg.comp (by fun_prop)).mul hg).mul
      ((continuous_kH (p a)).comp (by fun_prop : Continuous fun σ : ℝ => (0 + σ, σ))).measurable).aestronglyMeasurable
  · filter_upwards [(hp.alphaT.pow 2).eventually_le_const (lt_add_one _)] with a ha
    refine Eventually.of_forall fun σ => ?_
    rw [norm_eq_abs, abs_mul, abs_mul]
    refine (mul_le_of_le_one_left (by positivity) (mul_le_one₀ (abs_gate_le p' _) (abs_nonneg _) (abs_gate_le p' _))).trans ?_
    rw [zero_add]
    exact (abs_kH_le' (h1 a) (h2 a) he _ _).trans (mul_le_mul_of_nonneg_right ha (exp_pos _).le)
  · exact (hp.kH tendsto_const_nhds tendsto_const_nhds).const_mul _

theorem Spec.ParamsNear.iux {u v : α → ℝ} {u' v' : ℝ} (hu : Tendsto u l (𝓝 u')) (hv : Tendsto v l (𝓝 v')) :
    Tendsto (fun a => Spec.iux (p a) 0 0 (u a) (v a)) l (𝓝 (Spec.iux p' 0 0 u' v')) := by
  have hg := measurable_specGate p'
  simp only [iux_lag, hp.gate]
  refine tendsto_integral_filter_of_dominated_convergence (fun σ => (p'.alphaT ^ 2 + 1) * ((p'.alphaT ^ 2 + 1) * exp (-e * σ ^ 2)))
    (Eventually.of_forall fun a => ?_) ?_ (((integrable_gauss0 he).const_mul _).const_mul _) (Eventually.of_forall fun σ => ?_)
  · have hk := continuous_kH (p a)
    exact (((hg.comp (by fun_prop)).mul hg).mul
      ((hk.comp (by fun_prop : Continuous fun σ : ℝ => (0 + σ, u a))).measurable.mul
        (hk.comp (by fun_prop : Continuous fun σ : ℝ => (v a, σ))).measurable)).aestronglyMeasurable
  · filter_upwards [(hp.alphaT.pow 2).eventually_le_const (lt_add_one _)] with a ha
    refine Eventually.of_forall fun σ => ?_
    rw [norm_eq_abs, abs_mul, abs_mul, abs_mul]
    refine (mul_le_of_le_one_left (by positivity) (mul_le_one₀ (abs_gate_le p' _) (abs_nonneg _) (abs_gate_le p' _))).trans ?_
    have e3 : Spec.kH (p a) (v a) σ = Spec.kH (p a) σ (v a) := by rw [kH_eq, kH_eq]; ring_nf
    have e4 := abs_kH_le' (h1 a) (h2 a) he (0 + σ) (u a)
    have e5 : (p a).alphaT ^ 2 * exp (-e * (0 + σ) ^ 2) ≤ (p a).alphaT ^ 2 :=
      mul_le_of_le_one_right (by positivity) (exp_le_one_iff.2 (by nlinarith [mul_nonneg he.le (sq_nonneg (0 + σ))]))
    rw [e3]
    exact mul_le_mul ((e4.trans e5).trans ha) ((abs_kH_le' (h1 a) (h2 a) he _ _).trans (mul_le_mul_of_nonneg_right ha (exp_pos _).le))
      (abs_nonneg _) (by positivity)
  · exact ((hp.kH tendsto_const_nhds hu).mul (hp.kH hv tendsto_const_nhds)).const_mul _

variable (h3 : ∀ a, e ≤ (p a).omega)
include h3

theorem Spec.ParamsNear.iuz {t u z : α → ℝ} {t' u' z' : ℝ} (ht : Tendsto t l (𝓝 t')) (hu : Tendsto u l (𝓝 u')) (hz : Tendsto z l (𝓝 z')) :
    Tendsto (fun a => Spec.iuz (p a) (t a) (u a) (z a)) l (𝓝 (Spec.iuz p' t' u' z')) := by
  have hg := measurable_specGate p'
  simp only [iuz_lag, hp.gate]
  refine tendsto_integral_filter_of_dominated_convergence (fun σ => (p'.alphaT ^ 2 + 1) * exp (-e * σ ^ 2) * (|p'.omegaT| + 1))
    (Eventually.of_forall fun a => ?_) ?_ (((integrable_gauss0 he).const_mul _).mul_const _) (Eventually.of_forall fun σ => ?_)
  · exact (hg.mul (((continuous_kH (p a)).comp (by fun_prop : Continuous fun σ : ℝ => (σ, u a))).measurable.mul
      ((continuous_kXS (p a)).comp (by fun_prop : Continuous fun σ : ℝ => (t a - σ, z a))).measurable)).aestronglyMeasurable
  · filter_upwards [(hp.alphaT.pow 2).eventually_le_const (lt_add_one _), hp.omegaT.abs.eventually_le_const (lt_add_one _)] with a ha hw
    refine Eventually.of_forall fun σ => ?_
    rw [norm_eq_abs, abs_mul, abs_mul]
    refine (mul_le_of_le_one_left (by positivity) (abs_gate_le p' _)).trans ?_
    exact mul_le_mul ((abs_kH_le' (h1 a) (h2 a) he _ _).trans (mul_le_mul_of_nonneg_right ha (exp_pos _).le))
      ((abs_kXS_le0 he (h3 a) _ _).trans hw) (abs_nonneg _) (by positivity)
  · exact ((hp.kH tendsto_const_nhds hu).mul (hp.kXS (ht.sub_const σ) hz)).const_mul _

theorem Spec.ParamsNear.ihz {t y z : α → ℝ} {t' y' z' : ℝ} (ht : Tendsto t l (𝓝 t')) (hy : Tendsto y l (𝓝 y')) (hz : Tendsto z l (𝓝 z')) :
    Tendsto (fun a => Spec.ihz (p a) (t a) (y a) (z a)) l (𝓝 (Spec.ihz p' t' y' z')) := by
  have hg := measurable_specGate p'
  simp only [ihz_lag, hp.gate]
  obtain ⟨K, hK⟩ : ∃ K : ℝ, K = (p'.alphaT ^ 2 + 1) * (|p'.omegaT| + 1) * (|p'.omegaT| + 1) := ⟨_, rfl⟩
  have hF : ∀ a, Measurable fun q : ℝ × ℝ => Spec.gate p' q.1 * Spec.gate p' q.2 *
      (Spec.kH (p a) q.1 q.2 * Spec.kXS (p a) (t a - q.1) (y a) * Spec.kXS (p a) (z a) (t a - q.2)) := fun a =>
    ((hg.comp measurable_fst).mul (hg.comp measurable_snd)).mul (((continuous_kH (p a)).measurable.mul
      ((continuous_kXS (p a)).comp (by fun_prop : Continuous fun q : ℝ × ℝ => (t a - q.1, y a))).measurable).mul
      ((continuous_kXS (p a)).comp (by fun_prop : Continuous fun q : ℝ × ℝ => (z a, t a - q.2))).measurable)
  have hb : ∀ᶠ a in l, ∀ σ₁ σ₂ : ℝ, ‖Spec.gate p' σ₁ * Spec.gate p' σ₂ *
      (Spec.kH (p a) σ₁ σ₂ * Spec.kXS (p a) (t a - σ₁) (y a) * Spec.kXS (p a) (z a) (t a - σ₂))‖ ≤
        K * exp (-e * σ₁ ^ 2) * exp (-e * σ₂ ^ 2) := by
    filter_upwards [(hp.alphaT.pow 2).eventually_le_const (lt_add_one _), hp.omegaT.abs.eventually_le_const (lt_add_one _)] with a ha hw
    intro σ₁ σ₂
    rw [norm_eq_abs, abs_mul, abs_mul, abs_mul, abs_mul]
    refine (mul_le_of_le_one_left (by positivity) (mul_le_one₀ (abs_gate_le p' _) (abs_nonneg _) (abs_gate_le p' _))).trans ?_
    calc _ ≤ _ := mul_le_mul (mul_le_mul ((abs_kH_le (h1 a) (h2 a) σ₁ σ₂).trans (mul_le_mul_of_nonneg_right ha (by positivity)))
          ((abs_kXS_le0 he (h3 a) (t a - σ₁) (y a)).trans hw) (abs_nonneg _) (by positivity))
          ((abs_kXS_le0 he (h3 a) (z a) (t a - σ₂)).trans hw) (abs_nonneg _) (by positivity)
      _ = _ := by rw [hK]; ring
  have hi : ∀ σ₁ : ℝ, Integrable fun σ₂ : ℝ => K * exp (-e * σ₁ ^ 2) * exp (-e * σ₂ ^ 2) :=
    fun σ₁ => (integrable_gauss0 he).const_mul _
  refine tendsto_integral_filter_of_dominated_convergence (fun σ₁ => K * exp (-e * σ₁ ^ 2) * ∫ σ₂, exp (-e * σ₂ ^ 2))
    (Eventually.of_forall fun a => ?_) ?_ (((integrable_gauss0 he).const_mul _).mul_const _) (Eventually.of_forall fun σ₁ => ?_)
  · exact (hF a).stronglyMeasurable.integral_prod_right.aestronglyMeasurable
  · filter_upwards [hb] with a ha
    refine Eventually.of_forall fun σ₁ => ?_
    refine (norm_integral_le_of_norm_le (hi σ₁) (Eventually.of_forall (ha σ₁))).trans_eq ?_
    rw [integral_const_mul]
  · refine tendsto_integral_filter_of_dominated_convergence (fun σ₂ => K * exp (-e * σ₁ ^ 2) * exp (-e * σ₂ ^ 2))
      (Eventually.of_forall fun a => ?_) ?_ (hi σ₁) (Eventually.of_forall fun σ₂ => ?_)
    · exact ((hF a).comp measurable_prodMk_left).aestronglyMeasurable
    · filter_upwards [hb] with a ha
      exact Eventually.of_forall (ha σ₁)
    · exact (((hp.kH tendsto_const_nhds tendsto_const_nhds).mul (hp.kXS (ht.sub_const σ₁) hy)).mul
        (hp.kXS hz (ht.sub_const σ₂))).const_mul _

end

end Gpcm
