import Verif.Lemmas.SubDensity
import Verif.Props.CompareBoundsProps
import Mathlib.Analysis.SpecialFunctions.NonIntegrable

/-! # Property C201: no model beats the truth -/

set_option linter.unusedSectionVars false

open Matrix Real MeasureTheory ENNReal ProbabilityTheory

namespace Gpcm

variable {ι κ : Type} [Fintype ι] [DecidableEq ι] [Fintype κ] [DecidableEq κ]
variable (C : Chols ι κ) {m : Inst ι κ}

/-! ## Bounds are densities, up to a factor -/

/-- **C201** The evidence is, as a function of the observations, a density of mass at most one. The mass is one exactly if the
inducing variables determine the signal at the times of the data. -/
theorem c201_mass (h : m.Valid) {n : ℕ} (t : Fin n → ℝ) :
    ∫⁻ y, ENNReal.ofReal (evidence m (Spec.dataset t y)) ≤ 1 ∧
    (∫⁻ y, ENNReal.ofReal (evidence m (Spec.dataset t y)) = 1 ↔ ∀ i x, Spec.residual m (t i) x = 0) := by
  have hle := lintegral_evidence_le h t
  refine ⟨hle, fun h1 i x => ?_, fun h0 => ?_⟩
  · rw [lintegral_evidence h] at h1
    have hae : (fun x => ENNReal.ofReal (tilted m t x)) =ᵐ[volume] fun x => ENNReal.ofReal (priorDens m x) :=
      ae_eq_of_ae_le_of_lintegral_le (Filter.Eventually.of_forall fun x => ENNReal.ofReal_le_ofReal (tilted_le h t x))
        (by rw [h1]; exact ENNReal.one_ne_top) (continuous_priorDens m).measurable.ennreal_ofReal.aemeasurable
        (by rw [lintegral_priorDens h, h1])
    have hae' : tilted m t =ᵐ[volume] priorDens m := hae.mono fun x hx =>
      (ENNReal.ofReal_eq_ofReal_iff (tilted_pos m t x).le (exp_pos _).le).1 hx
    have heq := (Continuous.ae_eq_iff_eq volume (continuous_tilted m t) (continuous_priorDens m)).1 hae'
    have hx := congrFun heq x
    rw [tilted, mul_eq_left₀ (show priorDens m x ≠ 0 from (exp_pos _).ne'), exp_eq_one_iff, neg_eq_zero, _root_.div_eq_zero_iff,
      or_iff_left (by linarith [h.noise])] at hx
    exact (Finset.sum_eq_zero_iff_of_nonneg fun i _ => residual_nonneg h (t i) x).1 hx i (Finset.mem_univ i)
  · rw [lintegral_evidence h, ← lintegral_priorDens h]
    refine lintegral_congr fun x => ?_
    rw [tilted, Finset.sum_eq_zero fun i _ => h0 i x, zero_div, neg_zero, exp_zero, mul_one]

theorem mass_of_le (h : m.Valid) {n : ℕ} (t : Fin n → ℝ) {b : (Fin n → ℝ) → ℝ}
    (hb : ∀ y, b y ≤ log (evidence m (Spec.dataset t y))) : ∫⁻ y, ENNReal.ofReal (exp (b y)) ≤ 1 := by
  refine (lintegral_mono fun y => ENNReal.ofReal_le_ofReal ?_).trans (lintegral_evidence_le h t)
  rw [← exp_log (evidence_pos h (Spec.dataset t y))]
  exact exp_le_exp.2 (hb y)

/-- **C201** The exponential of a mean-field bound has mass at most one as a function of the observations, however the posteriors
were chosen given the observations. -/
theorem c201_mean_field (h : m.Valid) {n : ℕ} (t : Fin n → ℝ) (s : (Fin n → ℝ) → Posts ι κ) (hs : ∀ y, (s y).qi = 0)
    (hu : ∀ y, (s y).qU.prec.PosDef) (hz : ∀ y, (s y).qZ.prec.PosDef) (collapsed : Option String) (v : (Fin n → ℝ) → ℝ)
    (hv : ∀ y, MeanField.elbo C m (s y) (Spec.dataset t y) collapsed = .ok (v y)) :
    ∫⁻ y, ENNReal.ofReal (exp (v y)) ≤ 1 :=
  mass_of_le h t fun y => (c97_mean_field C h (s y) (hs y) _ (hu y) (hz y) collapsed (v y) (hv y)).1

/-- **C201** So has the exponential of the bound of the structured scheme. -/
theorem c201_structured (h : m.Valid) {n : ℕ} (t : Fin n → ℝ) (q : (Fin n → ℝ) → NatNormal ι) (hq : ∀ y, (q y).prec.PosDef) :
    ∫⁻ y, ENNReal.ofReal (exp (structuredBound C m (Spec.dataset t y) (q y))) ≤ 1 :=
  mass_of_le h t fun y => c97_structured C h _ (q y) (hq y)

/-! ## Beating the truth -/

theorem chance_of_le (h : m.Valid) {n : ℕ} (t : Fin n → ℝ) {p : (Fin n → ℝ) → ℝ} (hp : Measurable p) (hp0 : ∀ y, 0 ≤ p y)
    {b : (Fin n → ℝ) → ℝ} (hb : ∀ y, b y ≤ log (evidence m (Spec.dataset t y))) (k : ℝ) :
    ∫⁻ y in {y | log (p y) + k ≤ b y}, ENNReal.ofReal (p y) ≤ ENNReal.ofReal (exp (-k)) := by
  have hE := measurable_evidence h t
  obtain ⟨S, hS⟩ : ∃ S : Set (Fin n → ℝ), S = {y | log (p y) + k ≤ log (evidence m (Spec.dataset t y))} := ⟨_, rfl⟩
  have hmS : MeasurableSet S := by
    rw [hS]
    exact measurableSet_le (hp.log.add_const k) hE.log
  have hsub : {y | log (p y) + k ≤ b y} ⊆ S := fun y hy => by
    rw [hS]
    exact le_trans hy (hb y)
  calc ∫⁻ y in {y | log (p y) + k ≤ b y}, ENNReal.ofReal (p y)
      ≤ ∫⁻ y in S, ENNReal.ofReal (p y) := lintegral_mono_set hsub
    _ ≤ ∫⁻ y in S, ENNReal.ofReal (exp (-k)) * ENNReal.ofReal (evidence m (Spec.dataset t y)) := by
        refine setLIntegral_mono' hmS fun y hy => ?_
        rw [← ENNReal.ofReal_mul (exp_pos _).le]
        refine ENNReal.ofReal_le_ofReal ?_
        rcases (hp0 y).eq_or_lt with h0 | h0
        · rw [← h0]
          exact (mul_pos (exp_pos _) (evidence_pos h _)).le
        · rw [hS] at hy
          have h1 : log (p y) ≤ log (evidence m (Spec.dataset t y)) - k := by
            have hy' : log (p y) + k ≤ log (evidence m (Spec.dataset t y)) := hy
            linarith
          calc p y = exp (log (p y)) := (exp_log h0).symm
            _ ≤ exp (log (evidence m (Spec.dataset t y)) - k) := exp_le_exp.2 h1
            _ = exp (-k) * evidence m (Spec.dataset t y) := by
                rw [sub_eq_add_neg, exp_add, exp_log (evidence_pos h _), mul_comm]
    _ ≤ ∫⁻ y, ENNReal.ofReal (exp (-k)) * ENNReal.ofReal (evidence m (Spec.dataset t y)) := setLIntegral_le_lintegral _ _
    _ = ENNReal.ofReal (exp (-k)) * ∫⁻ y, ENNReal.ofReal (evidence m (Spec.dataset t y)) :=
        lintegral_const_mul' _ _ ENNReal.ofReal_ne_top
    _ ≤ ENNReal.ofReal (exp (-k)) * 1 := mul_le_mul_right (lintegral_evidence_le h t) _
    _ = ENNReal.ofReal (exp (-k)) := mul_one _

/-- **C201** Let the observations have density `p`. The probability that a mean-field bound exceeds the logarithm of the true density by
`k` is at most `exp (-k)`, however the posteriors were chosen given the observations. -/
theorem c201_chance (h : m.Valid) {n : ℕ} (t : Fin n → ℝ) (s : (Fin n → ℝ) → Posts ι κ) (hs : ∀ y, (s y).qi = 0)
    (hu : ∀ y, (s y).qU.prec.PosDef) (hz : ∀ y, (s y).qZ.prec.PosDef) (collapsed : Option String) (v : (Fin n → ℝ) → ℝ)
    (hv : ∀ y, MeanField.elbo C m (s y) (Spec.dataset t y) collapsed = .ok (v y)) (p : (Fin n → ℝ) → ℝ) (hp : Measurable p)
    (hp0 : ∀ y, 0 ≤ p y) (k : ℝ) :
    ∫⁻ y in {y | log (p y) + k ≤ v y}, ENNReal.ofReal (p y) ≤ ENNReal.ofReal (exp (-k)) :=
  chance_of_le h t hp hp0 (fun y => (c97_mean_field C h (s y) (hs y) _ (hu y) (hz y) collapsed (v y) (hv y)).1) k

/-- **C201** The same for the bound of the structured scheme. -/
theorem c201_chance_structured (h : m.Valid) {n : ℕ} (t : Fin n → ℝ) (q : (Fin n → ℝ) → NatNormal ι) (hq : ∀ y, (q y).prec.PosDef)
    (p : (Fin n → ℝ) → ℝ) (hp : Measurable p) (hp0 : ∀ y, 0 ≤ p y) (k : ℝ) :
    ∫⁻ y in {y | log (p y) + k ≤ structuredBound C m (Spec.dataset t y) (q y)}, ENNReal.ofReal (p y) ≤ ENNReal.ofReal (exp (-k)) :=
  chance_of_le h t hp hp0 (fun y => c97_structured C h _ (q y) (hq y)) k

/-- **C201** In the comparison of inference schemes the observations are drawn from a normal distribution, whose log-density is shown
as a line. The probability that the curve of coordinate ascent is anywhere `k` above the line is at most `exp (-k)`. -/
theorem c201_curve (h : m.Valid) {n : ℕ} (t : Fin n → ℝ) (Cn : CholOracle (Fin n)) (gp : NatNormal (Fin n)) (hgp : gp.prec.PosDef)
    (s : Posts ι κ) (hs : s.qi = 0) (hps : s.Proper) (iters : ℤ) (k : ℝ) :
    ∫⁻ y in {y | ∃ v, Except.ok v ∈ Compare.caCurve C m s (Spec.dataset t y) iters ∧ gp.logpdf Cn y + k ≤ v},
      ENNReal.ofReal (exp (gp.logpdf Cn y)) ≤ ENNReal.ofReal (exp (-k)) := by
  have hc : Measurable fun y => exp (gp.logpdf Cn y) := by
    have : ∀ y, gp.logpdf Cn y = _ := fun y => NatNormal.logpdf_nat Cn hgp y
    simp only [this]
    refine (Continuous.rexp (continuous_const.sub (continuous_const.mul (Continuous.sub ?_ ?_)))).measurable
    · exact continuous_id.dotProduct (continuous_const.matrix_mulVec continuous_id)
    · exact continuous_const.mul (continuous_const.dotProduct continuous_id)
  refine (lintegral_mono_set ?_).trans (chance_of_le h t (b := fun y => log (evidence m (Spec.dataset t y))) hc
    (fun y => (exp_pos _).le) (fun y => le_refl _) k)
  rintro y ⟨v, hv, hle⟩
  obtain ⟨b, hb, -, hcurve⟩ := Compare.c171_ca C h (Spec.dataset t y)
  obtain ⟨vals, he, hmax⟩ := hcurve s hs hps iters
  rw [he] at hv
  obtain ⟨w, hw, hwv⟩ := List.mem_map.1 hv
  obtain rfl := Except.ok.inj hwv
  show log (exp (gp.logpdf Cn y)) + k ≤ _
  rw [log_exp]
  exact hle.trans ((hmax w hw).trans hb)

theorem average_of_le (h : m.Valid) {n : ℕ} (t : Fin n → ℝ) {p : (Fin n → ℝ) → ℝ} (hp : Integrable p) (hp0 : ∀ y, 0 ≤ p y)
    (hp1 : ∫ y, p y = 1) {b : (Fin n → ℝ) → ℝ} (hb : ∀ y, b y ≤ log (evidence m (Spec.dataset t y)))
    (hi : Integrable fun y => p y * (b y - log (p y))) : ∫ y, p y * (b y - log (p y)) ≤ 0 := by
  have hE0 : ∀ y, 0 ≤ evidence m (Spec.dataset t y) := fun y => (evidence_pos h _).le
  have hEi : Integrable fun y => evidence m (Spec.dataset t y) := by
    refine ⟨(measurable_evidence h t).aestronglyMeasurable, ?_⟩
    rw [hasFiniteIntegral_iff_ofReal (Filter.Eventually.of_forall hE0)]
    exact (lintegral_evidence_le h t).trans_lt ENNReal.one_lt_top
  have hE1 : ∫ y, evidence m (Spec.dataset t y) ≤ 1 := by
    rw [integral_eq_lintegral_of_nonneg_ae (Filter.Eventually.of_forall hE0) (measurable_evidence h t).aestronglyMeasurable]
    exact ENNReal.toReal_le_of_le_ofReal zero_le_one (by rw [ENNReal.ofReal_one]; exact lintegral_evidence_le h t)
  have hle : ∀ y, p y * (b y - log (p y)) ≤ evidence m (Spec.dataset t y) - p y := fun y => by
    rcases (hp0 y).eq_or_lt with h0 | h0
    · rw [← h0, zero_mul, sub_zero]
      exact hE0 y
    · have h1 := log_le_sub_one_of_pos (div_pos (evidence_pos h (Spec.dataset t y)) h0)
      rw [log_div (evidence_pos h _).ne' h0.ne'] at h1
      have h2 : b y - log (p y) ≤ evidence m (Spec.dataset t y) / p y - 1 := by linarith [hb y]
      calc p y * (b y - log (p y)) ≤ p y * (evidence m (Spec.dataset t y) / p y - 1) := mul_le_mul_of_nonneg_left h2 h0.le
        _ = evidence m (Spec.dataset t y) - p y := by
            field_simp
  calc ∫ y, p y * (b y - log (p y)) ≤ ∫ y, (evidence m (Spec.dataset t y) - p y) := integral_mono hi (hEi.sub hp) hle
    _ = (∫ y, evidence m (Spec.dataset t y)) - 1 := by rw [integral_sub hEi hp, hp1]
    _ ≤ 0 := by linarith

/-- **C201** On average over the observations, a mean-field bound is at most the logarithm of the true density. -/
theorem c201_average (h : m.Valid) {n : ℕ} (t : Fin n → ℝ) (s : (Fin n → ℝ) → Posts ι κ) (hs : ∀ y, (s y).qi = 0)
    (hu : ∀ y, (s y).qU.prec.PosDef) (hz : ∀ y, (s y).qZ.prec.PosDef) (collapsed : Option String) (v : (Fin n → ℝ) → ℝ)
    (hv : ∀ y, MeanField.elbo C m (s y) (Spec.dataset t y) collapsed = .ok (v y)) (p : (Fin n → ℝ) → ℝ) (hp : Integrable p)
    (hp0 : ∀ y, 0 ≤ p y) (hp1 : ∫ y, p y = 1) (hi : Integrable fun y => p y * (v y - log (p y))) :
    ∫ y, p y * (v y - log (p y)) ≤ 0 :=
  average_of_le h t hp hp0 hp1 (fun y => (c97_mean_field C h (s y) (hs y) _ (hu y) (hz y) collapsed (v y) (hv y)).1) hi

/-- **C201** So is, on average, the bound of the structured scheme. -/
theorem c201_average_structured (h : m.Valid) {n : ℕ} (t : Fin n → ℝ) (q : (Fin n → ℝ) → NatNormal ι)
    (hq : ∀ y, (q y).prec.PosDef) (p : (Fin n → ℝ) → ℝ) (hp : Integrable p) (hp0 : ∀ y, 0 ≤ p y) (hp1 : ∫ y, p y = 1)
    (hi : Integrable fun y => p y * (structuredBound C m (Spec.dataset t y) (q y) - log (p y))) :
    ∫ y, p y * (structuredBound C m (Spec.dataset t y) (q y) - log (p y)) ≤ 0 :=
  average_of_le h t hp hp0 hp1 (fun y => c97_structured C h _ (q y) (hq y)) hi

/-! ## Learning hyper-parameters -/

/-- **C201** The parameters must be fixed before the observations are seen. For every model, if the noise is chosen given the observation,
then the exponential of the bound has infinite mass, even if nothing else is learned. -/
theorem c201_learned (h : m.Valid) (t : ℝ) (s : Posts ι κ) (hs : s.qi = 0) :
    ∃ noise : ℝ → ℝ, (∀ y, 0 < noise y ∧ ({ m with noise := noise y } : Inst ι κ).Valid) ∧ ∃ v : ℝ → ℝ,
      (∀ y, MeanField.elbo C { m with noise := noise y } s [(t, y)] none = .ok (v y)) ∧
      ∫⁻ y, ENNReal.ofReal (exp (v y)) = ∞ := by
  obtain ⟨M, hM⟩ : ∃ M, M = ptMoments C m (s.qU.mean C.u) (s.qU.m2 C.u) (s.qZ.mean C.z) (s.qZ.m2 C.z) t := ⟨_, rfl⟩
  obtain ⟨D, hD⟩ : ∃ D, D = s.qU.kl C.u ⟨0, m.Ku⟩ + s.qZ.kl C.z ⟨0, m.Kz⟩ := ⟨_, rfl⟩
  have hn : ∀ y : ℝ, 0 < max 1 (y ^ 2) := fun y => lt_max_of_lt_left one_pos
  refine ⟨fun y => max 1 (y ^ 2), fun y => ⟨hn y, h.Ku, h.Kz, hn y, h.A, h.B, h.c⟩,
    fun y => Spec.ell (max 1 (y ^ 2)) y M.1 M.2 - D, fun y => ?_, ?_⟩
  · have ep : s.pU ({ m with noise := max 1 (y ^ 2) } : Inst ι κ) = ⟨0, m.Ku⟩ := if_pos hs
    have ez : s.pZ ({ m with noise := max 1 (y ^ 2) } : Inst ι κ) = ⟨0, m.Kz⟩ := if_pos hs
    rw [MeanField.elbo, ep, ez]
    simp only
    rw [meanFieldBound_eq, sumEll_eq, List.map_cons, List.map_nil, List.sum_cons, List.sum_nil, add_zero, hD, hM]
    congr 1
    show _ - _ - _ = _
    rw [sub_sub]
    rfl
  · obtain ⟨c, hc⟩ : ∃ c, c = (√(2 * π))⁻¹ * exp (-((1 + 2 * |M.1| + |M.2|) / 2 + D)) := ⟨_, rfl⟩
    have hc0 : 0 < c := by
      rw [hc]
      positivity
    by_contra hfin
    refine not_integrableOn_Ioi_inv (a := 1) ?_
    refine ⟨measurable_inv.aestronglyMeasurable, ?_⟩
    have hpos : ∀ᵐ y : ℝ ∂volume.restrict (Set.Ioi 1), 0 ≤ y⁻¹ := (ae_restrict_iff' measurableSet_Ioi).2
      (Filter.Eventually.of_forall fun y hy => inv_nonneg.2 (zero_le_one.trans (le_of_lt hy)))
    rw [hasFiniteIntegral_iff_ofReal hpos]
    have hle : ∀ y ∈ Set.Ioi (1 : ℝ), ENNReal.ofReal y⁻¹ ≤
        ENNReal.ofReal c⁻¹ * ENNReal.ofReal (exp (Spec.ell (max 1 (y ^ 2)) y M.1 M.2 - D)) := fun y hy => by
      have hy1 : 1 < y := hy
      have hy0 : 0 < y := one_pos.trans hy1
      rw [← ENNReal.ofReal_mul (inv_pos.2 hc0).le]
      refine ENNReal.ofReal_le_ofReal ?_
      rw [le_inv_mul_iff₀ hc0, max_eq_right (by nlinarith), Spec.ell, hc]
      have e1 : (√(2 * π))⁻¹ * y⁻¹ = exp (-(1 / 2) * log (2 * π * y ^ 2)) := by
        have h2 : 0 < 2 * π * y ^ 2 := by positivity
        have : √(2 * π * y ^ 2) = √(2 * π) * y := by rw [sqrt_mul (by positivity), sqrt_sq hy0.le]
        rw [← mul_inv, ← this, sqrt_eq_rpow, ← rpow_neg h2.le, rpow_def_of_pos h2]
        ring_nf
      have e2 : (y ^ 2 - 2 * y * M.1 + M.2) / (2 * y ^ 2) ≤ (1 + 2 * |M.1| + |M.2|) / 2 := by
        rw [div_le_div_iff₀ (by positivity) two_pos]
        have a1 := neg_abs_le M.1
        have a2 := le_abs_self M.2
        have a3 := abs_nonneg M.1
        have a4 := abs_nonneg M.2
        have hy2 : y ≤ y ^ 2 := by nlinarith
        have hy3 : 1 ≤ y ^ 2 := by linarith
        have b1 : -(y * M.1) ≤ y ^ 2 * |M.1| := by
          calc -(y * M.1) = y * -M.1 := by ring
            _ ≤ y * |M.1| := mul_le_mul_of_nonneg_left (by linarith) hy0.le
            _ ≤ y ^ 2 * |M.1| := mul_le_mul_of_nonneg_right hy2 a3
        have b2 : M.2 ≤ y ^ 2 * |M.2| := a2.trans (le_mul_of_one_le_left a4 hy3)
        nlinarith
      calc (√(2 * π))⁻¹ * exp (-((1 + 2 * |M.1| + |M.2|) / 2 + D)) * y⁻¹
          = exp (-(1 / 2) * log (2 * π * y ^ 2)) * exp (-((1 + 2 * |M.1| + |M.2|) / 2 + D)) := by
            rw [← e1]
            ring
        _ ≤ _ := by
            rw [← exp_add]
            exact exp_le_exp.2 (by linarith)
    refine (setLIntegral_mono' measurableSet_Ioi hle).trans_lt ((setLIntegral_le_lintegral _ _).trans_lt ?_)
    rw [lintegral_const_mul' _ _ ENNReal.ofReal_ne_top]
    exact ENNReal.mul_lt_top ENNReal.ofReal_lt_top (lt_top_iff_ne_top.2 hfin)

/-! ## Cases -/

/-- The model of the examples explains only a part of the signal, so its evidence has mass less than one. -/
example : ∫⁻ y, ENNReal.ofReal (evidence exInst (Spec.dataset ![0, 1] y)) < 1 := by
  refine lt_of_le_of_ne (c201_mass exInst_valid _).1 fun h1 => ?_
  have h2 := (c201_mass exInst_valid ![0, 1]).2.1 h1 0 0
  simp [Spec.residual, Spec.given, Spec.moments, Spec.inner, exInst, vecMulVec, Matrix.mul_apply] at h2
  norm_num at h2

/-- The chance that the bound with posteriors equal to the priors is three above the truth is at most one in twenty. -/
example (C : Chols (Fin 1) (Fin 1)) (s : Posts (Fin 1) (Fin 1)) (hs : s.qi = 0) (hp : s.qU.prec.PosDef ∧ s.qZ.prec.PosDef)
    (v : (Fin 2 → ℝ) → ℝ) (hv : ∀ y, MeanField.elbo C exInst s (Spec.dataset ![0, 1] y) none = .ok (v y)) (p : (Fin 2 → ℝ) → ℝ)
    (hm : Measurable p) (hp0 : ∀ y, 0 ≤ p y) : ∫⁻ y in {y | log (p y) + 3 ≤ v y}, ENNReal.ofReal (p y) ≤ ENNReal.ofReal (exp (-3)) :=
  c201_chance C exInst_valid _ (fun _ => s) (fun _ => hs) (fun _ => hp.1) (fun _ => hp.2) none v hv p hm hp0 3

end Gpcm
