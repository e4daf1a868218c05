import Verif.Props.LessNoiseProps
import Verif.Lemmas.Pinsker
import Verif.Props.DataContProps

/-! # Property C197: what a bound misses -/

set_option linter.unusedSectionVars false

open Matrix Real MeasureTheory

namespace Gpcm

variable {ι κ : Type} [Fintype ι] [DecidableEq ι] [Fintype κ] [DecidableEq κ]
variable (C : Chols ι κ) {m : Inst ι κ}

/-- The posterior of both inducing variables: prior times likelihood, normalised. -/
noncomputable def Spec.posterior (m : Inst ι κ) (d : List (ℝ × ℝ)) (x : (ι → ℝ) × (κ → ℝ)) : ℝ :=
  exp (logJoint m d x.1 x.2) / evidence m d

/-- The posterior of the inducing variables of the filter: that of both, integrated over the others. -/
noncomputable def Spec.posteriorU (m : Inst ι κ) (d : List (ℝ × ℝ)) (u : ι → ℝ) : ℝ := ∫ z, Spec.posterior m d (u, z)

theorem continuous_logpdf {n : Type} [Fintype n] [DecidableEq n] (Cn : CholOracle n) {q : NatNormal n} (hq : q.prec.PosDef) :
    Continuous fun u => q.logpdf Cn u := by
  have : ∀ u, q.logpdf Cn u = _ := fun u => NatNormal.logpdf_nat Cn hq u
  simp only [this]
  refine continuous_const.sub (continuous_const.mul (Continuous.sub ?_ ?_))
  · exact continuous_id.dotProduct (continuous_const.matrix_mulVec continuous_id)
  · exact continuous_const.mul (continuous_const.dotProduct continuous_id)

/-- The density of a pair of approximate posteriors. -/
noncomputable def pairDens (qu : NatNormal ι) (qz : NatNormal κ) (x : (ι → ℝ) × (κ → ℝ)) : ℝ :=
  exp (qu.logpdf C.u x.1) * exp (qz.logpdf C.z x.2)

include C in
theorem continuous_expLogLik (h : m.Valid) (d : List (ℝ × ℝ)) :
    Continuous fun x : (ι → ℝ) × (κ → ℝ) => expLogLik m d x.1 (vecMulVec x.1 x.1) x.2 (vecMulVec x.2 x.2) := by
  have h1 := continuous_sumEll (constructDataTerms C m d) m.noise
  simpa only [sumEll_expLogLik C h] using h1

/-- The expected log-likelihood under both approximate posteriors. -/
theorem expect_expLogLik_pair (h : m.Valid) (d : List (ℝ × ℝ)) {qu : NatNormal ι} {qz : NatNormal κ} (hu : qu.prec.PosDef)
    (hz : qz.prec.PosDef) :
    (Integrable fun x : (ι → ℝ) × (κ → ℝ) => pairDens C qu qz x * expLogLik m d x.1 (vecMulVec x.1 x.1) x.2 (vecMulVec x.2 x.2)) ∧
    ∫ x : (ι → ℝ) × (κ → ℝ), pairDens C qu qz x * expLogLik m d x.1 (vecMulVec x.1 x.1) x.2 (vecMulVec x.2 x.2) =
      expLogLik m d (qu.mean C.u) (qu.m2 C.u) (qz.mean C.z) (qz.m2 C.z) := by
  obtain ⟨c, hc⟩ : ∃ c : ℝ, c = d.length * (-(1 / 2) * log (2 * π * m.noise)) := ⟨_, rfl⟩
  obtain ⟨o1, o2⟩ := NatNormal.expect_one C.u hu
  obtain ⟨p1, p2⟩ := NatNormal.expect_one C.z hz
  have hle : ∀ u z, expLogLik m d u (vecMulVec u u) z (vecMulVec z z) ≤ c := fun u z => by
    rw [hc]
    exact expLogLik_le h d (by rw [sub_self]; exact Matrix.PosSemidef.zero) (by rw [sub_self]; exact Matrix.PosSemidef.zero)
  have iz := fun u => expect_expLogLik_z C h d hz u (vecMulVec u u)
  have iu := expect_expLogLik C h d hu (qz.mean C.z) (qz.m2 C.z)
  have cp : Continuous (pairDens C qu qz) :=
    ((continuous_logpdf C.u hu).comp continuous_fst).rexp.mul ((continuous_logpdf C.z hz).comp continuous_snd).rexp
  have inner : ∀ u, (Integrable fun z => pairDens C qu qz (u, z) * (c - expLogLik m d u (vecMulVec u u) z (vecMulVec z z))) ∧
      ∫ z, pairDens C qu qz (u, z) * (c - expLogLik m d u (vecMulVec u u) z (vecMulVec z z)) =
        c * exp (qu.logpdf C.u u) - exp (qu.logpdf C.u u) * expLogLik m d u (vecMulVec u u) (qz.mean C.z) (qz.m2 C.z) := fun u => by
    have e : ∀ z, pairDens C qu qz (u, z) * (c - expLogLik m d u (vecMulVec u u) z (vecMulVec z z)) =
        c * exp (qu.logpdf C.u u) * exp (qz.logpdf C.z z) -
          exp (qu.logpdf C.u u) * (exp (qz.logpdf C.z z) * expLogLik m d u (vecMulVec u u) z (vecMulVec z z)) := fun z => by
      rw [pairDens]
      ring
    simp only [e]
    refine ⟨(p1.const_mul _).sub ((iz u).1.const_mul _), ?_⟩
    rw [integral_sub (p1.const_mul _) ((iz u).1.const_mul _), integral_const_mul, integral_const_mul, p2, (iz u).2, mul_one]
  have hpos : ∀ x : (ι → ℝ) × (κ → ℝ), 0 ≤ pairDens C qu qz x * (c - expLogLik m d x.1 (vecMulVec x.1 x.1) x.2 (vecMulVec x.2 x.2)) :=
    fun x => mul_nonneg (mul_pos (exp_pos _) (exp_pos _)).le (sub_nonneg.2 (hle _ _))
  have iF : Integrable fun x : (ι → ℝ) × (κ → ℝ) =>
      pairDens C qu qz x * (c - expLogLik m d x.1 (vecMulVec x.1 x.1) x.2 (vecMulVec x.2 x.2)) := by
    have hm : AEStronglyMeasurable (fun x : (ι → ℝ) × (κ → ℝ) =>
        pairDens C qu qz x * (c - expLogLik m d x.1 (vecMulVec x.1 x.1) x.2 (vecMulVec x.2 x.2))) (volume.prod volume) :=
      (cp.mul (continuous_const.sub (continuous_expLogLik C h d))).aestronglyMeasurable
    refine (integrable_prod_iff hm).2 ?_
    refine ⟨Filter.Eventually.of_forall fun u => (inner u).1, ?_⟩
    simp only [norm_of_nonneg (hpos _), (inner _).2]
    exact (o1.const_mul c).sub iu.1
  have eF : ∫ x : (ι → ℝ) × (κ → ℝ), pairDens C qu qz x * (c - expLogLik m d x.1 (vecMulVec x.1 x.1) x.2 (vecMulVec x.2 x.2)) =
      c - expLogLik m d (qu.mean C.u) (qu.m2 C.u) (qz.mean C.z) (qz.m2 C.z) := by
    rw [Measure.volume_eq_prod, integral_prod _ (by rw [← Measure.volume_eq_prod]; exact iF)]
    simp only [(inner _).2]
    rw [integral_sub (o1.const_mul c) iu.1, integral_const_mul, o2, iu.2, mul_one]
  have iP : Integrable (pairDens C qu qz) := o1.mul_prod p1
  have eP : ∫ x, pairDens C qu qz x = 1 := by
    rw [Measure.volume_eq_prod]
    refine (integral_prod_mul (fun u => exp (qu.logpdf C.u u)) fun z => exp (qz.logpdf C.z z)).trans ?_
    rw [o2, p2, one_mul]
  have e : ∀ x : (ι → ℝ) × (κ → ℝ), pairDens C qu qz x * expLogLik m d x.1 (vecMulVec x.1 x.1) x.2 (vecMulVec x.2 x.2) =
      c * pairDens C qu qz x - pairDens C qu qz x * (c - expLogLik m d x.1 (vecMulVec x.1 x.1) x.2 (vecMulVec x.2 x.2)) := fun x => by
    ring
  simp only [e]
  refine ⟨(iP.const_mul c).sub iF, ?_⟩
  rw [integral_sub (iP.const_mul c) iF, integral_const_mul, eP, eF]
  ring

/-- All that Pinsker's inequality needs about a pair of approximate posteriors and the exact posterior, and the divergence. -/
theorem pair_facts (h : m.Valid) (d : List (ℝ × ℝ)) {qu : NatNormal ι} {qz : NatNormal κ} (hu : qu.prec.PosDef)
    (hz : qz.prec.PosDef) :
    Continuous (pairDens C qu qz) ∧ Continuous (Spec.posterior m d) ∧ (∀ x, 0 < pairDens C qu qz x) ∧ (∀ x, 0 < Spec.posterior m d x) ∧
    Integrable (pairDens C qu qz) ∧ Integrable (Spec.posterior m d) ∧ ∫ x, pairDens C qu qz x = 1 ∧ ∫ x, Spec.posterior m d x = 1 ∧
    Integrable (fun x => pairDens C qu qz x * (log (pairDens C qu qz x) - log (Spec.posterior m d x))) ∧
    densKl volume (pairDens C qu qz) (Spec.posterior m d) =
      log (evidence m d) - meanFieldBound C m (constructDataTerms C m d) ⟨0, m.Ku⟩ qu ⟨0, m.Kz⟩ qz := by
  obtain ⟨o1, o2⟩ := NatNormal.expect_one C.u hu
  obtain ⟨p1, p2⟩ := NatNormal.expect_one C.z hz
  obtain ⟨k1, k2⟩ := c18_expectation C.u hu (p := ⟨0, m.Ku⟩) h.Ku
  obtain ⟨l1, l2⟩ := c18_expectation C.z hz (p := ⟨0, m.Kz⟩) h.Kz
  obtain ⟨j1, j2⟩ := expect_expLogLik_pair C h d hu hz
  have hZ := evidence_pos h d
  have cp : Continuous (pairDens C qu qz) :=
    ((continuous_logpdf C.u hu).comp continuous_fst).rexp.mul ((continuous_logpdf C.z hz).comp continuous_snd).rexp
  have iP : Integrable (pairDens C qu qz) := o1.mul_prod p1
  have eP : ∫ x, pairDens C qu qz x = 1 := by
    rw [Measure.volume_eq_prod]
    refine (integral_prod_mul (fun u => exp (qu.logpdf C.u u)) fun z => exp (qz.logpdf C.z z)).trans ?_
    rw [o2, p2, one_mul]
  have e : ∀ x : (ι → ℝ) × (κ → ℝ), pairDens C qu qz x * (log (pairDens C qu qz x) - log (Spec.posterior m d x)) =
      (exp (qu.logpdf C.u x.1) * (qu.logpdf C.u x.1 - NatNormal.logpdf C.u ⟨0, m.Ku⟩ x.1)) * exp (qz.logpdf C.z x.2) +
      exp (qu.logpdf C.u x.1) * (exp (qz.logpdf C.z x.2) * (qz.logpdf C.z x.2 - NatNormal.logpdf C.z ⟨0, m.Kz⟩ x.2)) -
      pairDens C qu qz x * expLogLik m d x.1 (vecMulVec x.1 x.1) x.2 (vecMulVec x.2 x.2) + log (evidence m d) * pairDens C qu qz x :=
    fun x => by
      rw [Spec.posterior, log_div (exp_pos _).ne' hZ.ne', log_exp, logJoint, logPrior_eq C.u h.Ku, logPrior_eq C.z h.Kz]
      have : log (pairDens C qu qz x) = qu.logpdf C.u x.1 + qz.logpdf C.z x.2 := by
        rw [pairDens, ← exp_add, log_exp]
      rw [this, pairDens]
      ring
  have i1 := k1.mul_prod p1
  have i2 := o1.mul_prod l1
  have iA := ((i1.add i2).sub j1).add (iP.const_mul (log (evidence m d)))
  refine ⟨cp, (continuous_logJoint h d).rexp.div_const _, fun x => mul_pos (exp_pos _) (exp_pos _), fun x => div_pos (exp_pos _) hZ, iP,
    (joint_integrable h d).div_const _, eP, ?_, ?_, ?_⟩
  · simp only [Spec.posterior]
    rw [integral_div]
    exact div_self hZ.ne'
  · simp only [e]
    exact iA
  · rw [densKl]
    simp only [e]
    refine (integral_add' ((i1.add i2).sub j1) (iP.const_mul (log (evidence m d)))).trans ?_
    rw [Measure.volume_eq_prod] at eP j2
    rw [integral_sub' (i1.add i2) j1, integral_add' i1 i2, integral_const_mul, eP, j2, meanFieldBound_eq, sumEll_expLogLik C h]
    have e1 := integral_prod_mul (μ := volume) (ν := volume)
      (fun u => exp (qu.logpdf C.u u) * (qu.logpdf C.u u - NatNormal.logpdf C.u ⟨0, m.Ku⟩ u)) fun z => exp (qz.logpdf C.z z)
    have e2 := integral_prod_mul (μ := volume) (ν := volume) (fun u => exp (qu.logpdf C.u u))
      fun z => exp (qz.logpdf C.z z) * (qz.logpdf C.z z - NatNormal.logpdf C.z ⟨0, m.Kz⟩ z)
    rw [e1, e2, ← k2, ← l2, o2, p2]
    ring

/-- **C197** What the mean-field bound misses of the logarithm of the evidence is the divergence of the pair of approximate posteriors
from the exact posterior. -/
theorem c197_gap (h : m.Valid) (s : Posts ι κ) (hs : s.qi = 0) (d : List (ℝ × ℝ)) (hu : s.qU.prec.PosDef) (hz : s.qZ.prec.PosDef) {v : ℝ}
    (hv : MeanField.elbo C m s d none = .ok v) :
    log (evidence m d) - v = ∫ x : (ι → ℝ) × (κ → ℝ), exp (s.qU.logpdf C.u x.1) * exp (s.qZ.logpdf C.z x.2) *
      (log (exp (s.qU.logpdf C.u x.1) * exp (s.qZ.logpdf C.z x.2)) - log (Spec.posterior m d x)) := by
  obtain ⟨-, -, -, -, -, -, -, -, -, f⟩ := pair_facts C h d hu hz
  have ep : s.pU m = ⟨0, m.Ku⟩ := if_pos hs
  have ez : s.pZ m = ⟨0, m.Kz⟩ := if_pos hs
  unfold MeanField.elbo at hv
  rw [ep, ez] at hv
  obtain rfl := Except.ok.inj hv
  exact f.symm

/-- **C197** The mean-field bound is the logarithm of the evidence exactly if the approximation is exact. -/
theorem c197_tight (h : m.Valid) (s : Posts ι κ) (hs : s.qi = 0) (d : List (ℝ × ℝ)) (hu : s.qU.prec.PosDef) (hz : s.qZ.prec.PosDef)
    {v : ℝ} (hv : MeanField.elbo C m s d none = .ok v) :
    v = log (evidence m d) ↔
      ∀ u z, exp (s.qU.logpdf C.u u) * exp (s.qZ.logpdf C.z z) = Spec.posterior m d (u, z) := by
  obtain ⟨f1, f2, f3, f4, f5, f6, f7, f8, f9, -⟩ := pair_facts C h d hu hz
  have hg := c197_gap C h s hs d hu hz hv
  have h0 : v = log (evidence m d) ↔ densKl volume (pairDens C s.qU s.qZ) (Spec.posterior m d) = 0 := by
    rw [show densKl volume (pairDens C s.qU s.qZ) (Spec.posterior m d) = log (evidence m d) - v from hg.symm, sub_eq_zero, eq_comm]
  rw [h0, densKl_eq_zero f1 f2 f3 f4 f5 f6 f7 f8 f9]
  exact ⟨fun e u z => congrFun e (u, z), fun e => funext fun x => e x.1 x.2⟩

/-- **C197** A bound close to the logarithm of the evidence certifies the approximation: the expectation of every function with values
between `lo` and `hi`, in particular the probability of every event, is wrong by at most the range times the square root of half of what
the bound misses. -/
theorem c197_certified (h : m.Valid) (s : Posts ι κ) (hs : s.qi = 0) (d : List (ℝ × ℝ)) (hu : s.qU.prec.PosDef) (hz : s.qZ.prec.PosDef)
    {v : ℝ} (hv : MeanField.elbo C m s d none = .ok v) {f : (ι → ℝ) × (κ → ℝ) → ℝ} (hf : Measurable f) {lo hi : ℝ}
    (hlo : ∀ x, lo ≤ f x) (hhi : ∀ x, f x ≤ hi) :
    |(∫ x : (ι → ℝ) × (κ → ℝ), exp (s.qU.logpdf C.u x.1) * exp (s.qZ.logpdf C.z x.2) * f x) - ∫ x, Spec.posterior m d x * f x| ≤
      (hi - lo) * √((log (evidence m d) - v) / 2) := by
  obtain ⟨-, -, f3, f4, f5, f6, f7, f8, f9, -⟩ := pair_facts C h d hu hz
  rw [c197_gap C h s hs d hu hz hv]
  exact pinsker_expect f3 f4 f5 f6 f7 f8 f9 hf.aestronglyMeasurable hlo hhi

/-- **C197** The same with one of the two posteriors replaced by the best one for the other: what the collapsed bounds miss certifies the
pair with the replacement. -/
theorem c197_collapsed (h : m.Valid) (s : Posts ι κ) (hs : s.qi = 0) (d : List (ℝ × ℝ)) (hu : s.qU.prec.PosDef) (hz : s.qZ.prec.PosDef)
    (c : Option String) {v : ℝ} (hv : MeanField.elbo C m s d c = .ok v) :
    ∃ (qu : NatNormal ι) (qz : NatNormal κ), (c ≠ some "u" → qu = s.qU) ∧ (c ≠ some "z" → qz = s.qZ) ∧ qu.prec.PosDef ∧ qz.prec.PosDef ∧
      (log (evidence m d) - v = ∫ x : (ι → ℝ) × (κ → ℝ), exp (qu.logpdf C.u x.1) * exp (qz.logpdf C.z x.2) *
        (log (exp (qu.logpdf C.u x.1) * exp (qz.logpdf C.z x.2)) - log (Spec.posterior m d x))) ∧
      ∀ f : (ι → ℝ) × (κ → ℝ) → ℝ, Measurable f → ∀ lo hi : ℝ, (∀ x, lo ≤ f x) → (∀ x, f x ≤ hi) →
        |(∫ x : (ι → ℝ) × (κ → ℝ), exp (qu.logpdf C.u x.1) * exp (qz.logpdf C.z x.2) * f x) - ∫ x, Spec.posterior m d x * f x| ≤
          (hi - lo) * √((log (evidence m d) - v) / 2) := by
  have key : ∀ (qu : NatNormal ι) (qz : NatNormal κ), qu.prec.PosDef → qz.prec.PosDef →
      meanFieldBound C m (constructDataTerms C m d) ⟨0, m.Ku⟩ qu ⟨0, m.Kz⟩ qz = v →
      (log (evidence m d) - v = ∫ x : (ι → ℝ) × (κ → ℝ), exp (qu.logpdf C.u x.1) * exp (qz.logpdf C.z x.2) *
        (log (exp (qu.logpdf C.u x.1) * exp (qz.logpdf C.z x.2)) - log (Spec.posterior m d x))) ∧
      ∀ f : (ι → ℝ) × (κ → ℝ) → ℝ, Measurable f → ∀ lo hi : ℝ, (∀ x, lo ≤ f x) → (∀ x, f x ≤ hi) →
        |(∫ x : (ι → ℝ) × (κ → ℝ), exp (qu.logpdf C.u x.1) * exp (qz.logpdf C.z x.2) * f x) - ∫ x, Spec.posterior m d x * f x| ≤
          (hi - lo) * √((log (evidence m d) - v) / 2) := fun qu qz hu hz e => by
    obtain ⟨-, -, f3, f4, f5, f6, f7, f8, f9, f⟩ := pair_facts C h d hu hz
    rw [e] at f
    refine ⟨f.symm, fun g hg lo hi hlo hhi => ?_⟩
    rw [← f]
    exact pinsker_expect f3 f4 f5 f6 f7 f8 f9 hg.aestronglyMeasurable hlo hhi
  have ep : s.pU m = ⟨0, m.Ku⟩ := if_pos hs
  have ez : s.pZ m = ⟨0, m.Kz⟩ := if_pos hs
  unfold MeanField.elbo at hv
  rw [ep, ez] at hv
  have hqz := qzOptimalMF_posDef C h d hu
  have hqu := quOptimalMF_posDef C h d hz
  cases c with
  | none => exact ⟨s.qU, s.qZ, fun _ => rfl, fun _ => rfl, hu, hz, key _ _ hu hz (Except.ok.inj hv)⟩
  | some c =>
    simp only at hv
    split_ifs at hv with h1 h2
    · exact ⟨s.qU, _, fun _ => rfl, fun hc => absurd (congrArg some h1) hc, hu, hqz, key _ _ hu hqz (Except.ok.inj hv)⟩
    · exact ⟨_, s.qZ, fun hc => absurd (congrArg some h2) hc, fun _ => rfl, hqu, hz, key _ _ hqu hz (Except.ok.inj hv)⟩

theorem posteriorU_eq (h : m.Valid) (d : List (ℝ × ℝ)) (u : ι → ℝ) :
    Spec.posteriorU m d u = exp (logMargU C m d u) / evidence m d := by
  simp only [Spec.posteriorU, Spec.posterior]
  rw [integral_div, integral_joint_z C h]

theorem continuous_logZu (h : m.Valid) (d : List (ℝ × ℝ)) : Continuous fun u => logZu C m (constructDataTerms C m d) u := by
  refine continuous_iff_continuousAt.2 fun u => ?_
  have e : Spec.data d Prod.fst Prod.snd = d := by simp [Spec.data]
  have := Lim.logZu C (l := nhds u) (m := fun _ => m) (m' := m) (idx := d) (t := fun _ => Prod.fst) (t' := Prod.fst)
    (y := fun _ => Prod.snd) (y' := Prod.snd)
    ⟨fun _ => h, h, tendsto_const_nhds, tendsto_const_nhds, tendsto_const_nhds, tendsto_const_nhds⟩
    (fun _ _ => ⟨tendsto_const_nhds, tendsto_const_nhds, tendsto_const_nhds⟩) (fun _ _ => tendsto_const_nhds) (u := fun v => v)
    Filter.tendsto_id
  simp only [e] at this
  exact this

/-- The same for the approximate posterior of the filter alone. -/
theorem single_facts (h : m.Valid) (d : List (ℝ × ℝ)) {q : NatNormal ι} (hq : q.prec.PosDef) :
    Continuous (fun u => exp (q.logpdf C.u u)) ∧ Continuous (Spec.posteriorU m d) ∧ (∀ u, 0 < exp (q.logpdf C.u u)) ∧
    (∀ u, 0 < Spec.posteriorU m d u) ∧ Integrable (fun u => exp (q.logpdf C.u u)) ∧ Integrable (Spec.posteriorU m d) ∧
    ∫ u, exp (q.logpdf C.u u) = 1 ∧ ∫ u, Spec.posteriorU m d u = 1 ∧
    Integrable (fun u => exp (q.logpdf C.u u) * (log (exp (q.logpdf C.u u)) - log (Spec.posteriorU m d u))) ∧
    densKl volume (fun u => exp (q.logpdf C.u u)) (Spec.posteriorU m d) = log (evidence m d) - structuredBound C m d q := by
  obtain ⟨o1, o2⟩ := NatNormal.expect_one C.u hq
  obtain ⟨k1, k2⟩ := c18_expectation C.u hq (p := ⟨0, m.Ku⟩) h.Ku
  obtain ⟨g1, g2⟩ := integral_margU C h d
  have i1 := integrable_logZu C h d hq
  have hZ := evidence_pos h d
  have ef : Spec.posteriorU m d = fun u => exp (logMargU C m d u) / evidence m d := funext fun u => posteriorU_eq C h d u
  have e : ∀ u, exp (q.logpdf C.u u) * (log (exp (q.logpdf C.u u)) - log (Spec.posteriorU m d u)) =
      exp (q.logpdf C.u u) * (q.logpdf C.u u - NatNormal.logpdf C.u ⟨0, m.Ku⟩ u) -
        exp (q.logpdf C.u u) * logZu C m (constructDataTerms C m d) u + log (evidence m d) * exp (q.logpdf C.u u) := fun u => by
    rw [ef, log_div (exp_pos _).ne' hZ.ne', log_exp, log_exp, logMargU, logPrior_eq C.u h.Ku]
    ring
  refine ⟨(continuous_logpdf C.u hq).rexp, ?_, fun u => exp_pos _, fun u => ?_, o1, ?_, o2, ?_, ?_, ?_⟩
  · rw [ef]
    exact ((continuous_logPrior m.Ku).add (continuous_logZu C h d)).rexp.div_const _
  · rw [ef]
    exact div_pos (exp_pos _) hZ
  · rw [ef]
    exact g1.div_const _
  · rw [ef, integral_div, g2]
    exact div_self hZ.ne'
  · simp only [e]
    exact (k1.sub i1).add (o1.const_mul _)
  · rw [densKl]
    simp only [e]
    refine (integral_add' (k1.sub i1) (o1.const_mul _)).trans ?_
    rw [integral_sub' k1 i1, integral_const_mul, o2, structuredBound, k2]
    ring

/-- **C197** The structured bound likewise, with the posterior of the filter: what it misses is the divergence from it; it is the logarithm
of the evidence exactly if the approximation of the filter is exact; and it certifies expectations about the filter. -/
theorem c197_structured (h : m.Valid) (d : List (ℝ × ℝ)) {q : NatNormal ι} (hq : q.prec.PosDef) :
    log (evidence m d) - structuredBound C m d q =
      ∫ u, exp (q.logpdf C.u u) * (log (exp (q.logpdf C.u u)) - log (Spec.posteriorU m d u)) ∧
    (structuredBound C m d q = log (evidence m d) ↔ ∀ u, exp (q.logpdf C.u u) = Spec.posteriorU m d u) ∧
    ∀ f : (ι → ℝ) → ℝ, Measurable f → ∀ lo hi : ℝ, (∀ u, lo ≤ f u) → (∀ u, f u ≤ hi) →
      |(∫ u, exp (q.logpdf C.u u) * f u) - ∫ u, Spec.posteriorU m d u * f u| ≤
        (hi - lo) * √((log (evidence m d) - structuredBound C m d q) / 2) := by
  obtain ⟨f1, f2, f3, f4, f5, f6, f7, f8, f9, f⟩ := single_facts C h d hq
  refine ⟨f.symm, ?_, fun g hg lo hi hlo hhi => ?_⟩
  · rw [eq_comm, ← sub_eq_zero, ← f, densKl_eq_zero f1 f2 f3 f4 f5 f6 f7 f8 f9]
    exact funext_iff
  · rw [← f]
    exact pinsker_expect f3 f4 f5 f6 f7 f8 f9 hg.aestronglyMeasurable hlo hhi

/-- **C197** The estimate of the bound that the scheme reports is the structured bound on average; so that the average certifies the
approximation of the filter. -/
theorem c197_estimate (h : m.Valid) (s : Posts ι κ) (hs : s.qi = 0) (d : List (ℝ × ℝ)) (hu : s.qU.prec.PosDef) (k : ℕ) (hk : k ≠ 0) :
    ∃ v : (Fin k → ι → ℝ) → ℝ, (∀ W, elboCollapsedZ C m s d (List.ofFn fun i => s.qU.sample C.u (W i)) = .ok (v W)) ∧
      ∀ f : (ι → ℝ) → ℝ, Measurable f → ∀ lo hi : ℝ, (∀ u, lo ≤ f u) → (∀ u, f u ≤ hi) →
        |(∫ u, exp (s.qU.logpdf C.u u) * f u) - ∫ u, Spec.posteriorU m d u * f u| ≤
          (hi - lo) * √((log (evidence m d) - ∫ W, (∏ i, stdPdf (W i)) * v W) / 2) := by
  obtain ⟨v, h1, -, h3⟩ := c97_unbiased C h s hs d hu k hk
  refine ⟨v, h1, ?_⟩
  rw [h3]
  exact (c197_structured C h d hu).2.2

/-- Without observations, a bound is exact if the approximation is the prior, and not otherwise. -/
theorem c197_no_data (h : m.Valid) (s : Posts ι κ) (hs : s.qi = 0) (hu : s.qU.prec.PosDef) (hz : s.qZ.prec.PosDef)
    {v : ℝ} (hv : MeanField.elbo C m s [] none = .ok v) :
    evidence m [] = 1 ∧ (v = 0 ↔ ∀ u z, exp (s.qU.logpdf C.u u) * exp (s.qZ.logpdf C.z z) =
      exp (NatNormal.logpdf C.u ⟨0, m.Ku⟩ u) * exp (NatNormal.logpdf C.z ⟨0, m.Kz⟩ z)) := by
  have e0 : ∀ u z, exp (logJoint m [] u z) = exp (NatNormal.logpdf C.u ⟨0, m.Ku⟩ u) * exp (NatNormal.logpdf C.z ⟨0, m.Kz⟩ z) :=
    fun u z => by
      rw [logJoint, logPrior_eq C.u h.Ku, logPrior_eq C.z h.Kz, ← exp_add]
      simp [expLogLik]
  have e1 : evidence m [] = 1 := by
    rw [evidence]
    simp only [e0]
    rw [Measure.volume_eq_prod]
    refine (integral_prod_mul (fun u => exp (NatNormal.logpdf C.u ⟨0, m.Ku⟩ u)) fun z => exp (NatNormal.logpdf C.z ⟨0, m.Kz⟩ z)).trans ?_
    rw [(NatNormal.expect_one C.u (d := ⟨0, m.Ku⟩) h.Ku).2, (NatNormal.expect_one C.z (d := ⟨0, m.Kz⟩) h.Kz).2, one_mul]
  refine ⟨e1, ?_⟩
  have := c197_tight C h s hs [] hu hz hv
  simpa only [e1, log_one, Spec.posterior, e0, div_one] using this

/-- A bound that is exact. -/
example (D : Chols (Fin 1) (Fin 1)) : ∃ v, MeanField.elbo D exInst ⟨0, fun _ => ⟨0, 1⟩, fun _ => ⟨0, 1⟩⟩ [] none = .ok v ∧ v = 0 :=
  ⟨_, rfl, (c197_no_data D exInst_valid ⟨0, fun _ => ⟨0, 1⟩, fun _ => ⟨0, 1⟩⟩ rfl Matrix.PosDef.one Matrix.PosDef.one rfl).2.2
    fun _ _ => rfl⟩

/-- The hypotheses are met by a concrete instance, state and event. -/
example (D : Chols (Fin 1) (Fin 1)) : ∃ v, MeanField.elbo D exInst (exPosts 0) [(0, 1), (2, 3)] none = .ok v ∧
    |(∫ x : (Fin 1 → ℝ) × (Fin 1 → ℝ), exp ((exPosts 0).qU.logpdf D.u x.1) * exp ((exPosts 0).qZ.logpdf D.z x.2) *
        (if 0 < x.1 0 then 1 else 0)) - ∫ x, Spec.posterior exInst [(0, 1), (2, 3)] x * (if 0 < x.1 0 then 1 else 0)| ≤
      (1 - 0) * √((log (evidence exInst [(0, 1), (2, 3)]) - v) / 2) :=
  ⟨_, rfl, c197_certified D exInst_valid (exPosts 0) rfl _ Matrix.PosDef.one Matrix.PosDef.one rfl
    (Measurable.ite (measurableSet_lt measurable_const ((measurable_pi_apply 0).comp measurable_fst)) measurable_const measurable_const)
    (fun x => by split_ifs <;> norm_num) (fun x => by split_ifs <;> norm_num)⟩

end Gpcm
