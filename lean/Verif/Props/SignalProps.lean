import Verif.Lemmas.SignalLemmas
import Verif.Props.ValidProps

/-! # Property C108: predictions are the moments of the signal under the approximate posterior -/

open MeasureTheory Matrix Real

namespace Gpcm

section general

variable {ι κ : Type} [Fintype ι] [DecidableEq ι] [Fintype κ] [DecidableEq κ] (C : Chols ι κ) {m : Inst ι κ}

/-- The moments of the signal at a time, for given moments of the inducing variables. -/
noncomputable def Inst.momentsAt (m : Inst ι κ) (u : ι → ℝ) (u2 : Matrix ι ι ℝ) (z : κ → ℝ) (z2 : Matrix κ κ ℝ) (t : ℝ) :
    ℝ × ℝ := Spec.moments (m.iHx t t) m.iUx (m.iHz t) (m.iUz t) m.Ku⁻¹ m.Kz⁻¹ u u2 z z2

theorem mean_field_predict_eq (h : m.Valid) (s : Posts ι κ) (hu : s.qU.prec.PosDef) (hz : s.qZ.prec.PosDef)
    (t : List ℝ) : MeanField.predict C m s.condition t = t.map fun x =>
      toMeanVar m (m.momentsAt (s.qU.prec⁻¹ *ᵥ s.qU.lam)
        (s.qU.prec⁻¹ + vecMulVec (s.qU.prec⁻¹ *ᵥ s.qU.lam) (s.qU.prec⁻¹ *ᵥ s.qU.lam)) (s.qZ.prec⁻¹ *ᵥ s.qZ.lam)
        (s.qZ.prec⁻¹ + vecMulVec (s.qZ.prec⁻¹ *ᵥ s.qZ.lam) (s.qZ.prec⁻¹ *ᵥ s.qZ.lam)) x) := by
  have hpu : s.condition.pU m = s.qU := by simp [Posts.pU, Posts.condition, Posts.qU]
  have hpz : s.condition.pZ m = s.qZ := by simp [Posts.pZ, Posts.condition, Posts.qZ]
  rw [MeanField.predict, predictMoments_eq, List.map_map, hpu, hpz, NatNormal.m2_eq C.u hu, NatNormal.m2_eq C.z hz,
    NatNormal.var_eq C.u hu, NatNormal.var_eq C.z hz, NatNormal.mean_eq C.u hu, NatNormal.mean_eq C.z hz]
  refine List.map_congr_left fun x _ => ?_
  rw [Function.comp_apply, ptMoments_spec C h]
  rfl

theorem mean_field_prior_eq (hv : m.Valid) (s : Posts ι κ) (hs : s.qi = 0) (t : List ℝ) :
    MeanField.predict C m s t = t.map fun x => (0, m.iHx x x + m.noise) := by
  have hpu : s.pU m = ⟨0, m.Ku⟩ := if_pos hs
  have hpz : s.pZ m = ⟨0, m.Kz⟩ := if_pos hs
  have e1 : NatNormal.m2 C.u ⟨0, m.Ku⟩ = m.Ku⁻¹ := by
    rw [NatNormal.m2_eq C.u hv.Ku, NatNormal.var_eq C.u hv.Ku, NatNormal.mean_eq C.u hv.Ku]
    simp
  have e2 : NatNormal.m2 C.z ⟨0, m.Kz⟩ = m.Kz⁻¹ := by
    rw [NatNormal.m2_eq C.z hv.Kz, NatNormal.var_eq C.z hv.Kz, NatNormal.mean_eq C.z hv.Kz]
    simp
  have e3 : NatNormal.mean C.u ⟨0, m.Ku⟩ = 0 := by
    rw [NatNormal.mean_eq C.u hv.Ku]
    simp
  have e4 : NatNormal.mean C.z ⟨0, m.Kz⟩ = 0 := by
    rw [NatNormal.mean_eq C.z hv.Kz]
    simp
  rw [MeanField.predict, predictMoments_eq, List.map_map, hpu, hpz, e1, e2, e3, e4]
  refine List.map_congr_left fun x _ => ?_
  rw [Function.comp_apply, ptMoments_spec C hv, toMeanVar, moments_change]
  simp [Spec.moments, Spec.inner]

theorem structured_predict_eq (h : m.Valid) (d : List (ℝ × ℝ)) (t : List ℝ) (us : List (ι → ℝ)) (hus : us ≠ []) :
    Structured.predict C m (some (constructDataTerms C m d)) t us = .ok (t.map fun x =>
      toMeanVar m ((us.map fun u => (m.momentsAt u (vecMulVec u u) ((qzOptimal m (constructDataTerms C m d) u).mean C.z)
          ((qzOptimal m (constructDataTerms C m d) u).m2 C.z) x).1).sum / us.length,
        (us.map fun u => (m.momentsAt u (vecMulVec u u) ((qzOptimal m (constructDataTerms C m d) u).mean C.z)
          ((qzOptimal m (constructDataTerms C m d) u).m2 C.z) x).2).sum / us.length)) := by
  obtain ⟨u, us, rfl⟩ : ∃ u us', us = u :: us' := List.exists_cons_of_ne_nil hus
  have e : ∀ u : ι → ℝ, predictMoments C m (constructTerms C m t) u (vecMulVec u u)
      ((qzOptimal m (constructDataTerms C m d) u).mean C.z) ((qzOptimal m (constructDataTerms C m d) u).m2 C.z) =
      t.map (m.momentsAt u (vecMulVec u u) ((qzOptimal m (constructDataTerms C m d) u).mean C.z)
        ((qzOptimal m (constructDataTerms C m d) u).m2 C.z)) := fun u => by
    rw [predictMoments_eq]
    exact List.map_congr_left fun x _ => ptMoments_spec C h _ _ _ _ x
  obtain ⟨F, hF⟩ : ∃ F : (ι → ℝ) → ℝ → ℝ × ℝ, F = fun u => m.momentsAt u (vecMulVec u u)
    ((qzOptimal m (constructDataTerms C m d) u).mean C.z)
    ((qzOptimal m (constructDataTerms C m d) u).m2 C.z) := ⟨_, rfl⟩
  have hsum : Structured.predict C m (some (constructDataTerms C m d)) t (u :: us) =
      .ok (t.map fun s => toMeanVar m ((F u s + ((us.map F).map fun g => g s).sum).1 / (us.length + 1),
        (F u s + ((us.map F).map fun g => g s).sum).2 / (us.length + 1))) := by
    simp only [Structured.predict, e, List.map_cons, meanMoments]
    have := foldl_addMoments t (F u) (us.map F)
    rw [List.map_map] at this
    simp only [hF] at this ⊢
    simp only [Function.comp_def] at this
    rw [this]
    simp only [List.map_map, List.length_map]
    rfl
  have h1 : ∀ (l : List (ι → ℝ)) x, ((l.map F).map fun g => g x).sum =
      ((l.map fun u => (F u x).1).sum, (l.map fun u => (F u x).2).sum) := by
    intro l x
    induction l with
    | nil => rfl
    | cons a l ih => rw [List.map_cons, List.map_cons, List.sum_cons, ih]; rfl
  rw [hsum]
  congr 1
  refine List.map_congr_left fun x _ => ?_
  have h2 := h1 (u :: us) x
  rw [List.map_cons, List.map_cons, List.sum_cons] at h2
  rw [h2, hF, List.length_cons]
  push_cast
  rfl

end general

/-! ## The GPCM and the CGPCM -/

variable (R : Runtime ℝ)

/-- Prior covariance of the filter. -/
noncomputable def GpcmModel.filterCov (g : GpcmModel) (s t : ℝ) : ℝ :=
  Spec.gate g.params s * Spec.gate g.params t * Spec.kH g.params s t

/-- Covariance of the filter at a time with an inducing variable. -/
noncomputable def GpcmModel.filterCross (g : GpcmModel) (a : Fin g.tU.length) (s : ℝ) : ℝ :=
  Spec.gate g.params s * Spec.kH g.params s (g.tU.get a)

/-- Covariance of the white noise at a time with an inducing variable. -/
noncomputable def GpcmModel.noiseCross (g : GpcmModel) (b : Fin g.tZ.length) (s : ℝ) : ℝ :=
  Spec.kXS g.params s (g.tZ.get b)

/-- The mean and the second moment of the signal, when the inducing variables are independent with means `u` and `z` and
second moments `u2` and `z2`. -/
noncomputable def GpcmModel.signal (g : GpcmModel) (u : Fin g.tU.length → ℝ)
    (u2 : Matrix (Fin g.tU.length) (Fin g.tU.length) ℝ) (z : Fin g.tZ.length → ℝ)
    (z2 : Matrix (Fin g.tZ.length) (Fin g.tZ.length) ℝ) (t : ℝ) : ℝ × ℝ :=
  (Spec.signalMean g.filterCross u g.noiseCross z t,
    Spec.signalM2 g.filterCov g.filterCross
      (u2 - (Matrix.of fun i j => Spec.kH g.params (g.tU.get i) (g.tU.get j))⁻¹) (fun _ => 1) g.noiseCross
      (z2 - (Matrix.of fun i j => Spec.kz g.params (g.tZ.get i) (g.tZ.get j))⁻¹) t)

theorem GpcmModel.signal_eq (g : GpcmModel) (hm : g.Moderate) (hγ : 0 < g.gamma)
    {m : Inst (Fin g.tU.length) (Fin g.tZ.length)} (h : g.IsInst R m) (u : Fin g.tU.length → ℝ)
    (u2 : Matrix (Fin g.tU.length) (Fin g.tU.length) ℝ) (z : Fin g.tZ.length → ℝ)
    (z2 : Matrix (Fin g.tZ.length) (Fin g.tZ.length) ℝ) (t : ℝ) :
    m.momentsAt u u2 z z2 t = g.signal u u2 z z2 t := by
  obtain rfl := (c98_instance R g hm).unique h (g.specInst_isInst R hm)
  have ha : 0 < g.params.alpha := by have := hm.alpha_lo; show 0 < g.alpha; linarith
  have hγ' : 0 < g.params.gamma := hγ
  have ho : 0 < g.params.omega := by have := hm.omega_lo; show 0 < g.omega; linarith
  have hF := biL2_factF ha hγ' t
  have hcF : ∀ a τ, g.filterCross a (t - τ) = ∫ s, factF g.params t τ s * factU g.params (g.tU.get a) s :=
    fun a τ => (integral_factF_factU hγ' t τ _).symm
  have hc : ∀ a, MemLp (fun τ => g.filterCross a (t - τ)) 2 := fun a => by
    simp only [hcF]
    exact hF.memLp_integral (memLp_factU hγ' _)
  have hd : ∀ b, MemLp (g.noiseCross b) 2 := fun b => memLp_kXS ho _
  have hcd : ∀ a b, Integrable fun τ => g.filterCross a (t - τ) * g.noiseCross b τ :=
    fun a b => integrable_mul_L2 (hc a) (hd b)
  have hKF : ∀ τ τ', g.filterCov (t - τ) (t - τ') = ∫ s, factF g.params t τ s * factF g.params t τ' s :=
    fun τ τ' => (integral_factF hγ' t t τ τ').symm
  have hin : ∀ τ b, Integrable fun τ' => g.filterCov (t - τ) (t - τ') * g.noiseCross b τ' := fun τ b => by
    refine integrable_mul_L2 ?_ (hd b)
    have := hF.memLp_integral (hF.right τ)
    refine this.ae_eq (ae_of_all _ fun τ' => ?_)
    beta_reduce
    rw [hKF]
    simp only [mul_comm]
  have hbi : ∀ τ b, ∫ τ', g.filterCov (t - τ) (t - τ') * g.noiseCross b τ' =
      ∫ s, factF g.params t τ s * ∫ τ', factF g.params t τ' s * g.noiseCross b τ' := fun τ b => by
    have e := hF.fubini (hF.right τ) (hd b)
    have e2 : ∀ τ', g.filterCov (t - τ) (t - τ') = ∫ s, factF g.params t τ' s * factF g.params t τ s := fun τ' => by
      rw [hKF]
      simp only [mul_comm]
    simp only [e2]
    rw [e]
    simp only [mul_comm]
  have hout : ∀ a b, Integrable fun τ => g.noiseCross a τ *
      ∫ τ', g.filterCov (t - τ) (t - τ') * g.noiseCross b τ' := fun a b => by
    refine integrable_mul_L2 (hd a) ?_
    simp only [hbi]
    exact hF.memLp_integral (hF.swap.memLp_integral (hd b))
  have hK : Integrable fun τ => (1 : ℝ) ^ 2 * g.filterCov (t - τ) (t - τ) := by
    simp only [one_pow, one_mul]
    unfold GpcmModel.filterCov
    simp only [gate_sq]
    refine (kH_diag_integrable ha t).bdd_mul (c := 1)
      (measurable_gate.comp (measurable_const.sub measurable_id)).aestronglyMeasurable
      (Filter.Eventually.of_forall fun τ => ?_)
    exact gate_abs_le _
  have hX : (Matrix.of fun a b => ∫ τ, g.filterCross a (t - τ) * g.noiseCross b τ) = g.specInst.iUz t := by
    ext a b
    show ∫ τ, g.filterCross a (t - τ) * g.noiseCross b τ = Spec.iuz g.params t _ _
    unfold Spec.iuz GpcmModel.filterCross GpcmModel.noiseCross
    simp only [mul_assoc]
  refine Prod.ext ?_ ?_
  · show u ⬝ᵥ (g.specInst.iUz t *ᵥ z) = _
    rw [← hX]
    exact (signalMean_eq hcd u z).symm
  · have e1 : (∫ τ, (1 : ℝ) ^ 2 * g.filterCov (t - τ) (t - τ)) = g.specInst.iHx t t := by
      simp only [one_pow, one_mul]
      rfl
    have e2 : (Matrix.of fun a b => ∫ τ, (1 : ℝ) ^ 2 * (g.filterCross a (t - τ) * g.filterCross b (t - τ))) =
        g.specInst.iUx := by
      ext a b
      have := spec_iux_shift g.params 0 0 t (g.tU.get a) (g.tU.get b)
      rw [zero_add] at this
      refine Eq.trans ?_ this
      show ∫ τ, _ = _
      unfold Spec.iux GpcmModel.filterCross
      congr 1
      funext τ
      rw [kH_symm g.params (g.tU.get b)]
      ring
    have e3 : (Matrix.of fun a b => ∫ τ, g.noiseCross a τ * ∫ τ', g.filterCov (t - τ) (t - τ') * g.noiseCross b τ') =
        g.specInst.iHz t := by
      ext a b
      show ∫ τ, _ = Spec.ihz g.params t _ _
      unfold Spec.ihz GpcmModel.filterCov GpcmModel.noiseCross
      congr 1
      funext τ
      rw [← integral_const_mul]
      congr 1
      funext τ'
      rw [kXS_symm (g.tZ.get b)]
      ring
    have := signalM2_eq (P := u2 - g.specInst.Ku⁻¹) (Q := z2 - g.specInst.Kz⁻¹) hK (by simpa only [one_mul] using hc) hcd hin hout
    rw [e1, e2, e3, hX] at this
    refine Eq.trans ?_ this.symm
    exact moments_change _ _ _ _ _ _ _ _ _ _

/-- The mean and the variance of an observation of the signal, when the inducing variables are independent and normal
with the given means and covariances. -/
noncomputable def GpcmModel.observation (g : GpcmModel) (u : Fin g.tU.length → ℝ)
    (S : Matrix (Fin g.tU.length) (Fin g.tU.length) ℝ) (z : Fin g.tZ.length → ℝ)
    (T : Matrix (Fin g.tZ.length) (Fin g.tZ.length) ℝ) (t : ℝ) : ℝ × ℝ :=
  let M := g.signal u (S + vecMulVec u u) z (T + vecMulVec z z) t
  (M.1, M.2 - M.1 ^ 2 + g.noise)

section props

variable (g : GpcmModel) (hm : g.Moderate) (hγ : 0 < g.gamma) (hn : 0 < g.noise) (hu : g.tU.Nodup) (hz : g.tZ.Nodup)
  {m : Inst (Fin g.tU.length) (Fin g.tZ.length)} (h : g.IsInst R m) (C : Chols (Fin g.tU.length) (Fin g.tZ.length))

include hm hγ hn hu hz h

/-- **C108** After conditioning, mean-field predictions are the mean and the variance of observations of the signal, when
the inducing variables follow the posterior that was fitted. -/
theorem c108_mean_field (s : Posts (Fin g.tU.length) (Fin g.tZ.length)) (hqu : s.qU.prec.PosDef)
    (hqz : s.qZ.prec.PosDef) (t : List ℝ) :
    MeanField.predict C m s.condition t =
      t.map (g.observation (s.qU.prec⁻¹ *ᵥ s.qU.lam) s.qU.prec⁻¹ (s.qZ.prec⁻¹ *ᵥ s.qZ.lam) s.qZ.prec⁻¹) := by
  have hv := (c98_valid_iff R g hm hγ hn m h).2 ⟨hu, hz⟩
  rw [mean_field_predict_eq C hv s hqu hqz]
  refine List.map_congr_left fun x _ => ?_
  rw [g.signal_eq R hm hγ h, toMeanVar, h.noise]
  rfl

/-- **C108** Before conditioning, mean-field predictions are those of the prior: mean zero, and the prior variance of the
signal plus the noise. -/
theorem c108_prior (s : Posts (Fin g.tU.length) (Fin g.tZ.length)) (hs : s.qi = 0) (t : List ℝ) :
    MeanField.predict C m s t = t.map fun x => (0, Spec.ihx g.params x x + g.noise) := by
  have hv := (c98_valid_iff R g hm hγ hn m h).2 ⟨hu, hz⟩
  rw [mean_field_prior_eq C hv s hs, h.noise]
  refine List.map_congr_left fun x _ => ?_
  rw [Except.ok.inj ((c65_i_hx R g hm x x).symm.trans (h.iHx x x))]

/-- **C108** After conditioning on data, structured predictions are the mean and the variance of observations of the
signal averaged over the stored samples of the filter's inducing variables, each with the noise's inducing variables
following their conditional distribution given that sample and the data. -/
theorem c108_structured (d : List (ℝ × ℝ)) (t : List ℝ) (us : List (Fin g.tU.length → ℝ)) (hus : us ≠ []) :
    let q := qzOptimal m (constructDataTerms C m d)
    let M := fun u x => g.signal u (vecMulVec u u) ((q u).prec⁻¹ *ᵥ (q u).lam)
      ((q u).prec⁻¹ + vecMulVec ((q u).prec⁻¹ *ᵥ (q u).lam) ((q u).prec⁻¹ *ᵥ (q u).lam)) x
    let μ := fun x => (us.map fun u => (M u x).1).sum / us.length
    Structured.predict C m (some (constructDataTerms C m d)) t us =
      .ok (t.map fun x => (μ x, (us.map fun u => (M u x).2).sum / us.length - μ x ^ 2 + g.noise)) := by
  have hv := (c98_valid_iff R g hm hγ hn m h).2 ⟨hu, hz⟩
  intro q M μ
  rw [structured_predict_eq C hv d t us hus]
  have e : ∀ u x, m.momentsAt u (vecMulVec u u) ((qzOptimal m (constructDataTerms C m d) u).mean C.z)
      ((qzOptimal m (constructDataTerms C m d) u).m2 C.z) x = M u x := fun u x => by
    have ho := qzOptimal_posDef C hv d u
    rw [g.signal_eq R hm hγ h, NatNormal.m2_eq C.z ho, NatNormal.var_eq C.z ho, NatNormal.mean_eq C.z ho]
  simp only [e]
  congr 1
  refine List.map_congr_left fun x _ => ?_
  rw [toMeanVar, h.noise]

end props

/-- The hypotheses hold for models that the constructors produce. -/
example (causal : Bool) : ∃ g : GpcmModel, g.Moderate ∧ 0 < g.gamma ∧ 0 < g.noise ∧ g.tU.Nodup ∧ g.tZ.Nodup ∧
    ∃ m, g.IsInst R m := by
  obtain ⟨g, hg, hm, hz, -, -, hγ, ht⟩ := witness_moderate causal
  refine ⟨g, hm, hγ, ?_, ?_, ?_, (c98_instance R g hm).exists⟩
  · obtain ⟨-, -, -, -, -, -, -, -, hn, -⟩ := GpcmModel.new_ok hg
    rw [hn]
    norm_num [witnessArgs]
  · rw [ht]
    cases causal <;> norm_num
  · rw [hz]
    norm_num

end Gpcm
