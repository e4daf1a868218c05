import Verif.Lemmas.StationaryLemmas
import Verif.Props.BestProps
import Verif.Props.ShrinkProps
import Verif.Props.GradientProps

/-!
# Property C184: all mean-field schemes look for the same posteriors

Gradient methods end where the derivative of a bound vanishes, coordinate ascent where nothing changes any more.
-/

set_option linter.unusedSectionVars false

open Matrix Real Filter Topology

namespace Gpcm

variable {ι κ : Type} [Fintype ι] [DecidableEq ι] [Fintype κ] [DecidableEq κ] (C : Chols ι κ) {m : Inst ι κ}

namespace Spec

/-- The derivative of the (collapsed) bound vanishes along all differentiable curves of posteriors through the current ones. This does not depend
on how the posteriors are parametrised. -/
def Stationary (C : Chols ι κ) (m : Inst ι κ) (s : Posts ι κ) (d : List (ℝ × ℝ)) (collapsed : Option String) : Prop :=
  ∀ (cu : ℝ → NatNormal ι) (cz : ℝ → NatNormal κ), Curve cu → Curve cz → cu 0 = s.qU → cz 0 = s.qZ →
    ∃ v : ℝ → ℝ, (∀ t, MeanField.elbo C m ((s.setU (cu t)).setZ (cz t)) d collapsed = .ok (v t)) ∧ HasDerivAt v 0 0

end Spec

open Spec

theorem Spec.Curve.qz (h : m.Valid) (d : List (ℝ × ℝ)) {c : ℝ → NatNormal ι} (hc : Curve c) :
    Curve fun t => qzOptimalMF C m (constructDataTerms C m d) (c t) := by
  refine ⟨fun i => ?_, fun i j => ?_, hc.proper.mono fun t ht => qzOptimalMF_posDef C h d ht⟩
  · simp only [qzOptimalMF_eq, NatNormal.tilt]
    exact ((VecDiff.const _).add (((MatDiff.const _).mulVec (hc.mean C.u)).smul _)) i
  · simp only [qzOptimalMF_eq, NatNormal.tilt, zQuad]
    exact ((MatDiff.const _).add (((MatDiff.const _).add (MatDiff.list_sum (A := fun I t => Iᵀ * (c t).m2 C.u * I) _ fun I _ =>
      ((MatDiff.const _).mul (hc.m2 C.u)).mul (MatDiff.const _))).smul _)) i j

theorem Spec.Curve.qu (h : m.Valid) (d : List (ℝ × ℝ)) {c : ℝ → NatNormal κ} (hc : Curve c) :
    Curve fun t => quOptimalMF C m (constructDataTerms C m d) (c t) := by
  refine ⟨fun i => ?_, fun i j => ?_, hc.proper.mono fun t ht => quOptimalMF_posDef C h d ht⟩
  · simp only [quOptimalMF_eq, NatNormal.tilt]
    exact ((VecDiff.const _).add (((MatDiff.const _).mulVec (hc.mean C.z)).smul _)) i
  · simp only [quOptimalMF_eq, NatNormal.tilt, uQuad]
    exact ((MatDiff.const _).add (((MatDiff.const _).add (MatDiff.list_sum (A := fun I t => I * (c t).m2 C.z * Iᵀ) _ fun I _ =>
      ((MatDiff.const _).mul (hc.m2 C.z)).mul (MatDiff.const _))).smul _)) i j

section
variable (h : m.Valid) (d : List (ℝ × ℝ))
include h

theorem pair_gap_z {u : NatNormal ι} {z : NatNormal κ} (hu : u.prec.PosDef) (hz : z.prec.PosDef) :
    pairBound C m d ⟨u, z⟩ = pairBound C m d ⟨u, qzOptimalMF C m (constructDataTerms C m d) u⟩ -
      z.kl C.z (qzOptimalMF C m (constructDataTerms C m d) u) := by
  have := bound_gap_z C (m := m) (constructDataTerms C m d) (pu := ⟨0, m.Ku⟩) (qu := u) (qzOptimalMF_eq C m _ u) h.Kz hz
    (qzOptimalMF_posDef C h d hu)
  simp only [pairBound]
  linarith

theorem pair_gap_u {u : NatNormal ι} {z : NatNormal κ} (hu : u.prec.PosDef) (hz : z.prec.PosDef) :
    pairBound C m d ⟨u, z⟩ = pairBound C m d ⟨quOptimalMF C m (constructDataTerms C m d) z, z⟩ -
      u.kl C.u (quOptimalMF C m (constructDataTerms C m d) z) := by
  have := bound_gap_u C (m := m) (constructDataTerms C m d) (pz := ⟨0, m.Kz⟩) (qz := z) (quOptimalMF_eq C m _ z) h.Ku hu
    (quOptimalMF_posDef C h d hz)
  simp only [pairBound]
  linarith

/-- The bound is stationary at fixed points. -/
theorem fixed_stationary {cu : ℝ → NatNormal ι} {cz : ℝ → NatNormal κ} (hu : Curve cu) (hz : Curve cz)
    (fu : cu 0 = quOptimalMF C m (constructDataTerms C m d) (cz 0)) (fz : cz 0 = qzOptimalMF C m (constructDataTerms C m d) (cu 0)) :
    HasDerivAt (fun t => pairBound C m d ⟨cu t, cz t⟩) 0 0 := by
  have h1 := hz.kl_deriv C.z (hu.qz C h d) fz
  have h2 := (Curve.const hz.zero).kl_deriv C.z (hu.qz C h d) fz
  have h3 := hu.kl_deriv C.u (Curve.const hu.zero) rfl
  have h4 := (((hasDerivAt_const (0 : ℝ) (pairBound C m d ⟨cu 0, cz 0⟩)).sub h3).add h2).sub h1
  simp only [sub_zero, add_zero] at h4
  refine h4.congr_of_eventuallyEq ((hu.proper.and hz.proper).mono fun t ht => ?_)
  have e1 := pair_gap_z C h d ht.1 ht.2
  have e2 := pair_gap_z C h d ht.1 hz.zero
  have e3 := pair_gap_u C h d ht.1 hz.zero
  rw [← fu] at e3
  simp only [Pi.add_apply, Pi.sub_apply]
  linarith

theorem stationary_fixed {u : NatNormal ι} {z : NatNormal κ} (hu : u.prec.PosDef) (hz : z.prec.PosDef)
    (hs : ∀ cu cz, Curve cu → Curve cz → cu 0 = u → cz 0 = z → HasDerivAt (fun t => pairBound C m d ⟨cu t, cz t⟩) 0 0) :
    u = quOptimalMF C m (constructDataTerms C m d) z ∧ z = qzOptimalMF C m (constructDataTerms C m d) u := by
  constructor
  · refine stationary_kl C.u hu (quOptimalMF_posDef C h d hz) fun c hc h0 => ?_
    have h1 := (hasDerivAt_const (0 : ℝ) (pairBound C m d ⟨quOptimalMF C m (constructDataTerms C m d) z, z⟩)).sub
      (hs c _ hc (Curve.const hz) h0 rfl)
    rw [sub_zero] at h1
    refine h1.congr_of_eventuallyEq (hc.proper.mono fun t ht => ?_)
    have := pair_gap_u C h d ht hz
    simp only [Pi.sub_apply]
    linarith
  · refine stationary_kl C.z hz (qzOptimalMF_posDef C h d hu) fun c hc h0 => ?_
    have h1 := (hasDerivAt_const (0 : ℝ) (pairBound C m d ⟨u, qzOptimalMF C m (constructDataTerms C m d) u⟩)).sub
      (hs _ c (Curve.const hu) hc rfl h0)
    rw [sub_zero] at h1
    refine h1.congr_of_eventuallyEq (hc.proper.mono fun t ht => ?_)
    have := pair_gap_z C h d hu ht
    simp only [Pi.sub_apply]
    linarith

end

theorem elbo_none (s : Posts ι κ) (hs : s.qi = 0) (d : List (ℝ × ℝ)) (u : NatNormal ι) (z : NatNormal κ) :
    MeanField.elbo C m ((s.setU u).setZ z) d none = .ok (pairBound C m d ⟨u, z⟩) := by
  simp [MeanField.elbo, Posts.pU, Posts.pZ, Posts.qU, Posts.qZ, Posts.setZ, Posts.setU, hs, pairBound]

theorem elbo_z (s : Posts ι κ) (hs : s.qi = 0) (d : List (ℝ × ℝ)) (u : NatNormal ι) (z : NatNormal κ) :
    MeanField.elbo C m ((s.setU u).setZ z) d (some "z") =
      .ok (pairBound C m d ⟨u, qzOptimalMF C m (constructDataTerms C m d) u⟩) := by
  simp [MeanField.elbo, Posts.pU, Posts.pZ, Posts.qU, Posts.setZ, Posts.setU, hs, pairBound]

theorem elbo_u (s : Posts ι κ) (hs : s.qi = 0) (d : List (ℝ × ℝ)) (u : NatNormal ι) (z : NatNormal κ) :
    MeanField.elbo C m ((s.setU u).setZ z) d (some "u") =
      .ok (pairBound C m d ⟨quOptimalMF C m (constructDataTerms C m d) z, z⟩) := by
  simp [MeanField.elbo, Posts.pU, Posts.pZ, Posts.qZ, Posts.setZ, Posts.setU, hs, pairBound]

theorem stationary_none {s : Posts ι κ} (hs : s.qi = 0) {d : List (ℝ × ℝ)} (h : Stationary C m s d none) {cu : ℝ → NatNormal ι}
    {cz : ℝ → NatNormal κ} (hu : Curve cu) (hz : Curve cz) (hu0 : cu 0 = s.qU) (hz0 : cz 0 = s.qZ) :
    HasDerivAt (fun t => pairBound C m d ⟨cu t, cz t⟩) 0 0 := by
  obtain ⟨v, hv, hd⟩ := h cu cz hu hz hu0 hz0
  have : v = fun t => pairBound C m d ⟨cu t, cz t⟩ := funext fun t => by
    have := hv t
    rw [elbo_none C s hs] at this
    exact (Except.ok.inj this).symm
  rwa [this] at hd

theorem caLoop_fixed {σ : Type} {step : σ → σ} {diff : σ → σ → ℝ} {x : σ} (hx : step x = x) (k : ℕ) : (caLoop step diff k x).1 = x := by
  induction k with
  | zero => rfl
  | succ k ih =>
    rw [caLoop]
    simp only [hx]
    split_ifs
    · rfl
    · exact ih

/-- **C184** The derivative of the bound vanishes exactly at the posteriors that coordinate ascent leaves unchanged. -/
theorem c184_fixed (h : m.Valid) (s : Posts ι κ) (hs : s.qi = 0) (hp : s.Proper) (d : List (ℝ × ℝ)) :
    Stationary C m s d none ↔ ∀ iters : ℤ, (fitMeanFieldCA C m s d iters).1 = s := by
  constructor
  · intro hst iters
    obtain ⟨h1, h2⟩ := stationary_fixed C h d hp.1 hp.2 fun cu cz hu hz hu0 hz0 => stationary_none C hs hst hu hz hu0 hz0
    have h3 : caStep C m (constructDataTerms C m d) ⟨s.qU, s.qZ⟩ = ⟨s.qU, s.qZ⟩ := by
      unfold caStep
      simp only [← h1, ← h2]
    have h4 : (fitMeanFieldCA C m s d iters).1 = (s.setU s.qU).setZ s.qZ := by
      unfold fitMeanFieldCA
      simp only [caLoop_fixed h3]
    rw [h4]
    obtain ⟨i, qu, qz⟩ := s
    simp only [Posts.setU, Posts.setZ, Posts.qU, Posts.qZ, Posts.mk.injEq, true_and]
    exact ⟨funext fun j => by split_ifs with hj <;> simp [hj], funext fun j => by split_ifs with hj <;> simp [hj]⟩
  · intro hf cu cz hu hz hu0 hz0
    refine ⟨_, fun t => elbo_none C s hs d _ _, ?_⟩
    have h1 := hf 1
    have h2 : (fitMeanFieldCA C m s d 1).1 = (s.setU (caStep C m (constructDataTerms C m d) ⟨s.qU, s.qZ⟩).u).setZ
        (caStep C m (constructDataTerms C m d) ⟨s.qU, s.qZ⟩).z := by
      unfold fitMeanFieldCA
      simp [caLoop]
    rw [h2] at h1
    have h3 : quOptimalMF C m (constructDataTerms C m d) s.qZ = s.qU := (if_pos rfl).symm.trans (congrArg Posts.qU h1)
    have h4 : qzOptimalMF C m (constructDataTerms C m d) (quOptimalMF C m (constructDataTerms C m d) s.qZ) = s.qZ :=
      (if_pos rfl).symm.trans (congrArg Posts.qZ h1)
    rw [h3] at h4
    exact fixed_stationary C h d hu hz (by rw [hu0, hz0, h3]) (by rw [hu0, hz0, h4])

/-- **C184** The derivative of the bound vanishes exactly if that of the bound collapsed over `q(z)` does and `q(z)` is the optimal one. -/
theorem c184_collapsed_z (h : m.Valid) (s : Posts ι κ) (hs : s.qi = 0) (hp : s.Proper) (d : List (ℝ × ℝ)) :
    Stationary C m s d none ↔
      Stationary C m s d (some "z") ∧ s.qZ = qzOptimalMF C m (constructDataTerms C m d) s.qU := by
  constructor
  · intro hst
    obtain ⟨-, h2⟩ := stationary_fixed C h d hp.1 hp.2 fun cu cz hu hz hu0 hz0 => stationary_none C hs hst hu hz hu0 hz0
    exact ⟨fun cu cz hu hz hu0 hz0 => ⟨_, fun t => elbo_z C s hs d _ _,
      stationary_none C hs hst hu (hu.qz C h d) hu0 (by rw [hu0]; exact h2.symm)⟩, h2⟩
  · intro ⟨hst, h2⟩ cu cz hu hz hu0 hz0
    refine ⟨_, fun t => elbo_none C s hs d _ _, ?_⟩
    obtain ⟨v, hv, hd⟩ := hst cu cz hu hz hu0 hz0
    have h3 := hd.sub (hz.kl_deriv C.z (hu.qz C h d) (by rw [hu0, hz0]; exact h2))
    rw [sub_zero] at h3
    refine h3.congr_of_eventuallyEq ((hu.proper.and hz.proper).mono fun t ht => ?_)
    have h4 := hv t
    rw [elbo_z C s hs] at h4
    simp only [Pi.sub_apply]
    rw [pair_gap_z C h d ht.1 ht.2, Except.ok.inj h4]

/-- **C184** The same holds for the bound collapsed over `q(u)`. -/
theorem c184_collapsed_u (h : m.Valid) (s : Posts ι κ) (hs : s.qi = 0) (hp : s.Proper) (d : List (ℝ × ℝ)) :
    Stationary C m s d none ↔
      Stationary C m s d (some "u") ∧ s.qU = quOptimalMF C m (constructDataTerms C m d) s.qZ := by
  constructor
  · intro hst
    obtain ⟨h2, -⟩ := stationary_fixed C h d hp.1 hp.2 fun cu cz hu hz hu0 hz0 => stationary_none C hs hst hu hz hu0 hz0
    exact ⟨fun cu cz hu hz hu0 hz0 => ⟨_, fun t => elbo_u C s hs d _ _,
      stationary_none C hs hst (hz.qu C h d) hz (by rw [hz0]; exact h2.symm) hz0⟩, h2⟩
  · intro ⟨hst, h2⟩ cu cz hu hz hu0 hz0
    refine ⟨_, fun t => elbo_none C s hs d _ _, ?_⟩
    obtain ⟨v, hv, hd⟩ := hst cu cz hu hz hu0 hz0
    have h3 := hd.sub (hu.kl_deriv C.u (hz.qu C h d) (by rw [hu0, hz0]; exact h2))
    rw [sub_zero] at h3
    refine h3.congr_of_eventuallyEq ((hu.proper.and hz.proper).mono fun t ht => ?_)
    have h4 := hv t
    rw [elbo_u C s hs] at h4
    simp only [Pi.sub_apply]
    rw [pair_gap_u C h d ht.1 ht.2, Except.ok.inj h4]

/-- **C184** A scheme that trains `q(u)` until the derivative of the collapsed bound vanishes and then updates `q(z)` ends where coordinate ascent stops. -/
theorem c184_scheme (h : m.Valid) (s : Posts ι κ) (hs : s.qi = 0) (hp : s.Proper) (d : List (ℝ × ℝ))
    (hst : Stationary C m s d (some "z")) (iters : ℤ) :
    let s' := s.setZ (qzOptimalMF C m (constructDataTerms C m d) s.qU)
    (fitMeanFieldCA C m s' d iters).1 = s' := by
  intro s'
  have e1 : s'.qZ = qzOptimalMF C m (constructDataTerms C m d) s.qU := if_pos rfl
  have e2 : s'.qU = s.qU := rfl
  have hp' : s'.Proper := ⟨hp.1, by rw [e1]; exact qzOptimalMF_posDef C h d hp.1⟩
  refine (c184_fixed C h s' hs hp' d).1 ((c184_collapsed_z C h s' hs hp' d).2 ⟨fun cu cz hu hz hu0 hz0 => ?_, by rw [e1, e2]⟩) iters
  obtain ⟨v, hv, hd⟩ := hst cu _ hu (Curve.const hp.2) hu0 rfl
  refine ⟨v, fun t => ?_, hd⟩
  rw [← hv t, elbo_z C s' hs, elbo_z C s hs]

section
variable {M : ℝ → Inst ι κ} {d : List (ℝ × ℝ)} (hM : SmoothAt M d 0) (hv : ∀ᶠ t in 𝓝 0, (M t).Valid)
include hM hv

theorem noise_diff : DifferentiableAt ℝ (fun t => 1 / (M t).noise) 0 :=
  (differentiableAt_const 1).fun_div (hM.noise.differentiableAt one_ne_zero) hv.self_of_nhds.noise.ne'

theorem Spec.Curve.qz_hyper {c : ℝ → NatNormal ι} (hc : Curve c) :
    Curve fun t => qzOptimalMF C (M t) (constructDataTerms C (M t) d) (c t) := by
  have hK : MatDiff fun t => (M t).KuInv C := fun i j => diff_congr (hv.mono fun t ht => by
    simp only [Inst.KuInv, pdInv_eq C.u ht.Ku]) ((MatC1.matDiff hM.Ku).inv hv.self_of_nhds.Ku.det_pos.ne' i j)
  refine ⟨fun i => ?_, fun i j => ?_, (hc.proper.and hv).mono fun t ht => qzOptimalMF_posDef C ht.2 d ht.1⟩
  · simp only [qzOptimalMF_eq, NatNormal.tilt, iUzSum_u]
    exact ((VecDiff.const _).add ((VecDiff.list_sum (v := fun p t => p.2 • (((M t).iUz p.1)ᵀ *ᵥ (c t).mean C.u)) d fun p hp =>
      ((MatC1.matDiff (hM.iUz p hp)).transpose.mulVec (hc.mean C.u)).smul _).smulF (noise_diff hM hv))) i
  · simp only [qzOptimalMF_eq, NatNormal.tilt, zQuad_sum, ptZ, ptB]
    exact ((MatC1.matDiff hM.Kz).add ((MatDiff.list_sum (A := fun p t => (M t).iHz p.1 - ((M t).iUz p.1)ᵀ * (M t).KuInv C * (M t).iUz p.1 +
      ((M t).iUz p.1)ᵀ * (c t).m2 C.u * (M t).iUz p.1) d fun p hp =>
      have hI := MatC1.matDiff (hM.iUz p hp)
      ((MatC1.matDiff (hM.iHz p hp)).sub ((hI.transpose.mul hK).mul hI)).add ((hI.transpose.mul (hc.m2 C.u)).mul hI)).smulF
      (noise_diff hM hv))) i j

theorem Spec.Curve.qu_hyper {c : ℝ → NatNormal κ} (hc : Curve c) :
    Curve fun t => quOptimalMF C (M t) (constructDataTerms C (M t) d) (c t) := by
  have hK : MatDiff fun t => (M t).KzInv C := fun i j => diff_congr (hv.mono fun t ht => by
    simp only [Inst.KzInv, pdInv_eq C.z ht.Kz]) ((MatC1.matDiff hM.Kz).inv hv.self_of_nhds.Kz.det_pos.ne' i j)
  refine ⟨fun i => ?_, fun i j => ?_, (hc.proper.and hv).mono fun t ht => quOptimalMF_posDef C ht.2 d ht.1⟩
  · simp only [quOptimalMF_eq, NatNormal.tilt, iUzSum_z]
    exact ((VecDiff.const _).add ((VecDiff.list_sum (v := fun p t => p.2 • ((M t).iUz p.1 *ᵥ (c t).mean C.z)) d fun p hp =>
      ((MatC1.matDiff (hM.iUz p hp)).mulVec (hc.mean C.z)).smul _).smulF (noise_diff hM hv))) i
  · simp only [quOptimalMF_eq, NatNormal.tilt, uQuad_sum, ptU, ptA]
    exact ((MatC1.matDiff hM.Ku).add ((MatDiff.list_sum (A := fun p t => (M t).iUx - (M t).iUz p.1 * (M t).KzInv C * ((M t).iUz p.1)ᵀ +
      (M t).iUz p.1 * (c t).m2 C.z * ((M t).iUz p.1)ᵀ) d fun p hp =>
      have hI := MatC1.matDiff (hM.iUz p hp)
      ((MatC1.matDiff hM.iUx).sub ((hI.mul hK).mul hI.transpose)).add ((hI.mul (hc.m2 C.z)).mul hI.transpose)).smulF
      (noise_diff hM hv))) i j

/-- **C184** Also when hyper-parameters are trained, collapsing over `q(z)` does not change the derivative where `q(z)` is optimal. -/
theorem c184_hypers_z (s : Posts ι κ) (hs : s.qi = 0) {cu : ℝ → NatNormal ι} {cz : ℝ → NatNormal κ} (hu : Curve cu) (hz : Curve cz)
    (h0 : cz 0 = qzOptimalMF C (M 0) (constructDataTerms C (M 0) d) (cu 0)) :
    ∃ v w : ℝ → ℝ, (∀ t, MeanField.elbo C (M t) ((s.setU (cu t)).setZ (cz t)) d none = .ok (v t)) ∧
      (∀ t, MeanField.elbo C (M t) ((s.setU (cu t)).setZ (cz t)) d (some "z") = .ok (w t)) ∧
      ∀ D, HasDerivAt v D 0 ↔ HasDerivAt w D 0 := by
  refine ⟨_, _, fun t => elbo_none C s hs d _ _, fun t => elbo_z C s hs d _ _, fun D => ?_⟩
  have hk := hz.kl_deriv C.z (hu.qz_hyper C hM hv) h0
  have e := ((hu.proper.and hz.proper).and hv).mono fun t ht => pair_gap_z C ht.2 d ht.1.1 ht.1.2
  constructor
  · intro h
    have := h.add hk
    rw [add_zero] at this
    refine this.congr_of_eventuallyEq (e.mono fun t ht => ?_)
    simp only [Pi.add_apply]
    linarith
  · intro h
    have := h.sub hk
    rw [sub_zero] at this
    refine this.congr_of_eventuallyEq (e.mono fun t ht => ?_)
    simp only [Pi.sub_apply]
    linarith

/-- **C184** Nor does collapsing over `q(u)` where `q(u)` is optimal. -/
theorem c184_hypers_u (s : Posts ι κ) (hs : s.qi = 0) {cu : ℝ → NatNormal ι} {cz : ℝ → NatNormal κ} (hu : Curve cu) (hz : Curve cz)
    (h0 : cu 0 = quOptimalMF C (M 0) (constructDataTerms C (M 0) d) (cz 0)) :
    ∃ v w : ℝ → ℝ, (∀ t, MeanField.elbo C (M t) ((s.setU (cu t)).setZ (cz t)) d none = .ok (v t)) ∧
      (∀ t, MeanField.elbo C (M t) ((s.setU (cu t)).setZ (cz t)) d (some "u") = .ok (w t)) ∧
      ∀ D, HasDerivAt v D 0 ↔ HasDerivAt w D 0 := by
  refine ⟨_, _, fun t => elbo_none C s hs d _ _, fun t => elbo_u C s hs d _ _, fun D => ?_⟩
  have hk := hu.kl_deriv C.u (hz.qu_hyper C hM hv) h0
  have e := ((hu.proper.and hz.proper).and hv).mono fun t ht => pair_gap_u C ht.2 d ht.1.1 ht.1.2
  constructor
  · intro h
    have := h.add hk
    rw [add_zero] at this
    refine this.congr_of_eventuallyEq (e.mono fun t ht => ?_)
    simp only [Pi.add_apply]
    linarith
  · intro h
    have := h.sub hk
    rw [sub_zero] at this
    refine this.congr_of_eventuallyEq (e.mono fun t ht => ?_)
    simp only [Pi.sub_apply]
    linarith

end

/-- There are posteriors where the derivative vanishes: the best ones. -/
example (D : Chols (Fin 1) (Fin 1)) : ∃ s : Posts (Fin 1) (Fin 1), s.qi = 0 ∧ s.Proper ∧ Stationary D exInst s [(0, 3)] none := by
  obtain ⟨p, b, hp, h1, h2, -⟩ := c164_best D exInst_valid [(0, 3)]
  have hs := h1 ⟨0, fun _ => p.u, fun _ => p.z⟩ rfl rfl rfl
  have hp' : (⟨0, fun _ => p.u, fun _ => p.z⟩ : Posts (Fin 1) (Fin 1)).Proper := hp
  refine ⟨⟨0, fun _ => p.u, fun _ => p.z⟩, rfl, hp, (c184_fixed D exInst_valid _ rfl hp' _).2 fun iters => ?_⟩
  exact c164_fixed D exInst_valid _ rfl hp' _ hs.1 (fun s' hs' hp' v hv => h2 s' hs' hp' none v hv) iters

/-- There are posteriors where it does not. -/
example (D : Chols (Fin 1) (Fin 1)) : ¬Stationary D exInst (exPosts 0) [] none := by
  rw [c184_fixed D exInst_valid (exPosts 0) rfl ⟨Matrix.PosDef.one, Matrix.PosDef.one⟩]
  intro hc
  have h1 := congrArg (fun s : Posts (Fin 1) (Fin 1) => s.qU.lam 0) (hc 1)
  simp [fitMeanFieldCA, caLoop, caStep, Posts.qU, Posts.setU, Posts.setZ, exPosts, quOptimalMF, qOptimal, constructDataTerms,
    constructTerms] at h1

/-- Training the noise: the derivative of the bound is that of the collapsed bound. -/
example (D : Chols (Fin 1) (Fin 1)) : ∃ v w : ℝ → ℝ,
    (∀ t, MeanField.elbo D (exNoise t) (((exPosts 0).setU ⟨0, 1⟩).setZ (qzOptimalMF D (exNoise 0) (constructDataTerms D (exNoise 0) [(0, 3)])
      ⟨0, 1⟩)) [(0, 3)] none = .ok (v t)) ∧
    (∀ t, MeanField.elbo D (exNoise t) (((exPosts 0).setU ⟨0, 1⟩).setZ (qzOptimalMF D (exNoise 0) (constructDataTerms D (exNoise 0) [(0, 3)])
      ⟨0, 1⟩)) [(0, 3)] (some "z") = .ok (w t)) ∧ ∀ E, HasDerivAt v E 0 ↔ HasDerivAt w E 0 :=
  c184_hypers_z D (exNoise_smooth _ 0) (.of_forall exNoise_valid) (exPosts 0) rfl (Curve.const Matrix.PosDef.one)
    (Curve.const (qzOptimalMF_posDef D (exNoise_valid 0) _ Matrix.PosDef.one)) rfl

end Gpcm
