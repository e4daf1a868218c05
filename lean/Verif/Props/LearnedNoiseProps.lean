import Verif.Props.FarProps
import Verif.Props.MoreDataProps
import Mathlib.Analysis.Calculus.LocalExtr.Basic
import Mathlib.Analysis.SpecialFunctions.Log.Deriv

/-!
# Property C168: the learned noise
-/

open Matrix Real Filter Topology

namespace Gpcm

variable {ι κ : Type} [Fintype ι] [DecidableEq ι] [Fintype κ] [DecidableEq κ] (C : Chols ι κ) {m : Inst ι κ}

/-- Sum over the observations of the squared residuals and the variances of the predicted signal. The predictions are those of
observations, with the noise included in the variance. -/
noncomputable def Spec.unexplained (noise : ℝ) (d pred : List (ℝ × ℝ)) : ℝ :=
  (List.zipWith (fun p r => (p.2 - r.1) ^ 2 + (r.2 - noise)) d pred).sum

/-- A locally best value of a parameter for an objective that may raise an exception. -/
def Spec.LocallyBest (f : ℝ → Except PyErr ℝ) (v : ℝ) : Prop := ∃ b, f v = .ok b ∧ ∀ᶠ w in 𝓝 v, ∃ a, f w = .ok a ∧ a ≤ b

/-- The expected negative log-likelihood of `n` observations with noise `v`. -/
noncomputable def noiseFit (n S v : ℝ) : ℝ := -(1 / 2) * n * log (2 * π * v) - S / (2 * v)

theorem noiseFit_hasDerivAt {v : ℝ} (hv : 0 < v) (n S : ℝ) :
    HasDerivAt (noiseFit n S) ((S - n * v) / (2 * v ^ 2)) v := by
  have h1 : HasDerivAt (fun v => log (2 * π * v)) (v⁻¹) v := by
    have := ((hasDerivAt_id v).const_mul (2 * π)).log (by positivity)
    refine this.congr_deriv ?_
    simp only [id]
    field_simp
  have h2 : HasDerivAt (fun v : ℝ => S / (2 * v)) (-(S / (2 * v ^ 2))) v := by
    have := (hasDerivAt_const v S).fun_div ((hasDerivAt_id v).const_mul 2) (by simp only [id]; positivity)
    refine this.congr_deriv ?_
    simp only [id]
    field_simp
    ring
  refine ((h1.const_mul (-(1 / 2) * n)).sub h2).congr_deriv ?_
  field_simp
  ring

theorem noiseFit_local {n S v : ℝ} (hv : 0 < v) (h : ∀ᶠ w in 𝓝 v, noiseFit n S w ≤ noiseFit n S v) : n * v = S := by
  have h0 := (show IsLocalMax (noiseFit n S) v from h).hasDerivAt_eq_zero (noiseFit_hasDerivAt hv n S)
  rw [div_eq_zero_iff] at h0
  rcases h0 with h0 | h0
  · linarith
  · exact absurd h0 (by positivity)

theorem noiseFit_lt {n S v : ℝ} (hn : 0 < n) (hS : 0 < S) (hv : 0 < v) (hne : v ≠ S / n) : noiseFit n S v < noiseFit n S (S / n) := by
  have hx : S / n / v ≠ 1 := fun e => hne (by field_simp at e ⊢; linarith)
  have h1 := log_lt_sub_one_of_pos (show 0 < S / n / v by positivity) hx
  have h2 : log (2 * π * (S / n)) = log (2 * π * v) + log (S / n / v) := by
    rw [← log_mul (by positivity) (by positivity)]
    congr 1
    field_simp
  have h3 : S / (2 * v) = n / 2 * (S / n / v) := by field_simp
  have h4 : S / (2 * (S / n)) = n / 2 := by field_simp
  unfold noiseFit
  rw [h2, h3, h4]
  nlinarith

/-- The sum that the noise has to explain, for moments of the signal. -/
theorem sumEll_noise (d : List (ℝ × ℝ)) (v : ℝ) (u : ι → ℝ) (u2 : Matrix ι ι ℝ) (z : κ → ℝ) (z2 : Matrix κ κ ℝ) :
    sumEll (constructDataTerms C m d) v u u2 z z2 = noiseFit d.length ((d.map fun p =>
      p.2 ^ 2 - 2 * p.2 * (ptMoments C m u u2 z z2 p.1).1 + (ptMoments C m u u2 z z2 p.1).2).sum) v := by
  rw [sumEll_eq]
  unfold noiseFit Spec.ell
  induction d with
  | nil => simp
  | cons p d ih =>
    rw [List.map_cons, List.sum_cons, ih, List.map_cons, List.sum_cons, List.length_cons]
    push_cast
    ring

/-- Predictions at the times of the observations. -/
theorem unexplained_map (noise : ℝ) (d : List (ℝ × ℝ)) (F : ℝ → ℝ × ℝ) :
    Spec.unexplained noise d ((d.map Prod.fst).map fun x => ((F x).1, (F x).2 - (F x).1 ^ 2 + noise)) =
      (d.map fun p => p.2 ^ 2 - 2 * p.2 * (F p.1).1 + (F p.1).2).sum := by
  unfold Spec.unexplained
  rw [List.map_map, List.zipWith_map_right, List.zipWith_self]
  congr 1
  refine List.map_congr_left fun p _ => ?_
  simp only [Function.comp_apply]
  ring

theorem condition_pU (s : Posts ι κ) : s.condition.pU m = s.qU := by
  simp [Posts.pU, Posts.condition, Posts.qU]

theorem condition_pZ (s : Posts ι κ) : s.condition.pZ m = s.qZ := by
  simp [Posts.pZ, Posts.condition, Posts.qZ]

theorem unexplained_predict (s : Posts ι κ) (d : List (ℝ × ℝ)) :
    Spec.unexplained m.noise d (MeanField.predict C m s.condition (d.map Prod.fst)) = (d.map fun p =>
      p.2 ^ 2 - 2 * p.2 * (ptMoments C m (s.qU.mean C.u) (s.qU.m2 C.u) (s.qZ.mean C.z) (s.qZ.m2 C.z) p.1).1 +
        (ptMoments C m (s.qU.mean C.u) (s.qU.m2 C.u) (s.qZ.mean C.z) (s.qZ.m2 C.z) p.1).2).sum := by
  rw [MeanField.predict, predictMoments_eq, List.map_map, condition_pU, condition_pZ]
  exact unexplained_map _ _ _

/-- The bound as a function of the noise, for fixed posteriors. -/
theorem meanFieldBound_noise (d : List (ℝ × ℝ)) (v : ℝ) (pu : NatNormal ι) (pz : NatNormal κ) (s : Posts ι κ) :
    meanFieldBound C (m.withNoise v) (constructDataTerms C (m.withNoise v) d) pu s.qU pz s.qZ = noiseFit d.length
      (Spec.unexplained m.noise d (MeanField.predict C m s.condition (d.map Prod.fst))) v - s.qU.kl C.u pu - s.qZ.kl C.z pz := by
  rw [meanFieldBound_eq, unexplained_predict]
  have := sumEll_noise C (m := m.withNoise v) d v (s.qU.mean C.u) (s.qU.m2 C.u) (s.qZ.mean C.z) (s.qZ.m2 C.z)
  rw [show (m.withNoise v).noise = v from rfl, this]
  rfl

/-- **C168** For fixed posteriors, the bound has exactly one best noise: the average over the observations of the squared residual plus
the variance of the predicted signal. -/
theorem c168_best (s : Posts ι κ) (d : List (ℝ × ℝ)) (hd : d ≠ [])
    (hS : 0 < Spec.unexplained m.noise d (MeanField.predict C m s.condition (d.map Prod.fst))) (v : ℝ) (hv : 0 < v)
    (hne : v ≠ Spec.unexplained m.noise d (MeanField.predict C m s.condition (d.map Prod.fst)) / d.length) :
    ∃ a b, MeanField.elbo C (m.withNoise v) s d none = .ok a ∧
      MeanField.elbo C (m.withNoise (Spec.unexplained m.noise d (MeanField.predict C m s.condition (d.map Prod.fst)) / d.length))
        s d none = .ok b ∧ a < b := by
  have hn : (0 : ℝ) < d.length := by exact_mod_cast List.length_pos_iff.2 hd
  refine ⟨_, _, rfl, rfl, ?_⟩
  rw [meanFieldBound_noise, meanFieldBound_noise]
  have := noiseFit_lt hn hS hv hne
  simp only [show ∀ w, s.pU (m.withNoise w) = s.pU m from fun _ => rfl, show ∀ w, s.pZ (m.withNoise w) = s.pZ m from fun _ => rfl]
  linarith

theorem withNoise_self : m.withNoise m.noise = m := rfl

theorem Inst.Valid.withNoise (h : m.Valid) {v : ℝ} (hv : 0 < v) : (m.withNoise v).Valid :=
  ⟨h.Ku, h.Kz, hv, h.A, h.B, h.c⟩

/-- **C168** Learned noise, bound without collapsing: at a local optimum the noise is the average over the observations of the squared
residual plus the variance of the predicted signal. -/
theorem c168_mean_field (h : m.Valid) (s : Posts ι κ) (d : List (ℝ × ℝ))
    (hb : Spec.LocallyBest (fun v => MeanField.elbo C (m.withNoise v) s d none) m.noise) :
    d.length * m.noise = Spec.unexplained m.noise d (MeanField.predict C m s.condition (d.map Prod.fst)) := by
  obtain ⟨b, hb, hw⟩ := hb
  refine noiseFit_local h.noise (hw.mono fun w ha => ?_)
  obtain ⟨a, ha, hab⟩ := ha
  have e1 := (Except.ok.inj hb).symm.trans (meanFieldBound_noise C d m.noise _ _ s)
  have e2 := (Except.ok.inj ha).symm.trans (meanFieldBound_noise C d w _ _ s)
  rw [e1, e2] at hab
  simp only [show ∀ w, s.pU (m.withNoise w) = s.pU m from fun _ => rfl, show ∀ w, s.pZ (m.withNoise w) = s.pZ m from fun _ => rfl] at hab
  linarith

theorem setZ_qU (s : Posts ι κ) (q : NatNormal κ) : (s.setZ q).qU = s.qU := rfl

theorem setZ_qZ (s : Posts ι κ) (q : NatNormal κ) : (s.setZ q).qZ = q := by simp [Posts.setZ, Posts.qZ]

theorem setU_qU (s : Posts ι κ) (q : NatNormal ι) : (s.setU q).qU = q := by simp [Posts.setU, Posts.qU]

theorem setU_qZ (s : Posts ι κ) (q : NatNormal ι) : (s.setU q).qZ = s.qZ := rfl

/-- **C168** Learned noise, bound collapsed over `z`: the predictions are those with the optimal posterior over `z`. -/
theorem c168_collapsed_z (h : m.Valid) (s : Posts ι κ) (hs : s.qi = 0) (hp : s.Proper) (d : List (ℝ × ℝ))
    (hb : Spec.LocallyBest (fun v => MeanField.elbo C (m.withNoise v) s d (some "z")) m.noise) :
    d.length * m.noise = Spec.unexplained m.noise d (MeanField.predict C m
      (s.setZ (qzOptimalMF C m (constructDataTerms C m d) s.qU)).condition (d.map Prod.fst)) := by
  refine c168_mean_field C h _ d ?_
  obtain ⟨s', hs'⟩ : ∃ s', s' = s.setZ (qzOptimalMF C m (constructDataTerms C m d) s.qU) := ⟨_, rfl⟩
  have hs0 : s'.qi = 0 := by rw [hs']; exact hs
  have hU : s'.qU = s.qU := by rw [hs']; rfl
  have hZ : s'.qZ = qzOptimalMF C m (constructDataTerms C m d) s.qU := by rw [hs', setZ_qZ]
  have hp' : s'.Proper := ⟨by rw [hU]; exact hp.1, by rw [hZ]; exact qzOptimalMF_posDef C h d hp.1⟩
  have e : ∀ w, MeanField.elbo C (m.withNoise w) s' d (some "z") = MeanField.elbo C (m.withNoise w) s d (some "z") := fun w => by
    simp [MeanField.elbo, hU, Posts.pU, Posts.pZ, hs, hs0]
  rw [← hs']
  obtain ⟨b, hb, hw⟩ := hb
  obtain ⟨a0, b0, ha0, hb0, -, hiff⟩ := c24_z C h s' hs0 hp' d
  have hab : a0 = b0 := hiff.2 (by rw [hZ, hU])
  have hbb : b0 = b := Except.ok.inj (hb0.symm.trans ((e m.noise).trans hb))
  refine ⟨b, by rw [← hbb, ← hab]; exact ha0, ?_⟩
  filter_upwards [hw, lt_mem_nhds h.noise] with w ⟨a, ha, hab⟩ hw0
  obtain ⟨a1, b1, ha1, hb1, hle, -⟩ := c24_z C (h.withNoise hw0) s' hs0 hp' d
  refine ⟨a1, ha1, hle.trans (le_trans (le_of_eq ?_) hab)⟩
  exact Except.ok.inj (hb1.symm.trans ((e w).trans ha))

/-- **C168** Learned noise, bound collapsed over `u`: the predictions are those with the optimal posterior over `u`. -/
theorem c168_collapsed_u (h : m.Valid) (s : Posts ι κ) (hs : s.qi = 0) (hp : s.Proper) (d : List (ℝ × ℝ))
    (hb : Spec.LocallyBest (fun v => MeanField.elbo C (m.withNoise v) s d (some "u")) m.noise) :
    d.length * m.noise = Spec.unexplained m.noise d (MeanField.predict C m
      (s.setU (quOptimalMF C m (constructDataTerms C m d) s.qZ)).condition (d.map Prod.fst)) := by
  refine c168_mean_field C h _ d ?_
  obtain ⟨s', hs'⟩ : ∃ s', s' = s.setU (quOptimalMF C m (constructDataTerms C m d) s.qZ) := ⟨_, rfl⟩
  have hs0 : s'.qi = 0 := by rw [hs']; exact hs
  have hZ : s'.qZ = s.qZ := by rw [hs']; rfl
  have hU : s'.qU = quOptimalMF C m (constructDataTerms C m d) s.qZ := by rw [hs', setU_qU]
  have hp' : s'.Proper := ⟨by rw [hU]; exact quOptimalMF_posDef C h d hp.2, by rw [hZ]; exact hp.2⟩
  have e : ∀ w, MeanField.elbo C (m.withNoise w) s' d (some "u") = MeanField.elbo C (m.withNoise w) s d (some "u") := fun w => by
    simp [MeanField.elbo, hZ, Posts.pU, Posts.pZ, hs, hs0]
  rw [← hs']
  obtain ⟨b, hb, hw⟩ := hb
  obtain ⟨a0, b0, ha0, hb0, -, hiff⟩ := c24_u C h s' hs0 hp' d
  have hab : a0 = b0 := hiff.2 (by rw [hZ, hU])
  have hbb : b0 = b := Except.ok.inj (hb0.symm.trans ((e m.noise).trans hb))
  refine ⟨b, by rw [← hbb, ← hab]; exact ha0, ?_⟩
  filter_upwards [hw, lt_mem_nhds h.noise] with w ⟨a, ha, hab⟩ hw0
  obtain ⟨a1, b1, ha1, hb1, hle, -⟩ := c24_u C (h.withNoise hw0) s' hs0 hp' d
  refine ⟨a1, ha1, hle.trans (le_trans (le_of_eq ?_) hab)⟩
  exact Except.ok.inj (hb1.symm.trans ((e w).trans ha))

theorem sum_map_sub' {α : Type} (f g : α → ℝ) (l : List α) : (l.map fun x => f x - g x).sum = (l.map f).sum - (l.map g).sum := by
  induction l with
  | nil => simp
  | cons a l ih =>
    simp only [List.map_cons, List.sum_cons, ih]
    ring

/-- **C168** Learned noise, structured bound estimated with samples `us`: the predictions are those of the structured approximation with
the same samples. -/
theorem c168_structured (h : m.Valid) (s : Posts ι κ) (d : List (ℝ × ℝ)) (us : List (ι → ℝ))
    (hb : Spec.LocallyBest (fun v => elboCollapsedZ C (m.withNoise v) s d us) m.noise) :
    ∃ l, Structured.predict C m (some (constructDataTerms C m d)) (d.map Prod.fst) us = .ok l ∧
      d.length * m.noise = Spec.unexplained m.noise d l := by
  obtain ⟨b, hb, hw⟩ := hb
  have hus : us ≠ [] := by
    rintro rfl
    simp [elboCollapsedZ] at hb
  have hk : us.length ≠ 0 := fun e => hus (List.length_eq_zero_iff.1 e)
  have hk0 : (0 : ℝ) < us.length := by exact_mod_cast Nat.pos_of_ne_zero hk
  refine ⟨_, structured_predict_map C m _ hus _, ?_⟩
  simp only [toMeanVar]
  rw [unexplained_map m.noise d fun x => (_, _)]
  obtain ⟨q, hq⟩ : ∃ q, q = qzOptimal m (constructDataTerms C m d) := ⟨_, rfl⟩
  rw [← hq]
  obtain ⟨S, hS⟩ : ∃ S : (ι → ℝ) → ℝ, S = fun u => (d.map fun p => p.2 ^ 2 -
    2 * p.2 * (ptMoments C m u (vecMulVec u u) ((q u).mean C.z) ((q u).m2 C.z) p.1).1 +
      (ptMoments C m u (vecMulVec u u) ((q u).mean C.z) ((q u).m2 C.z) p.1).2).sum := ⟨_, rfl⟩
  have hqp : ∀ u, (q u).prec.PosDef := fun u => by rw [hq]; exact qzOptimal_posDef C h d u
  -- every value is at least the bound with the posterior over `z` that is optimal for the learned noise
  have key : ∀ w, 0 < w → ∀ u, noiseFit d.length (S u) w - (q u).kl C.z ⟨0, m.Kz⟩ ≤
      logZu C (m.withNoise w) (constructDataTerms C (m.withNoise w) d) u := fun w hw u => by
    have := ((c25_maximum C (h.withNoise hw) d u).2 (q u) (hqp u)).1
    beta_reduce at this
    rw [← sumEll_expLogLik C (h.withNoise hw), sumEll_noise] at this
    rw [hS]
    exact this
  have key0 : ∀ u, noiseFit d.length (S u) m.noise - (q u).kl C.z ⟨0, m.Kz⟩ = logZu C m (constructDataTerms C m d) u := fun u => by
    have := ((c25_maximum C h d u).2 (q u) (hqp u)).2.2 (by rw [hq])
    beta_reduce at this
    rw [← sumEll_expLogLik C h, sumEll_noise] at this
    rw [hS]
    exact this
  have avg : ∀ w, noiseFit d.length ((us.map S).sum / us.length) w = (us.map fun u => noiseFit d.length (S u) w).sum / us.length := by
    intro w
    have : ∀ l : List (ι → ℝ), (l.map fun u => noiseFit d.length (S u) w).sum =
        l.length * (-(1 / 2) * d.length * log (2 * π * w)) - (l.map S).sum / (2 * w) := fun l => by
      induction l with
      | nil => simp
      | cons u l ih =>
        rw [List.map_cons, List.sum_cons, ih, List.length_cons, List.map_cons, List.sum_cons, noiseFit]
        push_cast
        ring
    rw [this us, noiseFit, sub_div, mul_div_cancel_left₀ _ hk0.ne', div_right_comm]
  have hloc : (d.length : ℝ) * m.noise = (us.map S).sum / us.length := by
    refine noiseFit_local h.noise ?_
    filter_upwards [hw, lt_mem_nhds h.noise] with w ⟨a, ha, hab⟩ hw0
    simp only [elboCollapsedZ, if_neg hk] at ha hb
    have ha := Except.ok.inj ha
    have hb := Except.ok.inj hb
    rw [avg, avg]
    have h1 := list_sum_le (l := us) fun u _ => key w hw0 u
    have h2 : (us.map fun u => noiseFit d.length (S u) m.noise - (q u).kl C.z ⟨0, m.Kz⟩).sum =
        (us.map fun u => logZu C m (constructDataTerms C m d) u).sum := by
      congr 1
      exact List.map_congr_left fun u _ => key0 u
    rw [sum_map_sub'] at h1 h2
    have h3 : (us.map fun u => logZu C (m.withNoise w) (constructDataTerms C (m.withNoise w) d) u).sum / us.length ≤
        (us.map fun u => logZu C m (constructDataTerms C m d) u).sum / us.length := by
      have e : s.qU.kl C.u (s.pU (m.withNoise w)) = s.qU.kl C.u (s.pU (m.withNoise m.noise)) := rfl
      rw [← ha, ← hb, e] at hab
      exact (sub_le_sub_iff_right _).1 hab
    rw [div_le_div_iff_of_pos_right hk0] at h3 ⊢
    linarith
  rw [hloc, hS]
  have : ∀ l : List (ι → ℝ), (l.map fun u => (d.map fun p => p.2 ^ 2 -
      2 * p.2 * (ptMoments C m u (vecMulVec u u) ((q u).mean C.z) ((q u).m2 C.z) p.1).1 +
      (ptMoments C m u (vecMulVec u u) ((q u).mean C.z) ((q u).m2 C.z) p.1).2).sum).sum =
      (d.map fun p => (l.length : ℝ) * p.2 ^ 2 - 2 * p.2 * (l.map fun u => (ptMoments C m u (vecMulVec u u) ((q u).mean C.z)
        ((q u).m2 C.z) p.1).1).sum + (l.map fun u => (ptMoments C m u (vecMulVec u u) ((q u).mean C.z)
        ((q u).m2 C.z) p.1).2).sum).sum := fun l => by
    induction l with
    | nil => simp
    | cons u l ih =>
      rw [List.map_cons, List.sum_cons, ih, ← List.sum_map_add]
      congr 1
      refine List.map_congr_left fun p _ => ?_
      rw [List.map_cons, List.map_cons, List.sum_cons, List.sum_cons, List.length_cons]
      push_cast
      ring
  rw [this us, div_eq_mul_inv, ← List.sum_map_mul_right]
  congr 1
  refine List.map_congr_left fun p _ => ?_
  field_simp

theorem residual_le (h : m.Valid) (s : Posts ι κ) (hp : s.Proper) (d : List (ℝ × ℝ)) :
    (List.zipWith (fun p r => (p.2 - r.1) ^ 2) d (MeanField.predict C m s.condition (d.map Prod.fst))).sum ≤
      Spec.unexplained m.noise d (MeanField.predict C m s.condition (d.map Prod.fst)) := by
  rw [Spec.unexplained]
  have h28 := (c28_mean_field C h s.condition (by rw [condition_pU]; exact hp.1) (by rw [condition_pZ]; exact hp.2)
    (d.map Prod.fst)).2
  generalize MeanField.predict C m s.condition (d.map Prod.fst) = l at h28
  induction d generalizing l with
  | nil => simp
  | cons p d ih =>
    cases l with
    | nil => simp
    | cons r l =>
      rw [List.zipWith_cons_cons, List.zipWith_cons_cons, List.sum_cons, List.sum_cons]
      have h1 := h28 r List.mem_cons_self
      have h2 := ih l fun p hp => h28 p (List.mem_cons_of_mem _ hp)
      linarith

/-- **C168** So the average squared residual of the predictions at the times of the observations is at most the learned noise. -/
theorem c168_residual (h : m.Valid) (s : Posts ι κ) (hp : s.Proper) (d : List (ℝ × ℝ))
    (hb : Spec.LocallyBest (fun v => MeanField.elbo C (m.withNoise v) s d none) m.noise) :
    (List.zipWith (fun p r => (p.2 - r.1) ^ 2) d (MeanField.predict C m s.condition (d.map Prod.fst))).sum ≤ d.length * m.noise := by
  rw [c168_mean_field C h s d hb]
  exact residual_le C h s hp d

/-- **C168** If nothing is left for the noise to explain, then the bound has no best noise: it grows without limit as the noise vanishes. -/
theorem c168_degenerate (s : Posts ι κ) (d : List (ℝ × ℝ)) (hd : d ≠ [])
    (hS : Spec.unexplained m.noise d (MeanField.predict C m s.condition (d.map Prod.fst)) = 0) (B : ℝ) :
    ∃ v a, 0 < v ∧ MeanField.elbo C (m.withNoise v) s d none = .ok a ∧ B < a := by
  have hn : (0 : ℝ) < d.length := by exact_mod_cast List.length_pos_iff.2 hd
  obtain ⟨K, hK⟩ : ∃ K, K = s.qU.kl C.u (s.pU m) + s.qZ.kl C.z (s.pZ m) := ⟨_, rfl⟩
  refine ⟨exp (-2 * (B + K + 1) / d.length) / (2 * π), _, by positivity, rfl, ?_⟩
  simp only [show ∀ w, s.pU (m.withNoise w) = s.pU m from fun _ => rfl, show ∀ w, s.pZ (m.withNoise w) = s.pZ m from fun _ => rfl]
  rw [meanFieldBound_noise, hS, noiseFit, mul_div_cancel₀ _ (by positivity), log_exp, zero_div]
  have : -(1 / 2) * (d.length : ℝ) * (-2 * (B + K + 1) / d.length) = B + K + 1 := by field_simp
  rw [this, hK]
  linarith

/-- The hypothesis of the theorems on learned noise can be met. -/
theorem locallyBest_of_pos (s : Posts ι κ) (d : List (ℝ × ℝ)) (hd : d ≠ [])
    (hS : 0 < Spec.unexplained m.noise d (MeanField.predict C m s.condition (d.map Prod.fst))) :
    Spec.LocallyBest (fun v => MeanField.elbo C (m.withNoise v) s d none)
      (Spec.unexplained m.noise d (MeanField.predict C m s.condition (d.map Prod.fst)) / d.length) := by
  have hn : (0 : ℝ) < d.length := by exact_mod_cast List.length_pos_iff.2 hd
  refine ⟨_, rfl, ?_⟩
  filter_upwards [lt_mem_nhds (div_pos hS hn)] with w hw
  refine ⟨_, rfl, ?_⟩
  by_cases hne : w = Spec.unexplained m.noise d (MeanField.predict C m s.condition (d.map Prod.fst)) / d.length
  · exact le_of_eq (by rw [hne])
  · obtain ⟨a, b, ha, hb, hab⟩ := c168_best C s d hd hS w hw hne
    rw [Except.ok.inj ha, Except.ok.inj hb]
    exact hab.le

example (D : Chols (Fin 1) (Fin 1)) : ∃ v, 0 < v ∧
    Spec.LocallyBest (fun w => MeanField.elbo D ((exInst.withNoise v).withNoise w) (exPosts 0) [(0, 3)] none) (exInst.withNoise v).noise := by
  have hp : (exPosts 0).Proper := ⟨Matrix.PosDef.one, Matrix.PosDef.one⟩
  have h1 := residual_le D exInst_valid (exPosts 0) hp [(0, 3)]
  have hS : 0 < Spec.unexplained exInst.noise [(0, 3)] (MeanField.predict D exInst (exPosts 0).condition ([(0, 3)].map Prod.fst)) := by
    refine lt_of_lt_of_le ?_ h1
    rw [meanField_predict_map]
    have h2 := NatNormal.mean_eq D.u hp.1
    have h3 := NatNormal.mean_eq D.z hp.2
    simp only [List.map_cons, List.map_nil, List.zipWith_cons_cons, List.zipWith_nil_left, List.sum_cons, List.sum_nil, toMeanVar, ptMoments,
      condition_pU, condition_pZ, h2, h3]
    norm_num [exPosts, Posts.qU, Posts.qZ, exInst, mulVec, dotProduct]
  exact ⟨Spec.unexplained exInst.noise [(0, 3)] (MeanField.predict D exInst (exPosts 0).condition ([(0, 3)].map Prod.fst)) /
    ([(0, 3)] : List (ℝ × ℝ)).length, div_pos hS (by simp), locallyBest_of_pos D (exPosts 0) [(0, 3)] (by simp) hS⟩

end Gpcm
