import Verif.Props.FarProps
import Verif.Props.EvidenceProps
import Verif.Props.SaveSessionProps
import Verif.Props.RgpcmValidProps

/-!
# C146 and C147: predictions without data, and what a bound cannot exceed
-/

open Matrix Real

namespace Gpcm

variable {ι κ : Type} [Fintype ι] [DecidableEq ι] [Fintype κ] [DecidableEq κ]
variable (C : Chols ι κ) {m : Inst ι κ}

/-- The moments of the signal under the prior: all that is known of the filter and the excitation cancels. -/
theorem ptMoments_prior (h : m.Valid) (t : ℝ) : ptMoments C m 0 m.Ku⁻¹ 0 m.Kz⁻¹ t = (0, m.iHx t t) := by
  rw [ptMoments_spec C h]
  refine Prod.ext (zero_dotProduct _) ?_
  simp only [Spec.moments, ← frob_inner]
  rw [frob_sub_left, frob_sub_left, frob_sandwich, frob_comm m.iUx, frob_comm (m.iHz t), frob_comm (m.iUz t * m.Kz⁻¹ * (m.iUz t)ᵀ)]
  ring

theorem predict_of_prior (h : m.Valid) {s : Posts ι κ} (hu : s.pU m = ⟨0, m.Ku⟩) (hz : s.pZ m = ⟨0, m.Kz⟩) (t : List ℝ) :
    MeanField.predict C m s t = t.map fun x => (0, m.iHx x x + m.noise) := by
  have hku : (⟨0, m.Ku⟩ : NatNormal ι).prec.PosDef := h.Ku
  have hkz : (⟨0, m.Kz⟩ : NatNormal κ).prec.PosDef := h.Kz
  rw [MeanField.predict, predictMoments_eq, List.map_map, hu, hz, NatNormal.m2_eq C.u hku, NatNormal.m2_eq C.z hkz,
    NatNormal.var_eq C.u hku, NatNormal.var_eq C.z hkz, NatNormal.mean_eq C.u hku, NatNormal.mean_eq C.z hkz]
  simp only [mulVec_zero, vecMulVec_zero, add_zero]
  refine List.map_congr_left fun x _ => ?_
  rw [Function.comp_apply, ptMoments_prior C h]
  simp [toMeanVar]

/-- **C146** Before conditioning, a model with a mean-field scheme predicts zero, and as variance the power of the prior plus
the noise. -/
theorem c146_prior (h : m.Valid) (s : Posts ι κ) (hs : s.qi = 0) (t : List ℝ) :
    MeanField.predict C m s t = t.map fun x => (0, m.iHx x x + m.noise) :=
  predict_of_prior C h (by simp [Posts.pU, hs]) (by simp [Posts.pZ, hs]) t

theorem optimal_nil (p : Pair ι κ) : caStep C m (constructDataTerms C m []) p = ⟨⟨0, m.Ku⟩, ⟨0, m.Kz⟩⟩ := by
  simp [caStep, quOptimalMF, qzOptimalMF, qOptimal, constructDataTerms, constructTerms]

theorem caLoop_nil (k : ℕ) (p : Pair ι κ) :
    (caLoop (caStep C m (constructDataTerms C m [])) Pair.diff (k + 1) p).1 = ⟨⟨0, m.Ku⟩, ⟨0, m.Kz⟩⟩ := by
  rcases caLoop_succ (caStep C m (constructDataTerms C m [])) Pair.diff k p with e | e
  · obtain ⟨j, hj, h1, -, -, h4⟩ := caLoop_spec (caStep C m (constructDataTerms C m [])) Pair.diff (k + 1) p
    cases j with
    | zero =>
      obtain ⟨i, hi, -⟩ := h4 (by omega)
      omega
    | succ j =>
      rw [h1, Function.iterate_succ_apply', optimal_nil]
  · rw [e, optimal_nil]

/-- **C146** The same after fitting to and conditioning on a data set without observations, whatever the initial values. -/
theorem c146_empty (h : m.Valid) (s : Session ι κ) (iters : ℤ) (hi : 1 ≤ iters) (t : List ℝ) :
    ((s.fitCA C m [] iters).condition C m []).predictMeanField C m t = t.map fun x => (0, m.iHx x x + m.noise) := by
  obtain ⟨k, hk⟩ : ∃ k, iters.toNat = k + 1 := ⟨iters.toNat - 1, by omega⟩
  refine predict_of_prior C h ?_ ?_ t
  · simp [Posts.pU, Session.condition, Posts.condition, Session.fitCA, fitMeanFieldCA, Posts.setU, Posts.setZ, hk, caLoop_nil]
  · simp [Posts.pZ, Session.condition, Posts.condition, Session.fitCA, fitMeanFieldCA, Posts.setU, Posts.setZ, hk, caLoop_nil]

variable (R : Runtime ℝ) in
/-- **C146** (GPCM and CGPCM) With the default scale of the filter, the predicted variance is one plus the noise at all times. -/
theorem c146_gpcm {a : GpcmArgs} {g : GpcmModel} (hg : GpcmModel.new a = .ok g) (ha : a.alphaT = none) (hm : g.Moderate)
    (hγ : 0 < g.gamma) (hn : 0 < g.noise) (hu : g.tU.Nodup) (hz : g.tZ.Nodup)
    {m : Inst (Fin g.tU.length) (Fin g.tZ.length)} (h : g.IsInst R m) (C : Chols (Fin g.tU.length) (Fin g.tZ.length))
    (s : Posts (Fin g.tU.length) (Fin g.tZ.length)) (hs : s.qi = 0) (t : List ℝ) :
    MeanField.predict C m s t = t.map fun _ => (0, 1 + g.noise) := by
  rw [c146_prior C ((c98_valid_iff R g hm hγ hn m h).2 ⟨hu, hz⟩) s hs]
  refine List.map_congr_left fun x _ => ?_
  rw [h.noise, Except.ok.inj ((h.iHx x x).symm.trans (c63_unit_power R hg ha hm x))]

/-- **C146** (RGPCM) The same at the times that the interval of the RGPCM covers. -/
theorem Rgpcm.c146_rgpcm {x : RgpcmArgs} {g : RgpcmModel} (hg : RgpcmModel.new x = .ok g) (hx : x.alphaT = none) (h : g.Regular)
    {perm : List ℕ} (hp : IsArgsort perm g.ms) {m : Inst (Fin g.tU.length) (Fin g.ms.length)} (hm : g.IsInst perm g.times m)
    (C : Chols (Fin g.tU.length) (Fin g.ms.length)) (s : Posts (Fin g.tU.length) (Fin g.ms.length)) (hs : s.qi = 0) {t : List ℝ}
    (ht : ∀ s ∈ t, s ∈ g.times) : MeanField.predict C m s t = t.map fun _ => (0, 1 + g.noise) := by
  rw [c108_rgpcm_prior h hp hm C s hs ht]
  refine List.map_congr_left fun x _ => ?_
  rw [← c63_covariance_rgpcm h.alpha, c63_unit_power_rgpcm hg hx h.alpha]

theorem optimalZ_nil (u : ι → ℝ) : qzOptimal m (constructDataTerms C m []) u = ⟨0, m.Kz⟩ := by
  simp [qzOptimal, qOptimal, constructDataTerms, constructTerms]

/-- **C146** The structured scheme, conditioned on no observations, predicts zero for whatever samples of the filter, and as
variance the mean of the power of the signal given the filter. -/
theorem c146_structured (h : m.Valid) (t : List ℝ) (us : List (ι → ℝ)) (hus : us ≠ []) :
    Structured.predict C m (some (constructDataTerms C m [])) t us = .ok (t.map fun x =>
      (0, (us.map fun u => m.iHx x x + Spec.inner m.iUx (vecMulVec u u - m.Ku⁻¹)).sum / us.length + m.noise)) := by
  have hkz : (⟨0, m.Kz⟩ : NatNormal κ).prec.PosDef := h.Kz
  have hm : ∀ u x, m.momentsAt u (vecMulVec u u) ((qzOptimal m (constructDataTerms C m []) u).mean C.z)
      ((qzOptimal m (constructDataTerms C m []) u).m2 C.z) x = (0, m.iHx x x + Spec.inner m.iUx (vecMulVec u u - m.Ku⁻¹)) := by
    intro u x
    rw [optimalZ_nil, NatNormal.m2_eq C.z hkz, NatNormal.var_eq C.z hkz, NatNormal.mean_eq C.z hkz]
    simp only [mulVec_zero, vecMulVec_zero, add_zero]
    refine Prod.ext (by simp [Inst.momentsAt, Spec.moments]) ?_
    simp only [Inst.momentsAt, Spec.moments, ← frob_inner]
    have e : frob m.iUx (vecMulVec u u - m.Ku⁻¹) = frob m.iUx (vecMulVec u u) - frob m.Ku⁻¹ m.iUx := by
      rw [frob_comm, frob_sub_left, frob_comm]
    rw [frob_sub_left, frob_sub_left, frob_sandwich, e, frob_comm (m.iHz x), frob_comm (m.iUz x * m.Kz⁻¹ * (m.iUz x)ᵀ)]
    ring
  rw [structured_predict_eq C h [] t us hus]
  refine congrArg _ (List.map_congr_left fun x _ => ?_)
  simp [hm, toMeanVar]

/-! ## C147 -/

theorem ell_le {s y a b : ℝ} (hs : 0 < s) (h : 0 ≤ b - a ^ 2) : Spec.ell s y a b ≤ -(1 / 2) * log (2 * π * s) := by
  have h1 : 0 ≤ (y ^ 2 - 2 * y * a + b) / (2 * s) :=
    div_nonneg (by nlinarith [sq_nonneg (y - a)]) (by linarith)
  rw [Spec.ell]
  linarith

theorem sumEll_le (h : m.Valid) (d : List (ℝ × ℝ)) {u : ι → ℝ} {u2 : Matrix ι ι ℝ} {z : κ → ℝ} {z2 : Matrix κ κ ℝ}
    (hu : (u2 - vecMulVec u u).PosSemidef) (hz : (z2 - vecMulVec z z).PosSemidef) :
    sumEll (constructDataTerms C m d) m.noise u u2 z z2 ≤ -(d.length / 2) * log (2 * π * m.noise) := by
  rw [sumEll_eq]
  induction d with
  | nil => simp
  | cons p d ih =>
    rw [List.map_cons, List.sum_cons, List.length_cons]
    have := ell_le (y := p.2) h.noise (sub_nonneg.2 (ptMoments_var C h hu hz p.1))
    push_cast
    linarith

/-- **C147** No uncollapsed or collapsed mean-field bound exceeds the log-density of observations that are explained perfectly. -/
theorem c147_mean_field (h : m.Valid) (s : Posts ι κ) (d : List (ℝ × ℝ)) (hpu : (s.pU m).prec.PosDef)
    (hpz : (s.pZ m).prec.PosDef) (hu : s.qU.prec.PosDef) (hz : s.qZ.prec.PosDef) (collapsed : Option String) (b : ℝ)
    (hb : MeanField.elbo C m s d collapsed = .ok b) : b ≤ -(d.length / 2) * log (2 * π * m.noise) := by
  have key : ∀ {qu : NatNormal ι} {qz : NatNormal κ}, qu.prec.PosDef → qz.prec.PosDef →
      meanFieldBound C m (constructDataTerms C m d) (s.pU m) qu (s.pZ m) qz ≤ -(d.length / 2) * log (2 * π * m.noise) := by
    intro qu qz hqu hqz
    rw [meanFieldBound_eq]
    have h1 := sumEll_le C h d (m2_sub_outer C.u hqu) (m2_sub_outer C.z hqz)
    have h2 := c18_nonneg C.u hqu hpu
    have h3 := c18_nonneg C.z hqz hpz
    linarith
  simp only [MeanField.elbo] at hb
  split at hb
  · rw [← Except.ok.inj hb]
    exact key hu hz
  · split_ifs at hb
    · rw [← Except.ok.inj hb]
      exact key hu (qzOptimalMF_posDef C h d hu)
    · rw [← Except.ok.inj hb]
      exact key (quOptimalMF_posDef C h d hz) hz

/-- **C147** Nor does the bound of the structured scheme, whatever the samples. -/
theorem c147_structured (h : m.Valid) (s : Posts ι κ) (d : List (ℝ × ℝ)) (hpu : (s.pU m).prec.PosDef)
    (hu : s.qU.prec.PosDef) (us : List (ι → ℝ)) (b : ℝ) (hb : elboCollapsedZ C m s d us = .ok b) :
    b ≤ -(d.length / 2) * log (2 * π * m.noise) := by
  simp only [elboCollapsedZ] at hb
  split_ifs at hb with h0
  rw [← Except.ok.inj hb]
  have hl : 0 < (us.length : ℝ) := by positivity
  have h1 : (us.map (logZu C m (constructDataTerms C m d))).sum ≤ us.length * (-(d.length / 2) * log (2 * π * m.noise)) := by
    clear hb h0 hl
    induction us with
    | nil => simp
    | cons u us ih =>
      rw [List.map_cons, List.sum_cons, List.length_cons]
      have := logZu_le C h d u
      push_cast
      linarith
  have h2 := c18_nonneg C.u hu hpu
  have h3 := (div_le_iff₀' hl).2 h1
  linarith

/-- The bounds of a concrete posterior for a concrete data set. -/
example (C : Chols (Fin 1) (Fin 1)) : ∃ b, MeanField.elbo C exInst (exPosts 0) [(0, 3), (1, 2)] (some "z") = .ok b ∧
    b ≤ -log (2 * π) := by
  refine ⟨_, rfl, (c147_mean_field C exInst_valid (exPosts 0) _ exInst_valid.Ku exInst_valid.Kz Matrix.PosDef.one Matrix.PosDef.one
    (some "z") _ rfl).trans_eq ?_⟩
  simp [exInst]

/-- Without data, the example predicts zero with variance five. -/
example (C : Chols (Fin 1) (Fin 1)) : MeanField.predict C exInst (exPosts 0) [0, 7] = [(0, 5), (0, 5)] := by
  rw [c146_prior C exInst_valid _ rfl]
  norm_num [exInst]

end Gpcm
