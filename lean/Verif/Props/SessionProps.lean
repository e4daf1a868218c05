import Verif.Model.Session
import Verif.Props.SignalProps
import Verif.Props.FitProps

/-! # Properties C123 and C124: fitting, conditioning and predicting in sequence -/

set_option linter.unusedSectionVars false

open Matrix Real

namespace Gpcm

open Session

section general

variable {ι κ : Type} [Fintype ι] [DecidableEq ι] [Fintype κ] [DecidableEq κ]
variable (C : Chols ι κ) (m : Inst ι κ) (W : ℕ → (ι → ℝ) × (κ → ℝ))

/-! ## What a fit stores -/

/-- One sweep of the chain on random state and samples. -/
noncomputable def sessionSweep (d : List (ℝ × ℝ)) : ℕ × (ι → ℝ) × (κ → ℝ) → ℕ × (ι → ℝ) × (κ → ℝ) :=
  Fit.sweep (gibbsU C m (constructDataTerms C m d) W) (gibbsZ C m (constructDataTerms C m d) W)

/-- The samples stored by a fit whose initial posteriors are `qu` and `qz`. -/
noncomputable def storedSamples (d : List (ℝ × ℝ)) (iters : ℤ) (qu : NatNormal ι) (qz : NatNormal κ) :
    List ((ι → ℝ) × (κ → ℝ)) :=
  (List.range 1000).map fun j => ((sessionSweep C m W d)^[(iters / 2).toNat +
    (j * (if 1000 < iters then iters / 1000 else 1 : ℤ).toNat + 1)] (1, qu.sample C.u (W 0).1, qz.sample C.z (W 0).2)).2

theorem storedSamples_length (d : List (ℝ × ℝ)) (iters : ℤ) (qu : NatNormal ι) (qz : NatNormal κ) :
    (storedSamples C m W d iters qu qz).length = 1000 := by simp [storedSamples]

/-- With at least two iterations a fit stores a thousand states of the Gibbs chain. -/
theorem fitStructured_eq (d : List (ℝ × ℝ)) (iters : ℤ) (hi : 2 ≤ iters) (s : Session ι κ) :
    s.fitStructured C m W d iters =
      (s.setSamples ((storedSamples C m W d iters s.posts.qU s.posts.qZ).map Prod.fst)
        ((storedSamples C m W d iters s.posts.qU s.posts.qZ).map Prod.snd), .ok ()) := by
  obtain ⟨k, hk⟩ : ∃ k, (iters / 2).toNat = k + 1 := ⟨(iters / 2).toNat - 1, by omega⟩
  obtain ⟨x0, hx0⟩ : ∃ x0, x0 = (1, s.posts.qU.sample C.u (W 0).1, s.posts.qZ.sample C.z (W 0).2) := ⟨_, rfl⟩
  obtain ⟨su, hsu⟩ : ∃ su, su = gibbsU C m (constructDataTerms C m d) W := ⟨_, rfl⟩
  obtain ⟨sz, hsz⟩ : ∃ sz, sz = gibbsZ C m (constructDataTerms C m d) W := ⟨_, rfl⟩
  obtain ⟨th, hth⟩ : ∃ th : ℤ, th = if 1000 < iters then iters / 1000 else 1 := ⟨_, rfl⟩
  have hth0 : 0 < th := by
    rw [hth]
    split <;> omega
  have hlast : (Fit.gibbsLoop su sz none (iters / 2).toNat 0 x0).2.getLast? =
      some ((Fit.sweep su sz)^[(iters / 2).toNat] x0).2 := by
    rw [Fit.c34_gibbs_sample, hk]
    simp only [true_or, decide_true, List.filter_true]
    rw [List.range_succ, List.map_append]
    simp
  have h1 : (Fit.gibbsLoop su sz none (iters / 2).toNat 0 x0).1 = ((Fit.sweep su sz)^[(iters / 2).toNat] x0).1 := by
    rw [Fit.c34_gibbs_sample]
  have hl : (Fit.gibbsLoop su sz (some th.toNat) (th * 1000).toNat 0 ((Fit.sweep su sz)^[(iters / 2).toNat] x0)).2 =
      storedSamples C m W d iters s.posts.qU s.posts.qZ := by
    rw [show (th * 1000).toNat = th.toNat * 1000 by omega, Fit.c33_thousand _ _ _ (by omega), storedSamples, ← hth, ← hx0,
      sessionSweep, ← hsu, ← hsz]
    refine List.map_congr_left fun j _ => ?_
    rw [← Function.iterate_add_apply, Nat.add_comm]
  unfold fitStructured
  simp only [← hsu, ← hsz, ← hx0, ← hth, hlast, h1]
  rw [← hl]

/-- With fewer than two iterations a fit stores nothing. -/
theorem fitStructured_few (d : List (ℝ × ℝ)) (iters : ℤ) (hi : iters < 2) (s : Session ι κ) :
    s.fitStructured C m W d iters = (s, .error .indexError) := by
  have h0 : (iters / 2).toNat = 0 := by omega
  unfold fitStructured
  simp only [h0, Fit.gibbsLoop, List.getLast?_nil]

/-- The prediction of a session that has been fitted and then conditioned. -/
theorem predict_fit_condition (d d' : List (ℝ × ℝ)) (iters : ℤ) (hi : 2 ≤ iters) (s : Session ι κ) (t : List ℝ)
    (ws : List (ι → ℝ)) :
    ((s.fitStructured C m W d iters).1.condition C m d').predictStructured C m t ws =
      Structured.predict C m (some (constructDataTerms C m d')) t
        (((storedSamples C m W d iters s.posts.qU s.posts.qZ).map Prod.fst).take (min 1000 ws.length)) := by
  rw [fitStructured_eq C m W d iters hi]
  simp [predictStructured, Session.samplePU, Gpcm.samplePU, condition, setSamples, Posts.condition, bind1, columns,
    storedSamples_length]

/-! ## C123 -/

/-- **C123** What a structured model predicts after being fitted to and conditioned on data does not depend on any data
it was fitted to or conditioned on before. -/
theorem c123_structured_forgets (d : List (ℝ × ℝ)) (iters : ℤ) (hi : 2 ≤ iters) (s s' : Session ι κ)
    (hu : s.posts.qU = s'.posts.qU) (hz : s.posts.qZ = s'.posts.qZ) (t : List ℝ) (ws : List (ι → ℝ)) :
    ((s.fitStructured C m W d iters).1.condition C m d).predictStructured C m t ws =
      ((s'.fitStructured C m W d iters).1.condition C m d).predictStructured C m t ws := by
  rw [predict_fit_condition C m W d d iters hi, predict_fit_condition C m W d d iters hi, hu, hz]

theorem predict_fitCA (d d' : List (ℝ × ℝ)) (iters : ℤ) (s : Session ι κ) (t : List ℝ) :
    ((s.fitCA C m d iters).condition C m d').predictMeanField C m t =
      let r := (caLoop (caStep C m (constructDataTerms C m d)) Pair.diff iters.toNat ⟨s.posts.qU, s.posts.qZ⟩).1
      (predictMoments C m (constructTerms C m t) (r.u.mean C.u) (r.u.m2 C.u) (r.z.mean C.z) (r.z.m2 C.z)).map
        (toMeanVar m) := by
  have e1 : ((s.fitCA C m d iters).condition C m d').posts.pU m =
      (caLoop (caStep C m (constructDataTerms C m d)) Pair.diff iters.toNat ⟨s.posts.qU, s.posts.qZ⟩).1.u := by
    simp [fitCA, condition, Posts.condition, Posts.pU, fitMeanFieldCA, Posts.setZ, Posts.setU]
  have e2 : ((s.fitCA C m d iters).condition C m d').posts.pZ m =
      (caLoop (caStep C m (constructDataTerms C m d)) Pair.diff iters.toNat ⟨s.posts.qU, s.posts.qZ⟩).1.z := by
    simp [fitCA, condition, Posts.condition, Posts.pZ, fitMeanFieldCA, Posts.setZ, Posts.setU]
  rw [predictMeanField, MeanField.predict, e1, e2]

/-- **C123** The same for coordinate ascent. -/
theorem c123_ca_forgets (d : List (ℝ × ℝ)) (iters : ℤ) (s s' : Session ι κ)
    (hu : s.posts.qU = s'.posts.qU) (hz : s.posts.qZ = s'.posts.qZ) (t : List ℝ) :
    ((s.fitCA C m d iters).condition C m d).predictMeanField C m t =
      ((s'.fitCA C m d iters).condition C m d).predictMeanField C m t := by
  rw [predict_fitCA, predict_fitCA, hu, hz]

/-- **C123** The mean-field bound of a session that has been fitted and conditioned does take the first data set into account:
its divergences are from the posteriors that were fitted to it. -/
theorem c123_bound_partial {m : Inst ι κ} (h : m.Valid) (d d' : List (ℝ × ℝ)) (iters : ℤ) (s : Session ι κ) :
    let s₁ := s.fitCA C m d iters
    let s₂ := s₁.condition C m d
    MeanField.elbo C m s₂.posts d' none = .ok
      (expLogLik m d' (s₂.posts.qU.mean C.u) (s₂.posts.qU.m2 C.u) (s₂.posts.qZ.mean C.z) (s₂.posts.qZ.m2 C.z)
        - s₂.posts.qU.kl C.u s₁.posts.qU - s₂.posts.qZ.kl C.z s₁.posts.qZ) := by
  intro s₁ s₂
  have e1 : s₂.posts.pU m = s₁.posts.qU := by simp [s₂, condition, Posts.condition, Posts.pU, Posts.qU]
  have e2 : s₂.posts.pZ m = s₁.posts.qZ := by simp [s₂, condition, Posts.condition, Posts.pZ, Posts.qZ]
  rw [← sumEll_expLogLik C h, ← e1, ← e2, ← meanFieldBound_eq]
  rfl

end general

/-! ### The witness -/

/-- The session of the witness: nothing has been fitted yet. -/
noncomputable def exSession : Session (Fin 1) (Fin 1) := fresh (exPosts 0).qu (exPosts 0).qz

section witness

variable (C : Chols (Fin 1) (Fin 1))

theorem mean_pos_fin1 (C : CholOracle (Fin 1)) {q : NatNormal (Fin 1)} (h : q.prec.PosDef) (hl : 0 < q.lam 0) :
    0 < q.mean C 0 := by
  have h1 := congrFun (NatNormal.prec_mul_mean C h) 0
  have h2 : 0 < q.prec 0 0 := h.diag_pos
  simp only [mulVec, dotProduct, Fin.sum_univ_one, Fin.isValue] at h1
  rw [← h1] at hl
  exact (pos_iff_pos_of_mul_pos hl).1 h2

theorem mean_zero_lam {n : Type} [Fintype n] [DecidableEq n] (C : CholOracle n) {q : NatNormal n} (h : q.prec.PosDef)
    (hl : q.lam = 0) : q.mean C = 0 := by
  rw [NatNormal.mean_eq C h, hl, mulVec_zero]

/-- The sum of observations times interactions. -/
theorem exInst_sum (d : List (ℝ × ℝ)) : (constructDataTerms C exInst d).iUzSum 0 0 = (d.map fun p => p.2 * cos p.1).sum := by
  show (d.map fun p => p.2 • exInst.iUz p.1).sum 0 0 = _
  induction d with
  | nil => rfl
  | cons p d ih =>
    rw [List.map_cons, List.sum_cons, Matrix.add_apply, ih, List.map_cons, List.sum_cons]
    rfl

theorem ex_lam_u (d : List (ℝ × ℝ)) (z : Fin 1 → ℝ) :
    (quOptimal exInst (constructDataTerms C exInst d) z).lam 0 = (d.map fun p => p.2 * cos p.1).sum * z 0 := by
  rw [← exInst_sum C d]
  simp [quOptimal, qOptimal, mulVec, dotProduct, exInst]

theorem ex_lam_z (d : List (ℝ × ℝ)) (u : Fin 1 → ℝ) :
    (qzOptimal exInst (constructDataTerms C exInst d) u).lam 0 = (d.map fun p => p.2 * cos p.1).sum * u 0 := by
  rw [← exInst_sum C d]
  simp [qzOptimal, qOptimal, mulVec, dotProduct, exInst]

theorem ex_lam_uMF (d : List (ℝ × ℝ)) (q : NatNormal (Fin 1)) :
    (quOptimalMF C exInst (constructDataTerms C exInst d) q).lam 0 = (d.map fun p => p.2 * cos p.1).sum * q.mean C.z 0 := by
  rw [← exInst_sum C d]
  simp [quOptimalMF, qOptimal, mulVec, dotProduct, exInst]

theorem ex_lam_zMF (d : List (ℝ × ℝ)) (q : NatNormal (Fin 1)) :
    (qzOptimalMF C exInst (constructDataTerms C exInst d) q).lam 0 = (d.map fun p => p.2 * cos p.1).sum * q.mean C.u 0 := by
  rw [← exInst_sum C d]
  simp [qzOptimalMF, qOptimal, mulVec, dotProduct, exInst]

theorem sample_zero (C : CholOracle (Fin 1)) {q : NatNormal (Fin 1)} (h : q.prec.PosDef) : q.sample C 0 = q.mean C := by
  rw [NatNormal.sample_eq C h, mulVec_zero, add_zero]

/-- Without noise the chain stays positive when the data are positively correlated with the interaction. -/
theorem ex_chain_pos (d : List (ℝ × ℝ)) (hd : 0 < (d.map fun p => p.2 * cos p.1).sum) (k : ℕ)
    (x : ℕ × (Fin 1 → ℝ) × (Fin 1 → ℝ)) (hu : 0 < x.2.1 0) (hz : 0 < x.2.2 0) :
    0 < ((sessionSweep C exInst (fun _ => 0) d)^[k] x).2.1 0 ∧ 0 < ((sessionSweep C exInst (fun _ => 0) d)^[k] x).2.2 0 := by
  induction k generalizing x with
  | zero => exact ⟨hu, hz⟩
  | succ k ih =>
    rw [Function.iterate_succ_apply]
    have h1 := quOptimal_posDef C exInst_valid d x.2.2
    have e1 : ((sessionSweep C exInst (fun _ => 0) d) x).2.1 = (quOptimal exInst (constructDataTerms C exInst d) x.2.2).mean C.u :=
      sample_zero C.u h1
    have p1 : 0 < ((sessionSweep C exInst (fun _ => 0) d) x).2.1 0 := by
      rw [e1]
      refine mean_pos_fin1 C.u h1 ?_
      rw [ex_lam_u]
      exact mul_pos hd hz
    have h2 := qzOptimal_posDef C exInst_valid d ((sessionSweep C exInst (fun _ => 0) d) x).2.1
    have e2 : ((sessionSweep C exInst (fun _ => 0) d) x).2.2 =
        (qzOptimal exInst (constructDataTerms C exInst d) ((sessionSweep C exInst (fun _ => 0) d) x).2.1).mean C.z :=
      sample_zero C.z h2
    refine ih _ p1 ?_
    rw [e2]
    refine mean_pos_fin1 C.z h2 ?_
    rw [ex_lam_z]
    exact mul_pos hd p1

/-- The predicted mean at a time at which the interaction is one. -/
theorem ex_mean (u z : Fin 1 → ℝ) (u2 z2 : Matrix (Fin 1) (Fin 1) ℝ) :
    (exInst.momentsAt u u2 z z2 0).1 = u 0 * z 0 := by
  simp [Inst.momentsAt, Spec.moments, exInst, mulVec, dotProduct]

theorem pair_zero (p : ℝ × ℝ) (h : p.1 = 0) : ∃ v, (.ok [p] : Except PyErr (List (ℝ × ℝ))) = .ok [(0, v)] :=
  ⟨p.2, by rw [← h]⟩

end witness

/-- **C123** (refuted) A structured model is fitted to and conditioned on the observation 3 at time zero, then fitted to and
conditioned on an observation at a time at which it carries no information about the signal at zero. It then predicts zero at
time zero. Fitted to and conditioned on both at once, it predicts a positive value there. -/
theorem c123_refuted (C : Chols (Fin 1) (Fin 1)) (y : ℝ) (iters : ℤ) (hi : 2 ≤ iters) (ws : List (Fin 1 → ℝ)) (hws : ws ≠ []) :
    let fc := fun d (s : Session (Fin 1) (Fin 1)) => (s.fitStructured C exInst (fun _ => 0) d iters).1.condition C exInst d
    (∃ v, (fc [(π / 2, y)] (fc [(0, 3)] exSession)).predictStructured C exInst [0] ws = .ok [(0, v)]) ∧
      (∃ b v, 0 < b ∧ (fc [(0, 3), (π / 2, y)] exSession).predictStructured C exInst [0] ws = .ok [(b, v)]) ∧
      ∃ b v, 0 < b ∧ (fc [(0, 3)] exSession).predictStructured C exInst [0] ws = .ok [(b, v)] := by
  intro fc
  have hne : ∀ (d : List (ℝ × ℝ)) qu qz, ((storedSamples C exInst (fun _ => 0) d iters qu qz).map Prod.fst).take
      (min 1000 ws.length) ≠ [] := fun d qu qz h => by
    have h1 := congrArg List.length h
    have h2 : 0 < ws.length := List.length_pos_of_ne_nil hws
    rw [List.length_take, List.length_map, storedSamples_length, List.length_nil] at h1
    omega
  have hpos : ∀ d : List (ℝ × ℝ), 0 < (d.map fun p => p.2 * cos p.1).sum →
      ∃ b v, 0 < b ∧ (fc d exSession).predictStructured C exInst [0] ws = .ok [(b, v)] := fun d hd => by
    simp only [fc]
    rw [predict_fit_condition C exInst _ d d iters hi, structured_predict_eq C exInst_valid d [0] _ (hne _ _ _)]
    refine ⟨_, _, ?_, rfl⟩
    simp only
    refine div_pos (List.sum_pos _ (fun x hx => ?_) ?_) ?_
    · obtain ⟨u, hu, rfl⟩ := List.mem_map.1 hx
      obtain ⟨p, hp, rfl⟩ := List.mem_map.1 (List.mem_of_mem_take hu)
      obtain ⟨j, -, rfl⟩ := List.mem_map.1 hp
      have h0 := ex_chain_pos C d hd ((iters / 2).toNat + (j * (if 1000 < iters then iters / 1000 else 1 : ℤ).toNat + 1))
        (1, exSession.posts.qU.sample C.u 0, exSession.posts.qZ.sample C.z 0)
        (by
          have hp : exSession.posts.qU.prec.PosDef := Matrix.PosDef.one
          simp only
          rw [sample_zero C.u hp]
          exact mean_pos_fin1 C.u hp one_pos)
        (by
          have hp : exSession.posts.qZ.prec.PosDef := Matrix.PosDef.one
          simp only
          rw [sample_zero C.z hp]
          exact mean_pos_fin1 C.z hp one_pos)
      rw [ex_mean]
      refine mul_pos h0.1 (mean_pos_fin1 C.z (qzOptimal_posDef C exInst_valid d _) ?_)
      rw [ex_lam_z]
      exact mul_pos hd h0.1
    · exact fun h => hne _ _ _ (List.map_eq_nil_iff.1 h)
    · exact_mod_cast List.length_pos_of_ne_nil (hne _ _ _)
  refine ⟨?_, hpos _ (by simp), hpos _ (by simp)⟩
  simp only [fc]
  rw [predict_fit_condition C exInst _ _ _ iters hi, structured_predict_eq C exInst_valid _ [0] _ (hne _ _ _)]
  refine pair_zero _ ?_
  simp only [toMeanVar]
  rw [div_eq_zero_iff]
  left
  refine List.sum_eq_zero fun x hx => ?_
  obtain ⟨u, hu, rfl⟩ := List.mem_map.1 hx
  have hl : (qzOptimal exInst (constructDataTerms C exInst [(π / 2, y)]) u).lam = 0 := by
    ext i
    fin_cases i
    show (qzOptimal exInst (constructDataTerms C exInst [(π / 2, y)]) u).lam 0 = 0
    rw [ex_lam_z]
    simp
  rw [ex_mean, mean_zero_lam C.z (qzOptimal_posDef C exInst_valid _ u) hl]
  simp

/-- **C123** (refuted) The same for coordinate ascent. -/
theorem c123_ca_refuted (C : Chols (Fin 1) (Fin 1)) (y : ℝ) (iters : ℤ) (hi : 1 ≤ iters) :
    let fc := fun d (s : Session (Fin 1) (Fin 1)) => (s.fitCA C exInst d iters).condition C exInst d
    (∃ v, (fc [(π / 2, y)] (fc [(0, 3)] exSession)).predictMeanField C exInst [0] = [(0, v)]) ∧
      ∃ b v, 0 < b ∧ (fc [(0, 3), (π / 2, y)] exSession).predictMeanField C exInst [0] = [(b, v)] := by
  intro fc
  obtain ⟨k, hk⟩ : ∃ k, iters.toNat = k + 1 := ⟨iters.toNat - 1, by omega⟩
  have step_pd : ∀ (d : List (ℝ × ℝ)) (p : Pair (Fin 1) (Fin 1)), p.u.prec.PosDef ∧ p.z.prec.PosDef →
      (caStep C exInst (constructDataTerms C exInst d) p).u.prec.PosDef ∧
        (caStep C exInst (constructDataTerms C exInst d) p).z.prec.PosDef := fun d p hp =>
    ⟨quOptimalMF_posDef C exInst_valid d hp.2, qzOptimalMF_posDef C exInst_valid d (quOptimalMF_posDef C exInst_valid d hp.2)⟩
  have init : ∀ i : ℕ, (Pair.mk ((exPosts 0).qu i) ((exPosts 0).qz i)).u.prec.PosDef ∧
      (Pair.mk ((exPosts 0).qu i) ((exPosts 0).qz i)).z.prec.PosDef := fun _ => ⟨Matrix.PosDef.one, Matrix.PosDef.one⟩
  constructor
  · simp only [fc]
    rw [predict_fitCA]
    obtain ⟨p, hp⟩ : ∃ p : Pair (Fin 1) (Fin 1), p = ⟨((exSession.fitCA C exInst [(0, 3)] iters).condition C exInst [(0, 3)]).posts.qU,
      ((exSession.fitCA C exInst [(0, 3)] iters).condition C exInst [(0, 3)]).posts.qZ⟩ := ⟨_, rfl⟩
    have hp0 : p = ⟨(exPosts 0).qu 1, (exPosts 0).qz 1⟩ := by
      rw [hp]
      simp [fitCA, condition, Posts.condition, Posts.qU, Posts.qZ, fitMeanFieldCA, Posts.setZ, Posts.setU, exSession, fresh]
    rw [← hp, hk]
    have inv : ∀ (k : ℕ) (p : Pair (Fin 1) (Fin 1)), p.u.prec.PosDef ∧ p.z.prec.PosDef →
        let r := (caLoop (caStep C exInst (constructDataTerms C exInst [(π / 2, y)])) Pair.diff (k + 1) p).1
        (r.u.prec.PosDef ∧ r.z.prec.PosDef) ∧ r.u.lam = 0 := by
      intro k p hp
      have h0 : ∀ p : Pair (Fin 1) (Fin 1), (caStep C exInst (constructDataTerms C exInst [(π / 2, y)]) p).u.lam = 0 := fun p => by
        ext i
        fin_cases i
        show (quOptimalMF C exInst (constructDataTerms C exInst [(π / 2, y)]) p.z).lam 0 = 0
        rw [ex_lam_uMF]
        simp
      refine ⟨caLoop_inv _ (P := fun p : Pair _ _ => p.u.prec.PosDef ∧ p.z.prec.PosDef) (step_pd _) _ hp, ?_⟩
      simp only [caLoop]
      split
      · exact h0 p
      · exact caLoop_inv _ (P := fun p : Pair _ _ => p.u.lam = 0) (fun p _ => h0 p) _ (h0 p)
    obtain ⟨h1, h2⟩ := inv k p (by rw [hp0]; exact init 1)
    simp only
    rw [predictMoments_eq, List.map_map, List.map_cons, List.map_nil]
    refine (pair_zero _ ?_).imp fun _ => Except.ok.inj
    simp only [Function.comp_apply, toMeanVar, ptMoments]
    rw [mean_zero_lam C.u h1.1 h2]
    simp
  · simp only [fc]
    rw [predict_fitCA]
    obtain ⟨d, hd⟩ : ∃ d : List (ℝ × ℝ), d = [(0, 3), (π / 2, y)] := ⟨_, rfl⟩
    have hs : 0 < (d.map fun p => p.2 * cos p.1).sum := by simp [hd]
    rw [← hd]
    have inv := caLoop_inv (step := caStep C exInst (constructDataTerms C exInst d)) Pair.diff
      (P := fun p : Pair _ _ => (p.u.prec.PosDef ∧ p.z.prec.PosDef) ∧ 0 < p.u.mean C.u 0 ∧ 0 < p.z.mean C.z 0)
      (fun p hp => by
        have h1 := step_pd d p hp.1
        have h2 : 0 < (caStep C exInst (constructDataTerms C exInst d) p).u.mean C.u 0 := by
          refine mean_pos_fin1 C.u h1.1 ?_
          show 0 < (quOptimalMF C exInst (constructDataTerms C exInst d) p.z).lam 0
          rw [ex_lam_uMF]
          exact mul_pos hs hp.2.2
        refine ⟨h1, h2, mean_pos_fin1 C.z h1.2 ?_⟩
        show 0 < (qzOptimalMF C exInst (constructDataTerms C exInst d) _).lam 0
        rw [ex_lam_zMF]
        exact mul_pos hs h2)
      iters.toNat (p := ⟨exSession.posts.qU, exSession.posts.qZ⟩)
      ⟨init 0, mean_pos_fin1 C.u (init 0).1 one_pos, mean_pos_fin1 C.z (init 0).2 one_pos⟩
    simp only
    rw [predictMoments_eq, List.map_map, List.map_cons, List.map_nil]
    refine ⟨_, _, ?_, rfl⟩
    simp only [ptMoments]
    refine lt_of_lt_of_eq (mul_pos inv.2.1 inv.2.2) ?_
    simp [exInst, mulVec, dotProduct]

/-! ## C124 -/

/-- A history after which the current posterior has been fitted. -/
def Fitted (ops : List Op) : Prop :=
  ∃ a d iters b, ops = a ++ Op.fit d iters :: b ∧ 2 ≤ iters ∧ ∀ o ∈ b, ∀ d', o ≠ Op.condition d'

/-- A history that contains a condition, and in which the posterior was fitted before the last one. -/
def Ready (ops : List Op) : Prop :=
  ∃ a d' c, ops = a ++ Op.condition d' :: c ∧ Fitted a ∧ ∀ o ∈ c, ∀ d'', o ≠ Op.condition d''

/-- A history that contains a condition. -/
def Conditioned (ops : List Op) : Prop := ∃ d, Op.condition d ∈ ops

theorem snoc_split {α : Type} {l a b : List α} {x y : α} (h : l ++ [y] = a ++ x :: b) :
    (b = [] ∧ l = a ∧ x = y) ∨ ∃ b', b = b' ++ [y] ∧ l = a ++ x :: b' := by
  rcases List.eq_nil_or_concat b with rfl | ⟨b', z, rfl⟩
  · have := List.append_inj' h rfl
    exact .inl ⟨rfl, this.1, by simpa using this.2.symm⟩
  · rw [List.concat_eq_append, ← List.cons_append, ← List.append_assoc] at h
    have := List.append_inj' h rfl
    have hz : y = z := by simpa using this.2
    subst hz
    exact .inr ⟨b', by simp, this.1⟩

theorem fitted_snoc_fit (ops : List Op) (d : List (ℝ × ℝ)) (iters : ℤ) :
    Fitted (ops ++ [.fit d iters]) ↔ 2 ≤ iters ∨ Fitted ops := by
  constructor
  · rintro ⟨a, d', i', b, h, hi, hb⟩
    rcases snoc_split h with ⟨-, -, e⟩ | ⟨b', rfl, rfl⟩
    · cases e
      exact .inl hi
    · exact .inr ⟨a, d', i', b', rfl, hi, fun o ho => hb o (List.mem_append_left _ ho)⟩
  · rintro (hi | ⟨a, d', i', b, rfl, hi, hb⟩)
    · exact ⟨ops, d, iters, [], rfl, hi, by simp⟩
    · refine ⟨a, d', i', b ++ [.fit d iters], by simp, hi, fun o ho => ?_⟩
      rcases List.mem_append.1 ho with h | h
      · exact hb o h
      · rw [List.mem_singleton.1 h]
        simp

theorem fitted_snoc_elbo (ops : List Op) (d : List (ℝ × ℝ)) : Fitted (ops ++ [.elbo d]) ↔ Fitted ops := by
  constructor
  · rintro ⟨a, d', i', b, h, hi, hb⟩
    rcases snoc_split h with ⟨-, -, e⟩ | ⟨b', rfl, rfl⟩
    · cases e
    · exact ⟨a, d', i', b', rfl, hi, fun o ho => hb o (List.mem_append_left _ ho)⟩
  · rintro ⟨a, d', i', b, rfl, hi, hb⟩
    refine ⟨a, d', i', b ++ [.elbo d], by simp, hi, fun o ho => ?_⟩
    rcases List.mem_append.1 ho with h | h
    · exact hb o h
    · rw [List.mem_singleton.1 h]
      simp

theorem not_fitted_snoc_condition (ops : List Op) (d : List (ℝ × ℝ)) : ¬ Fitted (ops ++ [.condition d]) := by
  rintro ⟨a, d', i', b, h, hi, hb⟩
  rcases snoc_split h with ⟨-, -, e⟩ | ⟨b', rfl, -⟩
  · cases e
  · exact hb (.condition d) (by simp) d rfl

theorem ready_snoc_condition (ops : List Op) (d : List (ℝ × ℝ)) : Ready (ops ++ [.condition d]) ↔ Fitted ops := by
  constructor
  · rintro ⟨a, d', c, h, hf, hc⟩
    rcases snoc_split h with ⟨-, rfl, -⟩ | ⟨c', rfl, -⟩
    · exact hf
    · exact absurd rfl (hc (.condition d) (by simp) d)
  · exact fun h => ⟨ops, d, [], rfl, h, by simp⟩

theorem ready_snoc_other (ops : List Op) (o : Op) (ho : ∀ d, o ≠ .condition d) : Ready (ops ++ [o]) ↔ Ready ops := by
  constructor
  · rintro ⟨a, d', c, h, hf, hc⟩
    rcases snoc_split h with ⟨-, -, e⟩ | ⟨c', rfl, rfl⟩
    · exact absurd e.symm (ho d')
    · exact ⟨a, d', c', rfl, hf, fun o h => hc o (List.mem_append_left _ h)⟩
  · rintro ⟨a, d', c, rfl, hf, hc⟩
    refine ⟨a, d', c ++ [o], by simp, hf, fun p hp => ?_⟩
    rcases List.mem_append.1 hp with h | h
    · exact hc p h
    · rw [List.mem_singleton.1 h]
      exact ho

section workflow

variable {ι κ : Type} [Fintype ι] [DecidableEq ι] [Fintype κ] [DecidableEq κ]
variable (C : Chols ι κ) {m : Inst ι κ} (W : ℕ → (ι → ℝ) × (κ → ℝ))

/-- What holds of the session after a history. -/
structure SessionInv (C : Chols ι κ) (m : Inst ι κ) (ops : List Op) (s : Session ι κ) : Prop where
  depth : 0 < s.posts.qi ↔ Conditioned ops
  later : ∀ i, s.posts.qi < i → s.samplesU i = none
  cur_some : Fitted ops → ∃ us, s.samplesU s.posts.qi = some us ∧ us.length = 1000
  cur_none : ¬ Fitted ops → s.samplesU s.posts.qi = none
  prev_some : Ready ops → ∃ us, s.samplesU (s.posts.qi - 1) = some us ∧ us.length = 1000
  prev_none : 0 < s.posts.qi → ¬ Ready ops → s.samplesU (s.posts.qi - 1) = none
  ts_some : 0 < s.posts.qi → ∃ d, s.ts = some (constructDataTerms C m d)
  ts_none : s.posts.qi = 0 → s.ts = none

theorem conditioned_snoc (ops : List Op) (o : Op) (ho : ∀ d, o ≠ .condition d) : Conditioned (ops ++ [o]) ↔ Conditioned ops := by
  unfold Conditioned
  refine exists_congr fun d => ?_
  rw [List.mem_append, List.mem_singleton]
  exact ⟨fun h => h.resolve_right fun e => ho d e.symm, .inl⟩

theorem ready_conditioned {ops : List Op} (h : Ready ops) : Conditioned ops := by
  obtain ⟨a, d, c, rfl, -⟩ := h
  exact ⟨d, by simp⟩

theorem sessionInv_fresh (qu : ℕ → NatNormal ι) (qz : ℕ → NatNormal κ) : SessionInv C m [] (fresh qu qz) where
  depth := by simp [fresh, Conditioned]
  later _ _ := rfl
  cur_some := by simp [Fitted]
  cur_none _ := rfl
  prev_some := by simp [Ready]
  prev_none _ _ := rfl
  ts_some h := absurd h (lt_irrefl 0)
  ts_none _ := rfl

theorem sessionInv_run {ops : List Op} {s : Session ι κ} (h : SessionInv C m ops s) (o : Op) :
    SessionInv C m (ops ++ [o]) (s.run C m W o) := by
  cases o with
  | fit d iters =>
    by_cases hi : 2 ≤ iters
    · have e : s.run C m W (.fit d iters) = s.setSamples
          ((storedSamples C m W d iters s.posts.qU s.posts.qZ).map Prod.fst)
          ((storedSamples C m W d iters s.posts.qU s.posts.qZ).map Prod.snd) := by
        rw [run, fitStructured_eq C m W d iters hi]
      rw [e]
      exact
        { depth := by rw [conditioned_snoc _ _ (by simp)]; exact h.depth
          later := fun i hi => by
            have hi' : s.posts.qi < i := hi
            simp only [setSamples, if_neg hi'.ne']
            exact h.later i hi'
          cur_some := fun _ => ⟨_, by simp [setSamples]; rfl, by simp [storedSamples_length]⟩
          cur_none := fun hn => absurd ((fitted_snoc_fit _ _ _).2 (.inl hi)) hn
          prev_some := fun hr => by
            rw [ready_snoc_other _ _ (by simp)] at hr
            have h0 := h.depth.2 (ready_conditioned hr)
            obtain ⟨us, h1, h2⟩ := h.prev_some hr
            refine ⟨us, ?_, h2⟩
            simp only [setSamples]
            rw [if_neg (by omega), h1]
          prev_none := fun h0 hr => by
            rw [ready_snoc_other _ _ (by simp)] at hr
            have h0' : 0 < s.posts.qi := h0
            simp only [setSamples]
            rw [if_neg (by omega), h.prev_none h0' hr]
          ts_some := h.ts_some
          ts_none := h.ts_none }
    · have e : s.run C m W (.fit d iters) = s := by rw [run, fitStructured_few C m W d iters (by omega)]
      have hf : Fitted (ops ++ [.fit d iters]) ↔ Fitted ops := by
        rw [fitted_snoc_fit]
        exact ⟨fun x => x.resolve_left hi, .inr⟩
      rw [e]
      exact
        { depth := by rw [conditioned_snoc _ _ (by simp)]; exact h.depth
          later := h.later
          cur_some := fun x => h.cur_some (hf.1 x)
          cur_none := fun x => h.cur_none (mt hf.2 x)
          prev_some := fun x => h.prev_some ((ready_snoc_other _ _ (by simp)).1 x)
          prev_none := fun h0 x => h.prev_none h0 (mt (ready_snoc_other _ _ (by simp)).2 x)
          ts_some := h.ts_some
          ts_none := h.ts_none }
  | condition d =>
    exact
      { depth := ⟨fun _ => ⟨d, by simp⟩, fun _ => Nat.succ_pos _⟩
        later := fun i hi => h.later i (Nat.lt_of_succ_lt hi)
        cur_some := fun x => absurd x (not_fitted_snoc_condition _ _)
        cur_none := fun _ => h.later _ (Nat.lt_succ_self _)
        prev_some := fun x => h.cur_some ((ready_snoc_condition _ _).1 x)
        prev_none := fun _ x => h.cur_none (mt (ready_snoc_condition _ _).2 x)
        ts_some := fun _ => ⟨d, rfl⟩
        ts_none := fun x => absurd x (Nat.succ_ne_zero _) }
  | elbo d =>
    exact
      { depth := by rw [conditioned_snoc _ _ (by simp)]; exact h.depth
        later := h.later
        cur_some := fun x => h.cur_some ((fitted_snoc_elbo _ _).1 x)
        cur_none := fun x => h.cur_none (mt (fitted_snoc_elbo _ _).2 x)
        prev_some := fun x => h.prev_some ((ready_snoc_other _ _ (by simp)).1 x)
        prev_none := fun h0 x => h.prev_none h0 (mt (ready_snoc_other _ _ (by simp)).2 x)
        ts_some := h.ts_some
        ts_none := h.ts_none }

theorem sessionInv_ops (qu : ℕ → NatNormal ι) (qz : ℕ → NatNormal κ) (ops : List Op) :
    SessionInv C m ops (ops.foldl (run C m W) (fresh qu qz)) := by
  induction ops using List.reverseRecOn with
  | nil => exact sessionInv_fresh C qu qz
  | append_singleton ops o ih =>
    rw [List.foldl_append]
    exact sessionInv_run C W ih o

/-- **C124** After any sequence of fits, evaluations of the bound and conditionings, a structured model can predict if and
only if it has been conditioned and, in the stretch before the last conditioning, fitted with at least two iterations. Otherwise
it raises `AttributeError` if it has never been conditioned, and `KeyError` if it has. -/
theorem c124_predicts (h : m.Valid) (qu : ℕ → NatNormal ι) (qz : ℕ → NatNormal κ) (ops : List Op) (t : List ℝ)
    (ws : List (ι → ℝ)) (hws : ws ≠ []) :
    let r := (ops.foldl (run C m W) (fresh qu qz)).predictStructured C m t ws
    (Ready ops → ∃ l, r = .ok l ∧ l.length = t.length ∧ ∀ p ∈ l, m.noise ≤ p.2) ∧
      (¬ Conditioned ops → r = .error .attributeError) ∧
      (Conditioned ops → ¬ Ready ops → r = .error .keyError) := by
  have hi := sessionInv_ops C (m := m) W qu qz ops
  obtain ⟨s, hs⟩ : ∃ s, s = ops.foldl (run C m W) (fresh qu qz) := ⟨_, rfl⟩
  rw [← hs] at hi ⊢
  have hpos : 0 < ws.length := List.length_pos_of_ne_nil hws
  intro r
  refine ⟨fun hr => ?_, fun hc => ?_, fun hc hr => ?_⟩
  · have h0 := hi.depth.2 (ready_conditioned hr)
    obtain ⟨us, h1, h2⟩ := hi.prev_some hr
    obtain ⟨d, hd⟩ := hi.ts_some h0
    have e : r = Structured.predict C m (some (constructDataTerms C m d)) t (columns us (some ws.length)) := by
      simp only [r, predictStructured, Session.samplePU, Gpcm.samplePU, if_neg h0.ne', h1, bind1, hd]
    rw [e]
    refine c28_structured C h d t _ fun hn => ?_
    have := congrArg List.length hn
    simp only [columns, List.length_take, h2, Option.getD_some, List.length_nil] at this
    omega
  · have h0 : s.posts.qi = 0 := Nat.eq_zero_of_not_pos (mt hi.depth.1 hc)
    obtain ⟨w, ws', rfl⟩ := List.exists_cons_of_ne_nil hws
    simp only [r, predictStructured, Session.samplePU, Gpcm.samplePU, h0, if_true, bind1, hi.ts_none h0]
    simp only [columns, List.map_cons, Option.getD_none, min_self, List.take_length]
    exact c28_unconditioned C t _ _
  · have h0 := hi.depth.2 hc
    simp only [r, predictStructured, Session.samplePU, if_neg h0.ne', hi.prev_none h0 hr, bind1]

/-- **C124** The workflow of the readme with the scheme `structured`. -/
theorem c124_readme_partial (h : m.Valid) (qu : ℕ → NatNormal ι) (qz : ℕ → NatNormal κ) (d : List (ℝ × ℝ)) (iters : ℤ)
    (hi : 2 ≤ iters) (t : List ℝ) (ws : List (ι → ℝ)) (hws : ws ≠ []) :
    ∃ l, (([.fit d iters, .elbo d, .condition d] : List Op).foldl (run C m W) (fresh qu qz)).predictStructured C m t ws = .ok l ∧
      l.length = t.length ∧ ∀ p ∈ l, m.noise ≤ p.2 :=
  (c124_predicts C W h qu qz _ t ws hws).1
    ⟨[.fit d iters, .elbo d], d, [], rfl, ⟨[], d, iters, [.elbo d], rfl, hi, by simp⟩, by simp⟩

/-- **C124** (refuted) A structured model that is only conditioned cannot predict. -/
theorem c124_refuted (h : m.Valid) (qu : ℕ → NatNormal ι) (qz : ℕ → NatNormal κ) (d : List (ℝ × ℝ)) (t : List ℝ)
    (ws : List (ι → ℝ)) (hws : ws ≠ []) :
    ((fresh qu qz).condition C m d).predictStructured C m t ws = .error .keyError ∧
      (fresh qu qz).predictStructured C m t ws = .error .attributeError := by
  refine ⟨(c124_predicts C (fun _ => 0) h qu qz [.condition d] t ws hws).2.2 ⟨d, by simp⟩ ?_,
    (c124_predicts C (fun _ => 0) h qu qz [] t ws hws).2.1 (by simp [Conditioned])⟩
  rw [show ([.condition d] : List Op) = [] ++ [.condition d] from rfl, ready_snoc_condition]
  simp [Fitted]

/-- **C124** With coordinate ascent a model can always predict; the variances are at least the noise whenever the
fitted posteriors are proper. -/
theorem c124_ca (h : m.Valid) (s : Session ι κ) (hu : s.posts.qU.prec.PosDef) (hz : s.posts.qZ.prec.PosDef)
    (d d' : List (ℝ × ℝ)) (iters : ℤ) (t : List ℝ) :
    let l := ((s.fitCA C m d iters).condition C m d').predictMeanField C m t
    l.length = t.length ∧ ∀ p ∈ l, m.noise ≤ p.2 := by
  have inv := caLoop_inv (step := caStep C m (constructDataTerms C m d)) Pair.diff
    (P := fun p : Pair _ _ => p.u.prec.PosDef ∧ p.z.prec.PosDef)
    (fun p hp => ⟨quOptimalMF_posDef C h d hp.2, qzOptimalMF_posDef C h d (quOptimalMF_posDef C h d hp.2)⟩)
    iters.toNat (p := ⟨s.posts.qU, s.posts.qZ⟩) ⟨hu, hz⟩
  refine c28_mean_field C h _ ?_ ?_ t
  · have e : ((s.fitCA C m d iters).condition C m d').posts.pU m =
        (caLoop (caStep C m (constructDataTerms C m d)) Pair.diff iters.toNat ⟨s.posts.qU, s.posts.qZ⟩).1.u := by
      simp [fitCA, condition, Posts.condition, Posts.pU, fitMeanFieldCA, Posts.setZ, Posts.setU]
    rw [e]
    exact inv.1
  · have e : ((s.fitCA C m d iters).condition C m d').posts.pZ m =
        (caLoop (caStep C m (constructDataTerms C m d)) Pair.diff iters.toNat ⟨s.posts.qU, s.posts.qZ⟩).1.z := by
      simp [fitCA, condition, Posts.condition, Posts.pZ, fitMeanFieldCA, Posts.setZ, Posts.setU]
    rw [e]
    exact inv.2

end workflow

example (D : Chols (Fin 1) (Fin 1)) (W : ℕ → (Fin 1 → ℝ) × (Fin 1 → ℝ)) :
    ∃ l, (([.condition [], .fit [(0, 1)] 4, .fit [] 1, .condition [(0, 2)], .fit [(1, 1)] 2] : List Op).foldl (run D exInst W)
      exSession).predictStructured D exInst [0, 1] [0] = .ok l :=
  ((c124_predicts D W exInst_valid _ _ _ [0, 1] [0] (by simp)).1
    ⟨[.condition [], .fit [(0, 1)] 4, .fit [] 1], [(0, 2)], [.fit [(1, 1)] 2], rfl,
      ⟨[.condition []], [(0, 1)], 4, [.fit [] 1], rfl, by norm_num, by simp⟩, by simp⟩).imp fun _ h => h.1

example (D : Chols (Fin 1) (Fin 1)) : (exSession.posts.qU.prec.PosDef ∧ exSession.posts.qZ.prec.PosDef) ∧
    ((exSession.fitCA D exInst [(0, 3)] 2).condition D exInst [(0, 3)]).posts.qU = exSession.posts.qU := by
  refine ⟨⟨Matrix.PosDef.one, Matrix.PosDef.one⟩, ?_⟩
  simp [fitCA, condition, Posts.condition, Posts.qU, fitMeanFieldCA, Posts.setZ, Posts.setU, exSession, fresh, exPosts]

end Gpcm
