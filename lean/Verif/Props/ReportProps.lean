import Verif.Model.Filter
import Verif.Props.SessionProps

/-! # Property C174: the reported bound is that of the posterior that predicts -/

set_option linter.unusedSectionVars false

open Matrix Real

namespace Gpcm

open Session

section general

variable {ι κ : Type} [Fintype ι] [DecidableEq ι] [Fintype κ] [DecidableEq κ]
variable (C : Chols ι κ) (m : Inst ι κ) (W : ℕ → (ι → ℝ) × (κ → ℝ))

/-- **C174** (partial) For the scheme `mean-field-ca`, the bound reported after a fit is that of the posteriors that the fit found,
which are those that predictions use after conditioning, and reporting it changes nothing. Missing: the scheme `structured`, for
which this is false (`c174_false`). -/
theorem c174_mean_field_partial {m : Inst ι κ} (h : m.Valid) (d d' : List (ℝ × ℝ)) (iters : ℤ) (s : Session ι κ) :
    let s₁ := s.fitCA C m d iters
    let q := (s₁.posts.qU, s₁.posts.qZ)
    s₁.reportMeanField C m d' = (s₁, .ok (expLogLik m d' (q.1.mean C.u) (q.1.m2 C.u) (q.2.mean C.z) (q.2.m2 C.z)
        - q.1.kl C.u (s₁.posts.pU m) - q.2.kl C.z (s₁.posts.pZ m))) ∧
      ∀ t, (s₁.condition C m d).predictMeanField C m t = (predictMoments C m (constructTerms C m t) (q.1.mean C.u)
        (q.1.m2 C.u) (q.2.mean C.z) (q.2.m2 C.z)).map (toMeanVar m) := by
  intro s₁ q
  constructor
  · refine Prod.ext rfl ?_
    show MeanField.elbo C m s₁.posts d' none = _
    rw [← sumEll_expLogLik C h, ← meanFieldBound_eq]
    rfl
  · intro t
    have e1 : (s₁.condition C m d).posts.pU m = s₁.posts.qU := by simp [condition, Posts.condition, Posts.pU, Posts.qU]
    have e2 : (s₁.condition C m d).posts.pZ m = s₁.posts.qZ := by simp [condition, Posts.condition, Posts.pZ, Posts.qZ]
    rw [predictMeanField, MeanField.predict, e1, e2]

/-- **C174** Reporting the bound of a structured model leaves its samples alone, and with them everything that is predicted from
them: predictions before or after conditioning are the same with and without the report. -/
theorem c174_keeps (d d' : List (ℝ × ℝ)) (vs : List (ι → ℝ)) (s : Session ι κ) :
    let s' := (s.reportStructured C m d vs).1
    (∀ i, s'.samplesU i = s.samplesU i ∧ s'.samplesZ i = s.samplesZ i) ∧
      (∀ ws, s'.samplePU C m ws = s.samplePU C m ws) ∧
      (∀ ws, (s'.condition C m d').samplePU C m ws = (s.condition C m d').samplePU C m ws) ∧
      (∀ t ws, s'.predictStructured C m t ws = s.predictStructured C m t ws) ∧
      ∀ t ws, (s'.condition C m d').predictStructured C m t ws = (s.condition C m d').predictStructured C m t ws := by
  intro s'
  have hi : s'.posts.qi = s.posts.qi := rfl
  have h1 : ∀ ws, s'.samplePU C m ws = s.samplePU C m ws := fun ws => by
    unfold Session.samplePU
    rw [hi]
    rfl
  have h2 : ∀ ws, (s'.condition C m d').samplePU C m ws = (s.condition C m d').samplePU C m ws := fun ws => rfl
  refine ⟨fun i => ⟨rfl, rfl⟩, h1, h2, fun t ws => ?_, fun t ws => ?_⟩
  · unfold predictStructured
    rw [h1]
    rfl
  · unfold predictStructured
    rw [h2]
    rfl

/-- **C174** The bound that a structured model reports after a fit without learning of hyper-parameters is the one it reports without
that fit, for all data, numbers of iterations and random numbers of the fit: the samples do not enter. -/
theorem c174_ignores_fit (d d' : List (ℝ × ℝ)) (vs : List (ι → ℝ)) (iters : ℤ) (s : Session ι κ) :
    ((s.fitStructured C m W d' iters).1.reportStructured C m d vs).2 = (s.reportStructured C m d vs).2 := by
  have h : (s.fitStructured C m W d' iters).1.posts = s.posts := by
    by_cases hi : 2 ≤ iters
    · rw [fitStructured_eq C m W d' iters hi]
      rfl
    · rw [fitStructured_few C m W d' iters (not_le.1 hi)]
  unfold reportStructured elboStructured fitCA
  rw [h]

end general

/-! ## Witnesses -/

section witness

variable (C : Chols (Fin 1) (Fin 1))

/-- Without information in the data and without noise in the chain, all samples of the filter are zero. -/
theorem ex_chain_zero (d : List (ℝ × ℝ)) (hd : (d.map fun p => p.2 * cos p.1).sum = 0) (k : ℕ)
    (x : ℕ × (Fin 1 → ℝ) × (Fin 1 → ℝ)) : ((sessionSweep C exInst (fun _ => 0) d)^[k + 1] x).2.1 = 0 := by
  rw [Function.iterate_succ_apply']
  have h1 := quOptimal_posDef C exInst_valid d (((sessionSweep C exInst (fun _ => 0) d)^[k] x).2.2)
  refine (sample_zero C.u h1).trans (mean_zero_lam C.u h1 ?_)
  ext i
  fin_cases i
  show (quOptimal exInst (constructDataTerms C exInst d) _).lam 0 = 0
  rw [ex_lam_u, hd, zero_mul]

/-- **C174 is false** for the scheme `structured`: one model is fitted to an observation of 3 at time zero, the other to one that has
no information about the signal. Conditioned on the first observation, they make different predictions. But they report the same
bound, for all data and random numbers. -/
theorem c174_false (y : ℝ) (iters : ℤ) (hi : 2 ≤ iters) (ws : List (Fin 1 → ℝ)) (hws : ws ≠ []) :
    let fit := fun d => (exSession.fitStructured C exInst (fun _ => 0) d iters).1
    (∃ b v, 0 < b ∧ ((fit [(0, 3)]).condition C exInst [(0, 3)]).predictStructured C exInst [0] ws = .ok [(b, v)]) ∧
      (∃ v, ((fit [(π / 2, y)]).condition C exInst [(0, 3)]).predictStructured C exInst [0] ws = .ok [(0, v)]) ∧
      ∀ d vs, ((fit [(0, 3)]).reportStructured C exInst d vs).2 = ((fit [(π / 2, y)]).reportStructured C exInst d vs).2 := by
  intro fit
  refine ⟨(c123_refuted C y iters hi ws hws).2.2, ?_, fun d vs => ?_⟩
  · simp only [fit]
    have hne : ((storedSamples C exInst (fun _ => 0) [(π / 2, y)] iters exSession.posts.qU exSession.posts.qZ).map
        Prod.fst).take (min 1000 ws.length) ≠ [] := fun h => by
      have h1 := congrArg List.length h
      have h2 : 0 < ws.length := List.length_pos_of_ne_nil hws
      rw [List.length_take, List.length_map, storedSamples_length, List.length_nil] at h1
      omega
    rw [predict_fit_condition C exInst _ _ _ iters hi, structured_predict_eq C exInst_valid _ [0] _ hne]
    refine pair_zero _ ?_
    simp only [toMeanVar]
    rw [div_eq_zero_iff]
    left
    refine List.sum_eq_zero fun x hx => ?_
    obtain ⟨u, hu, rfl⟩ := List.mem_map.1 hx
    obtain ⟨p, hp, rfl⟩ := List.mem_map.1 (List.mem_of_mem_take hu)
    obtain ⟨j, -, rfl⟩ := List.mem_map.1 hp
    rw [ex_mean, ← add_assoc, ex_chain_zero C _ (by simp)]
    simp
  · simp only [fit]
    rw [c174_ignores_fit, c174_ignores_fit]

/-- **C174 is false**: reporting the bound of a structured model changes the filter that it predicts after conditioning. Here the sample
of the filter for random numbers that are all zero changes from a positive value to zero. -/
theorem c174_filter_false (y : ℝ) (vs : List (Fin 1 → ℝ)) (d' : List (ℝ × ℝ)) (fac : Matrix (Fin 1) (Fin 1) ℝ → Matrix (Fin 1) (Fin 1) ℝ) :
    let h := fun s : Session (Fin 1) (Fin 1) => sampleH C.u fac 0 (fun _ _ => 1) exInst.Ku ((s.condition C exInst d').posts.pU exInst)
      (fun _ : Fin 1 => 0) (fun _ : Fin 1 => 0) 0 0
    0 < h exSession 0 ∧ h (exSession.reportStructured C exInst [(π / 2, y)] vs).1 0 = 0 := by
  intro h
  have hg : (gramMat (fun _ _ => 1) (fun _ : Fin 1 => (0 : ℝ)) (fun _ : Fin 1 => (0 : ℝ)) : Matrix (Fin 1) (Fin 1) ℝ) = 1 := by
    ext i j
    fin_cases i
    fin_cases j
    rfl
  have hh : ∀ s, h s = exInst.Ku *ᵥ ((s.condition C exInst d').posts.pU exInst).sample C.u 0 := fun s => by
    simp only [h, sampleH, condMean, hg, mulVec_zero, add_zero, zero_smul]
    simp
  have hK : exInst.Ku = 1 := rfl
  rw [hh, hh, hK, one_mulVec, one_mulVec]
  have e0 : (exSession.condition C exInst d').posts.pU exInst = (exPosts 0).qu 0 := by
    simp [condition, Posts.condition, Posts.pU, exSession, fresh]
  have p0 : ((exPosts 0).qu 0).prec.PosDef := Matrix.PosDef.one
  refine ⟨?_, ?_⟩
  · rw [e0, sample_zero C.u p0]
    exact mean_pos_fin1 C.u p0 one_pos
  · obtain ⟨r, hr⟩ : ∃ r, r = (caLoop (caStep C exInst (constructDataTerms C exInst [(π / 2, y)])) Pair.diff (4999 + 1)
      ⟨exSession.posts.qU, exSession.posts.qZ⟩).1 := ⟨_, rfl⟩
    have e1 : ((exSession.reportStructured C exInst [(π / 2, y)] vs).1.condition C exInst d').posts.pU exInst = r.u := by
      rw [hr]
      simp [reportStructured, elboStructured, fitCA, fitMeanFieldCA, condition, Posts.condition, Posts.pU, Posts.setU,
        Posts.setZ]
    have step_pd : ∀ p : Pair (Fin 1) (Fin 1), p.u.prec.PosDef ∧ p.z.prec.PosDef →
        (caStep C exInst (constructDataTerms C exInst [(π / 2, y)]) p).u.prec.PosDef ∧
          (caStep C exInst (constructDataTerms C exInst [(π / 2, y)]) p).z.prec.PosDef := fun p hp =>
      ⟨quOptimalMF_posDef C exInst_valid _ hp.2, qzOptimalMF_posDef C exInst_valid _ (quOptimalMF_posDef C exInst_valid _ hp.2)⟩
    have h0 : ∀ p : Pair (Fin 1) (Fin 1), (caStep C exInst (constructDataTerms C exInst [(π / 2, y)]) p).u.lam = 0 := fun p => by
      ext i
      fin_cases i
      show (quOptimalMF C exInst (constructDataTerms C exInst [(π / 2, y)]) p.z).lam 0 = 0
      rw [ex_lam_uMF]
      simp
    have hpd : r.u.prec.PosDef ∧ r.z.prec.PosDef := by
      rw [hr]
      exact caLoop_inv _ (P := fun p : Pair _ _ => p.u.prec.PosDef ∧ p.z.prec.PosDef) step_pd _
        ⟨Matrix.PosDef.one, Matrix.PosDef.one⟩
    have hn : ∀ n (p : Pair (Fin 1) (Fin 1)), (caLoop (caStep C exInst (constructDataTerms C exInst [(π / 2, y)])) Pair.diff (n + 1)
        p).1.u.lam = 0 := fun n p => by
      simp only [caLoop]
      split
      · exact h0 _
      · exact caLoop_inv _ (P := fun p : Pair _ _ => p.u.lam = 0) (fun p _ => h0 p) _ (h0 _)
    have hl : r.u.lam = 0 := hr ▸ hn 4999 _
    rw [e1, sample_zero C.u hpd.1, mean_zero_lam C.u hpd.1 hl]
    rfl

/-- The hypotheses hold for the witness, and the reported bound is a number. -/
example : exInst.Valid ∧ ∀ d, ∃ b, ((exSession.fitStructured C exInst (fun _ => 0) [(0, 3)] 10).1.reportStructured C exInst d [0]).2 = .ok b := by
  refine ⟨exInst_valid, fun d => ?_⟩
  simp only [reportStructured, elboCollapsedZ, List.map_cons, List.map_nil, List.length_singleton, one_ne_zero, if_false]
  exact ⟨_, rfl⟩

end witness

end Gpcm
