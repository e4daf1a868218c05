import Verif.Props.ApproxProps

/-! # Properties C25 to C29 and C36: the structured bound, predictions, terms and conditioning -/

set_option linter.unusedSectionVars false

open Matrix Real MeasureTheory

namespace Gpcm

variable {ι κ : Type} [Fintype ι] [DecidableEq ι] [Fintype κ] [DecidableEq κ]
variable (C : Chols ι κ) {m : Inst ι κ}

/-- The expected log-likelihood of a data set under moments of the inducing variables. -/
noncomputable def expLogLik (m : Inst ι κ) (d : List (ℝ × ℝ)) (u : ι → ℝ) (u2 : Matrix ι ι ℝ) (z : κ → ℝ)
    (z2 : Matrix κ κ ℝ) : ℝ :=
  (d.map fun p =>
    let M := Spec.moments (m.iHx p.1 p.1) m.iUx (m.iHz p.1) (m.iUz p.1) m.Ku⁻¹ m.Kz⁻¹ u u2 z z2
    Spec.ell m.noise p.2 M.1 M.2).sum

theorem sumEll_expLogLik (h : m.Valid) (d : List (ℝ × ℝ)) (u : ι → ℝ) (u2 : Matrix ι ι ℝ) (z : κ → ℝ)
    (z2 : Matrix κ κ ℝ) :
    sumEll (constructDataTerms C m d) m.noise u u2 z z2 = expLogLik m d u u2 z z2 := by
  rw [sumEll_eq, expLogLik]
  simp only [ptMoments_spec C h]

/-! ## C25 -/

/-- **C25** The exponentiated bound is the integral of the prior density times the exponentiated expected
log-likelihood. -/
theorem c25_integral (h : m.Valid) (d : List (ℝ × ℝ)) (u : ι → ℝ) :
    (Integrable fun z => exp (NatNormal.logpdf C.z ⟨0, m.Kz⟩ z) *
      exp (expLogLik m d u (vecMulVec u u) z (vecMulVec z z))) ∧
    logZu C m (constructDataTerms C m d) u = log (∫ z, exp (NatNormal.logpdf C.z ⟨0, m.Kz⟩ z) *
      exp (expLogLik m d u (vecMulVec u u) z (vecMulVec z z))) := by
  have ho := qzOptimal_posDef C h d u
  have e : ∀ z, exp (NatNormal.logpdf C.z ⟨0, m.Kz⟩ z) *
      exp (expLogLik m d u (vecMulVec u u) z (vecMulVec z z)) =
      exp (logZu C m (constructDataTerms C m d) u) *
        exp ((qzOptimal m (constructDataTerms C m d) u).logpdf C.z z) := fun z => by
    rw [← exp_add, ← exp_add]
    congr 1
    rw [logZu_eq C m _ u ho, ← sumEll_expLogLik C h, sumEll_z, frob_vecMulVec, qzOptimal_eq]
    rw [qzOptimal_eq] at ho
    have := NatNormal.tilt_logpdf C.z (p := ⟨0, m.Kz⟩) h.Kz ho z
    linarith
  obtain ⟨h1, h2⟩ := NatNormal.expect_one C.z ho
  simp only [e]
  refine ⟨h1.const_mul _, ?_⟩
  rw [integral_const_mul, h2, mul_one, log_exp]

/-- **C25** The bound is the maximum over all normals `q(z)` of the expected log-likelihood minus the
divergence, attained exactly at `q_z_optimal`. -/
theorem c25_maximum (h : m.Valid) (d : List (ℝ × ℝ)) (u : ι → ℝ) :
    let o := qzOptimal m (constructDataTerms C m d) u
    let bound := fun q : NatNormal κ =>
      expLogLik m d u (vecMulVec u u) (q.mean C.z) (q.m2 C.z) - q.kl C.z ⟨0, m.Kz⟩
    o.prec.PosDef ∧ ∀ q : NatNormal κ, q.prec.PosDef →
      bound q ≤ logZu C m (constructDataTerms C m d) u ∧
      (bound q = logZu C m (constructDataTerms C m d) u ↔ q = o) := by
  intro o bound
  have ho : o.prec.PosDef := qzOptimal_posDef C h d u
  refine ⟨ho, fun q hq => ?_⟩
  have e : bound q = logZu C m (constructDataTerms C m d) u - q.kl C.z o := by
    have ho' := ho
    simp only [bound]
    rw [logZu_eq C m _ u ho, ← sumEll_expLogLik C h, sumEll_z]
    simp only [o] at ho' ⊢
    rw [qzOptimal_eq] at ho' ⊢
    have := NatNormal.tilt_kl C.z (p := ⟨0, m.Kz⟩) hq h.Kz ho'
    linarith
  constructor
  · linarith [c18_nonneg C.z hq ho]
  · rw [← c18_zero_iff C.z hq ho, e]
    constructor <;> intro h <;> linarith

example : exInst.Valid := exInst_valid

/-! ## C26 -/

/-- **C26** The estimate of the structured bound is at least the mean-field bound with the sample moments
of `u`, for every normal `q(z)`. -/
theorem c26_dominates (h : m.Valid) (s : Posts ι κ) (d : List (ℝ × ℝ)) (us : List (ι → ℝ)) (hus : us ≠ [])
    (q : NatNormal κ) (hq : q.prec.PosDef) :
    ∃ v, elboCollapsedZ C m s d us = .ok v ∧
      expLogLik m d ((1 / us.length : ℝ) • us.sum)
        ((1 / us.length : ℝ) • (us.map fun u => vecMulVec u u).sum) (q.mean C.z) (q.m2 C.z)
        - q.kl C.z ⟨0, m.Kz⟩ - s.qU.kl C.u (s.pU m) ≤ v := by
  have hl : us.length ≠ 0 := fun h0 => hus (List.length_eq_zero_iff.1 h0)
  refine ⟨_, by rw [elboCollapsedZ, if_neg hl], ?_⟩
  have hl' : (0 : ℝ) < us.length := by exact_mod_cast Nat.pos_of_ne_zero hl
  have h1 := list_sum_le (l := us) fun u _ => ((c25_maximum C h d u).2 q hq).1
  simp only [← sumEll_expLogLik C h] at h1 ⊢
  rw [← sumEll_average _ _ us hus]
  have h2 : (us.map fun u => sumEll (constructDataTerms C m d) m.noise u (vecMulVec u u) (q.mean C.z)
      (q.m2 C.z) - q.kl C.z ⟨0, m.Kz⟩).sum = (us.map fun u => sumEll (constructDataTerms C m d) m.noise u
      (vecMulVec u u) (q.mean C.z) (q.m2 C.z)).sum - us.length * q.kl C.z ⟨0, m.Kz⟩ := by
    clear h1 hus hl hl'
    induction us with
    | nil => simp
    | cons a l ih =>
      rw [List.map_cons, List.sum_cons, ih, List.map_cons, List.sum_cons, List.length_cons]
      push_cast
      ring
  rw [h2] at h1
  have h3 := div_le_div_of_nonneg_right h1 hl'.le
  rw [sub_div, mul_div_cancel_left₀ _ hl'.ne'] at h3
  linarith

/-- Without samples the estimate is an error. -/
theorem c26_empty (s : Posts ι κ) (d : List (ℝ × ℝ)) :
    elboCollapsedZ C m s d [] = .error .zeroDivision := rfl

example (D : Chols (Fin 1) (Fin 1)) : ∃ v, elboCollapsedZ D exInst (exPosts 0) [(0, 1)] [0, 1] = .ok v :=
  (c26_dominates D exInst_valid _ _ [0, 1] (by simp) ⟨0, 1⟩ Matrix.PosDef.one).imp fun _ h => h.1

/-! ## C27 -/

/-- **C27** Giving a sample is the same as giving its outer product as second moment. -/
theorem c27_paths {α β : Type} [Fintype α] [Fintype β] (noise : ℝ) (A : Matrix α α ℝ)
    (I : List (Matrix α β ℝ)) (Isum : Matrix α β ℝ) (K : Matrix α α ℝ) (x : β → ℝ) :
    qOptimal noise A I Isum K x none = qOptimal noise A I Isum K x (some (vecMulVec x x)) := by
  unfold qOptimal
  simp only
  congr 5
  refine List.map_congr_left fun I _ => ?_
  rw [mul_vecMulVec, vecMulVec_mul, vecMul_transpose]

/-- **C27** The update of `q(u)` as sums over the data points. -/
theorem c27_sums_u (h : m.Valid) (d : List (ℝ × ℝ)) (q : NatNormal κ) :
    quOptimalMF C m (constructDataTerms C m d) q =
      ⟨(1 / m.noise) • ((d.map fun p => p.2 • m.iUz p.1).sum *ᵥ q.mean C.z),
        m.Ku + (1 / m.noise) • (d.map fun p => m.iUx - m.iUz p.1 * m.Kz⁻¹ * (m.iUz p.1)ᵀ +
          m.iUz p.1 * q.m2 C.z * (m.iUz p.1)ᵀ).sum⟩ := by
  have hA : (constructDataTerms C m d).ASum = _ := constructTerms_ASum C m (d.map Prod.fst)
  have e : ∀ s, ptA C m s = m.iUx - m.iUz s * m.Kz⁻¹ * (m.iUz s)ᵀ := fun s => by
    rw [ptA, Inst.KzInv, pdInv_eq C.z h.Kz]
  rw [quOptimalMF, qOptimal, hA]
  simp only [constructDataTerms, constructTerms, List.map_map, Function.comp_def, e]
  congr 3
  induction d with
  | nil => simp
  | cons p d ih =>
    simp only [List.map_cons, List.sum_cons]
    rw [← ih (constructTerms_ASum C m _)]
    abel

/-- **C27** The update of `q(z)` as sums over the data points. -/
theorem c27_sums_z (h : m.Valid) (d : List (ℝ × ℝ)) (q : NatNormal ι) :
    qzOptimalMF C m (constructDataTerms C m d) q =
      ⟨(1 / m.noise) • ((d.map fun p => p.2 • m.iUz p.1).sumᵀ *ᵥ q.mean C.u),
        m.Kz + (1 / m.noise) • (d.map fun p => m.iHz p.1 - (m.iUz p.1)ᵀ * m.Ku⁻¹ * m.iUz p.1 +
          (m.iUz p.1)ᵀ * q.m2 C.u * m.iUz p.1).sum⟩ := by
  have hB : (constructDataTerms C m d).BSum = _ := constructTerms_BSum C m (d.map Prod.fst)
  have e : ∀ s, ptB C m s = m.iHz s - (m.iUz s)ᵀ * m.Ku⁻¹ * m.iUz s := fun s => by
    rw [ptB, Inst.KuInv, pdInv_eq C.u h.Ku]
  rw [qzOptimalMF, qOptimal, hB]
  simp only [constructDataTerms, constructTerms, List.map_map, Function.comp_def, e, transpose_transpose]
  congr 3
  induction d with
  | nil => simp
  | cons p d ih =>
    simp only [List.map_cons, List.sum_cons]
    rw [← ih (constructTerms_BSum C m _)]
    abel

/-- **C27** Hence the order of the data points does not matter. -/
theorem c27_perm (h : m.Valid) {d d' : List (ℝ × ℝ)} (hd : d.Perm d') (qu : NatNormal ι)
    (qz : NatNormal κ) :
    quOptimalMF C m (constructDataTerms C m d) qz = quOptimalMF C m (constructDataTerms C m d') qz ∧
    qzOptimalMF C m (constructDataTerms C m d) qu = qzOptimalMF C m (constructDataTerms C m d') qu := by
  rw [c27_sums_u C h, c27_sums_u C h, c27_sums_z C h, c27_sums_z C h]
  constructor
  · rw [(hd.map _).sum_eq, (hd.map _).sum_eq]
  · rw [(hd.map _).sum_eq, (hd.map _).sum_eq]

example : quOptimal exInst (constructDataTerms ⟨Classical.choice cholOracle_nonempty,
      Classical.choice cholOracle_nonempty⟩ exInst [(0, 3)]) (fun _ => 2) =
    ⟨fun _ => 6, fun _ _ => 6⟩ := by
  have hp : pdInv (Classical.choice (cholOracle_nonempty (n := Fin 1))) 1 = 1 := by
    rw [pdInv_eq _ Matrix.PosDef.one, inv_one]
  apply NatNormal.ext
  · funext i
    simp [quOptimal, qOptimal, exInst, constructDataTerms, mulVec, dotProduct]
    norm_num
  · ext i j
    fin_cases i; fin_cases j
    simp [quOptimal, qOptimal, exInst, constructDataTerms, constructTerms, mulVec, dotProduct, Inst.KzInv,
      Inst.KuInv, hp, vecMulVec_apply, Matrix.mul_apply]
    norm_num

/-! ## C28 -/

/-- **C28** Mean-field predictions have at least the noise variance. -/
theorem c28_mean_field (h : m.Valid) (s : Posts ι κ) (hu : (s.pU m).prec.PosDef)
    (hz : (s.pZ m).prec.PosDef) (t : List ℝ) :
    (MeanField.predict C m s t).length = t.length ∧ ∀ p ∈ MeanField.predict C m s t, m.noise ≤ p.2 := by
  rw [MeanField.predict, predictMoments_eq, List.map_map]
  refine ⟨by simp, fun p hp => ?_⟩
  obtain ⟨x, -, rfl⟩ := List.mem_map.1 hp
  have := ptMoments_var C h (m2_sub_outer C.u hu) (m2_sub_outer C.z hz) x
  simp only [Function.comp_apply, toMeanVar]
  linarith

/-- For an unconditioned model the hypotheses on the priors hold. -/
theorem c28_prior (h : m.Valid) (s : Posts ι κ) (hs : s.qi = 0) :
    (s.pU m).prec.PosDef ∧ (s.pZ m).prec.PosDef := by
  rw [Posts.pU, Posts.pZ, if_pos hs, if_pos hs]
  exact ⟨h.Ku, h.Kz⟩

/-- **C28** Structured predictions have at least the noise variance. -/
theorem c28_structured (h : m.Valid) (d : List (ℝ × ℝ)) (t : List ℝ) (us : List (ι → ℝ)) (hus : us ≠ []) :
    ∃ l, Structured.predict C m (some (constructDataTerms C m d)) t us = .ok l ∧ l.length = t.length ∧
      ∀ p ∈ l, m.noise ≤ p.2 := by
  obtain ⟨u, us, rfl⟩ : ∃ u us', us = u :: us' := List.exists_cons_of_ne_nil hus
  have e : ∀ u : ι → ℝ, predictMoments C m (constructTerms C m t) u (vecMulVec u u)
      ((qzOptimal m (constructDataTerms C m d) u).mean C.z) ((qzOptimal m (constructDataTerms C m d) u).m2 C.z) =
      t.map (ptMoments C m u (vecMulVec u u) ((qzOptimal m (constructDataTerms C m d) u).mean C.z)
        ((qzOptimal m (constructDataTerms C m d) u).m2 C.z)) := fun u => predictMoments_eq C m t _ _ _ _
  obtain ⟨F, hF⟩ : ∃ F : (ι → ℝ) → ℝ → ℝ × ℝ, F = fun u => ptMoments C m u (vecMulVec u u)
    ((qzOptimal m (constructDataTerms C m d) u).mean C.z)
    ((qzOptimal m (constructDataTerms C m d) u).m2 C.z) := ⟨_, rfl⟩
  have hv : ∀ u s, (F u s).1 ^ 2 ≤ (F u s).2 := fun u s => by
    rw [hF]
    exact ptMoments_var C h (by rw [sub_self]; exact Matrix.PosSemidef.zero)
      (m2_sub_outer C.z (qzOptimal_posDef C h d u)) s
  have hsum : Structured.predict C m (some (constructDataTerms C m d)) t (u :: us) =
      .ok (t.map fun s => toMeanVar m ((F u s + ((us.map F).map fun g => g s).sum).1 / (us.length + 1),
        (F u s + ((us.map F).map fun g => g s).sum).2 / (us.length + 1))) := by
    simp only [Structured.predict, e, List.map_cons, meanMoments]
    have := foldl_addMoments t (F u) (us.map F)
    rw [List.map_map] at this
    simp only [hF] at this ⊢
    rw [show (us.map fun u => t.map (ptMoments C m u (vecMulVec u u)
      ((qzOptimal m (constructDataTerms C m d) u).mean C.z)
      ((qzOptimal m (constructDataTerms C m d) u).m2 C.z))) = _ from rfl]
    simp only [Function.comp_def] at this
    rw [this]
    simp only [List.map_map, List.length_map]
    rfl
  refine ⟨_, hsum, by simp, fun p hp => ?_⟩
  obtain ⟨x, -, rfl⟩ := List.mem_map.1 hp
  simp only [toMeanVar]
  have h1 : ∀ l : List (ι → ℝ), ((l.map F).map fun g => g x).sum =
      ((l.map fun u => (F u x).1).sum, (l.map fun u => (F u x).2).sum) := by
    intro l
    induction l with
    | nil => rfl
    | cons a l ih => rw [List.map_cons, List.map_cons, List.sum_cons, ih]; rfl
  have h2 := h1 (u :: us)
  rw [List.map_cons, List.map_cons, List.sum_cons] at h2
  rw [h2]
  simp only
  have hN : (0 : ℝ) < us.length + 1 := by positivity
  have h3 := sq_sum_le ((u :: us).map fun u => (F u x).1)
  rw [List.map_map, List.length_map, List.length_cons] at h3
  have h4 := list_sum_le (l := u :: us) fun a _ => hv a x
  have h5 : (((u :: us).map fun u => (F u x).1).sum / (us.length + 1)) ^ 2 ≤
      ((u :: us).map fun u => (F u x).2).sum / (us.length + 1) := by
    rw [div_pow, div_le_div_iff₀ (by positivity) hN]
    push_cast at h3
    have h6 : ((u :: us).map fun u => (F u x).1).sum ^ 2 ≤
        (us.length + 1) * ((u :: us).map fun u => (F u x).2).sum :=
      h3.trans (mul_le_mul_of_nonneg_left h4 hN.le)
    nlinarith
  linarith

/-- **C28** An unconditioned structured model cannot predict: `self.ts` does not exist. -/
theorem c28_unconditioned (t : List ℝ) (u : ι → ℝ) (us : List (ι → ℝ)) :
    Structured.predict C m none t (u :: us) = .error .attributeError := rfl

example (D : Chols (Fin 1) (Fin 1)) : ∀ p ∈ MeanField.predict D exInst (exPosts 0) [0, 1], 1 ≤ p.2 :=
  (c28_mean_field D exInst_valid _ (c28_prior exInst_valid _ rfl).1 (c28_prior exInst_valid _ rfl).2 _).2

/-! ## C29 -/

/-- **C29** The bound is the sum over the data points of the expected log-likelihoods computed from the
moments used in prediction, minus the divergences. -/
theorem c29_bound (d : List (ℝ × ℝ)) (pu qu : NatNormal ι) (pz qz : NatNormal κ) :
    let M := predictMoments C m (constructTerms C m (d.map Prod.fst)) (qu.mean C.u) (qu.m2 C.u)
      (qz.mean C.z) (qz.m2 C.z)
    meanFieldBound C m (constructDataTerms C m d) pu qu pz qz =
      (List.zipWith (fun p M => Spec.ell m.noise p.2 M.1 M.2) d M).sum - qu.kl C.u pu - qz.kl C.z pz := by
  intro M
  rw [meanFieldBound_eq, sumEll_eq]
  simp only [M, predictMoments_eq, List.map_map, List.zipWith_map_right]
  rw [List.zipWith_self]
  rfl

/-- **C29** Terms of a concatenated data set are sums of the terms of its parts. -/
theorem c29_append (d d' : List (ℝ × ℝ)) :
    let a := constructDataTerms C m d
    let b := constructDataTerms C m d'
    let c := constructDataTerms C m (d ++ d')
    c.n = a.n + b.n ∧ c.ASum = a.ASum + b.ASum ∧ c.BSum = a.BSum + b.BSum ∧ c.cSum = a.cSum + b.cSum ∧
      c.iUzSum = a.iUzSum + b.iUzSum ∧ c.y = a.y ++ b.y ∧ c.iUz = a.iUz ++ b.iUz := by
  intro a b c
  have hA : ∀ d, (constructDataTerms C m d).ASum = _ := fun d => constructTerms_ASum C m (d.map Prod.fst)
  have hB : ∀ d, (constructDataTerms C m d).BSum = _ := fun d => constructTerms_BSum C m (d.map Prod.fst)
  have hc : ∀ d, (constructDataTerms C m d).cSum = _ := fun d => constructTerms_cSum C m (d.map Prod.fst)
  simp only [a, b, c, hA, hB, hc]
  refine ⟨?_, ?_, ?_, ?_, ?_, ?_, ?_⟩ <;> simp [constructDataTerms, constructTerms]

/-- **C29** The summed terms are the sums of the terms of single points. -/
theorem c29_points (d : List (ℝ × ℝ)) :
    let one := fun p => constructDataTerms C m [p]
    let c := constructDataTerms C m d
    c.ASum = (d.map fun p => (one p).ASum).sum ∧ c.BSum = (d.map fun p => (one p).BSum).sum ∧
      c.cSum = (d.map fun p => (one p).cSum).sum ∧ c.iUzSum = (d.map fun p => (one p).iUzSum).sum := by
  intro one c
  have hA : ∀ d, (constructDataTerms C m d).ASum = _ := fun d => constructTerms_ASum C m (d.map Prod.fst)
  have hB : ∀ d, (constructDataTerms C m d).BSum = _ := fun d => constructTerms_BSum C m (d.map Prod.fst)
  have hc : ∀ d, (constructDataTerms C m d).cSum = _ := fun d => constructTerms_cSum C m (d.map Prod.fst)
  simp only [one, c, hA, hB, hc]
  refine ⟨?_, ?_, ?_, ?_⟩ <;> simp [constructDataTerms, Function.comp_def]

example (D : Chols (Fin 1) (Fin 1)) : (constructDataTerms D exInst [(0, 1), (1, 2)]).n = 2 := rfl

/-! ## C36 -/

/-- **C36** The true maximiser after conditioning starts from the current prior. -/
theorem c36_optimum (h : m.Valid) (s : Posts ι κ) (hu : s.qU.prec.PosDef) (hz : (s.pZ m).prec.PosDef)
    (d : List (ℝ × ℝ)) :
    let ts := constructDataTerms C m d
    let o : NatNormal κ := (s.pZ m).tilt m.noise (zQuad ts (s.qU.m2 C.u)) (ts.iUzSumᵀ *ᵥ s.qU.mean C.u)
    o.prec.PosDef ∧ ∀ q : NatNormal κ, q.prec.PosDef → ∃ a b,
      MeanField.elbo C m (s.setZ q) d none = .ok a ∧ MeanField.elbo C m (s.setZ o) d none = .ok b ∧
      b - a = q.kl C.z o := by
  intro ts o
  have ho : o.prec.PosDef :=
    tilt_posDef _ hz h.noise (zQuad_psd (BSum_psd C h d) (NatNormal.m2_psd C.u hu))
  have e : ∀ q, MeanField.elbo C m (s.setZ q) d none =
      .ok (meanFieldBound C m ts (s.pU m) s.qU (s.pZ m) q) := fun q => by
    have h2 : (s.setZ q).pZ m = s.pZ m := by
      by_cases h0 : s.qi = 0
      · simp [Posts.pZ, Posts.setZ, h0]
      · simp [Posts.pZ, Posts.setZ, h0, show s.qi - 1 ≠ s.qi by omega]
    have h3 : (s.setZ q).qZ = q := by simp [Posts.qZ, Posts.setZ]
    simp only [MeanField.elbo, h2, h3]
    rfl
  exact ⟨ho, fun q hq => ⟨_, _, e _, e _, bound_gap_z C ts rfl hz hq ho⟩⟩

/-- **C36** The update of the code attains the maximum exactly if the current prior is the original one. -/
theorem c36_optimal_iff_partial (h : m.Valid) (s : Posts ι κ) (hu : s.qU.prec.PosDef)
    (hz : (s.pZ m).prec.PosDef) (d : List (ℝ × ℝ)) :
    (∀ q : NatNormal κ, q.prec.PosDef → ∃ a b, MeanField.elbo C m (s.setZ q) d none = .ok a ∧
      MeanField.elbo C m (s.setZ (qzOptimalMF C m (constructDataTerms C m d) s.qU)) d none = .ok b ∧ a ≤ b) ↔
    s.pZ m = ⟨0, m.Kz⟩ := by
  obtain ⟨ho, hgap⟩ := c36_optimum C h s hu hz d
  have hc := qzOptimalMF_posDef C h d hu
  constructor
  · intro hall
    obtain ⟨a, b, ha, hb, hle⟩ := hall _ ho
    obtain ⟨a', b', ha', hb', hk⟩ := hgap _ hc
    have e1 : b = a' := Except.ok.inj (hb.symm.trans ha')
    have e2 : a = b' := Except.ok.inj (ha.symm.trans hb')
    have h0 := (c18_zero_iff C.z hc ho).1 (le_antisymm (by linarith) (c18_nonneg C.z hc ho))
    rw [qzOptimalMF_eq] at h0
    have l := congrArg NatNormal.lam h0
    have p := congrArg NatNormal.prec h0
    simp only [NatNormal.tilt] at l p
    exact (NatNormal.ext (add_right_cancel l) (add_right_cancel p)).symm
  · intro hp q hq
    obtain ⟨a, b, ha, hb, hk⟩ := hgap q hq
    refine ⟨a, b, ha, ?_, by linarith [c18_nonneg C.z hq ho]⟩
    rw [← hb, qzOptimalMF_eq, hp]

/-- **C36 is false**: after conditioning, the update is not the maximiser. -/
theorem c36_false : ∃ (m : Inst (Fin 1) (Fin 1)) (s : Posts (Fin 1) (Fin 1)) (d : List (ℝ × ℝ)),
    m.Valid ∧ s.qi = 1 ∧ s.qU.prec.PosDef ∧ (s.pZ m).prec.PosDef ∧ ∀ C : Chols (Fin 1) (Fin 1),
      ∃ (q : NatNormal (Fin 1)) (a b : ℝ), q.prec.PosDef ∧ MeanField.elbo C m (s.setZ q) d none = .ok a ∧
        MeanField.elbo C m (s.setZ (qzOptimalMF C m (constructDataTerms C m d) s.qU)) d none = .ok b ∧
        b < a := by
  refine ⟨exInst, exPosts 1, [(0, 3)], exInst_valid, rfl, Matrix.PosDef.one, Matrix.PosDef.one, fun C => ?_⟩
  have hz : ((exPosts 1).pZ exInst).prec.PosDef := Matrix.PosDef.one
  have hn := mt (c36_optimal_iff_partial C exInst_valid (exPosts 1) Matrix.PosDef.one hz [(0, 3)]).1
    (fun e => by
      have := congrFun (congrArg NatNormal.lam e) 0
      simp [Posts.pZ, exPosts] at this)
  push Not at hn
  obtain ⟨q, hq, hn⟩ := hn
  exact ⟨q, _, _, hq, rfl, rfl, hn _ _ rfl rfl⟩

end Gpcm
