import Verif.Lemmas.ApproxLemmas
import Verif.Props.NormalProps

/-! # Properties C21 to C29 and C36: bounds, optimal updates, coordinate ascent and predictions -/

set_option linter.unusedSectionVars false

open Matrix Real MeasureTheory

namespace Gpcm

variable {ι κ : Type} [Fintype ι] [DecidableEq ι] [Fintype κ] [DecidableEq κ]
variable (C : Chols ι κ) {m : Inst ι κ}

/-! ## A running example -/

/-- One inducing variable each, with residual variance and an input-dependent interaction. -/
noncomputable def exInst : Inst (Fin 1) (Fin 1) :=
  { Ku := 1, Kz := 1, noise := 1, iHx := fun _ _ => 4, iUx := .of fun _ _ => 2
    iHz := fun _ => .of fun _ _ => 2, iUz := fun s => .of fun _ _ => cos s }

theorem psd_fin1 {A : Matrix (Fin 1) (Fin 1) ℝ} (h : 0 ≤ A 0 0) : A.PosSemidef := by
  refine Matrix.PosSemidef.of_dotProduct_mulVec_nonneg ?_ fun x => ?_
  · ext i j
    fin_cases i; fin_cases j
    simp
  · simp only [dotProduct, mulVec, Fin.sum_univ_one, star_trivial, Fin.isValue]
    nlinarith [mul_nonneg h (sq_nonneg (x 0))]

theorem exInst_valid : exInst.Valid where
  Ku := Matrix.PosDef.one
  Kz := Matrix.PosDef.one
  noise := one_pos
  A s := psd_fin1 (by
    simp [exInst, Matrix.mul_apply]
    nlinarith [cos_sq_le_one s])
  B s := psd_fin1 (by
    simp [exInst, Matrix.mul_apply]
    nlinarith [cos_sq_le_one s])
  c s := by
    simp [exInst, Spec.inner, Matrix.mul_apply]
    nlinarith [sq_nonneg (cos s)]

/-- A state of the approximation at depth `i` with prescribed posteriors. -/
def exPosts (i : ℕ) : Posts (Fin 1) (Fin 1) := ⟨i, fun _ => ⟨fun _ => 1, 1⟩, fun _ => ⟨fun _ => 1, 1⟩⟩

/-! ## C21 -/

/-- **C21** The update of `q(z)` maximises the bound over all normals; the loss is a divergence. -/
theorem c21_z (h : m.Valid) (s : Posts ι κ) (hs : s.qi = 0) (hu : s.qU.prec.PosDef)
    (d : List (ℝ × ℝ)) (q : NatNormal κ) (hq : q.prec.PosDef) :
    let o := qzOptimalMF C m (constructDataTerms C m d) s.qU
    o.prec.PosDef ∧ ∃ a b, MeanField.elbo C m (s.setZ q) d none = .ok a ∧
      MeanField.elbo C m (s.setZ o) d none = .ok b ∧ b - a = q.kl C.z o ∧ a ≤ b := by
  intro o
  have ho : o.prec.PosDef := qzOptimalMF_posDef C h d hu
  have e : ∀ q, MeanField.elbo C m (s.setZ q) d none =
      .ok (meanFieldBound C m (constructDataTerms C m d) ⟨0, m.Ku⟩ s.qU ⟨0, m.Kz⟩ q) := fun q => by
    simp [MeanField.elbo, Posts.pU, Posts.pZ, Posts.qU, Posts.qZ, Posts.setZ, hs]
  have g := bound_gap_z C (m := m) (constructDataTerms C m d) (pu := ⟨0, m.Ku⟩) (qu := s.qU)
    (pz := ⟨0, m.Kz⟩) (qz := q) (o := o) (qzOptimalMF_eq C m _ _) h.Kz hq ho
  refine ⟨ho, _, _, e _, e _, g, ?_⟩
  linarith [c18_nonneg C.z hq ho]

/-- **C21** The update of `q(u)` maximises the bound over all normals; the loss is a divergence. -/
theorem c21_u (h : m.Valid) (s : Posts ι κ) (hs : s.qi = 0) (hz : s.qZ.prec.PosDef)
    (d : List (ℝ × ℝ)) (q : NatNormal ι) (hq : q.prec.PosDef) :
    let o := quOptimalMF C m (constructDataTerms C m d) s.qZ
    o.prec.PosDef ∧ ∃ a b, MeanField.elbo C m (s.setU q) d none = .ok a ∧
      MeanField.elbo C m (s.setU o) d none = .ok b ∧ b - a = q.kl C.u o ∧ a ≤ b := by
  intro o
  have ho : o.prec.PosDef := quOptimalMF_posDef C h d hz
  have e : ∀ q, MeanField.elbo C m (s.setU q) d none =
      .ok (meanFieldBound C m (constructDataTerms C m d) ⟨0, m.Ku⟩ q ⟨0, m.Kz⟩ s.qZ) := fun q => by
    simp [MeanField.elbo, Posts.pU, Posts.pZ, Posts.qU, Posts.qZ, Posts.setU, hs]
  have g := bound_gap_u C (m := m) (constructDataTerms C m d) (pu := ⟨0, m.Ku⟩) (qu := q)
    (pz := ⟨0, m.Kz⟩) (qz := s.qZ) (o := o) (quOptimalMF_eq C m _ _) h.Ku hq ho
  refine ⟨ho, _, _, e _, e _, g, ?_⟩
  linarith [c18_nonneg C.u hq ho]

example : exInst.Valid ∧ (exPosts 0).qi = 0 ∧ (exPosts 0).qU.prec.PosDef ∧ (exPosts 0).qZ.prec.PosDef :=
  ⟨exInst_valid, rfl, Matrix.PosDef.one, Matrix.PosDef.one⟩

/-! ## C22 -/

/-- Both posteriors have a positive-definite precision. -/
def Posts.Proper (s : Posts ι κ) : Prop := s.qU.prec.PosDef ∧ s.qZ.prec.PosDef

theorem caStep_bound (h : m.Valid) (d : List (ℝ × ℝ)) (p : Pair ι κ) (hu : p.u.prec.PosDef)
    (hz : p.z.prec.PosDef) :
    let ts := constructDataTerms C m d
    let q := caStep C m ts p
    q.u.prec.PosDef ∧ q.z.prec.PosDef ∧
      meanFieldBound C m ts ⟨0, m.Ku⟩ p.u ⟨0, m.Kz⟩ p.z ≤ meanFieldBound C m ts ⟨0, m.Ku⟩ q.u ⟨0, m.Kz⟩ q.z := by
  intro ts q
  have hqu : q.u.prec.PosDef := quOptimalMF_posDef C h d hz
  have hqz : q.z.prec.PosDef := qzOptimalMF_posDef C h d hqu
  refine ⟨hqu, hqz, ?_⟩
  have g1 := bound_gap_u C (m := m) ts (pu := ⟨0, m.Ku⟩) (qu := p.u) (pz := ⟨0, m.Kz⟩) (qz := p.z)
    (o := q.u) (quOptimalMF_eq C m _ _) h.Ku hu hqu
  have g2 := bound_gap_z C (m := m) ts (pu := ⟨0, m.Ku⟩) (qu := q.u) (pz := ⟨0, m.Kz⟩) (qz := p.z)
    (o := q.z) (qzOptimalMF_eq C m _ _) h.Kz hz hqz
  linarith [c18_nonneg C.u hu hqu, c18_nonneg C.z hz hqz]

/-- The bound of the stored posteriors after coordinate ascent is the bound of the final iterate. -/
theorem elbo_fitCA (s : Posts ι κ) (hs : s.qi = 0) (d : List (ℝ × ℝ)) (k : ℤ) :
    let r := (caLoop (caStep C m (constructDataTerms C m d)) Pair.diff k.toNat ⟨s.qU, s.qZ⟩).1
    MeanField.elbo C m (fitMeanFieldCA C m s d k).1 d none =
      .ok (meanFieldBound C m (constructDataTerms C m d) ⟨0, m.Ku⟩ r.u ⟨0, m.Kz⟩ r.z) := by
  simp [MeanField.elbo, fitMeanFieldCA, Posts.pU, Posts.pZ, Posts.qU, Posts.qZ, Posts.setU, Posts.setZ, hs]

/-- **C22** One more iteration never decreases the bound. -/
theorem c22_monotone (h : m.Valid) (s : Posts ι κ) (hs : s.qi = 0) (hp : s.Proper) (d : List (ℝ × ℝ))
    (k : ℕ) : ∃ a b, MeanField.elbo C m (fitMeanFieldCA C m s d k).1 d none = .ok a ∧
      MeanField.elbo C m (fitMeanFieldCA C m s d (k + 1)).1 d none = .ok b ∧ a ≤ b := by
  refine ⟨_, _, elbo_fitCA C s hs d k, elbo_fitCA C s hs d (k + 1), ?_⟩
  have hk : ((k : ℤ) + 1).toNat = k + 1 := by omega
  rw [Int.toNat_natCast, hk]
  have hinv := caLoop_inv (step := caStep C m (constructDataTerms C m d)) Pair.diff
    (P := fun p => p.u.prec.PosDef ∧ p.z.prec.PosDef)
    (fun p hp => ⟨(caStep_bound C h d p hp.1 hp.2).1, (caStep_bound C h d p hp.1 hp.2).2.1⟩) k
    (p := ⟨s.qU, s.qZ⟩) hp
  rcases caLoop_succ (caStep C m (constructDataTerms C m d)) Pair.diff k ⟨s.qU, s.qZ⟩ with e | e
  · rw [e]
  · rw [e]
    exact (caStep_bound C h d _ hinv.1 hinv.2).2.2

/-- **C22** Coordinate ascent never ends below its starting point. -/
theorem c22_improves (h : m.Valid) (s : Posts ι κ) (hs : s.qi = 0) (hp : s.Proper) (d : List (ℝ × ℝ))
    (k : ℤ) : ∃ a b, MeanField.elbo C m s d none = .ok a ∧
      MeanField.elbo C m (fitMeanFieldCA C m s d k).1 d none = .ok b ∧ a ≤ b := by
  have h0 : MeanField.elbo C m s d none =
      .ok (meanFieldBound C m (constructDataTerms C m d) ⟨0, m.Ku⟩ s.qU ⟨0, m.Kz⟩ s.qZ) := by
    simp [MeanField.elbo, Posts.pU, Posts.pZ, hs]
  refine ⟨_, _, h0, elbo_fitCA C s hs d k, ?_⟩
  have hinv := caLoop_inv (step := caStep C m (constructDataTerms C m d)) Pair.diff
    (P := fun p => (p.u.prec.PosDef ∧ p.z.prec.PosDef) ∧
      meanFieldBound C m (constructDataTerms C m d) ⟨0, m.Ku⟩ s.qU ⟨0, m.Kz⟩ s.qZ ≤
        meanFieldBound C m (constructDataTerms C m d) ⟨0, m.Ku⟩ p.u ⟨0, m.Kz⟩ p.z)
    (fun p hp => by
      obtain ⟨h1, h2, h3⟩ := caStep_bound C h d p hp.1.1 hp.1.2
      exact ⟨⟨h1, h2⟩, hp.2.trans h3⟩) k.toNat (p := ⟨s.qU, s.qZ⟩) ⟨hp, le_refl _⟩
  exact hinv.2

example : (exPosts 0).Proper := ⟨Matrix.PosDef.one, Matrix.PosDef.one⟩

/-! ## C23 -/

/-- **C23** The loop runs `j ≤ iters` iterations, calls the callback with the iterates `1, …, j`, stores
iterate `j`, goes on as long as the change is not below the tolerance, and stops early only when it is. -/
theorem c23_loop (s : Posts ι κ) (d : List (ℝ × ℝ)) (iters : ℤ) :
    let step := caStep C m (constructDataTerms C m d)
    let it := fun i => step^[i] ⟨s.qU, s.qZ⟩
    let r := fitMeanFieldCA C m s d iters
    ∃ j : ℕ, (j : ℤ) ≤ max iters 0 ∧ r.2 = (List.range j).map (fun i => it (i + 1)) ∧
      r.1.qU = (it j).u ∧ r.1.qZ = (it j).z ∧
      (∀ i, i + 1 < j → ¬ Pair.diff (it (i + 1)) (it i) < 1e-6) ∧
      ((j : ℤ) < iters → ∃ i, j = i + 1 ∧ Pair.diff (it (i + 1)) (it i) < 1e-6) ∧
      (0 < j → r.1.qZ = qzOptimalMF C m (constructDataTerms C m d) r.1.qU) ∧
      r.1.qi = s.qi ∧ ∀ i, i ≠ s.qi → r.1.qu i = s.qu i ∧ r.1.qz i = s.qz i := by
  intro step it r
  obtain ⟨j, hj, h1, h2, h3, h4⟩ := caLoop_spec step Pair.diff iters.toNat ⟨s.qU, s.qZ⟩
  have hu : r.1.qU = (it j).u := by
    simp only [r, fitMeanFieldCA, Posts.setU, Posts.setZ, Posts.qU, if_true]
    exact congrArg Pair.u h1
  have hz : r.1.qZ = (it j).z := by
    simp only [r, fitMeanFieldCA, Posts.setU, Posts.setZ, Posts.qZ, if_true]
    exact congrArg Pair.z h1
  refine ⟨j, by omega, h2, hu, hz, h3, fun hlt => h4 (by omega), fun hpos => ?_, rfl, fun i hi => ?_⟩
  · rw [hu, hz]
    obtain ⟨i, rfl⟩ : ∃ i, j = i + 1 := ⟨j - 1, by omega⟩
    simp only [it, Function.iterate_succ_apply']
    rfl
  · simp [r, fitMeanFieldCA, Posts.setU, Posts.setZ, hi]

/-- With a positive number of iterations at least one is performed. -/
theorem c23_runs (s : Posts ι κ) (d : List (ℝ × ℝ)) (iters : ℤ) (hi : 0 < iters) :
    (fitMeanFieldCA C m s d iters).2 ≠ [] := by
  obtain ⟨k, hk⟩ : ∃ k, iters.toNat = k + 1 := ⟨iters.toNat - 1, by omega⟩
  simp only [fitMeanFieldCA, hk, caLoop]
  split <;> simp

/-- Without data the second iterate equals the first, so that the loop stops after two iterations. -/
example (D : Chols (Fin 1) (Fin 1)) : (fitMeanFieldCA D exInst (exPosts 0) [] 7).2.length ≤ 2 := by
  have fix : ∀ p, caStep D exInst (constructDataTerms D exInst []) p = ⟨⟨0, 1⟩, ⟨0, 1⟩⟩ := fun p => by
    simp [caStep, quOptimalMF, qzOptimalMF, qOptimal, constructDataTerms, constructTerms, exInst]
  have : ∀ p : Pair (Fin 1) (Fin 1), Pair.diff p p = 0 := fun p => by
    simp [Pair.diff, rmsVec, rmsMat]
  simp only [fitMeanFieldCA]
  rw [show (7 : ℤ).toNat = 5 + 1 + 1 from rfl]
  simp only [caLoop, fix, this]
  split
  · simp
  · norm_num

/-! ## C24 -/

/-- **C24** Collapsing over `z` gives at least the uncollapsed bound, with equality exactly at the
optimum. -/
theorem c24_z (h : m.Valid) (s : Posts ι κ) (hs : s.qi = 0) (hp : s.Proper) (d : List (ℝ × ℝ)) :
    ∃ a b, MeanField.elbo C m s d none = .ok a ∧ MeanField.elbo C m s d (some "z") = .ok b ∧ a ≤ b ∧
      (a = b ↔ s.qZ = qzOptimalMF C m (constructDataTerms C m d) s.qU) := by
  have ho := qzOptimalMF_posDef C h d hp.1
  have g := bound_gap_z C (m := m) (constructDataTerms C m d) (pu := s.pU m) (qu := s.qU)
    (pz := s.pZ m) (qz := s.qZ) (o := qzOptimalMF C m (constructDataTerms C m d) s.qU)
    (by rw [qzOptimalMF_eq, Posts.pZ, if_pos hs]) (by rw [Posts.pZ, if_pos hs]; exact h.Kz) hp.2 ho
  refine ⟨_, _, rfl, rfl, by linarith [c18_nonneg C.z hp.2 ho], ?_⟩
  rw [← c18_zero_iff C.z hp.2 ho, ← g, sub_eq_zero, eq_comm]

/-- **C24** Likewise for `u`. -/
theorem c24_u (h : m.Valid) (s : Posts ι κ) (hs : s.qi = 0) (hp : s.Proper) (d : List (ℝ × ℝ)) :
    ∃ a b, MeanField.elbo C m s d none = .ok a ∧ MeanField.elbo C m s d (some "u") = .ok b ∧ a ≤ b ∧
      (a = b ↔ s.qU = quOptimalMF C m (constructDataTerms C m d) s.qZ) := by
  have ho := quOptimalMF_posDef C h d hp.2
  have g := bound_gap_u C (m := m) (constructDataTerms C m d) (pu := s.pU m) (qu := s.qU)
    (pz := s.pZ m) (qz := s.qZ) (o := quOptimalMF C m (constructDataTerms C m d) s.qZ)
    (by rw [quOptimalMF_eq, Posts.pU, if_pos hs]) (by rw [Posts.pU, if_pos hs]; exact h.Ku) hp.1 ho
  refine ⟨_, _, rfl, rfl, by linarith [c18_nonneg C.u hp.1 ho], ?_⟩
  rw [← c18_zero_iff C.u hp.1 ho, ← g, sub_eq_zero, eq_comm]

/-- **C24** Any other value of `collapsed` is rejected. -/
theorem c24_invalid (s : Posts ι κ) (d : List (ℝ × ℝ)) (c : String) (hu : c ≠ "u") (hz : c ≠ "z") :
    MeanField.elbo C m s d (some c) = .error .valueError := by
  simp [MeanField.elbo, hu, hz]

/-- In the example the bound is strictly below the collapsed one. -/
example (D : Chols (Fin 1) (Fin 1)) : ∃ a b, MeanField.elbo D exInst (exPosts 0) [] none = .ok a ∧
    MeanField.elbo D exInst (exPosts 0) [] (some "z") = .ok b ∧ a < b := by
  obtain ⟨a, b, ha, hb, hle, hiff⟩ := c24_z D exInst_valid (exPosts 0) rfl
    ⟨Matrix.PosDef.one, Matrix.PosDef.one⟩ []
  refine ⟨a, b, ha, hb, lt_of_le_of_ne hle fun e => ?_⟩
  have := congrFun (congrArg NatNormal.lam (hiff.1 e)) 0
  simp [exPosts, Posts.qZ, qzOptimalMF, qOptimal, constructDataTerms] at this

end Gpcm
