import Verif.Lemmas.RotateLemmas
import Verif.Lemmas.GibbsLemmas
import Verif.Props.ConvergeProps

/-!
# C141: which factor of a matrix the library returns does not matter

The approximation inverts matrices through factors `A = L Lᵀ`. A positive definite matrix has many: the columns may be
multiplied by an orthogonal matrix, in particular their signs may change. Everything but the samples is the same for all of
them, and a sample is the one that other factors give from rotated random numbers.
-/

open Matrix Real MeasureTheory

namespace Gpcm

variable {ι κ : Type} [Fintype ι] [DecidableEq ι] [Fintype κ] [DecidableEq κ]

section
variable {n : Type} [Fintype n] [DecidableEq n] (C C' : CholOracle n)

theorem NatNormal.mean_factor {q : NatNormal n} (h : q.prec.PosDef) : q.mean C = q.mean C' := by
  rw [NatNormal.mean_eq C h, NatNormal.mean_eq C' h]

theorem NatNormal.m2_factor {q : NatNormal n} (h : q.prec.PosDef) : q.m2 C = q.m2 C' := by
  rw [NatNormal.m2_eq C h, NatNormal.m2_eq C' h, NatNormal.var_eq C h, NatNormal.var_eq C' h, NatNormal.mean_factor C C' h]

theorem iqf_factor {A : Matrix n n ℝ} (h : A.PosDef) (b : n → ℝ) : iqf C A b = iqf C' A b := by
  rw [iqf_eq C h, iqf_eq C' h]

/-- **C141** A sample is the one that any other factor gives from rotated random numbers; standard normal random numbers stay
standard normal under a rotation. -/
theorem c141_sample {q : NatNormal n} (h : q.prec.PosDef) :
    ∃ O : Matrix n n ℝ, Spec.Orthogonal O ∧ ∀ w, q.sample C' w = q.sample C (O *ᵥ w) := by
  have hC := C.spec _ h
  have hC' := C'.spec _ h
  have hL : IsUnit (C.chol q.prec).det := by
    have e := congrArg det hC
    rw [det_mul, det_transpose] at e
    refine isUnit_iff_ne_zero.2 fun e0 => h.det_pos.ne' ?_
    rw [← e, e0, zero_mul]
  have hL' : IsUnit (C'.chol q.prec).det := by
    have e := congrArg det hC'
    rw [det_mul, det_transpose] at e
    refine isUnit_iff_ne_zero.2 fun e0 => h.det_pos.ne' ?_
    rw [← e, e0, zero_mul]
  generalize hX : C.chol q.prec = X at hC hL
  generalize hY : C'.chol q.prec = Y at hC' hL'
  have e : X * Xᵀ = Y * Yᵀ := hC.trans hC'.symm
  have hl : (X⁻¹ * Y) * (X⁻¹ * Y)ᵀ = 1 := by
    rw [transpose_mul, Matrix.mul_assoc, ← Matrix.mul_assoc Y, ← e, Matrix.mul_assoc, ← transpose_mul,
      nonsing_inv_mul _ hL, transpose_one, Matrix.mul_one, nonsing_inv_mul _ hL]
  refine ⟨X⁻¹ * Y, ⟨mul_eq_one_comm.1 hl, hl⟩, fun w => ?_⟩
  rw [NatNormal.sample_eq C' h, NatNormal.sample_eq C h, NatNormal.mean_factor C C' h]
  unfold NatNormal.samplePart
  rw [hX, hY, mulVec_mulVec, Matrix.mul_assoc, ← Matrix.mul_assoc X, mul_nonsing_inv _ hL, Matrix.one_mul]

/-- **C141** So the distribution of a sample is the same. -/
theorem c141_law {q : NatNormal n} (h : q.prec.PosDef) (f : (n → ℝ) → ℝ) :
    ∫ w, stdPdf w * f (q.sample C w) = ∫ w, stdPdf w * f (q.sample C' w) := by
  rw [(NatNormal.expect_sample C h f).2, (NatNormal.expect_sample C' h f).2]
  simp only [NatNormal.logpdf_eq, NatNormal.mean_factor C C' h]

end

variable (C C' : Chols ι κ) {m : Inst ι κ} (h : m.Valid)
include h

theorem constructTerms_factor (t : List ℝ) : constructTerms C m t = constructTerms C' m t := by
  simp only [constructTerms, Inst.KuInv, Inst.KzInv, pdInv_eq _ h.Ku, pdInv_eq _ h.Kz]

theorem constructDataTerms_factor (d : List (ℝ × ℝ)) : constructDataTerms C m d = constructDataTerms C' m d := by
  simp only [constructDataTerms, constructTerms_factor C C' h]

omit h in
theorem quOptimalMF_factor (ts : DataTerms ι κ) {q : NatNormal κ} (hq : q.prec.PosDef) :
    quOptimalMF C m ts q = quOptimalMF C' m ts q := by
  simp only [quOptimalMF, NatNormal.mean_factor C.z C'.z hq, NatNormal.m2_factor C.z C'.z hq]

omit h in
theorem qzOptimalMF_factor (ts : DataTerms ι κ) {q : NatNormal ι} (hq : q.prec.PosDef) :
    qzOptimalMF C m ts q = qzOptimalMF C' m ts q := by
  simp only [qzOptimalMF, NatNormal.mean_factor C.u C'.u hq, NatNormal.m2_factor C.u C'.u hq]

omit h in
theorem meanFieldBound_factor (ts : DataTerms ι κ) {pu qu : NatNormal ι} {pz qz : NatNormal κ} (h1 : pu.prec.PosDef)
    (h2 : qu.prec.PosDef) (h3 : pz.prec.PosDef) (h4 : qz.prec.PosDef) :
    meanFieldBound C m ts pu qu pz qz = meanFieldBound C' m ts pu qu pz qz := by
  simp only [meanFieldBound, NatNormal.mean_factor C.u C'.u h2, NatNormal.m2_factor C.u C'.u h2,
    NatNormal.mean_factor C.z C'.z h4, NatNormal.m2_factor C.z C'.z h4, c18_oracle C.u C'.u h2 h1, c18_oracle C.z C'.z h4 h3]

theorem predictMoments_factor (ts : Terms ι κ) (u : ι → ℝ) (u2 : Matrix ι ι ℝ) (z : κ → ℝ) (z2 : Matrix κ κ ℝ) :
    predictMoments C m ts u u2 z z2 = predictMoments C' m ts u u2 z z2 := by
  simp only [predictMoments, predictMoment, Inst.KuInv, Inst.KzInv, pdInv_eq _ h.Ku, pdInv_eq _ h.Kz]

/-- All posteriors have positive definite precisions, as the constraints of the variables guarantee. -/
def Spec.Proper (s : Posts ι κ) : Prop := ∀ i, (s.qu i).prec.PosDef ∧ (s.qz i).prec.PosDef

theorem Spec.Proper.pU {s : Posts ι κ} (hs : Spec.Proper s) : (s.pU m).prec.PosDef := by
  unfold Posts.pU
  split
  · exact h.Ku
  · exact (hs _).1

theorem Spec.Proper.pZ {s : Posts ι κ} (hs : Spec.Proper s) : (s.pZ m).prec.PosDef := by
  unfold Posts.pZ
  split
  · exact h.Kz
  · exact (hs _).2

/-- **C141** Predictions of the mean-field scheme. -/
theorem c141_predict {s : Posts ι κ} (hs : Spec.Proper s) (t : List ℝ) :
    MeanField.predict C m s t = MeanField.predict C' m s t := by
  simp only [MeanField.predict, constructTerms_factor C C' h, predictMoments_factor C C' h,
    NatNormal.mean_factor C.u C'.u (hs.pU h), NatNormal.m2_factor C.u C'.u (hs.pU h),
    NatNormal.mean_factor C.z C'.z (hs.pZ h), NatNormal.m2_factor C.z C'.z (hs.pZ h)]

/-- **C141** Predictions of the structured scheme, given the samples, after conditioning on `d`. -/
theorem c141_predict_structured (d : List (ℝ × ℝ)) (t : List ℝ) (us : List (ι → ℝ)) :
    Structured.predict C m (some (constructDataTerms C m d)) t us =
      Structured.predict C' m (some (constructDataTerms C' m d)) t us := by
  have e1 : ∀ u, (qzOptimal m (constructDataTerms C' m d) u).mean C.z = (qzOptimal m (constructDataTerms C' m d) u).mean C'.z :=
    fun u => NatNormal.mean_factor C.z C'.z (qzOptimal_posDef C' h d u)
  have e2 : ∀ u, (qzOptimal m (constructDataTerms C' m d) u).m2 C.z = (qzOptimal m (constructDataTerms C' m d) u).m2 C'.z :=
    fun u => NatNormal.m2_factor C.z C'.z (qzOptimal_posDef C' h d u)
  simp only [Structured.predict, constructTerms_factor C C' h t, constructDataTerms_factor C C' h d,
    predictMoments_factor C C' h]
  cases us with
  | nil => rfl
  | cons u us => simp only [e1, e2]

/-- **C141** All bounds of the mean-field scheme. -/
theorem c141_elbo {s : Posts ι κ} (hs : Spec.Proper s) (d : List (ℝ × ℝ)) (c : Option String) :
    MeanField.elbo C m s d c = MeanField.elbo C' m s d c := by
  have hu := (hs s.qi).1
  have hz := (hs s.qi).2
  have hu' := quOptimalMF_posDef C' h d hz
  have hz' := qzOptimalMF_posDef C' h d hu
  simp only [MeanField.elbo, constructDataTerms_factor C C' h]
  cases c with
  | none => simp only [meanFieldBound_factor C C' _ (hs.pU h) hu (hs.pZ h) hz, Posts.qU, Posts.qZ]
  | some c =>
    simp only [Posts.qU, Posts.qZ, qzOptimalMF_factor C C' _ hu, quOptimalMF_factor C C' _ hz]
    rw [meanFieldBound_factor C C' _ (hs.pU h) hu (hs.pZ h) hz', meanFieldBound_factor C C' _ (hs.pU h) hu' (hs.pZ h) hz]

/-- **C141** The bound of the structured scheme, given the samples. -/
theorem c141_collapsed {s : Posts ι κ} (hs : Spec.Proper s) (d : List (ℝ × ℝ)) (us : List (ι → ℝ)) :
    elboCollapsedZ C m s d us = elboCollapsedZ C' m s d us := by
  have e : logZu C m (constructDataTerms C' m d) = logZu C' m (constructDataTerms C' m d) := by
    funext u
    simp only [logZu, iqf_factor C.z C'.z (qzOptimal_posDef C' h d u)]
  simp only [elboCollapsedZ, constructDataTerms_factor C C' h, e, Posts.qU, c18_oracle C.u C'.u (hs s.qi).1 (hs.pU h)]

omit h in
theorem caLoop_congr {σ : Type} {step step' : σ → σ} {diff : σ → σ → ℝ} {good : σ → Prop} (hg : ∀ p, good p → good (step p))
    (hs : ∀ p, good p → step p = step' p) (k : ℕ) (p : σ) (hp : good p) : caLoop step diff k p = caLoop step' diff k p := by
  induction k generalizing p with
  | zero => rfl
  | succ k ih => simp only [caLoop, ← hs p hp, ih _ (hg p hp)]

/-- **C141** Fits by coordinate ascent, with the arguments of the callback. -/
theorem c141_fit {s : Posts ι κ} (hs : Spec.Proper s) (d : List (ℝ × ℝ)) (iters : ℤ) :
    fitMeanFieldCA C m s d iters = fitMeanFieldCA C' m s d iters := by
  have e := caLoop_congr (step := caStep C m (constructDataTerms C m d)) (step' := caStep C' m (constructDataTerms C' m d))
    (diff := Pair.diff) (good := Pair.Proper) (fun p hp => ?_) (fun p hp => ?_) iters.toNat ⟨s.qU, s.qZ⟩ (hs s.qi)
  · simp only [fitMeanFieldCA, e]
  · exact ⟨quOptimalMF_posDef C h d hp.2, qzOptimalMF_posDef C h d (quOptimalMF_posDef C h d hp.2)⟩
  · simp only [caStep, constructDataTerms_factor C C' h, quOptimalMF_factor C C' _ hp.2]
    rw [qzOptimalMF_factor C C']
    exact quOptimalMF_posDef C' h d hp.2

/-- **C141** What is fitted can be used again: its precisions are positive definite. -/
theorem c141_proper {s : Posts ι κ} (hs : Spec.Proper s) (d : List (ℝ × ℝ)) (iters : ℤ) :
    Spec.Proper (fitMeanFieldCA C m s d iters).1 := by
  have e : ∀ (k : ℕ) (p : Pair ι κ), p.Proper → (caLoop (caStep C m (constructDataTerms C m d)) Pair.diff k p).1.Proper := by
    intro k
    induction k with
    | zero => exact fun p hp => hp
    | succ k ih =>
      intro p hp
      have := caStep_proper C h d hp
      simp only [caLoop]
      split
      · exact this
      · exact ih _ this
  have hp := e iters.toNat ⟨s.qU, s.qZ⟩ (hs s.qi)
  intro i
  simp only [fitMeanFieldCA, Posts.setU, Posts.setZ]
  by_cases hi : i = s.qi
  · simp only [hi, if_true]
    exact hp
  · simp only [hi, if_false]
    exact hs i

/-- A factor with the opposite sign is another one. -/
example (C : CholOracle (Fin 1)) : ∃ C' : CholOracle (Fin 1), C'.chol 1 ≠ C.chol 1 := by
  refine ⟨⟨fun A => -C.chol A, fun A hA => ?_⟩, fun e => ?_⟩
  · rw [transpose_neg, neg_mul_neg, C.spec A hA]
  · have h0 : C.chol (1 : Matrix (Fin 1) (Fin 1) ℝ) = 0 := by
      ext i j
      have e' : -C.chol 1 i j = C.chol 1 i j := congrFun (congrFun e i) j
      show C.chol 1 i j = 0
      linarith
    have := C.spec 1 Matrix.PosDef.one
    rw [h0, Matrix.zero_mul] at this
    exact zero_ne_one this

example (D D' : Chols (Fin 1) (Fin 1)) : fitMeanFieldCA D exInst (exPosts 0) [(0, 1), (1, -2)] 100 =
    fitMeanFieldCA D' exInst (exPosts 0) [(0, 1), (1, -2)] 100 :=
  c141_fit D D' exInst_valid (fun _ => ⟨Matrix.PosDef.one, Matrix.PosDef.one⟩) _ _

end Gpcm
