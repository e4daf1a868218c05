import Verif.Props.UnitProps

/-!
# Property C138: the unit of the observations

In another unit of the observations, with the amplitude of the filter and the variance of the noise converted, the posterior
is the same and predictions are converted.
-/

open Matrix Real MeasureTheory

namespace Gpcm

/-- The observations in a unit that is `s` times smaller. -/
def Spec.scaleData (s : ℝ) (d : List (ℝ × ℝ)) : List (ℝ × ℝ) := d.map fun p => (p.1, s * p.2)

/-- The same operation on the observations in a unit that is `s` times smaller. -/
def Spec.scaleOp (s : ℝ) : Session.Op → Session.Op
  | .fit d iters => .fit (Spec.scaleData s d) iters
  | .condition d => .condition (Spec.scaleData s d)
  | .elbo d => .elbo (Spec.scaleData s d)

/-- A prediction, mean and variance, in a unit that is `s` times smaller. -/
def Spec.scalePred (s : ℝ) (p : ℝ × ℝ) : ℝ × ℝ := (s * p.1, s ^ 2 * p.2)

section
variable {ι κ : Type}

/-- What the approximation works with if the function is multiplied by `s`. -/
def Spec.rescaleY (s : ℝ) (m : Inst ι κ) : Inst ι κ :=
  { m with
    noise := s ^ 2 * m.noise
    iHx := fun a b => s ^ 2 * m.iHx a b
    iUx := s ^ 2 • m.iUx
    iHz := fun t => s ^ 2 • m.iHz t
    iUz := fun t => s • m.iUz t }

/-- The terms if the function is multiplied by `s`. -/
def Terms.rescaleY (s : ℝ) (ts : Terms ι κ) : Terms ι κ where
  n := ts.n
  iHx := ts.iHx.map fun x => s ^ 2 * x
  iUx := s ^ 2 • ts.iUx
  iHz := ts.iHz.map fun I => s ^ 2 • I
  iUz := ts.iUz.map fun I => s • I
  KuSq := ts.KuSq.map fun I => s ^ 2 • I
  KzSq := ts.KzSq.map fun I => s ^ 2 • I
  ASum := s ^ 2 • ts.ASum
  BSum := s ^ 2 • ts.BSum
  cSum := s ^ 2 * ts.cSum

/-- The terms if the function is multiplied by `s`. -/
def DataTerms.rescaleY (s : ℝ) (ts : DataTerms ι κ) : DataTerms ι κ :=
  { ts.toTerms.rescaleY s with
    y := ts.y.map (s * ·)
    iUzSum := s ^ 2 • ts.iUzSum }

/-- The session if the function is multiplied by `s`. -/
def Session.rescaleY (s : ℝ) (a : Session ι κ) : Session ι κ := { a with ts := a.ts.map (DataTerms.rescaleY s) }

variable [Fintype ι] [DecidableEq ι] [Fintype κ] [DecidableEq κ] {s : ℝ} (hs : s ≠ 0) (C : Chols ι κ) (m : Inst ι κ)

theorem constructTerms_rescaleY (t : List ℝ) : constructTerms C (Spec.rescaleY s m) t = (constructTerms C m t).rescaleY s := by
  have h1 : (Spec.rescaleY s m).KuInv C = m.KuInv C := rfl
  have h2 : (Spec.rescaleY s m).KzInv C = m.KzInv C := rfl
  have h3 : ∀ I : Matrix ι κ ℝ, (s • I)ᵀ * m.KuInv C * (s • I) = s ^ 2 • (Iᵀ * m.KuInv C * I) := fun I => by
    rw [transpose_smul, Matrix.smul_mul, Matrix.smul_mul, Matrix.mul_smul, smul_smul, sq]
  have h4 : ∀ I : Matrix ι κ ℝ, (s • I) * m.KzInv C * (s • I)ᵀ = s ^ 2 • (I * m.KzInv C * Iᵀ) := fun I => by
    rw [transpose_smul, Matrix.smul_mul, Matrix.smul_mul, Matrix.mul_smul, smul_smul, sq]
  have hsum : ∀ (f : ℝ → ℝ), (t.map fun x => s ^ 2 * f x).sum = s ^ 2 * (t.map f).sum := fun f => by
    rw [← smul_eq_mul, ← sum_map_smul, List.map_map]
    rfl
  have hsumK : ∀ (f : ℝ → Matrix κ κ ℝ), (t.map fun x => s ^ 2 • f x).sum = s ^ 2 • (t.map f).sum := fun f => by
    rw [← sum_map_smul, List.map_map]
    rfl
  have hsumI : ∀ (f : ℝ → Matrix ι ι ℝ), (t.map fun x => s ^ 2 • f x).sum = s ^ 2 • (t.map f).sum := fun f => by
    rw [← sum_map_smul, List.map_map]
    rfl
  unfold constructTerms
  rw [h1, h2]
  simp only [Spec.rescaleY, Terms.rescaleY, List.map_map, Function.comp_def, h3, h4, Terms.mk.injEq, true_and, hsum, hsumK,
    hsumI, frob_smul_right]
  refine ⟨?_, ?_, ?_⟩
  · rw [smul_sub, smul_comm]
  · rw [smul_sub]
  · ring

theorem constructDataTerms_rescaleY (d : List (ℝ × ℝ)) :
    constructDataTerms C (Spec.rescaleY s m) (Spec.scaleData s d) = (constructDataTerms C m d).rescaleY s := by
  have e : (Spec.scaleData s d).map Prod.fst = d.map Prod.fst := by
    simp only [Spec.scaleData, List.map_map, Function.comp_def]
  unfold constructDataTerms DataTerms.rescaleY
  rw [e, constructTerms_rescaleY C m]
  simp only [DataTerms.mk.injEq, true_and]
  constructor
  · simp only [Spec.scaleData, List.map_map, Function.comp_def]
  · rw [← sum_map_smul, Spec.scaleData, List.map_map, List.map_map]
    congr 1
    refine List.map_congr_left fun p _ => ?_
    simp only [Function.comp_apply, Spec.rescaleY, smul_smul]
    congr 1
    ring

variable (ts : DataTerms ι κ)
include hs

omit [Fintype ι] [DecidableEq ι] [DecidableEq κ] [Fintype κ] in
theorem qOptimal_rescaleY {α β : Type} [Fintype β] (noise : ℝ) (A : Matrix α α ℝ) (I : List (Matrix α β ℝ))
    (Isum : Matrix α β ℝ) (K : Matrix α α ℝ) (x : β → ℝ) (x2 : Option (Matrix β β ℝ)) :
    qOptimal (s ^ 2 * noise) (s ^ 2 • A) (I.map fun I => s • I) (s ^ 2 • Isum) K x x2 = qOptimal noise A I Isum K x x2 := by
  have h2 : s ^ 2 ≠ 0 := pow_ne_zero 2 hs
  have e1 : ∀ J : Matrix α β ℝ, vecMulVec ((s • J) *ᵥ x) ((s • J) *ᵥ x) = s ^ 2 • vecMulVec (J *ᵥ x) (J *ᵥ x) := fun J => by
    rw [smul_mulVec, smul_vecMulVec, vecMulVec_smul, smul_smul, sq]
  have e2 : ∀ (J : Matrix α β ℝ) (X : Matrix β β ℝ), (s • J) * X * (s • J)ᵀ = s ^ 2 • (J * X * Jᵀ) := fun J X => by
    rw [transpose_smul, Matrix.smul_mul, Matrix.smul_mul, Matrix.mul_smul, smul_smul, sq]
  have e3 : 1 / (s ^ 2 * noise) * s ^ 2 = 1 / noise := by
    rw [one_div, one_div, mul_inv, mul_right_comm, inv_mul_cancel₀ h2, one_mul]
  have e4 : ∀ f : Matrix α β ℝ → Matrix α α ℝ, (I.map fun J => s ^ 2 • f J).sum = s ^ 2 • (I.map f).sum := fun f => by
    rw [← sum_map_smul, List.map_map]
    rfl
  cases x2 with
  | none =>
    simp only [qOptimal, List.map_map, Function.comp_def, e1]
    simp only [e4, ← smul_add, smul_smul, e3, smul_mulVec]
  | some X =>
    simp only [qOptimal, List.map_map, Function.comp_def, e2]
    simp only [e4, ← smul_add, smul_smul, e3, smul_mulVec]

omit [Fintype ι] [DecidableEq ι] [DecidableEq κ] in
theorem quOptimal_rescaleY (z : κ → ℝ) : quOptimal (Spec.rescaleY s m) (ts.rescaleY s) z = quOptimal m ts z :=
  qOptimal_rescaleY hs ..

theorem quOptimalMF_rescaleY (q : NatNormal κ) :
    quOptimalMF C (Spec.rescaleY s m) (ts.rescaleY s) q = quOptimalMF C m ts q :=
  qOptimal_rescaleY hs ..

omit [DecidableEq ι] [Fintype κ] [DecidableEq κ] in
theorem qzOptimal_rescaleY (u : ι → ℝ) : qzOptimal (Spec.rescaleY s m) (ts.rescaleY s) u = qzOptimal m ts u := by
  have e : (ts.iUz.map fun I => s • I).map transpose = (ts.iUz.map transpose).map fun I => s • I := by
    simp only [List.map_map, Function.comp_def, transpose_smul]
  show qOptimal (s ^ 2 * m.noise) (s ^ 2 • ts.BSum) ((ts.iUz.map fun I => s • I).map transpose) (s ^ 2 • ts.iUzSum)ᵀ m.Kz u none = _
  rw [e, transpose_smul, qOptimal_rescaleY hs]
  rfl

theorem qzOptimalMF_rescaleY (q : NatNormal ι) :
    qzOptimalMF C (Spec.rescaleY s m) (ts.rescaleY s) q = qzOptimalMF C m ts q := by
  have e : (ts.iUz.map fun I => s • I).map transpose = (ts.iUz.map transpose).map fun I => s • I := by
    simp only [List.map_map, Function.comp_def, transpose_smul]
  show qOptimal (s ^ 2 * m.noise) (s ^ 2 • ts.BSum) ((ts.iUz.map fun I => s • I).map transpose) (s ^ 2 • ts.iUzSum)ᵀ m.Kz _ _ = _
  rw [e, transpose_smul, qOptimal_rescaleY hs]
  rfl

theorem caStep_rescaleY : caStep C (Spec.rescaleY s m) (ts.rescaleY s) = caStep C m ts := by
  funext p
  simp only [caStep, quOptimalMF_rescaleY hs, qzOptimalMF_rescaleY hs]

/-- Coordinate ascent gives the same posterior. -/
theorem fitMeanFieldCA_rescaleY (p : Posts ι κ) (d : List (ℝ × ℝ)) (iters : ℤ) :
    fitMeanFieldCA C (Spec.rescaleY s m) p (Spec.scaleData s d) iters = fitMeanFieldCA C m p d iters := by
  simp only [fitMeanFieldCA, constructDataTerms_rescaleY C m, caStep_rescaleY hs]

theorem gibbs_rescaleY (W : ℕ → (ι → ℝ) × (κ → ℝ)) :
    gibbsU C (Spec.rescaleY s m) (ts.rescaleY s) W = gibbsU C m ts W ∧
      gibbsZ C (Spec.rescaleY s m) (ts.rescaleY s) W = gibbsZ C m ts W := by
  constructor
  · funext j z
    simp only [gibbsU, quOptimal_rescaleY hs]
  · funext j u
    simp only [gibbsZ, qzOptimal_rescaleY hs]

/-! ## Bounds -/

omit [Fintype ι] [DecidableEq ι] [Fintype κ] [DecidableEq κ] in
theorem noise_rescaleY (h : m.noise ≠ 0) : log (2 * π * (s ^ 2 * m.noise)) = log (2 * π * m.noise) + 2 * log s := by
  have h2 : 2 * π * m.noise ≠ 0 := mul_ne_zero (by positivity) h
  rw [show 2 * π * (s ^ 2 * m.noise) = 2 * π * m.noise * s ^ 2 by ring, log_mul h2 (pow_ne_zero 2 hs), log_pow]
  norm_num

omit hs in
theorem sum_sq_scale (l : List ℝ) : (l.map fun y => (s * y) ^ 2).sum = s ^ 2 * (l.map fun y => y ^ 2).sum := by
  rw [← smul_eq_mul (s ^ 2), ← sum_map_smul, List.map_map]
  congr 1
  refine List.map_congr_left fun y _ => ?_
  simp only [Function.comp_apply, smul_eq_mul, mul_pow]

theorem meanFieldBound_rescaleY (h : m.noise ≠ 0) (pu qu : NatNormal ι) (pz qz : NatNormal κ) :
    meanFieldBound C (Spec.rescaleY s m) (ts.rescaleY s) pu qu pz qz = meanFieldBound C m ts pu qu pz qz - ts.n * log s := by
  have e2 : ∀ (I : Matrix ι κ ℝ) (X : Matrix κ κ ℝ), (s • I) * X * (s • I)ᵀ = s ^ 2 • (I * X * Iᵀ) := fun I X => by
    rw [transpose_smul, Matrix.smul_mul, Matrix.smul_mul, Matrix.mul_smul, smul_smul, sq]
  have e4 : (ts.iUz.map fun I => s ^ 2 * frob (I * qz.m2 C.z * Iᵀ) (qu.m2 C.u)).sum =
      s ^ 2 * (ts.iUz.map fun I => frob (I * qz.m2 C.z * Iᵀ) (qu.m2 C.u)).sum := by
    rw [← smul_eq_mul (s ^ 2), ← sum_map_smul, List.map_map]
    rfl
  have e5 : ∑ i, qu.mean C.u i * ((s ^ 2 • ts.iUzSum) *ᵥ qz.mean C.z) i =
      s ^ 2 * ∑ i, qu.mean C.u i * (ts.iUzSum *ᵥ qz.mean C.z) i := by
    rw [Finset.mul_sum]
    refine Finset.sum_congr rfl fun i _ => ?_
    rw [smul_mulVec, Pi.smul_apply, smul_eq_mul]
    ring
  simp only [meanFieldBound, Spec.rescaleY, DataTerms.rescaleY, Terms.rescaleY, sum_sq_scale, List.map_map,
    Function.comp_def, e2, frob_smul_left, e4, e5, noise_rescaleY hs m h]
  have e6 : ∀ X : ℝ, -0.5 / (s ^ 2 * m.noise) * (s ^ 2 * X) = -0.5 / m.noise * X := fun X => by
    rw [mul_comm (s ^ 2) m.noise, ← div_div, ← mul_assoc, div_mul_cancel₀ _ (pow_ne_zero 2 hs)]
  have e7 : ∀ a b c d e f : ℝ, s ^ 2 * a + s ^ 2 * b + s ^ 2 * c + s ^ 2 * d + s ^ 2 * e - 2 * (s ^ 2 * f) =
      s ^ 2 * (a + b + c + d + e - 2 * f) := fun a b c d e f => by ring
  rw [e7, e6]
  ring

theorem logZu_rescaleY (h : m.noise ≠ 0) (u : ι → ℝ) :
    logZu C (Spec.rescaleY s m) (ts.rescaleY s) u = logZu C m ts u - ts.n * log s := by
  have e5 : ∑ i, u i * ((s ^ 2 • ts.ASum) *ᵥ u) i = s ^ 2 * ∑ i, u i * (ts.ASum *ᵥ u) i := by
    rw [Finset.mul_sum]
    refine Finset.sum_congr rfl fun i _ => ?_
    rw [smul_mulVec, Pi.smul_apply, smul_eq_mul]
    ring
  simp only [logZu, qzOptimal_rescaleY hs]
  simp only [Spec.rescaleY, DataTerms.rescaleY, Terms.rescaleY, List.map_map, Function.comp_def, sum_sq_scale, e5, noise_rescaleY hs m h, ← mul_add]
  rw [mul_div_mul_left _ _ (pow_ne_zero 2 hs)]
  ring

/-- The bounds change by the logarithm of the unit for every observation. -/
theorem bounds_rescaleY (h : m.noise ≠ 0) (p : Posts ι κ) (d : List (ℝ × ℝ)) :
    (∀ c, MeanField.elbo C (Spec.rescaleY s m) p (Spec.scaleData s d) c =
      (MeanField.elbo C m p d c).map fun b => b - d.length * log s) ∧
      ∀ us : List (ι → ℝ), elboCollapsedZ C (Spec.rescaleY s m) p (Spec.scaleData s d) us =
        (elboCollapsedZ C m p d us).map fun b => b - d.length * log s := by
  have en : (constructDataTerms C m d).n = d.length := by
    show (d.map Prod.fst).length = _
    rw [List.length_map]
  have eu : p.pU (Spec.rescaleY s m) = p.pU m := rfl
  have ez : p.pZ (Spec.rescaleY s m) = p.pZ m := rfl
  refine ⟨fun c => ?_, fun us => ?_⟩
  · simp only [MeanField.elbo, constructDataTerms_rescaleY C m, eu, ez, quOptimalMF_rescaleY hs,
      qzOptimalMF_rescaleY hs, meanFieldBound_rescaleY hs C m _ h, en]
    cases c with
    | none => rfl
    | some c =>
      simp only
      split
      · rfl
      · split <;> rfl
  · simp only [elboCollapsedZ, constructDataTerms_rescaleY C m, eu]
    by_cases h0 : us.length = 0
    · simp only [h0, if_true]
      rfl
    · rw [if_neg h0, if_neg h0]
      simp only [Except.map]
      congr 1
      have e : us.map (logZu C (Spec.rescaleY s m) ((constructDataTerms C m d).rescaleY s)) =
          us.map fun u => logZu C m (constructDataTerms C m d) u - d.length * log s :=
        List.map_congr_left fun u _ => by rw [logZu_rescaleY hs C m _ h, en]
      have e2 : ∀ (f : (ι → ℝ) → ℝ) (k : ℝ), (us.map fun u => f u - k).sum = (us.map f).sum - us.length * k := fun f k => by
        clear e h0
        induction us with
        | nil => simp
        | cons u us ih =>
          rw [List.map_cons, List.sum_cons, ih, List.map_cons, List.sum_cons, List.length_cons]
          push_cast
          ring
      have h0' : (us.length : ℝ) ≠ 0 := Nat.cast_ne_zero.2 h0
      rw [e, e2]
      field_simp
      ring

/-! ## Predictions -/

omit hs in
theorem predictMoments_rescaleY (t : List ℝ) (u : ι → ℝ) (u2 : Matrix ι ι ℝ) (z : κ → ℝ) (z2 : Matrix κ κ ℝ) :
    predictMoments C (Spec.rescaleY s m) (constructTerms C (Spec.rescaleY s m) t) u u2 z z2 =
      (predictMoments C m (constructTerms C m t) u u2 z z2).map (Spec.scalePred s) := by
  have h1 : (Spec.rescaleY s m).KuInv C = m.KuInv C := rfl
  have h2 : (Spec.rescaleY s m).KzInv C = m.KzInv C := rfl
  have h3 : ∀ I : Matrix ι κ ℝ, (s • I)ᵀ * m.KuInv C * (s • I) = s ^ 2 • (Iᵀ * m.KuInv C * I) := fun I => by
    rw [transpose_smul, Matrix.smul_mul, Matrix.smul_mul, Matrix.mul_smul, smul_smul, sq]
  have h4 : ∀ (I : Matrix ι κ ℝ) (X : Matrix κ κ ℝ), (s • I) * X * (s • I)ᵀ = s ^ 2 • (I * X * Iᵀ) := fun I X => by
    rw [transpose_smul, Matrix.smul_mul, Matrix.smul_mul, Matrix.mul_smul, smul_smul, sq]
  rw [predictMoments_map, predictMoments_map, List.map_map]
  refine List.map_congr_left fun x _ => ?_
  simp only [Function.comp_apply, predictMoment, h1, h2]
  simp only [Spec.rescaleY, h3, h4, ← smul_sub, frob_smul_left, frob_smul_right, Spec.scalePred, Prod.mk.injEq]
  constructor
  · rw [smul_mulVec, dotProduct_smul, smul_eq_mul]
  · ring

omit hs [Fintype ι] [DecidableEq ι] [Fintype κ] [DecidableEq κ] in
theorem toMeanVar_rescaleY (p : ℝ × ℝ) : toMeanVar (Spec.rescaleY s m) (Spec.scalePred s p) = Spec.scalePred s (toMeanVar m p) := by
  simp only [toMeanVar, Spec.scalePred, Spec.rescaleY, Prod.mk.injEq, true_and]
  ring

omit hs in
theorem meanField_predict_rescaleY (p : Posts ι κ) (t : List ℝ) :
    MeanField.predict C (Spec.rescaleY s m) p t = (MeanField.predict C m p t).map (Spec.scalePred s) := by
  have eu : p.pU (Spec.rescaleY s m) = p.pU m := rfl
  have ez : p.pZ (Spec.rescaleY s m) = p.pZ m := rfl
  simp only [MeanField.predict, eu, ez, predictMoments_rescaleY, List.map_map]
  exact List.map_congr_left fun x _ => toMeanVar_rescaleY m x

omit hs [Fintype ι] [DecidableEq ι] [Fintype κ] [DecidableEq κ] in
theorem meanMoments_scale (l : List (List (ℝ × ℝ))) :
    meanMoments (l.map fun r => r.map (Spec.scalePred s)) = (meanMoments l).map fun r => r.map (Spec.scalePred s) := by
  have hadd : ∀ a b, addMoments (a.map (Spec.scalePred s)) (b.map (Spec.scalePred s)) =
      (addMoments a b).map (Spec.scalePred s) := fun a b => by
    simp only [addMoments, List.zipWith_map, List.map_zipWith]
    congr 1
    funext x y
    simp only [Spec.scalePred, Prod.mk_add_mk, Prod.fst_add, Prod.snd_add, mul_add]
  have hf : ∀ (as : List (List (ℝ × ℝ))) (a : List (ℝ × ℝ)), (as.map fun r => r.map (Spec.scalePred s)).foldl addMoments
      (a.map (Spec.scalePred s)) = (as.foldl addMoments a).map (Spec.scalePred s) := fun as => by
    induction as with
    | nil => exact fun a => rfl
    | cons b as ih => exact fun a => by rw [List.map_cons, List.foldl_cons, List.foldl_cons, hadd, ih]
  cases l with
  | nil => rfl
  | cons a as =>
    simp only [meanMoments, List.map_cons, hf, List.map_map, List.length_map, Except.map]
    congr 1
    refine List.map_congr_left fun p _ => ?_
    simp only [Function.comp_apply, Spec.scalePred, mul_div_assoc]

theorem structured_predict_rescaleY (ts : Option (DataTerms ι κ)) (t : List ℝ) (us : List (ι → ℝ)) :
    Structured.predict C (Spec.rescaleY s m) (ts.map (DataTerms.rescaleY s)) t us =
      (Structured.predict C m ts t us).map fun r => r.map (Spec.scalePred s) := by
  cases us with
  | nil => rfl
  | cons u us =>
    cases ts with
    | none => rfl
    | some ts =>
      have e2 : (u :: us).map (fun u =>
          let qz := qzOptimal (Spec.rescaleY s m) (ts.rescaleY s) u
          predictMoments C (Spec.rescaleY s m) (constructTerms C (Spec.rescaleY s m) t) u (vecMulVec u u) (qz.mean C.z)
            (qz.m2 C.z)) = ((u :: us).map fun u =>
          let qz := qzOptimal m ts u
          predictMoments C m (constructTerms C m t) u (vecMulVec u u) (qz.mean C.z) (qz.m2 C.z)).map
            fun r => r.map (Spec.scalePred s) := by
        rw [List.map_map]
        refine List.map_congr_left fun v _ => ?_
        simp only [Function.comp_apply, qzOptimal_rescaleY hs, predictMoments_rescaleY]
      simp only [Structured.predict, Option.map_some] at e2 ⊢
      rw [e2, meanMoments_scale]
      generalize meanMoments _ = r
      cases r with
      | error e => rfl
      | ok l =>
        simp only [Except.map, List.map_map]
        congr 1
        exact List.map_congr_left fun x _ => toMeanVar_rescaleY m x

/-! ## Sessions -/

theorem Session.run_rescaleY (W : ℕ → (ι → ℝ) × (κ → ℝ)) (a : Session ι κ) (o : Session.Op) :
    (a.rescaleY s).run C (Spec.rescaleY s m) W (Spec.scaleOp s o) = (a.run C m W o).rescaleY s := by
  cases o with
  | fit d iters =>
    have e := fun ts => gibbs_rescaleY (s := s) hs C m ts W
    simp only [Spec.scaleOp, Session.run, Session.fitStructured, constructDataTerms_rescaleY C m, (e _).1, (e _).2,
      Session.rescaleY]
    split <;> rfl
  | condition d => simp only [Spec.scaleOp, Session.run, Session.condition, constructDataTerms_rescaleY C m, Session.rescaleY,
      Option.map_some]
  | elbo d =>
    simp only [Spec.scaleOp, Session.run, Session.elboStructured, Session.fitCA, Session.rescaleY,
      fitMeanFieldCA_rescaleY hs]

theorem Session.ops_rescaleY (W : ℕ → (ι → ℝ) × (κ → ℝ)) (a : Session ι κ) (ops : List Session.Op) :
    (ops.map (Spec.scaleOp s)).foldl (Session.run C (Spec.rescaleY s m) W) (a.rescaleY s) =
      (ops.foldl (Session.run C m W) a).rescaleY s := by
  induction ops generalizing a with
  | nil => rw [List.map_nil, List.foldl_nil, List.foldl_nil]
  | cons o ops ih => rw [List.map_cons, List.foldl_cons, List.foldl_cons, Session.run_rescaleY hs, ih]

theorem Session.predict_rescaleY (a : Session ι κ) (t : List ℝ) (ws : List (ι → ℝ)) :
    (a.rescaleY s).predictStructured C (Spec.rescaleY s m) t ws =
      (a.predictStructured C m t ws).map fun r => r.map (Spec.scalePred s) := by
  have e : (a.rescaleY s).samplePU C (Spec.rescaleY s m) ws = a.samplePU C m ws := rfl
  simp only [Session.predictStructured, e]
  cases a.samplePU C m ws with
  | error e => simp only [Except.map, bind1]
  | ok us =>
    simp only [bind1]
    exact structured_predict_rescaleY hs C m a.ts t us

end

/-- The observations in another unit give the same posterior, predictions are converted, and the bounds change by the
logarithm of the unit for every observation. -/
structure Spec.ScaledObs {ι κ : Type} [Fintype ι] [DecidableEq ι] [Fintype κ] [DecidableEq κ] (s : ℝ) (C : Chols ι κ)
    (W : ℕ → (ι → ℝ) × (κ → ℝ)) (m m' : Inst ι κ) : Prop where
  /-- Predictions of the structured scheme after anything that was done. -/
  structured : ∀ (qu : ℕ → NatNormal ι) (qz : ℕ → NatNormal κ) (ops : List Session.Op) (t : List ℝ) (ws : List (ι → ℝ)),
    ((ops.map (Spec.scaleOp s)).foldl (Session.run C m' W) (.fresh qu qz)).predictStructured C m' t ws =
      ((ops.foldl (Session.run C m W) (.fresh qu qz)).predictStructured C m t ws).map fun r => r.map (Spec.scalePred s)
  /-- Coordinate ascent, and predictions of the mean-field scheme afterwards. -/
  ca : ∀ (p : Posts ι κ) (d : List (ℝ × ℝ)) (iters : ℤ) (t : List ℝ),
    fitMeanFieldCA C m' p (Spec.scaleData s d) iters = fitMeanFieldCA C m p d iters ∧
    MeanField.predict C m' p t = (MeanField.predict C m p t).map (Spec.scalePred s)
  /-- The bound of the mean-field scheme. -/
  bound : ∀ (p : Posts ι κ) (d : List (ℝ × ℝ)) (c : Option String), MeanField.elbo C m' p (Spec.scaleData s d) c =
    (MeanField.elbo C m p d c).map fun b => b - d.length * log s
  /-- The bound of the structured scheme. -/
  collapsed : ∀ (p : Posts ι κ) (d : List (ℝ × ℝ)) (us : List (ι → ℝ)), elboCollapsedZ C m' p (Spec.scaleData s d) us =
    (elboCollapsedZ C m p d us).map fun b => b - d.length * log s

theorem scaledObs {ι κ : Type} [Fintype ι] [DecidableEq ι] [Fintype κ] [DecidableEq κ] {s : ℝ} (hs : s ≠ 0) (C : Chols ι κ)
    (m : Inst ι κ) (h : m.noise ≠ 0) (W : ℕ → (ι → ℝ) × (κ → ℝ)) : Spec.ScaledObs s C W m (Spec.rescaleY s m) :=
  ⟨fun qu qz ops t ws => by
      have e : (Session.fresh qu qz).rescaleY s = Session.fresh qu qz := rfl
      rw [← Session.predict_rescaleY hs, ← Session.ops_rescaleY hs, e],
    fun p d iters t => ⟨fitMeanFieldCA_rescaleY hs C m p d iters, meanField_predict_rescaleY C m p t⟩,
    fun p d => (bounds_rescaleY hs C m h p d).1, fun p d => (bounds_rescaleY hs C m h p d).2⟩

/-- The same for a model whose inducing variables of the filter change their scale too. Coordinate ascent stops at an absolute
tolerance, so its predictions are compared after equally many iterations. -/
structure Spec.ScaledObsU {ι κ : Type} [Fintype ι] [DecidableEq ι] [Fintype κ] [DecidableEq κ] (s : ℝ) (C C' : Chols ι κ)
    (W : ℕ → (ι → ℝ) × (κ → ℝ)) (m m' : Inst ι κ) : Prop where
  /-- Predictions of the structured scheme after fits and conditionings. -/
  structured : ∀ (qu qu' : ℕ → NatNormal ι) (qz : ℕ → NatNormal κ) (ops : List Session.Op), (∀ d, .elbo d ∉ ops) →
    ∀ (t : List ℝ) (ws : List (ι → ℝ)),
    ((ops.map (Spec.scaleOp s)).foldl (Session.run C' m' W) (.fresh qu' qz)).predictStructured C' m' t ws =
      ((ops.foldl (Session.run C m W) (.fresh qu qz)).predictStructured C m t ws).map fun r => r.map (Spec.scalePred s)
  /-- Predictions of the mean-field scheme after coordinate ascent. -/
  ca : ∀ (p p' : Posts ι κ), p'.qi = p.qi → p'.qz = p.qz → ∀ (d : List (ℝ × ℝ)) (iters : ℤ) (t : List ℝ),
    (fitMeanFieldCA C m p d iters).2 ≠ [] →
    (fitMeanFieldCA C' m' p' (Spec.scaleData s d) iters).2.length = (fitMeanFieldCA C m p d iters).2.length →
    MeanField.predict C' m' (fitMeanFieldCA C' m' p' (Spec.scaleData s d) iters).1.condition t =
      (MeanField.predict C m (fitMeanFieldCA C m p d iters).1.condition t).map (Spec.scalePred s)
  /-- The bound of the mean-field scheme. -/
  bound : ∀ (p : Posts ι κ) (d : List (ℝ × ℝ)) (c : Option String),
    MeanField.elbo C' m' (p.rescaleU s) (Spec.scaleData s d) c = (MeanField.elbo C m p d c).map fun b => b - d.length * log s
  /-- The bound of the structured scheme. -/
  collapsed : ∀ (p : Posts ι κ) (d : List (ℝ × ℝ)) (us : List (ι → ℝ)),
    elboCollapsedZ C' m' (p.rescaleU s) (Spec.scaleData s d) (us.map fun u => s⁻¹ • u) =
      (elboCollapsedZ C m p d us).map fun b => b - d.length * log s

theorem scaledObsU {ι κ : Type} [Fintype ι] [DecidableEq ι] [Fintype κ] [DecidableEq κ] {s : ℝ} (hs : s ≠ 0) (C C' : Chols ι κ)
    (hu : Spec.CholScaled s C.u C'.u) (hz : C'.z = C.z) (m : Inst ι κ) (h : m.noise ≠ 0) (W : ℕ → (ι → ℝ) × (κ → ℝ)) :
    Spec.ScaledObsU s C C' W m (Spec.rescaleU s (Spec.rescaleY s m)) := by
  have S := scaledObs hs C m h W
  refine ⟨fun qu qu' qz ops ho t ws => ?_, fun p p' hi hq d iters t h0 hl => ?_, fun p d c => ?_, fun p d us => ?_⟩
  · rw [← S.structured]
    have r : (Session.fresh qu qz).Rescaled s (Session.fresh qu' qz) := ⟨rfl, rfl, fun i => rfl, rfl, rfl⟩
    refine (r.ops hs C C' hu hz _ W _ fun d hd => ?_).predict hs C C' hu hz _ t ws
    obtain ⟨o, ho', e⟩ := List.mem_map.1 hd
    cases o with
    | fit d iters => cases e
    | condition d => cases e
    | elbo d => exact ho d ho'
  · have e := fun t => S.ca p d iters t
    rw [← (e []).1] at h0 hl
    rw [ca_rescaleU hs C C' hu hz _ p p' hi hq _ iters t h0 hl, (S.ca _ d iters t).2, (e []).1]
  · rw [(bounds_rescaleU hs C C' hu hz _ p _).1, S.bound]
  · rw [(bounds_rescaleU hs C C' hu hz _ p _).2, S.collapsed]

/-! ## The GPCM -/

/-- The model for observations in a unit that is `s` times smaller. -/
def GpcmModel.scaleObs (s : ℝ) (g : GpcmModel) : GpcmModel := { g with noise := s ^ 2 * g.noise, alphaT := s * g.alphaT }

section spec
variable (g : GpcmModel) (s : ℝ)

theorem Spec.kH_scale (x y : ℝ) : Spec.kH (g.scaleObs s).params x y = s ^ 2 * Spec.kH g.params x y := by
  simp only [Spec.kH, GpcmModel.params, GpcmModel.scaleObs]
  ring

theorem Spec.kXS_scale (x y : ℝ) : Spec.kXS (g.scaleObs s).params x y = Spec.kXS g.params x y := rfl

theorem Spec.gate_scale (x : ℝ) : Spec.gate (g.scaleObs s).params x = Spec.gate g.params x := rfl

theorem Spec.kz_scale (x y : ℝ) : Spec.kz (g.scaleObs s).params x y = Spec.kz g.params x y := rfl

theorem Spec.ihx_scale (x y : ℝ) : Spec.ihx (g.scaleObs s).params x y = s ^ 2 * Spec.ihx g.params x y := by
  unfold Spec.ihx
  simp only [Spec.kH_scale, Spec.gate_scale]
  rw [← integral_const_mul]
  congr 1
  funext τ
  ring

theorem Spec.iux_scale (t1 t2 u1 u2 : ℝ) :
    Spec.iux (g.scaleObs s).params t1 t2 u1 u2 = s ^ 2 * (s ^ 2 * Spec.iux g.params t1 t2 u1 u2) := by
  unfold Spec.iux
  simp only [Spec.kH_scale, Spec.gate_scale]
  rw [← integral_const_mul, ← integral_const_mul]
  congr 1
  funext τ
  ring

theorem Spec.ihz_scale (t z1 z2 : ℝ) : Spec.ihz (g.scaleObs s).params t z1 z2 = s ^ 2 * Spec.ihz g.params t z1 z2 := by
  unfold Spec.ihz
  simp only [Spec.kH_scale, Spec.gate_scale, Spec.kXS_scale]
  rw [← integral_const_mul]
  congr 1
  funext τ₁
  rw [← integral_const_mul]
  congr 1
  funext τ₂
  ring

theorem Spec.iuz_scale (t u z : ℝ) : Spec.iuz (g.scaleObs s).params t u z = s * (s * Spec.iuz g.params t u z) := by
  unfold Spec.iuz
  simp only [Spec.kH_scale, Spec.gate_scale, Spec.kXS_scale]
  rw [← integral_const_mul, ← integral_const_mul]
  congr 1
  funext τ
  ring

end spec

variable (R : Runtime ℝ)

/-- **C138** What the approximation works with is converted. -/
theorem c138_gpcm_integrals {s : ℝ} (hs : s ≠ 0) (g : GpcmModel) (hm : g.Moderate) {nu nz : ℕ}
    {m : Inst (Fin nu) (Fin nz)} (h : g.Returns R m) :
    (g.scaleObs s).Returns R (Spec.rescaleU s (Spec.rescaleY s m)) := by
  have hm' : (g.scaleObs s).Moderate := ⟨mul_ne_zero hs hm.1, hm.2, hm.3, hm.4, hm.5, hm.6, hm.7, hm.8⟩
  have eu : (g.scaleObs s).tU = g.tU := rfl
  have ez : (g.scaleObs s).tZ = g.tZ := rfl
  refine ⟨?_, ?_, ?_, fun a b => ?_, ?_, fun t => ?_, fun t => ?_⟩
  · rw [c65_K_u]
    have := h.Ku
    rw [c65_K_u] at this
    show _ = Except.ok (rows (s ^ 2 • m.Ku))
    rw [rows_smul, ← Except.ok.inj this]
    simp only [List.map_map, Function.comp_def, Spec.kH_scale, eu]
  · rw [c65_K_z R _ hm']
    have := h.Kz
    rwa [c65_K_z R _ hm] at this
  · exact congrArg (s ^ 2 * ·) h.noise
  · rw [c65_i_hx R _ hm', Spec.ihx_scale]
    have := h.iHx a b
    rw [c65_i_hx R _ hm] at this
    exact congrArg (fun x => Except.ok (s ^ 2 * x)) (Except.ok.inj this)
  · rw [c65_I_ux_default R _ hm']
    have := h.iUx
    rw [c65_I_ux_default R _ hm] at this
    show _ = Except.ok (rows (s ^ 2 • s ^ 2 • m.iUx))
    rw [rows_smul, rows_smul, ← Except.ok.inj this]
    simp only [List.map_map, Function.comp_def, Spec.iux_scale, eu]
  · rw [c65_I_hz R _ hm']
    have := h.iHz t
    rw [c65_I_hz R _ hm] at this
    show _ = Except.ok (t.map fun a => rows (s ^ 2 • m.iHz a))
    simp only [rows_smul]
    rw [show (fun a => (rows (m.iHz a)).map fun r => r.map (s ^ 2 * ·)) =
      (fun l : List (List ℝ) => l.map fun r => r.map (s ^ 2 * ·)) ∘ fun a => rows (m.iHz a) from rfl,
      ← List.map_map, ← Except.ok.inj this, List.map_map]
    simp only [List.map_map, Function.comp_def, Spec.ihz_scale, ez]
  · rw [c65_I_uz R _ hm']
    have := h.iUz t
    rw [c65_I_uz R _ hm] at this
    show _ = Except.ok (t.map fun a => rows (s • s • m.iUz a))
    simp only [rows_smul]
    rw [show (fun a => ((rows (m.iUz a)).map fun r => r.map (s * ·)).map fun r => r.map (s * ·)) =
      (fun l : List (List ℝ) => (l.map fun r => r.map (s * ·)).map fun r => r.map (s * ·)) ∘ fun a => rows (m.iUz a) from rfl,
      ← List.map_map, ← Except.ok.inj this, List.map_map]
    simp only [List.map_map, Function.comp_def, Spec.iuz_scale, eu, ez]

/-- **C138** A GPCM or CGPCM gives converted predictions for observations in another unit. -/
theorem c138_gpcm {s : ℝ} (hs : s ≠ 0) (g : GpcmModel) (hm : g.Moderate) (hn : g.noise ≠ 0) {nu nz : ℕ}
    {m m' : Inst (Fin nu) (Fin nz)} (h : g.Returns R m) (h' : (g.scaleObs s).Returns R m') (C C' : Chols (Fin nu) (Fin nz))
    (hu : Spec.CholScaled s C.u C'.u) (hz : C'.z = C.z) (W : ℕ → (Fin nu → ℝ) × (Fin nz → ℝ)) :
    Spec.ScaledObsU s C C' W m m' := by
  rw [h'.unique R (c138_gpcm_integrals R hs g hm h)]
  exact scaledObsU hs C C' hu hz m (h.noise ▸ hn) W

/-- **C138** Constructing the GPCM with converted amplitude and noise. -/
theorem c138_gpcm_new (s alphaT : ℝ) (a : GpcmArgs) (ha : a.alphaT = some alphaT) :
    GpcmModel.new { a with noise := s ^ 2 * a.noise, alphaT := some (s * alphaT) } =
      (GpcmModel.new a).map (GpcmModel.scaleObs s) := by
  unfold GpcmModel.new
  simp only [map_bind1, initAlphaT, ha]
  rfl

/-- The hypotheses can be met. -/
example (C : Chols (Fin 2) (Fin 3)) : ∃ (m m' : Inst (Fin 2) (Fin 3)) (C' : Chols (Fin 2) (Fin 3)),
    exUnit.Moderate ∧ exUnit.noise ≠ 0 ∧ exUnit.Returns R m ∧ (exUnit.scaleObs 100).Returns R m' ∧
      Spec.CholScaled 100 C.u C'.u ∧ C'.z = C.z := by
  have hm : exUnit.Moderate := by constructor <;> norm_num [exUnit]
  obtain ⟨Cu, hu⟩ := exists_cholScaled (show (100 : ℝ) ≠ 0 by norm_num) C.u
  have hr := (exUnit.isInst_iff_returns R _).1 (exUnit.specInst_isInst R hm)
  exact ⟨exUnit.specInst, _, ⟨Cu, C.z⟩, hm, by norm_num [exUnit], hr, c138_gpcm_integrals R (by norm_num) exUnit hm hr, hu, rfl⟩

/-! ## The RGPCM -/

/-- The model for observations in a unit that is `s` times smaller. -/
def RgpcmModel.scaleObs (s : ℝ) (g : RgpcmModel) : RgpcmModel := { g with noise := s ^ 2 * g.noise, alphaT := s * g.alphaT }

section
variable (s : ℝ) (g : RgpcmModel)

theorem RgpcmModel.hxCos_scale (n t : ℝ) : (g.scaleObs s).hxCos n t = s ^ 2 * g.hxCos n t := by
  simp only [RgpcmModel.hxCos, RgpcmModel.scaleObs]
  ring

theorem RgpcmModel.hxSin_scale (n t : ℝ) : (g.scaleObs s).hxSin n t = s ^ 2 * g.hxSin n t := by
  simp only [RgpcmModel.hxSin, RgpcmModel.scaleObs]
  ring

theorem RgpcmModel.computeIhz_scale {perm : List ℕ} (hp : IsArgsort perm g.ms) (hM : 0 ≤ g.mMax) (t : ℝ) :
    (g.scaleObs s).computeIhz perm t = (g.computeIhz perm t).map fun l => l.map fun r => r.map (s ^ 2 * ·) := by
  have e : ∀ m n, Rgpcm.hzEntry (g.scaleObs s) m n t = s ^ 2 * Rgpcm.hzEntry g m n t := fun m n => by
    unfold Rgpcm.hzEntry
    simp only [RgpcmModel.hxCos_scale, RgpcmModel.hxSin_scale, ← mul_add, ← mul_sub, mul_left_comm (0.5 : ℝ), ← mul_ite]
    rfl
  rw [Rgpcm.computeIhz_eq g hp hM, Rgpcm.computeIhz_eq (g.scaleObs s) hp hM]
  simp only [e, Except.map, List.map_map, Function.comp_def]
  rfl

theorem RgpcmModel.computeIuz_scale {perm : List ℕ} (hp : IsArgsort perm g.ms) (hM : 0 ≤ g.mMax) (t : ℝ) :
    (g.scaleObs s).computeIuz perm t = (g.computeIuz perm t).map fun l => l.map fun r => r.map (s * ·) := by
  rw [Rgpcm.computeIuz_eq g hp hM, Rgpcm.computeIuz_eq (g.scaleObs s) hp hM]
  simp only [Except.map, List.map_map, Function.comp_def]
  congr 1
  refine List.map_congr_left fun u _ => List.map_congr_left fun k _ => ?_
  show s * g.alphaT * g.gammaT * _ * _ = _
  rw [mul_assoc s, mul_assoc s, mul_assoc s]
  rfl

theorem RgpcmModel.iuxEntry_scale (t1 t2 u1 u2 : ℝ) :
    (g.scaleObs s).iuxEntry t1 t2 u1 u2 = (g.iuxEntry t1 t2 u1 u2).map (s ^ 2 * ·) := by
  simp only [RgpcmModel.iuxEntry, RgpcmModel.scaleObs]
  by_cases h : g.gamma - g.alpha = 0 ∨ (g.gamma - g.alpha) ^ 2 - g.lam ^ 2 = 0
  · rw [if_pos h]
    exact if_pos h
  · rw [if_neg h]
    refine (if_neg h).trans ?_
    simp only [Except.map]
    congr 1
    ring

end

/-- **C138** What the approximation works with is converted. -/
theorem c138_rgpcm_integrals (s : ℝ) (g : RgpcmModel) (hM : 0 ≤ g.mMax) {perm : List ℕ} (hp : IsArgsort perm g.ms) {nu nz : ℕ}
    {m : Inst (Fin nu) (Fin nz)} (h : g.Returns perm m) : (g.scaleObs s).Returns perm (Spec.rescaleY s m) := by
  refine ⟨h.Ku, h.Kz, congrArg (s ^ 2 * ·) h.noise, fun a b => ?_, ?_, fun t => ?_, fun t => ?_⟩
  · show s ^ 2 * m.iHx a b = _
    rw [h.iHx]
    simp only [RgpcmModel.ihx, RgpcmModel.scaleObs]
    ring
  · show mapE (fun x => mapE (fun y => (g.scaleObs s).iuxEntry 0 0 x y) g.tU) g.tU = .ok (rows (s ^ 2 • m.iUx))
    simp only [RgpcmModel.iuxEntry_scale, mapE_out]
    rw [h.iUx, rows_smul]
    rfl
  · rw [RgpcmModel.computeIhz_scale s g hp hM, h.iHz]
    show _ = Except.ok (rows (s ^ 2 • m.iHz t))
    rw [rows_smul]
    rfl
  · rw [RgpcmModel.computeIuz_scale s g hp hM, h.iUz]
    show _ = Except.ok (rows (s • m.iUz t))
    rw [rows_smul]
    rfl

/-- **C138** An RGPCM gives converted predictions for observations in another unit. -/
theorem c138_rgpcm {s : ℝ} (hs : s ≠ 0) (g : RgpcmModel) (hn : g.noise ≠ 0) (hM : 0 ≤ g.mMax) {perm : List ℕ}
    (hp : IsArgsort perm g.ms) {nu nz : ℕ} {m m' : Inst (Fin nu) (Fin nz)} (h : g.Returns perm m)
    (h' : (g.scaleObs s).Returns perm m') (C : Chols (Fin nu) (Fin nz)) (W : ℕ → (Fin nu → ℝ) × (Fin nz → ℝ)) :
    Spec.ScaledObs s C W m m' := by
  rw [h'.unique (c138_rgpcm_integrals s g hM hp h)]
  exact scaledObs hs C m (h.noise ▸ hn) W

/-- **C138** Constructing the RGPCM with converted amplitude and noise. -/
theorem c138_rgpcm_new (s alphaT : ℝ) (x : RgpcmArgs) (hx : x.alphaT = some alphaT) :
    RgpcmModel.new { x with noise := s ^ 2 * x.noise, alphaT := some (s * alphaT) } =
      (RgpcmModel.new x).map (RgpcmModel.scaleObs s) := by
  unfold RgpcmModel.new
  simp only [map_bind1, hx, Option.getD_some]
  rfl

/-- Every RGPCM that has integrals has them in every unit. -/
example (s : ℝ) (g : RgpcmModel) (hM : 0 ≤ g.mMax) {perm : List ℕ} (hp : IsArgsort perm g.ms) (h1 : g.gamma ≠ g.alpha)
    (h2 : (g.gamma - g.alpha) ^ 2 ≠ g.lam ^ 2) : ∃ m m' : Inst (Fin g.tU.length) (Fin g.ms.length),
    g.Returns perm m ∧ (g.scaleObs s).Returns perm m' := by
  obtain ⟨m, h⟩ := g.exists_returns hM hp h1 h2
  exact ⟨m, _, h, c138_rgpcm_integrals s g hM hp h⟩

end Gpcm
