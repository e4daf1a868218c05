import Verif.Props.TimeProps
import Verif.Props.OrderProps

/-!
# Property C137: the unit of time

In another unit of time the inducing variables of the filter have another scale. Everything that a user sees is the same.
-/

open Matrix Real MeasureTheory

namespace Gpcm

/-! ## The scale of the inducing variables -/

/-- The Cholesky factor of `s ^ 2 A` is `s` times that of `A`, as for the factor with positive diagonal. -/
def Spec.CholScaled {n : Type} [Fintype n] [DecidableEq n] (s : ℝ) (C C' : CholOracle n) : Prop :=
  ∀ A, C'.chol (s ^ 2 • A) = s • C.chol A

/-- Such factorisations exist. -/
theorem exists_cholScaled {n : Type} [Fintype n] [DecidableEq n] {s : ℝ} (hs : s ≠ 0) (C : CholOracle n) :
    ∃ C', Spec.CholScaled s C C' := by
  have h2 : 0 < (s ^ 2)⁻¹ := by positivity
  refine ⟨⟨fun B => s • C.chol ((s ^ 2)⁻¹ • B), fun B hB => ?_⟩, fun A => ?_⟩
  · have hp : ((s ^ 2)⁻¹ • B).PosDef := hB.smul h2
    rw [transpose_smul, Matrix.smul_mul, Matrix.mul_smul, C.spec _ hp, smul_smul, smul_smul]
    rw [show s * s * (s ^ 2)⁻¹ = 1 by field_simp, one_smul]
  · show s • C.chol ((s ^ 2)⁻¹ • s ^ 2 • A) = _
    rw [smul_smul, inv_mul_cancel₀ (by positivity), one_smul]

section normal
variable {n : Type} [Fintype n] [DecidableEq n] {s : ℝ} (hs : s ≠ 0) {C C' : CholOracle n} (hC : Spec.CholScaled s C C')

/-- The distribution of a vector that is divided by `s`. -/
def NatNormal.shrink (s : ℝ) (q : NatNormal n) : NatNormal n := ⟨s • q.lam, s ^ 2 • q.prec⟩

include hs in
theorem inv_smul_chol (L : Matrix n n ℝ) : (s • L)⁻¹ = s⁻¹ • L⁻¹ := by
  by_cases h : IsUnit L.det
  · exact Matrix.inv_smul' L (Units.mk0 s hs) h
  · rw [Matrix.nonsing_inv_apply_not_isUnit _ h, Matrix.nonsing_inv_apply_not_isUnit, smul_zero]
    rw [det_smul]
    intro h'
    exact h (isUnit_of_mul_isUnit_right h')

include hs

theorem cholsolve_shrink {k : Type} (L : Matrix n n ℝ) (b : Matrix n k ℝ) :
    cholsolve (s • L) b = (s ^ 2)⁻¹ • cholsolve L b := by
  unfold cholsolve
  rw [transpose_smul, inv_smul_chol hs, inv_smul_chol hs, Matrix.smul_mul, Matrix.smul_mul, Matrix.mul_smul, smul_smul,
    ← mul_inv, ← sq]

theorem cholsolveVec_shrink (L : Matrix n n ℝ) (b : n → ℝ) :
    cholsolveVec (s • L) b = (s ^ 2)⁻¹ • cholsolveVec L b := by
  unfold cholsolveVec
  rw [transpose_smul, inv_smul_chol hs, inv_smul_chol hs, smul_mulVec, smul_mulVec, mulVec_smul, smul_smul,
    ← mul_inv, ← sq]

omit hs in
theorem cholsolveVec_smul (L : Matrix n n ℝ) (a : ℝ) (b : n → ℝ) : cholsolveVec L (a • b) = a • cholsolveVec L b := by
  unfold cholsolveVec
  rw [mulVec_smul, mulVec_smul]

include hC

theorem pdInv_shrink (A : Matrix n n ℝ) : pdInv C' (s ^ 2 • A) = (s ^ 2)⁻¹ • pdInv C A := by
  unfold pdInv
  rw [hC, cholsolve_shrink hs]

variable (q : NatNormal n)

theorem NatNormal.mean_shrink : (q.shrink s).mean C' = s⁻¹ • q.mean C := by
  unfold NatNormal.mean NatNormal.shrink
  rw [hC, cholsolveVec_shrink hs, cholsolveVec_smul, smul_smul]
  congr 1
  field_simp

theorem NatNormal.sample_shrink (w : n → ℝ) : (q.shrink s).sample C' w = s⁻¹ • q.sample C w := by
  unfold NatNormal.sample NatNormal.shrink
  rw [hC, smul_mulVec, ← smul_add, cholsolveVec_shrink hs, cholsolveVec_smul, smul_smul]
  congr 1
  field_simp

theorem NatNormal.m2_shrink : (q.shrink s).m2 C' = (s ^ 2)⁻¹ • q.m2 C := by
  have e : ∀ (L : Matrix n n ℝ) (a : ℝ) (b : Matrix n n ℝ), cholsolve L (a • b) = a • cholsolve L b := fun L a b => by
    unfold cholsolve
    rw [Matrix.mul_smul, Matrix.mul_smul]
  unfold NatNormal.m2 NatNormal.shrink
  have e2 : vecMulVec (s • q.lam) (s • q.lam) = s ^ 2 • vecMulVec q.lam q.lam := by
    rw [smul_vecMulVec, vecMulVec_smul, smul_smul, ← sq]
  rw [hC, e2, ← smul_add, e, cholsolve_shrink hs (C.chol q.prec) (q.prec + _), smul_smul, mul_inv_cancel₀ (by positivity),
    one_smul, cholsolve_shrink hs]

theorem NatNormal.kl_shrink (p : NatNormal n) : (q.shrink s).kl C' (p.shrink s) = q.kl C p := by
  have e1 : (C'.chol (q.shrink s).prec)⁻¹ * C'.chol (p.shrink s).prec = (C.chol q.prec)⁻¹ * C.chol p.prec := by
    unfold NatNormal.shrink
    rw [hC, hC, inv_smul_chol hs, Matrix.smul_mul, Matrix.mul_smul, smul_smul, inv_mul_cancel₀ hs, one_smul]
  have e2 : (q.shrink s).mean C' - (p.shrink s).mean C' = s⁻¹ • (q.mean C - p.mean C) := by
    rw [NatNormal.mean_shrink hs hC, NatNormal.mean_shrink hs hC, smul_sub]
  have e3 : ∀ d : n → ℝ, (∑ i, ((p.shrink s).prec *ᵥ (s⁻¹ • d)) i * (s⁻¹ • d) i) = ∑ i, (p.prec *ᵥ d) i * d i := fun d => by
    refine Finset.sum_congr rfl fun i _ => ?_
    simp only [NatNormal.shrink, smul_mulVec, mulVec_smul, Pi.smul_apply, smul_eq_mul]
    field_simp
  unfold NatNormal.kl
  simp only [e1, e2, e3]

end normal

section
variable {ι κ : Type} [Fintype ι] [DecidableEq ι] [Fintype κ] [DecidableEq κ]

/-- What the approximation works with if the inducing variables of the filter are multiplied by `s`. -/
def Spec.rescaleU (s : ℝ) (m : Inst ι κ) : Inst ι κ :=
  { m with
    Ku := s ^ 2 • m.Ku
    iUx := s ^ 2 • m.iUx
    iUz := fun t => s • m.iUz t }

/-- The terms if the inducing variables of the filter are multiplied by `s`. -/
def Terms.rescaleU (s : ℝ) (ts : Terms ι κ) : Terms ι κ :=
  { ts with
    iUx := s ^ 2 • ts.iUx
    iUz := ts.iUz.map fun I => s • I
    KzSq := ts.KzSq.map fun I => s ^ 2 • I
    ASum := s ^ 2 • ts.ASum }

/-- The terms if the inducing variables of the filter are multiplied by `s`. -/
def DataTerms.rescaleU (s : ℝ) (ts : DataTerms ι κ) : DataTerms ι κ :=
  { ts.toTerms.rescaleU s with
    y := ts.y
    iUzSum := s • ts.iUzSum }

variable {s : ℝ} (hs : s ≠ 0) (C C' : Chols ι κ) (hu : Spec.CholScaled s C.u C'.u) (hz : C'.z = C.z) (m : Inst ι κ)

theorem sum_map_smul {α : Type} [AddCommGroup α] [Module ℝ α] (a : ℝ) (l : List α) : (l.map fun x => a • x).sum = a • l.sum :=
  (List.smul_sum ..).symm

include hs hu hz

theorem constructTerms_rescaleU (t : List ℝ) :
    constructTerms C' (Spec.rescaleU s m) t = (constructTerms C m t).rescaleU s := by
  have h1 : (Spec.rescaleU s m).KuInv C' = (s ^ 2)⁻¹ • m.KuInv C := pdInv_shrink hs hu _
  have h2 : (Spec.rescaleU s m).KzInv C' = m.KzInv C := by
    unfold Inst.KzInv
    rw [hz]
    rfl
  have h3 : ∀ I : Matrix ι κ ℝ, (s • I)ᵀ * ((s ^ 2)⁻¹ • m.KuInv C) * (s • I) = Iᵀ * m.KuInv C * I := fun I => by
    simp only [transpose_smul, Matrix.smul_mul, Matrix.mul_smul, smul_smul]
    convert one_smul ℝ _ using 2
    field_simp
  have h4 : ∀ I : Matrix ι κ ℝ, (s • I) * m.KzInv C * (s • I)ᵀ = s ^ 2 • (I * m.KzInv C * Iᵀ) := fun I => by
    rw [transpose_smul, Matrix.smul_mul, Matrix.smul_mul, Matrix.mul_smul, smul_smul, sq]
  have e : (s ^ 2)⁻¹ * s ^ 2 = 1 := inv_mul_cancel₀ (by positivity)
  unfold constructTerms
  rw [h1, h2]
  have e1 : frob ((s ^ 2)⁻¹ • m.KuInv C) ((t.length : ℝ) • s ^ 2 • m.iUx) = frob (m.KuInv C) ((t.length : ℝ) • m.iUx) := by
    rw [smul_comm, frob_smul_left, frob_smul_right, ← mul_assoc, e, one_mul]
  have e2 : ∀ X : Matrix ι ι ℝ, frob ((s ^ 2)⁻¹ • m.KuInv C) (s ^ 2 • X) = frob (m.KuInv C) X := fun X => by
    rw [frob_smul_left, frob_smul_right, ← mul_assoc, e, one_mul]
  simp only [Spec.rescaleU, Terms.rescaleU, List.map_map, Function.comp_def, h3, h4, Terms.mk.injEq, true_and, e1, e2,
    and_true]
  rw [smul_sub, ← sum_map_smul, List.map_map, smul_comm]
  rfl

theorem constructDataTerms_rescaleU (d : List (ℝ × ℝ)) :
    constructDataTerms C' (Spec.rescaleU s m) d = (constructDataTerms C m d).rescaleU s := by
  unfold constructDataTerms DataTerms.rescaleU
  rw [constructTerms_rescaleU hs C C' hu hz m]
  simp only [DataTerms.mk.injEq, true_and]
  rw [← sum_map_smul, List.map_map]
  congr 1
  exact List.map_congr_left fun p _ => smul_comm _ _ _

variable (ts : DataTerms ι κ)

omit hs hu hz [Fintype ι] [DecidableEq ι] [DecidableEq κ] in
theorem quOptimal_rescaleU (z : κ → ℝ) :
    quOptimal (Spec.rescaleU s m) (ts.rescaleU s) z = (quOptimal m ts z).shrink s := by
  have e : ∀ I : Matrix ι κ ℝ, vecMulVec ((s • I) *ᵥ z) ((s • I) *ᵥ z) = s ^ 2 • vecMulVec (I *ᵥ z) (I *ᵥ z) := fun I => by
    rw [smul_mulVec, smul_vecMulVec, vecMulVec_smul, smul_smul, sq]
  simp only [quOptimal, qOptimal, Spec.rescaleU, DataTerms.rescaleU, Terms.rescaleU, NatNormal.shrink, List.map_map,
    Function.comp_def, e, NatNormal.mk.injEq]
  constructor
  · rw [smul_mulVec, smul_comm]
  · rw [show (fun x : Matrix ι κ ℝ => s ^ 2 • vecMulVec (x *ᵥ z) (x *ᵥ z)) =
      (fun X : Matrix ι ι ℝ => s ^ 2 • X) ∘ fun x => vecMulVec (x *ᵥ z) (x *ᵥ z) from rfl, ← List.map_map, sum_map_smul,
      ← smul_add, smul_comm, ← smul_add]

omit hu hz [DecidableEq ι] [Fintype κ] [DecidableEq κ] in
theorem qzOptimal_rescaleU (u : ι → ℝ) : qzOptimal (Spec.rescaleU s m) (ts.rescaleU s) (s⁻¹ • u) = qzOptimal m ts u := by
  have e : ∀ I : Matrix ι κ ℝ, (s • I)ᵀ *ᵥ (s⁻¹ • u) = Iᵀ *ᵥ u := fun I => by
    rw [transpose_smul, smul_mulVec, mulVec_smul, smul_smul, mul_inv_cancel₀ hs, one_smul]
  simp only [qzOptimal, qOptimal, Spec.rescaleU, DataTerms.rescaleU, Terms.rescaleU, List.map_map,
    Function.comp_def, e]

omit hs hu in
theorem quOptimalMF_rescaleU (q : NatNormal κ) :
    quOptimalMF C' (Spec.rescaleU s m) (ts.rescaleU s) q = (quOptimalMF C m ts q).shrink s := by
  have e : ∀ (I : Matrix ι κ ℝ) (X : Matrix κ κ ℝ), (s • I) * X * (s • I)ᵀ = s ^ 2 • (I * X * Iᵀ) := fun I X => by
    rw [transpose_smul, Matrix.smul_mul, Matrix.smul_mul, Matrix.mul_smul, smul_smul, sq]
  simp only [quOptimalMF, qOptimal, Spec.rescaleU, DataTerms.rescaleU, Terms.rescaleU, NatNormal.shrink, List.map_map,
    Function.comp_def, e, NatNormal.mk.injEq, hz]
  constructor
  · rw [smul_mulVec, smul_comm]
  · rw [show (fun x : Matrix ι κ ℝ => s ^ 2 • (x * q.m2 C.z * xᵀ)) =
      (fun X : Matrix ι ι ℝ => s ^ 2 • X) ∘ fun x => x * q.m2 C.z * xᵀ from rfl, ← List.map_map, sum_map_smul,
      ← smul_add, smul_comm, ← smul_add]

omit hz in
theorem qzOptimalMF_rescaleU (q : NatNormal ι) :
    qzOptimalMF C' (Spec.rescaleU s m) (ts.rescaleU s) (q.shrink s) = qzOptimalMF C m ts q := by
  have e : ∀ I : Matrix ι κ ℝ, (s • I)ᵀ * ((s ^ 2)⁻¹ • q.m2 C.u) * (s • I)ᵀᵀ = Iᵀ * q.m2 C.u * Iᵀᵀ := fun I => by
    simp only [transpose_smul, Matrix.smul_mul, Matrix.mul_smul, smul_smul]
    convert one_smul ℝ _ using 2
    field_simp
  have e2 : ∀ I : Matrix ι κ ℝ, (s • I)ᵀ *ᵥ (s⁻¹ • q.mean C.u) = Iᵀ *ᵥ q.mean C.u := fun I => by
    rw [transpose_smul, smul_mulVec, mulVec_smul, smul_smul, mul_inv_cancel₀ hs, one_smul]
  simp only [qzOptimalMF, qOptimal, Spec.rescaleU, DataTerms.rescaleU, Terms.rescaleU, List.map_map,
    Function.comp_def, NatNormal.mean_shrink hs hu, NatNormal.m2_shrink hs hu, e, e2]

/-! ## Bounds -/

theorem meanFieldBound_rescaleU (pu qu : NatNormal ι) (pz qz : NatNormal κ) :
    meanFieldBound C' (Spec.rescaleU s m) (ts.rescaleU s) (pu.shrink s) (qu.shrink s) pz qz =
      meanFieldBound C m ts pu qu pz qz := by
  have e : s ^ 2 * (s ^ 2)⁻¹ = 1 := mul_inv_cancel₀ (by positivity)
  have e1 : ∀ X Y : Matrix ι ι ℝ, frob (s ^ 2 • X) ((s ^ 2)⁻¹ • Y) = frob X Y := fun X Y => by
    rw [frob_smul_left, frob_smul_right, ← mul_assoc, e, one_mul]
  have e2 : ∀ (I : Matrix ι κ ℝ) (X : Matrix κ κ ℝ), (s • I) * X * (s • I)ᵀ = s ^ 2 • (I * X * Iᵀ) := fun I X => by
    rw [transpose_smul, Matrix.smul_mul, Matrix.smul_mul, Matrix.mul_smul, smul_smul, sq]
  have e3 : ∀ (x : ι → ℝ) (I : Matrix ι κ ℝ) (z : κ → ℝ), ∑ i, (s⁻¹ • x) i * ((s • I) *ᵥ z) i = ∑ i, x i * (I *ᵥ z) i :=
    fun x I z => Finset.sum_congr rfl fun i _ => by
      rw [smul_mulVec, Pi.smul_apply, Pi.smul_apply, smul_eq_mul, smul_eq_mul]
      field_simp
  simp only [meanFieldBound, NatNormal.mean_shrink hs hu, NatNormal.m2_shrink hs hu, NatNormal.kl_shrink hs hu, hz]
  simp only [Spec.rescaleU, DataTerms.rescaleU, Terms.rescaleU, List.map_map, Function.comp_def, e1, e2, e3]

omit hu in
theorem logZu_rescaleU (u : ι → ℝ) : logZu C' (Spec.rescaleU s m) (ts.rescaleU s) (s⁻¹ • u) = logZu C m ts u := by
  have e : ∑ i, (s⁻¹ • u) i * ((s ^ 2 • ts.ASum) *ᵥ (s⁻¹ • u)) i = ∑ i, u i * (ts.ASum *ᵥ u) i :=
    Finset.sum_congr rfl fun i _ => by
      rw [smul_mulVec, mulVec_smul, Pi.smul_apply, Pi.smul_apply, Pi.smul_apply, smul_eq_mul, smul_eq_mul, smul_eq_mul]
      field_simp
  simp only [logZu, qzOptimal_rescaleU hs, hz]
  simp only [Spec.rescaleU, DataTerms.rescaleU, Terms.rescaleU, e]

/-- The distributions if the inducing variables of the filter are multiplied by `s`. -/
def Posts.rescaleU (s : ℝ) (p : Posts ι κ) : Posts ι κ := { p with qu := fun i => (p.qu i).shrink s }

omit hs hu hz [Fintype ι] [DecidableEq ι] [Fintype κ] [DecidableEq κ] in
theorem Posts.rescaleU_pU (p : Posts ι κ) : (p.rescaleU s).pU (Spec.rescaleU s m) = (p.pU m).shrink s := by
  unfold Posts.pU Posts.rescaleU
  by_cases h : p.qi = 0
  · simp only [h, if_true, NatNormal.shrink, smul_zero]
    rfl
  · simp only [h, if_false]

theorem bounds_rescaleU (p : Posts ι κ) (d : List (ℝ × ℝ)) :
    (∀ c, MeanField.elbo C' (Spec.rescaleU s m) (p.rescaleU s) d c = MeanField.elbo C m p d c) ∧
      ∀ us : List (ι → ℝ), elboCollapsedZ C' (Spec.rescaleU s m) (p.rescaleU s) d (us.map fun u => s⁻¹ • u) =
        elboCollapsedZ C m p d us := by
  have e1 : (p.rescaleU s).qU = p.qU.shrink s := rfl
  have e2 : (p.rescaleU s).qZ = p.qZ := rfl
  have e3 : (p.rescaleU s).pZ (Spec.rescaleU s m) = p.pZ m := rfl
  refine ⟨fun c => ?_, fun us => ?_⟩
  · simp only [MeanField.elbo, constructDataTerms_rescaleU hs C C' hu hz m, Posts.rescaleU_pU, e1, e2, e3,
      quOptimalMF_rescaleU C C' hz, qzOptimalMF_rescaleU hs C C' hu, meanFieldBound_rescaleU hs C C' hu hz]
  · simp only [elboCollapsedZ, constructDataTerms_rescaleU hs C C' hu hz m, Posts.rescaleU_pU, e1, List.length_map,
      List.map_map, Function.comp_def, logZu_rescaleU hs C C' hz, NatNormal.kl_shrink hs hu]

/-! ## Predictions -/

theorem predictMoments_rescaleU (t : List ℝ) (u : ι → ℝ) (u2 : Matrix ι ι ℝ) (z : κ → ℝ) (z2 : Matrix κ κ ℝ) :
    predictMoments C' (Spec.rescaleU s m) (constructTerms C' (Spec.rescaleU s m) t) (s⁻¹ • u) ((s ^ 2)⁻¹ • u2) z z2 =
      predictMoments C m (constructTerms C m t) u u2 z z2 := by
  have h1 : (Spec.rescaleU s m).KuInv C' = (s ^ 2)⁻¹ • m.KuInv C := pdInv_shrink hs hu _
  have h2 : (Spec.rescaleU s m).KzInv C' = m.KzInv C := by
    unfold Inst.KzInv
    rw [hz]
    rfl
  have h3 : ∀ I : Matrix ι κ ℝ, (s • I)ᵀ * ((s ^ 2)⁻¹ • m.KuInv C) * (s • I) = Iᵀ * m.KuInv C * I := fun I => by
    simp only [transpose_smul, Matrix.smul_mul, Matrix.mul_smul, smul_smul]
    convert one_smul ℝ _ using 2
    field_simp
  have h4 : ∀ (I : Matrix ι κ ℝ) (X : Matrix κ κ ℝ), (s • I) * X * (s • I)ᵀ = s ^ 2 • (I * X * Iᵀ) := fun I X => by
    rw [transpose_smul, Matrix.smul_mul, Matrix.smul_mul, Matrix.mul_smul, smul_smul, sq]
  have e : s ^ 2 * (s ^ 2)⁻¹ = 1 := mul_inv_cancel₀ (by positivity)
  have e1 : ∀ X Y : Matrix ι ι ℝ, frob (s ^ 2 • X) ((s ^ 2)⁻¹ • Y) = frob X Y := fun X Y => by
    rw [frob_smul_left, frob_smul_right, ← mul_assoc, e, one_mul]
  have e2 : ∀ X Y : Matrix ι ι ℝ, frob ((s ^ 2)⁻¹ • X) (s ^ 2 • Y) = frob X Y := fun X Y => by
    rw [frob_comm, e1, frob_comm]
  have e3 : ∀ (I : Matrix ι κ ℝ), (s⁻¹ • u) ⬝ᵥ ((s • I) *ᵥ z) = u ⬝ᵥ (I *ᵥ z) := fun I => by
    rw [smul_mulVec, smul_dotProduct, dotProduct_smul, smul_smul, inv_mul_cancel₀ hs, one_smul]
  rw [predictMoments_map, predictMoments_map]
  refine List.map_congr_left fun x _ => ?_
  simp only [predictMoment, h1, h2]
  simp only [Spec.rescaleU, h3, h4, ← smul_sub, e1, e2, e3]

theorem meanField_predict_rescaleU (p : Posts ι κ) (t : List ℝ) :
    MeanField.predict C' (Spec.rescaleU s m) (p.rescaleU s) t = MeanField.predict C m p t := by
  have e3 : (p.rescaleU s).pZ (Spec.rescaleU s m) = p.pZ m := rfl
  simp only [MeanField.predict, Posts.rescaleU_pU, e3, NatNormal.mean_shrink hs hu, NatNormal.m2_shrink hs hu, hz,
    predictMoments_rescaleU hs C C' hu hz]
  rfl

theorem structured_predict_rescaleU (ts : Option (DataTerms ι κ)) (t : List ℝ) (us : List (ι → ℝ)) :
    Structured.predict C' (Spec.rescaleU s m) (ts.map (DataTerms.rescaleU s)) t (us.map fun u => s⁻¹ • u) =
      Structured.predict C m ts t us := by
  cases us with
  | nil => rfl
  | cons u us =>
    cases ts with
    | none => rfl
    | some ts =>
      have e : ∀ u : ι → ℝ, vecMulVec (s⁻¹ • u) (s⁻¹ • u) = (s ^ 2)⁻¹ • vecMulVec u u := fun u => by
        rw [smul_vecMulVec, vecMulVec_smul, smul_smul, ← mul_inv, sq]
      have e2 : ((u :: us).map fun u => s⁻¹ • u).map (fun u =>
          let qz := qzOptimal (Spec.rescaleU s m) (ts.rescaleU s) u
          predictMoments C' (Spec.rescaleU s m) (constructTerms C' (Spec.rescaleU s m) t) u (vecMulVec u u) (qz.mean C'.z)
            (qz.m2 C'.z)) = (u :: us).map fun u =>
          let qz := qzOptimal m ts u
          predictMoments C m (constructTerms C m t) u (vecMulVec u u) (qz.mean C.z) (qz.m2 C.z) := by
        rw [List.map_map]
        refine List.map_congr_left fun v _ => ?_
        simp only [Function.comp_apply, qzOptimal_rescaleU hs, e, hz, predictMoments_rescaleU hs C C' hu hz]
      have e3 : toMeanVar (Spec.rescaleU s m) = toMeanVar m := rfl
      simp only [Structured.predict, Option.map_some, List.map_cons] at e2 ⊢
      rw [e2, e3]

/-! ## Sessions -/

omit hs hu hz in
theorem columns_map {α β : Type} (f : α → β) (xs : List α) (k : Option ℕ) : columns (xs.map f) k = (columns xs k).map f := by
  simp only [columns, List.length_map, List.map_take]


/-- Everything that a fit, a conditioning or a prediction reads is the same up to the scale of the inducing variables. The
distribution of the inducing variables from which a fit starts is not read. -/
structure Session.Rescaled (s : ℝ) (a b : Session ι κ) : Prop where
  qi : b.posts.qi = a.posts.qi
  qz : b.posts.qz = a.posts.qz
  samplesU : ∀ i, b.samplesU i = (a.samplesU i).map fun l => l.map fun u => s⁻¹ • u
  samplesZ : b.samplesZ = a.samplesZ
  ts : b.ts = a.ts.map (DataTerms.rescaleU s)

theorem gibbsLoop_rescaleU (W : ℕ → (ι → ℝ) × (κ → ℝ)) (sub : Option ℕ) (k i j : ℕ) (u v : ι → ℝ) (z : κ → ℝ)
    (hv : v = s⁻¹ • u ∨ k ≠ 0) :
    let r := Fit.gibbsLoop (gibbsU C m ts W) (gibbsZ C m ts W) sub k i (j, u, z)
    Fit.gibbsLoop (gibbsU C' (Spec.rescaleU s m) (ts.rescaleU s) W) (gibbsZ C' (Spec.rescaleU s m) (ts.rescaleU s) W) sub k i
      (j, v, z) = (r.1, r.2.map fun x => (s⁻¹ • x.1, x.2)) := by
  induction k generalizing i j u v z with
  | zero => rfl
  | succ k ih =>
    have e1 : gibbsU C' (Spec.rescaleU s m) (ts.rescaleU s) W j z =
        ((gibbsU C m ts W j z).1, s⁻¹ • (gibbsU C m ts W j z).2) := by
      simp only [gibbsU, quOptimal_rescaleU, NatNormal.sample_shrink hs hu]
    have e2 : ∀ j u, gibbsZ C' (Spec.rescaleU s m) (ts.rescaleU s) W j (s⁻¹ • u) = gibbsZ C m ts W j u := fun j u => by
      simp only [gibbsZ, qzOptimal_rescaleU hs, hz]
    have h := ih (i + 1) (gibbsZ C m ts W (gibbsU C m ts W j z).1 (gibbsU C m ts W j z).2).1 (gibbsU C m ts W j z).2
      (s⁻¹ • (gibbsU C m ts W j z).2) (gibbsZ C m ts W (gibbsU C m ts W j z).1 (gibbsU C m ts W j z).2).2 (.inl rfl)
    simp only [Fit.gibbsLoop, e1, e2]
    rw [h]
    split <;> rfl

/-- A fit or a conditioning has the same effect. -/
theorem Session.Rescaled.run {a b : Session ι κ} (h : a.Rescaled s b) (W : ℕ → (ι → ℝ) × (κ → ℝ)) (o : Session.Op)
    (ho : ∀ d, o ≠ .elbo d) : (a.run C m W o).Rescaled s (b.run C' (Spec.rescaleU s m) W o) := by
  cases o with
  | elbo d => exact absurd rfl (ho d)
  | condition d =>
    exact ⟨congrArg (· + 1) h.qi, h.qz, h.samplesU, h.samplesZ, by
      simp only [Session.run, Session.condition, constructDataTerms_rescaleU hs C C' hu hz m, Option.map_some]⟩
  | fit d iters =>
    simp only [Session.run, Session.fitStructured, constructDataTerms_rescaleU hs C C' hu hz m]
    have ez : b.posts.qZ = a.posts.qZ := by simp only [Posts.qZ, h.qi, h.qz]
    rw [ez, hz]
    generalize (iters / 2).toNat = k
    cases k with
    | zero => exact h
    | succ k =>
      have e := gibbsLoop_rescaleU hs C C' hu hz m (constructDataTerms C m d) W none (k + 1) 0 1
        (a.posts.qU.sample C.u (W 0).1) (b.posts.qU.sample C'.u (W 0).1) (a.posts.qZ.sample C.z (W 0).2) (.inr (by simp))
      simp only at e
      rw [e]
      simp only [List.getLast?_map]
      cases (Fit.gibbsLoop (gibbsU C m (constructDataTerms C m d) W) (gibbsZ C m (constructDataTerms C m d) W) none
        (k + 1) 0 (1, a.posts.qU.sample C.u (W 0).1, a.posts.qZ.sample C.z (W 0).2)).2.getLast? with
      | none => exact h
      | some x =>
        obtain ⟨u, z⟩ := x
        simp only [Option.map_some]
        rw [gibbsLoop_rescaleU hs C C' hu hz m (constructDataTerms C m d) W _ _ _ _ u _ z (.inl rfl)]
        refine ⟨h.qi, h.qz, fun i => ?_, ?_, h.ts⟩
        · simp only [Session.setSamples, h.qi, List.map_map]
          by_cases hi : i = a.posts.qi
          · simp only [hi, if_true, Option.map_some, List.map_map]
            rfl
          · simp only [hi, if_false, h.samplesU]
        · simp only [Session.setSamples, h.qi, h.samplesZ, List.map_map]
          rfl

theorem Session.Rescaled.ops {a b : Session ι κ} (h : a.Rescaled s b) (W : ℕ → (ι → ℝ) × (κ → ℝ)) (ops : List Session.Op)
    (ho : ∀ d, .elbo d ∉ ops) :
    (ops.foldl (Session.run C m W) a).Rescaled s (ops.foldl (Session.run C' (Spec.rescaleU s m) W) b) := by
  induction ops generalizing a b with
  | nil => rwa [List.foldl_nil, List.foldl_nil]
  | cons o ops ih =>
    rw [List.foldl_cons, List.foldl_cons]
    exact ih (h.run hs C C' hu hz m W o fun d hd => ho d (hd ▸ List.mem_cons_self ..)) fun d hd =>
      ho d (List.mem_cons_of_mem _ hd)

theorem Session.Rescaled.predict {a b : Session ι κ} (h : a.Rescaled s b) (t : List ℝ) (ws : List (ι → ℝ)) :
    b.predictStructured C' (Spec.rescaleU s m) t ws = a.predictStructured C m t ws := by
  have e : b.samplePU C' (Spec.rescaleU s m) ws = (a.samplePU C m ws).map fun l => l.map fun u => s⁻¹ • u := by
    unfold Session.samplePU
    rw [h.qi]
    by_cases h0 : a.posts.qi = 0
    · simp only [h0, if_true, Except.map]
      have e2 : NatNormal.sample C'.u ⟨0, (Spec.rescaleU s m).Ku⟩ = fun w => s⁻¹ • NatNormal.sample C.u ⟨0, m.Ku⟩ w :=
        funext fun w => by
          rw [← NatNormal.sample_shrink hs hu]
          simp only [NatNormal.shrink, smul_zero]
          rfl
      simp only [Gpcm.samplePU, e2, columns_map, ← List.map_map, show (fun w => s⁻¹ • NatNormal.sample C.u ⟨0, m.Ku⟩ w) =
        (fun u => s⁻¹ • u) ∘ NatNormal.sample C.u ⟨0, m.Ku⟩ from rfl]
    · simp only [h0, if_false, h.samplesU]
      cases a.samplesU (a.posts.qi - 1) with
      | none => rfl
      | some us => simp only [Option.map_some, Gpcm.samplePU, columns_map, Except.map]
  simp only [Session.predictStructured, e]
  cases a.samplePU C m ws with
  | error e => simp only [Except.map, bind1]
  | ok us =>
    rw [h.ts]
    simp only [Except.map, bind1]
    exact structured_predict_rescaleU hs C C' hu hz m a.ts t us

/-! ## Coordinate ascent -/

omit hs hu hz [Fintype ι] [DecidableEq ι] [Fintype κ] [DecidableEq κ] in
theorem caLoop_eq_iterate {σ : Type} (step : σ → σ) (diff : σ → σ → ℝ) (k : ℕ) (p : σ) :
    (caLoop step diff k p).1 = step^[(caLoop step diff k p).2.length] p := by
  induction k generalizing p with
  | zero => rfl
  | succ k ih =>
    by_cases h : diff (step p) p < 1e-6
    · simp only [caLoop, h, if_true]
      rfl
    · simp only [caLoop, h, if_false, List.length_cons, Function.iterate_succ_apply]
      exact ih _

theorem caIterate_rescaleU (a b : Pair ι κ) (h : b.z = a.z) (k : ℕ) :
    let r := (caStep C m ts)^[k + 1] a
    (caStep C' (Spec.rescaleU s m) (ts.rescaleU s))^[k + 1] b = ⟨r.u.shrink s, r.z⟩ := by
  have step : ∀ a b : Pair ι κ, b.z = a.z → caStep C' (Spec.rescaleU s m) (ts.rescaleU s) b =
      ⟨(caStep C m ts a).u.shrink s, (caStep C m ts a).z⟩ := fun a b h => by
    simp only [caStep, h, quOptimalMF_rescaleU C C' hz, qzOptimalMF_rescaleU hs C C' hu]
  induction k with
  | zero => exact step a b h
  | succ k ih =>
    simp only [Function.iterate_succ_apply' _ (k + 1)]
    simp only at ih
    rw [ih]
    exact step _ _ rfl

/-- The same number of iterations of coordinate ascent gives the same predictions. -/
theorem ca_rescaleU (p p' : Posts ι κ) (hi : p'.qi = p.qi) (hq : p'.qz = p.qz) (d : List (ℝ × ℝ)) (iters : ℤ)
    (t : List ℝ) (h0 : (fitMeanFieldCA C m p d iters).2 ≠ [])
    (hl : (fitMeanFieldCA C' (Spec.rescaleU s m) p' d iters).2.length = (fitMeanFieldCA C m p d iters).2.length) :
    MeanField.predict C' (Spec.rescaleU s m) (fitMeanFieldCA C' (Spec.rescaleU s m) p' d iters).1.condition t =
      MeanField.predict C m (fitMeanFieldCA C m p d iters).1.condition t := by
  have e := constructDataTerms_rescaleU hs C C' hu hz m d
  have hz' : (⟨p'.qU, p'.qZ⟩ : Pair ι κ).z = (⟨p.qU, p.qZ⟩ : Pair ι κ).z := by simp only [Posts.qZ, hi, hq]
  have e1 := caLoop_eq_iterate (caStep C m (constructDataTerms C m d)) Pair.diff iters.toNat ⟨p.qU, p.qZ⟩
  have e2 := caLoop_eq_iterate (caStep C' (Spec.rescaleU s m) (constructDataTerms C' (Spec.rescaleU s m) d)) Pair.diff
    iters.toNat ⟨p'.qU, p'.qZ⟩
  simp only [fitMeanFieldCA] at h0 hl ⊢
  rw [hl] at e2
  obtain ⟨k, hk⟩ : ∃ k, (caLoop (caStep C m (constructDataTerms C m d)) Pair.diff iters.toNat ⟨p.qU, p.qZ⟩).2.length = k + 1 :=
    ⟨_, (Nat.succ_pred_eq_of_pos (List.length_pos_of_ne_nil h0)).symm⟩
  rw [hk] at e1 e2
  have e3 := caIterate_rescaleU hs C C' hu hz m (constructDataTerms C m d) ⟨p.qU, p.qZ⟩ ⟨p'.qU, p'.qZ⟩ hz' k
  rw [← e] at e3
  simp only at e3
  rw [← e1, ← e2] at e3
  rw [e3]
  generalize (caLoop (caStep C m (constructDataTerms C m d)) Pair.diff iters.toNat ⟨p.qU, p.qZ⟩).1 = r
  rw [← meanField_predict_rescaleU hs C C' hu hz m]
  unfold MeanField.predict
  have e4 : ((((p'.setU (r.u.shrink s)).setZ r.z).condition).pU (Spec.rescaleU s m)) = r.u.shrink s := by
    simp [Posts.condition, Posts.pU, Posts.setZ, Posts.setU]
  have e5 : ((((p'.setU (r.u.shrink s)).setZ r.z).condition).pZ (Spec.rescaleU s m)) = r.z := by
    simp [Posts.condition, Posts.pZ, Posts.setZ, Posts.setU]
  have e6 : ((((p.setU r.u).setZ r.z).condition.rescaleU s).pU (Spec.rescaleU s m)) = r.u.shrink s := by
    simp [Posts.condition, Posts.pU, Posts.setZ, Posts.setU, Posts.rescaleU]
  have e7 : ((((p.setU r.u).setZ r.z).condition.rescaleU s).pZ (Spec.rescaleU s m)) = r.z := by
    simp [Posts.condition, Posts.pZ, Posts.setZ, Posts.setU, Posts.rescaleU]
  rw [e4, e5, e6, e7]

end

/-- Observations in another unit of time give the same bounds, the same fits and the same predictions. The samples of the
inducing variables of the filter are `s` times smaller. Coordinate ascent stops at an absolute tolerance, so its predictions
are compared after equally many iterations. -/
structure Spec.SameInUnit {ι κ : Type} [Fintype ι] [DecidableEq ι] [Fintype κ] [DecidableEq κ] (s : ℝ) (ψ : ℝ → ℝ)
    (C C' : Chols ι κ) (W : ℕ → (ι → ℝ) × (κ → ℝ)) (m m' : Inst ι κ) : Prop where
  /-- Predictions of the structured scheme after fits and conditionings. -/
  structured : ∀ (a b : Session ι κ), a.Rescaled s b → ∀ ops : List Session.Op, (∀ d, .elbo d ∉ ops) →
    ∀ (t : List ℝ) (ws : List (ι → ℝ)),
      ((ops.map (Spec.reclockOp ψ)).foldl (Session.run C' m' W) b).predictStructured C' m' (t.map ψ) ws =
        (ops.foldl (Session.run C m W) a).predictStructured C m t ws
  /-- Predictions of the mean-field scheme after coordinate ascent. -/
  ca : ∀ (p p' : Posts ι κ), p'.qi = p.qi → p'.qz = p.qz → ∀ (d : List (ℝ × ℝ)) (iters : ℤ) (t : List ℝ),
    (fitMeanFieldCA C m p d iters).2 ≠ [] →
    (fitMeanFieldCA C' m' p' (Spec.reclockData ψ d) iters).2.length = (fitMeanFieldCA C m p d iters).2.length →
    MeanField.predict C' m' (fitMeanFieldCA C' m' p' (Spec.reclockData ψ d) iters).1.condition (t.map ψ) =
      MeanField.predict C m (fitMeanFieldCA C m p d iters).1.condition t
  /-- The bound of the mean-field scheme. -/
  bound : ∀ (p : Posts ι κ) (d : List (ℝ × ℝ)) (c : Option String),
    MeanField.elbo C' m' (p.rescaleU s) (Spec.reclockData ψ d) c = MeanField.elbo C m p d c
  /-- The bound of the structured scheme. -/
  collapsed : ∀ (p : Posts ι κ) (d : List (ℝ × ℝ)) (us : List (ι → ℝ)),
    elboCollapsedZ C' m' (p.rescaleU s) (Spec.reclockData ψ d) (us.map fun u => s⁻¹ • u) = elboCollapsedZ C m p d us

theorem sameInUnit {ι κ : Type} [Fintype ι] [DecidableEq ι] [Fintype κ] [DecidableEq κ] {s : ℝ} (hs : s ≠ 0)
    (C C' : Chols ι κ) (hu : Spec.CholScaled s C.u C'.u) (hz : C'.z = C.z) (m : Inst ι κ) {φ ψ : ℝ → ℝ}
    (h : ∀ t, φ (ψ t) = t) (W : ℕ → (ι → ℝ) × (κ → ℝ)) :
    Spec.SameInUnit s ψ C C' W m (Spec.reclock φ (Spec.rescaleU s m)) := by
  have S := sameOnClock C' (Spec.rescaleU s m) h W
  refine ⟨fun a b r ops ho t ws => ?_, fun p p' hi hq d iters t h0 hl => ?_, fun p d c => ?_, fun p d us => ?_⟩
  · rw [S.structured]
    exact (r.ops hs C C' hu hz m W ops ho).predict hs C C' hu hz m t ws
  · rw [fitMeanFieldCA_reclock C' (Spec.rescaleU s m) h] at hl
    rw [S.ca]
    exact ca_rescaleU hs C C' hu hz m p p' hi hq d iters t h0 hl
  · rw [S.bound]
    exact (bounds_rescaleU hs C C' hu hz m p d).1 c
  · rw [S.collapsed]
    exact (bounds_rescaleU hs C C' hu hz m p d).2 us

/-! ## The GPCM -/

/-- The parameters in a unit of time that is `c` times smaller. -/
noncomputable def Spec.Params.rescale (c : ℝ) (p : Spec.Params) : Spec.Params :=
  { p with
    alpha := p.alpha / c ^ 2
    alphaT := p.alphaT / √c
    gamma := p.gamma / c ^ 2
    omega := p.omega / c ^ 2
    omegaT := p.omegaT / √c }

section spec
variable (p : Spec.Params) {c : ℝ} (hc : 0 < c)
include hc

theorem integral_unit (f : ℝ → ℝ) : ∫ x, f x = c * ∫ x, f (c * x) := by
  rw [Measure.integral_comp_mul_left, abs_of_pos (inv_pos.2 hc), smul_eq_mul, ← mul_assoc, mul_inv_cancel₀ hc.ne', one_mul]

theorem Spec.kH_unit (x y : ℝ) : Spec.kH (p.rescale c) (c * x) (c * y) = c⁻¹ * Spec.kH p x y := by
  have h1 : p.alpha / c ^ 2 * (c * x) ^ 2 = p.alpha * x ^ 2 := by field_simp
  have h2 : p.alpha / c ^ 2 * (c * y) ^ 2 = p.alpha * y ^ 2 := by field_simp
  have h3 : p.gamma / c ^ 2 * (c * x - c * y) ^ 2 = p.gamma * (x - y) ^ 2 := by field_simp
  have h4 : (p.alphaT / √c) ^ 2 = c⁻¹ * p.alphaT ^ 2 := by rw [div_pow, sq_sqrt hc.le]; field_simp
  simp only [Spec.kH, Spec.Params.rescale, h1, h2, h3, h4]
  ring

theorem Spec.kXS_unit (x y : ℝ) : Spec.kXS (p.rescale c) (c * x) (c * y) = (√c)⁻¹ * Spec.kXS p x y := by
  have h3 : p.omega / c ^ 2 * (c * x - c * y) ^ 2 = p.omega * (x - y) ^ 2 := by field_simp
  simp only [Spec.kXS, Spec.Params.rescale, h3]
  ring

theorem Spec.gate_unit (x : ℝ) : Spec.gate (p.rescale c) (c * x) = Spec.gate p x := by
  simp only [Spec.gate, Spec.Params.rescale, mul_neg_iff, hc, hc.not_gt, true_and, false_and, or_false]

theorem Spec.ihx_unit (t1 t2 : ℝ) : Spec.ihx (p.rescale c) (c * t1) (c * t2) = Spec.ihx p t1 t2 := by
  unfold Spec.ihx
  rw [integral_unit hc]
  simp only [← mul_sub, Spec.gate_unit p hc, Spec.kH_unit p hc]
  rw [← integral_const_mul]
  congr 1
  funext τ
  field_simp

theorem Spec.kz_unit (z1 z2 : ℝ) : Spec.kz (p.rescale c) (c * z1) (c * z2) = Spec.kz p z1 z2 := by
  unfold Spec.kz
  rw [integral_unit hc]
  simp only [Spec.kXS_unit p hc]
  rw [← integral_const_mul]
  congr 1
  funext τ
  have := sq_sqrt hc.le
  have h : √c ≠ 0 := (sqrt_pos.2 hc).ne'
  field_simp
  rw [this]

theorem Spec.iux_unit (t1 t2 u1 u2 : ℝ) :
    Spec.iux (p.rescale c) (c * t1) (c * t2) (c * u1) (c * u2) = c⁻¹ * Spec.iux p t1 t2 u1 u2 := by
  unfold Spec.iux
  rw [integral_unit hc]
  simp only [← mul_sub, Spec.gate_unit p hc, Spec.kH_unit p hc]
  rw [← integral_const_mul, ← integral_const_mul]
  congr 1
  funext τ
  field_simp

theorem Spec.ihz_unit (t z1 z2 : ℝ) : Spec.ihz (p.rescale c) (c * t) (c * z1) (c * z2) = Spec.ihz p t z1 z2 := by
  have h2 := sq_sqrt hc.le
  have h : √c ≠ 0 := (sqrt_pos.2 hc).ne'
  unfold Spec.ihz
  rw [integral_unit hc, ← integral_const_mul]
  congr 1
  funext τ₁
  rw [integral_unit hc, ← integral_const_mul, ← integral_const_mul]
  simp only [← mul_sub, Spec.gate_unit p hc, Spec.kH_unit p hc, Spec.kXS_unit p hc]
  congr 1
  funext τ₂
  field_simp
  rw [h2]
  ring

theorem Spec.iuz_unit (t u z : ℝ) : Spec.iuz (p.rescale c) (c * t) (c * u) (c * z) = (√c)⁻¹ * Spec.iuz p t u z := by
  unfold Spec.iuz
  rw [integral_unit hc]
  simp only [← mul_sub, Spec.gate_unit p hc, Spec.kH_unit p hc, Spec.kXS_unit p hc]
  rw [← integral_const_mul, ← integral_const_mul]
  congr 1
  funext τ
  field_simp

end spec

/-- The arguments in a unit of time that is `c` times smaller. -/
noncomputable def GpcmArgs.rescale (c : ℝ) (a : GpcmArgs) : GpcmArgs :=
  { a with
    alpha := a.alpha.map (· / c ^ 2)
    alphaT := a.alphaT.map (· / √c)
    window := a.window.map (c * ·)
    gamma := a.gamma.map (· / c ^ 2)
    scale := a.scale.map (c * ·)
    omega := a.omega.map (· / c ^ 2)
    tU := a.tU.map fun l => l.map (c * ·)
    tZ := a.tZ.map fun l => l.map (c * ·)
    t := a.t.map fun l => l.map (c * ·) }

/-- The model in a unit of time that is `c` times smaller. -/
noncomputable def GpcmModel.rescale (c : ℝ) (g : GpcmModel) : GpcmModel :=
  { g with
    alpha := g.alpha / c ^ 2
    alphaT := g.alphaT / √c
    gamma := g.gamma / c ^ 2
    extent := c * g.extent
    tU := g.tU.map (c * ·)
    tZ := g.tZ.map (c * ·)
    omega := g.omega / c ^ 2
    omegaT := g.omegaT / √c }

section new
variable {c : ℝ} (hc : 0 < c)
include hc

omit hc in
theorem scaleToFactor_unit (x : ℝ) : scaleToFactor (c * x) = scaleToFactor x / c ^ 2 := by
  unfold scaleToFactor
  rw [mul_pow, div_div, ← mul_assoc, mul_right_comm]
  ring

theorem factorToScale_unit (x : ℝ) : factorToScale (x / c ^ 2) = c * factorToScale x := by
  unfold factorToScale
  rw [show 4 * (x / c ^ 2) / π = 4 * x / π / c ^ 2 by ring, sqrt_div' _ (by positivity), sqrt_sq hc.le]
  rw [one_div_div, mul_one_div]

theorem quarter_unit (x : ℝ) : (x / c ^ 2) ^ (0.25 : ℝ) = x ^ (0.25 : ℝ) / √c := by
  have h2 : 0 < c ^ 2 := by positivity
  have h : (c ^ 2) ^ (0.25 : ℝ) = √c := by
    rw [sqrt_eq_rpow, ← rpow_natCast, ← rpow_mul hc.le]
    norm_num
  rcases lt_or_ge x 0 with hx | hx
  · rw [rpow_def_of_neg (div_neg_of_neg_of_pos hx h2), rpow_def_of_neg hx, log_div hx.ne h2.ne', sub_mul, exp_sub, ← h,
      rpow_def_of_pos h2]
    ring
  · rw [div_rpow hx h2.le, h]

theorem pyMax_unit (l : List ℝ) : pyMax (l.map (c * ·)) = (pyMax l).map (c * ·) := by
  cases l with
  | nil => rfl
  | cons a l =>
    simp only [List.map_cons, pyMax, Except.map]
    congr 1
    induction l generalizing a with
    | nil => rfl
    | cons b l ih => rw [List.map_cons, List.foldl_cons, List.foldl_cons, ← mul_max_of_nonneg _ _ hc.le, ih]

theorem pyMin_unit (l : List ℝ) : pyMin (l.map (c * ·)) = (pyMin l).map (c * ·) := by
  cases l with
  | nil => rfl
  | cons a l =>
    simp only [List.map_cons, pyMin, Except.map]
    congr 1
    induction l generalizing a with
    | nil => rfl
    | cons b l ih => rw [List.map_cons, List.foldl_cons, List.foldl_cons, ← mul_min_of_nonneg _ _ hc.le, ih]

omit hc in
theorem linspace_unit (a b : ℝ) (n : ℤ) : linspace (c * a) (c * b) n = (linspace a b n).map fun l => l.map (c * ·) := by
  unfold linspace
  split
  · rfl
  · simp only [Except.map, List.map_map, Function.comp_def]
    congr 1
    refine List.map_congr_left fun i _ => ?_
    ring

theorem ratio_unit (x y : ℝ) : c * x / (c * y) = x / y := mul_div_mul_left _ _ hc.ne'

theorem autoNU_unit (a : GpcmArgs) : autoNU (a.rescale c) = autoNU a := by
  unfold autoNU GpcmArgs.rescale
  cases a.nU with
  | some n => rfl
  | none =>
    have e : ∀ w s : ℝ, 2 * 2 * (c * w) / (c * s) = 2 * 2 * w / s := fun w s => by
      rw [← ratio_unit hc (2 * 2 * w) s]
      ring
    simp only [need_map, bind1_map, e]

theorem initTU_unit (a : GpcmArgs) (alpha : ℝ) :
    initTU (a.rescale c) (alpha / c ^ 2) = (initTU a alpha).map fun u => (u.1, u.2.map (c * ·)) := by
  unfold initTU
  rw [autoNU_unit hc, factorToScale_unit hc]
  cases h : a.tU with
  | some tU =>
    simp only [GpcmArgs.rescale, h, Option.map_some, Except.map, List.length_map]
  | none =>
    simp only [GpcmArgs.rescale, h, Option.map_none, map_bind1]
    congr 1
    funext n
    have e1 : ∀ d x : ℝ, 2 * (c * x) / d = c * (2 * x / d) := fun d x => by ring
    have e2 : ∀ x : ℝ, -2 * (c * x) = c * (-2 * x) := fun x => by ring
    have e3 : ∀ x : ℝ, 2 * (c * x) = c * (2 * x) := fun x => by ring
    have e4 : ∀ x : ℝ, -(c * x) = c * -x := fun x => by ring
    by_cases hcs : a.causal
    · simp only [hcs, if_true]
      split
      · rfl
      · rw [e1, e2, e3, linspace_unit, bind1_map, map_bind1]
        rfl
    · simp only [hcs]
      rw [e3, e4, linspace_unit]
      simp only [Bool.false_eq_true, if_false, bind1_map, map_bind1]
      rfl

theorem autoNZ_unit (a : GpcmArgs) : autoNZ (a.rescale c) = autoNZ a := by
  unfold autoNZ GpcmArgs.rescale
  cases a.nZ with
  | some n => rfl
  | none =>
    have e : ∀ x y s : ℝ, 2 * (c * x - c * y) / (c * s) = 2 * (x - y) / s := fun x y s => by
      rw [← ratio_unit hc (2 * (x - y)) s]
      ring
    simp only [need_map, bind1_map, pyMax_unit hc, pyMin_unit hc, e]

theorem initTZ_unit (a : GpcmArgs) : initTZ (a.rescale c) = (initTZ a).map fun z => (z.1, z.2.map (c * ·)) := by
  unfold initTZ
  rw [autoNZ_unit hc]
  cases h : a.tZ with
  | some tZ => simp only [GpcmArgs.rescale, h, Option.map_some, Except.map, List.length_map]
  | none =>
    simp only [GpcmArgs.rescale, h, Option.map_none, need_map, bind1_map, pyMax_unit hc, pyMin_unit hc, linspace_unit, map_bind1]
    rfl

theorem extendTZ_unit (a : GpcmArgs) (alpha : ℝ) (s : ℤ × List ℝ) :
    extendTZ (a.rescale c) (alpha / c ^ 2) (s.1, s.2.map (c * ·)) =
      (extendTZ a alpha s).map fun z => (z.1, z.2.map (c * ·)) := by
  unfold extendTZ
  rw [factorToScale_unit hc]
  unfold GpcmArgs.rescale
  by_cases h : a.extendTZ = false
  · simp only [h, if_true]
    rfl
  · rw [if_neg h, if_neg h]
    simp only [need_map, bind1_map, pyMax_unit hc, pyMin_unit hc, map_bind1]
    congr 1
    funext t
    congr 1
    funext hi
    congr 1
    funext lo
    by_cases h1 : s.1 - 1 = 0
    · simp only [h1, if_true]
      rfl
    · rw [if_neg h1, if_neg h1]
      have e1 : (c * hi - c * lo) / (((s.1 - 1 : ℤ)) : ℝ) = c * ((hi - lo) / (((s.1 - 1 : ℤ)) : ℝ)) := by ring
      have e2 : ∀ x d : ℝ, 2 * (c * x) / (c * d) = 2 * x / d := fun x d => by
        rw [← ratio_unit hc (2 * x) d]
        ring
      rw [e1, e2]
      generalize (hi - lo) / (((s.1 - 1 : ℤ)) : ℝ) = d
      by_cases h2 : d = 0
      · rw [if_pos h2, if_pos (by rw [h2, mul_zero])]
        rfl
      · rw [if_neg h2, if_neg (mul_ne_zero hc.ne' h2)]
        have e3 : ∀ x y : ℝ, c * lo - x * (c * y) = c * (lo - x * y) := fun x y => by ring
        have e4 : ∀ x y : ℝ, c * hi + x * (c * y) = c * (hi + x * y) := fun x y => by ring
        simp only [e3, e4, linspace_unit, bind1_map]
        split <;> simp only [map_bind1] <;> rfl

omit hc in
theorem initOmega_unit (a : GpcmArgs) (l : List ℝ) :
    initOmega (a.rescale c) (l.map (c * ·)) = (initOmega a l).map (· / c ^ 2) := by
  unfold initOmega GpcmArgs.rescale
  cases a.omega with
  | some x => rfl
  | none =>
    match l with
    | [] => rfl
    | [_] => rfl
    | z0 :: z1 :: _ =>
      simp only [Option.map_none, List.map_cons, Except.map]
      rw [← scaleToFactor_unit]
      congr 2
      ring

theorem initAlphaT_unit (a : GpcmArgs) (alpha : ℝ) : initAlphaT (a.rescale c) (alpha / c ^ 2) = initAlphaT a alpha / √c := by
  unfold initAlphaT GpcmArgs.rescale
  cases a.alphaT with
  | some x => rfl
  | none =>
    simp only [Option.map_none]
    split <;> rw [← quarter_unit hc] <;> congr 1 <;> ring

/-- **C137** Constructing a GPCM in another unit of time gives the model in that unit. -/
theorem c137_gpcm_new (a : GpcmArgs) : GpcmModel.new (a.rescale c) = (GpcmModel.new a).map (GpcmModel.rescale c) := by
  have e1 : initAlpha (a.rescale c) = (initAlpha a).map (· / c ^ 2) := by
    unfold initAlpha GpcmArgs.rescale
    cases a.alpha with
    | some x => rfl
    | none =>
      simp only [Option.map_none, need_map, bind1_map, map_bind1, scaleToFactor_unit]
      rfl
  have e2 : ∀ alpha, initGamma (a.rescale c) (alpha / c ^ 2) = (initGamma a alpha).map (· / c ^ 2) := fun alpha => by
    unfold initGamma GpcmArgs.rescale
    cases a.gamma with
    | some x => rfl
    | none =>
      simp only [Option.map_none, need_map, bind1_map, map_bind1, scaleToFactor_unit]
      congr 1
      funext s
      simp only [Except.map]
      congr 1
      ring
  unfold GpcmModel.new
  simp only [e1, e2, initTU_unit hc, initTZ_unit hc, bind1_map, extendTZ_unit hc, map_bind1]
  congr 1
  funext alpha
  congr 1
  funext gamma
  congr 1
  funext u
  have e6 : (bind1 (initTZ a) fun s => (extendTZ a alpha s).map fun z => (z.1, z.2.map (c * ·))) =
      (bind1 (initTZ a) (extendTZ a alpha)).map fun z => (z.1, z.2.map (c * ·)) := (map_bind1 _ _ _).symm
  rw [e6, bind1_map]
  simp only [initOmega_unit, bind1_map, initAlphaT_unit hc, factorToScale_unit hc]
  congr 1
  funext z
  congr 1
  funext omega
  have e7 : (2 * (omega / c ^ 2) / π) ^ (0.25 : ℝ) = (2 * omega / π) ^ (0.25 : ℝ) / √c := by
    rw [← quarter_unit hc]
    congr 1
    ring
  have e8 : 4 * (c * factorToScale alpha) = c * (4 * factorToScale alpha) := by ring
  simp only [Except.map, GpcmModel.rescale, e7, e8]
  rfl

end new

variable (R : Runtime ℝ)

theorem rows_smul {p q : ℕ} (k : ℝ) (A : Matrix (Fin p) (Fin q) ℝ) : rows (k • A) = (rows A).map fun r => r.map (k * ·) := by
  unfold rows
  simp only [List.map_ofFn, Function.comp_def, Matrix.smul_apply, smul_eq_mul]

/-- **C137** What the approximation works with is the same, apart from the unit. -/
theorem c137_gpcm_integrals {c : ℝ} (hc : 0 < c) (g : GpcmModel) (hm : g.Moderate) (hm' : (g.rescale c).Moderate) {nu nz : ℕ}
    {m : Inst (Fin nu) (Fin nz)} (h : g.Returns R m) :
    (g.rescale c).Returns R (Spec.reclock (· / c) (Spec.rescaleU (√c)⁻¹ m)) := by
  have hp : (g.rescale c).params = g.params.rescale c := rfl
  have h2 : ((√c)⁻¹) ^ 2 = c⁻¹ := by rw [inv_pow, sq_sqrt hc.le]
  have hcc : ∀ t, c * (t / c) = t := fun t => mul_div_cancel₀ t hc.ne'
  refine ⟨?_, ?_, h.noise, fun a b => ?_, ?_, fun t => ?_, fun t => ?_⟩
  · rw [c65_K_u, hp]
    have := h.Ku
    rw [c65_K_u] at this
    show Except.ok ((g.tU.map (c * ·)).map fun a => (g.tU.map (c * ·)).map fun b => _) =
      Except.ok (rows (((√c)⁻¹) ^ 2 • m.Ku))
    rw [rows_smul, ← Except.ok.inj this, h2]
    simp only [List.map_map, Function.comp_def, Spec.kH_unit _ hc]
  · rw [c65_K_z R _ hm', hp]
    have := h.Kz
    rw [c65_K_z R _ hm] at this
    show Except.ok ((g.tZ.map (c * ·)).map fun a => (g.tZ.map (c * ·)).map fun b => _) = Except.ok (rows m.Kz)
    simp only [List.map_map, Function.comp_def, Spec.kz_unit _ hc]
    exact this
  · rw [c65_i_hx R _ hm', hp]
    have := h.iHx (a / c) (b / c)
    rw [c65_i_hx R _ hm, ← Spec.ihx_unit g.params hc, hcc, hcc] at this
    exact this
  · rw [c65_I_ux_default R _ hm', hp]
    have := h.iUx
    rw [c65_I_ux_default R _ hm] at this
    show Except.ok ((g.tU.map (c * ·)).map fun a => (g.tU.map (c * ·)).map fun b => _) =
      Except.ok (rows (((√c)⁻¹) ^ 2 • m.iUx))
    rw [rows_smul, ← Except.ok.inj this, h2]
    have e := Spec.iux_unit g.params hc 0 0
    rw [mul_zero] at e
    simp only [List.map_map, Function.comp_def, e]
  · rw [c65_I_hz R _ hm', hp]
    have := h.iHz (t.map (· / c))
    rw [c65_I_hz R _ hm, List.map_map, List.map_map] at this
    show Except.ok (t.map fun a => (g.tZ.map (c * ·)).map fun b => (g.tZ.map (c * ·)).map fun d => _) =
      Except.ok (t.map fun a => rows (m.iHz (a / c)))
    rw [show (fun a => rows (m.iHz (a / c))) = (fun a => rows (m.iHz a)) ∘ (· / c) from rfl, ← Except.ok.inj this]
    congr 1
    refine List.map_congr_left fun a _ => ?_
    simp only [List.map_map, Function.comp_def]
    refine List.map_congr_left fun z1 _ => List.map_congr_left fun z2 _ => ?_
    rw [← Spec.ihz_unit g.params hc (a / c), hcc]
  · rw [c65_I_uz R _ hm', hp]
    have := h.iUz (t.map (· / c))
    rw [c65_I_uz R _ hm, List.map_map, List.map_map] at this
    show Except.ok (t.map fun a => (g.tU.map (c * ·)).map fun b => (g.tZ.map (c * ·)).map fun d => _) =
      Except.ok (t.map fun a => rows ((√c)⁻¹ • m.iUz (a / c)))
    simp only [rows_smul]
    rw [show (fun a => (rows (m.iUz (a / c))).map fun r => r.map ((√c)⁻¹ * ·)) =
      (fun l : List (List ℝ) => l.map fun r => r.map ((√c)⁻¹ * ·)) ∘ ((fun a => rows (m.iUz a)) ∘ (· / c)) from rfl,
      ← List.map_map, ← Except.ok.inj this, List.map_map]
    congr 1
    refine List.map_congr_left fun a _ => ?_
    simp only [List.map_map, Function.comp_def]
    refine List.map_congr_left fun z1 _ => List.map_congr_left fun z2 _ => ?_
    rw [← Spec.iuz_unit g.params hc (a / c), hcc]

/-- **C137** A GPCM or CGPCM gives the same bounds, fits and predictions in any unit of time. -/
theorem c137_gpcm {c : ℝ} (hc : 0 < c) (g : GpcmModel) (hm : g.Moderate) (hm' : (g.rescale c).Moderate) {nu nz : ℕ}
    {m m' : Inst (Fin nu) (Fin nz)} (h : g.Returns R m) (h' : (g.rescale c).Returns R m') (C C' : Chols (Fin nu) (Fin nz))
    (hu : Spec.CholScaled (√c)⁻¹ C.u C'.u) (hz : C'.z = C.z) (W : ℕ → (Fin nu → ℝ) × (Fin nz → ℝ)) :
    Spec.SameInUnit (√c)⁻¹ (c * ·) C C' W m m' := by
  rw [h'.unique R (c137_gpcm_integrals R hc g hm hm' h)]
  exact sameInUnit (inv_ne_zero (sqrt_pos.2 hc).ne') C C' hu hz m (fun t => mul_div_cancel_left₀ t hc.ne') W

/-- A CGPCM whose times are in seconds. -/
noncomputable def exUnit : GpcmModel where
  causal := true
  noise := 0.05
  alpha := 1
  alphaT := 1
  gamma := 2
  extent := 4
  nU := 2
  tU := [0, 1]
  nZ := 3
  tZ := [0, 1, 2]
  omega := 3
  omegaT := 1

/-- The hypotheses can be met, for instance if the times are in milliseconds instead. -/
example (C : Chols (Fin 2) (Fin 3)) : ∃ (m m' : Inst (Fin 2) (Fin 3)) (C' : Chols (Fin 2) (Fin 3)),
    exUnit.Moderate ∧ (exUnit.rescale 1000).Moderate ∧ exUnit.Returns R m ∧ (exUnit.rescale 1000).Returns R m' ∧
      Spec.CholScaled (√1000)⁻¹ C.u C'.u ∧ C'.z = C.z := by
  have h : (√1000 : ℝ) ≠ 0 := by positivity
  have hm : exUnit.Moderate := by constructor <;> norm_num [exUnit]
  have hm' : (exUnit.rescale 1000).Moderate := by constructor <;> norm_num [exUnit, GpcmModel.rescale, h]
  obtain ⟨Cu, hu⟩ := exists_cholScaled (inv_ne_zero h) C.u
  have hr := (exUnit.isInst_iff_returns R _).1 (exUnit.specInst_isInst R hm)
  exact ⟨exUnit.specInst, _, ⟨Cu, C.z⟩, hm, hm', hr, c137_gpcm_integrals R (by norm_num) exUnit hm hm' hr, hu, rfl⟩

/-! ## The RGPCM -/

/-- The arguments in a unit of time that is `c` times smaller. -/
noncomputable def RgpcmArgs.rescale (c : ℝ) (x : RgpcmArgs) : RgpcmArgs :=
  { x with
    alpha := x.alpha.map (· / c)
    alphaT := x.alphaT.map (· / √c)
    window := x.window.map (c * ·)
    lam := x.lam.map (· / c)
    gamma := x.gamma.map (· / c)
    gammaT := x.gammaT.map (· / √c)
    a := x.a.map (c * ·)
    b := x.b.map (c * ·)
    scale := x.scale.map (c * ·)
    tU := x.tU.map fun l => l.map (c * ·)
    t := x.t.map fun l => l.map (c * ·) }

/-- The model in a unit of time that is `c` times smaller. -/
noncomputable def RgpcmModel.rescale (c : ℝ) (g : RgpcmModel) : RgpcmModel :=
  { g with
    alpha := g.alpha / c
    alphaT := g.alphaT / √c
    lam := g.lam / c
    extent := c * g.extent
    a := c * g.a
    b := c * g.b
    tU := g.tU.map (c * ·)
    gamma := g.gamma / c
    gammaT := g.gammaT / √c }

section
variable {c : ℝ} (hc : 0 < c)
include hc

theorem divE_mul_right (x y : ℝ) : divE x (c * y) = (divE x y).map (· / c) := by
  unfold divE
  by_cases h : y = 0
  · simp only [h, mul_zero, if_true, Except.map]
  · rw [if_neg h, if_neg (mul_ne_zero hc.ne' h)]
    simp only [Except.map]
    congr 1
    rw [div_div, mul_comm]

theorem divE_div_right (x y : ℝ) : divE x (y / c) = (divE x y).map (c * ·) := by
  unfold divE
  by_cases h : y = 0
  · simp only [h, zero_div, if_true, Except.map]
  · rw [if_neg h, if_neg (div_ne_zero h hc.ne')]
    simp only [Except.map]
    congr 1
    rw [div_div_eq_mul_div, mul_comm, mul_div_assoc]

theorem divE_mul_mul (x y : ℝ) : divE (c * x) (c * y) = divE x y := by
  unfold divE
  simp only [mul_eq_zero, hc.ne', false_or, ratio_unit hc]

theorem sqrt_unit (x : ℝ) : √(2 * (x / c)) = √(2 * x) / √c := by
  rw [← sqrt_div' _ hc.le]
  congr 1
  ring

theorem Rgpcm.autoNU_unit (x : RgpcmArgs) : Rgpcm.autoNU (x.rescale c) = Rgpcm.autoNU x := by
  have e : ∀ w : ℝ, 2 * 2 * (c * w) = c * (2 * 2 * w) := fun w => by ring
  unfold Rgpcm.autoNU RgpcmArgs.rescale
  simp only [need_map, bind1_map, e, divE_mul_mul hc]

theorem Rgpcm.initTU_unit (x : RgpcmArgs) (alpha : ℝ) :
    Rgpcm.initTU (x.rescale c) (alpha / c) = (Rgpcm.initTU x alpha).map fun u => (u.1, u.2.map (c * ·)) := by
  unfold Rgpcm.initTU
  rw [Rgpcm.autoNU_unit hc, divE_div_right hc]
  cases h : x.tU with
  | some tU => simp only [RgpcmArgs.rescale, h, Option.map_some, Except.map, List.length_map]
  | none =>
    simp only [RgpcmArgs.rescale, h, Option.map_none, bind1_map, map_bind1]
    have e : ∀ (m : ℝ) (n : ℤ), linspace 0 (c * m) n = (linspace 0 m n).map fun l => l.map (c * ·) := fun m n => by
      rw [← linspace_unit, mul_zero]
    simp only [e, bind1_map]
    rfl

/-- **C137** Constructing an RGPCM in another unit of time gives the model in that unit. -/
theorem c137_rgpcm_new (x : RgpcmArgs) : RgpcmModel.new (x.rescale c) = (RgpcmModel.new x).map (RgpcmModel.rescale c) := by
  have e1 : orElse (x.rescale c).alpha (bind1 (need (x.rescale c).window) (divE 1)) =
      (orElse x.alpha (bind1 (need x.window) (divE 1))).map (· / c) := by
    rw [← orElse_map]
    simp only [RgpcmArgs.rescale, need_map, bind1_map, map_bind1, divE_mul_right hc]
  have e2 : orElse (x.rescale c).lam (bind1 (need (x.rescale c).scale) (divE 1)) =
      (orElse x.lam (bind1 (need x.scale) (divE 1))).map (· / c) := by
    rw [← orElse_map]
    simp only [RgpcmArgs.rescale, need_map, bind1_map, map_bind1, divE_mul_right hc]
  have e3 : ∀ l, Rgpcm.initA (x.rescale c) (l.map (c * ·)) = (Rgpcm.initA x l).map (c * ·) := fun l => by
    unfold Rgpcm.initA
    rw [← orElse_map]
    unfold RgpcmArgs.rescale
    simp only [need_map, bind1_map, pyMin_unit hc, pyMax_unit hc, map_bind1, ← mul_sub]
    rfl
  have e4 : Rgpcm.initB (x.rescale c) = (Rgpcm.initB x).map (c * ·) := by
    unfold Rgpcm.initB
    rw [← orElse_map]
    unfold RgpcmArgs.rescale
    simp only [need_map, bind1_map, pyMax_unit hc, map_bind1]
  have e5 : ∀ a b, Rgpcm.initMMax (x.rescale c) (c * a) (c * b) = Rgpcm.initMMax x a b := fun a b => by
    have e : ∀ f : ℝ, f / c * (c * b - c * a) = f * (b - a) := fun f => by field_simp
    unfold Rgpcm.initMMax RgpcmArgs.rescale
    simp only [need_map, bind1_map, divE_mul_right hc, e]
  have e6 : ∀ l, Rgpcm.initGamma (x.rescale c) (l.map (c * ·)) = (Rgpcm.initGamma x l).map (· / c) := fun l => by
    unfold Rgpcm.initGamma
    rw [← orElse_map]
    congr 1
    match l with
    | [] => rfl
    | [_] => rfl
    | u0 :: u1 :: _ =>
      simp only [List.map_cons]
      rw [← divE_mul_right hc]
      congr 1
      ring
  have e7 : ∀ m, Rgpcm.initMs (x.rescale c) m = Rgpcm.initMs x m := fun m => rfl
  have e8 : ∀ alpha, (x.rescale c).alphaT.getD (√(2 * (alpha / c))) = x.alphaT.getD (√(2 * alpha)) / √c := fun alpha => by
    unfold RgpcmArgs.rescale
    cases x.alphaT with
    | some y => rfl
    | none => exact sqrt_unit hc alpha
  have e9 : ∀ gamma, (x.rescale c).gammaT.getD (√(2 * (gamma / c))) = x.gammaT.getD (√(2 * gamma)) / √c := fun gamma => by
    unfold RgpcmArgs.rescale
    cases x.gammaT with
    | some y => rfl
    | none => exact sqrt_unit hc gamma
  have e10 : ∀ alpha gamma : ℝ, min (gamma / c) (alpha / c / 1.5) = min gamma (alpha / 1.5) / c := fun alpha gamma => by
    rw [← min_div_div_right hc.le, div_right_comm]
  unfold RgpcmModel.new
  simp only [e1, e2, e3, e4, e5, e6, e7, e8, e9, e10, divE_div_right hc, Rgpcm.initTU_unit hc, bind1_map, map_bind1]
  rfl

variable (g : RgpcmModel)

omit hc in
theorem RgpcmModel.period_unit (k : ℝ) : 2 * π * k / (c * (g.b - g.a)) = 2 * π * k / (g.b - g.a) / c := by
  rw [div_div, mul_comm c]

theorem sq_div_sqrt (x : ℝ) : (x / √c) ^ 2 = x ^ 2 / c := by rw [div_pow, sq_sqrt hc.le]

theorem RgpcmModel.kuEntry_unit (x y : ℝ) : (g.rescale c).kuEntry (c * x) (c * y) = g.kuEntry x y := by
  have e1 : g.gamma / c * |c * x - c * y| = g.gamma * |x - y| := by
    rw [← mul_sub, abs_mul, abs_of_pos hc]
    field_simp
  have e2 : g.gammaT ^ 2 / c / (2 * (g.gamma / c)) = g.gammaT ^ 2 / (2 * g.gamma) := by
    rw [← mul_div_assoc, div_div_div_cancel_right₀ hc.ne']
  simp only [RgpcmModel.kuEntry, RgpcmModel.rescale, sq_div_sqrt hc, e2, neg_mul, e1]

theorem RgpcmModel.computeKz_unit : (g.rescale c).computeKz = g.computeKz := by
  have e0 : ∀ k, (g.rescale c).kzOmega k = g.kzOmega k / c := fun k => by
    simp only [RgpcmModel.kzOmega, RgpcmModel.rescale, ← mul_sub, RgpcmModel.period_unit]
    rfl
  have e1 : ∀ ω, RgpcmModel.psdMatern12 (ω / c) (g.lam / c) 1 = c * RgpcmModel.psdMatern12 ω g.lam 1 := fun ω => by
    unfold RgpcmModel.psdMatern12
    rw [div_pow, div_pow, ← add_div, mul_one, ← mul_div_assoc, div_div_eq_mul_div, sq, ← mul_assoc, div_mul_cancel₀ _ hc.ne']
    ring
  have e : ∀ k, (g.rescale c).kzAlpha k = g.kzAlpha k := fun k => by
    simp only [RgpcmModel.kzAlpha, e0]
    simp only [RgpcmModel.rescale, e1, ← mul_sub]
    rw [mul_left_comm, ratio_unit hc]
  have e' : ∀ k, (g.rescale c).kzBeta k = g.kzBeta k := fun k => rfl
  unfold RgpcmModel.computeKz
  simp only [e, e']
  rfl

theorem RgpcmModel.ihx_unit (x y : ℝ) : (g.rescale c).ihx (c * x) (c * y) = g.ihx x y := by
  have e1 : g.lam / c * |c * x - c * y| = g.lam * |x - y| := by
    rw [← mul_sub, abs_mul, abs_of_pos hc]
    field_simp
  have e2 : g.alphaT ^ 2 / c / 2 / (g.alpha / c) = g.alphaT ^ 2 / 2 / g.alpha := by
    rw [div_right_comm _ c 2, div_div_div_cancel_right₀ hc.ne']
  simp only [RgpcmModel.ihx, RgpcmModel.rescale, sq_div_sqrt hc, e2, neg_mul, e1]

theorem RgpcmModel.integralAbcd_unit (x y p q : ℝ) :
    RgpcmModel.integralAbcd (c * x) (c * y) (p / c) (q / c) = c ^ 2 * RgpcmModel.integralAbcd x y p q := by
  have s1 : Real.sign (c * x) = Real.sign x := by
    rcases lt_trichotomy x 0 with h | h | h
    · rw [sign_of_neg h, sign_of_neg (mul_neg_of_pos_of_neg hc h)]
    · rw [h, mul_zero]
    · rw [sign_of_pos h, sign_of_pos (mul_pos hc h)]
  have s2 : ∀ r : ℝ, r * (q / c) / (p / c) = r * q / p := fun r => by
    rw [← mul_div_assoc, div_div_div_cancel_right₀ hc.ne']
  have a1 : ∀ v : ℝ, |c * v| = c * |v| := fun v => by rw [abs_mul, abs_of_pos hc]
  have s3 : ∀ r : ℝ, 2 * (p / c) * r * min (c * |x|) (c * |y|) = 2 * p * r * min |x| |y| := fun r => by
    rw [← mul_min_of_nonneg _ _ hc.le]
    field_simp
  have s4 : ∀ v w : ℝ, p / c * (c * v) - q / c * (c * w) = p * v - q * w := fun v w => by field_simp
  have s5 : c * x * (c * y) ≥ 0 ↔ x * y ≥ 0 := by
    rw [show c * x * (c * y) = c ^ 2 * (x * y) by ring]
    exact mul_nonneg_iff_of_pos_left (by positivity)
  simp only [RgpcmModel.integralAbcd, s1, s2, a1, s3, s4, ← mul_add, ← mul_sub, s5]
  rw [div_pow, div_pow, ← sub_div, div_div_eq_mul_div]
  ring

theorem RgpcmModel.iuxEntry_unit (t1 t2 u1 u2 : ℝ) :
    (g.rescale c).iuxEntry (c * t1) (c * t2) (c * u1) (c * u2) = g.iuxEntry t1 t2 u1 u2 := by
  have e1 : (g.gamma / c - g.alpha / c) = (g.gamma - g.alpha) / c := (sub_div _ _ _).symm
  have e2 : (g.gamma - g.alpha) / c = 0 ↔ g.gamma - g.alpha = 0 := by simp [hc.ne']
  have e3 : ((g.gamma - g.alpha) / c) ^ 2 - (g.lam / c) ^ 2 = 0 ↔ (g.gamma - g.alpha) ^ 2 - g.lam ^ 2 = 0 := by
    rw [div_pow, div_pow, ← sub_div]
    simp [hc.ne']
  have e4 : ∀ x y z w : ℝ, -(g.gamma / c) * (c * x + c * y) + (g.gamma - g.alpha) / c * (c * z + c * w) =
      -g.gamma * (x + y) + (g.gamma - g.alpha) * (z + w) := fun x y z w => by
    field_simp
  have e5 : ∀ x : ℝ, -(c * x) = c * -x := fun x => by ring
  have e6 : ∀ x y z w p q : ℝ, RgpcmModel.integralAbcdLu (c * x) (c * y) (c * z) (c * w) (p / c) (q / c) =
      c ^ 2 * RgpcmModel.integralAbcdLu x y z w p q := fun x y z w p q => by
    simp only [RgpcmModel.integralAbcdLu, RgpcmModel.integralAbcd_unit hc]
    ring
  simp only [RgpcmModel.iuxEntry, RgpcmModel.rescale, e1, e2, e3, e4, e5, e6, ← mul_sub, sq_div_sqrt hc]
  congr 1
  congr 1
  field_simp

theorem RgpcmModel.hxCos_unit (n t : ℝ) : (g.rescale c).hxCos n (c * t) = g.hxCos n t := by
  have e1 : ∀ x y : ℝ, x / c * (c * y) = x * y := fun x y => by field_simp
  have e2 : ∀ x y : ℝ, -2 * (x / c) * (c * y) = -2 * x * y := fun x y => by field_simp
  have e3 : ∀ x y z w : ℝ, g.alphaT ^ 2 / c / (4 * (x / c) ^ 2 + (y / c) ^ 2) * (2 * (x / c) * z + y / c * w) =
      g.alphaT ^ 2 / (4 * x ^ 2 + y ^ 2) * (2 * x * z + y * w) := fun x y z w => by
    rw [div_pow, div_pow, ← mul_div_assoc, ← add_div, div_div_eq_mul_div]
    field_simp
  have e4 : g.alphaT ^ 2 / c / (2 * (g.alpha / c + g.lam / c)) = g.alphaT ^ 2 / (2 * (g.alpha + g.lam)) := by
    rw [← add_div, ← mul_div_assoc, div_div_div_cancel_right₀ hc.ne']
  simp only [RgpcmModel.hxCos, RgpcmModel.rescale, RgpcmModel.period_unit, ← mul_sub, e1, e2, sq_div_sqrt hc, e3, e4]

theorem RgpcmModel.hxSin_unit (n t : ℝ) : (g.rescale c).hxSin n (c * t) = g.hxSin n t := by
  have e1 : ∀ x y : ℝ, x / c * (c * y) = x * y := fun x y => by field_simp
  have e2 : ∀ x y : ℝ, -2 * (x / c) * (c * y) = -2 * x * y := fun x y => by field_simp
  have e3 : ∀ x y z w : ℝ, g.alphaT ^ 2 / c / (4 * (x / c) ^ 2 + (y / c) ^ 2) * (y / c * w + 2 * (x / c) * z) =
      g.alphaT ^ 2 / (4 * x ^ 2 + y ^ 2) * (y * w + 2 * x * z) := fun x y z w => by
    rw [div_pow, div_pow, ← mul_div_assoc, ← add_div, div_div_eq_mul_div]
    field_simp
  simp only [RgpcmModel.hxSin, RgpcmModel.rescale, RgpcmModel.period_unit, ← mul_sub, e1, e2, sq_div_sqrt hc, e3]

theorem RgpcmModel.computeIhz_unit (perm : List ℕ) (t : ℝ) : (g.rescale c).computeIhz perm (c * t) = g.computeIhz perm t := by
  have e : ∀ ms, (g.rescale c).ihzSorted ms (c * t) = g.ihzSorted ms t := fun ms => by
    unfold RgpcmModel.ihzSorted
    simp only [RgpcmModel.hxCos_unit hc, RgpcmModel.hxSin_unit hc]
    rfl
  simp only [RgpcmModel.computeIhz, e]
  rfl

omit hc in
theorem mapE_comp {α β γ : Type} (f : α → β) (k : β → Except PyErr γ) (l : List α) :
    mapE k (l.map f) = mapE (fun x => k (f x)) l := by
  induction l with
  | nil => rfl
  | cons a l ih => simp only [List.map_cons, mapE, ih]

omit hc in
theorem mapE_out {α β γ : Type} (f : β → γ) (k : α → Except PyErr β) (l : List α) :
    mapE (fun x => (k x).map f) l = (mapE k l).map fun r => r.map f := by
  induction l with
  | nil => rfl
  | cons a l ih =>
    simp only [mapE, ih]
    cases k a with
    | error e => rfl
    | ok b =>
      cases mapE k l with
      | error e => rfl
      | ok bs => rfl

omit hc in
theorem RgpcmModel.takeE_map {α β : Type} (f : α → β) (l : List α) (idx : List ℤ) :
    RgpcmModel.takeE (l.map f) idx = (RgpcmModel.takeE l idx).map fun r => r.map f := by
  unfold RgpcmModel.takeE
  rw [← mapE_out]
  refine mapE_congr fun i _ => ?_
  rw [List.getElem?_map]
  cases l[i.toNat]? with
  | none => rfl
  | some x =>
    simp only [Option.map_some]
    split <;> rfl

theorem RgpcmModel.computeIuz_unit (perm : List ℕ) (t : ℝ) : (g.rescale c).computeIuz perm (c * t) = g.computeIuz perm t := by
  have d : (g.alpha / c - g.gamma / c) = (g.alpha - g.gamma) / c := (sub_div _ _ _).symm
  have e0 : ∀ x y : ℝ, x / c * (c * y) = x * y := fun x y => by field_simp
  have e1 : ∀ l u, (g.rescale c).integralLu0 (c * l) (c * u) = c * g.integralLu0 l u := fun l u => by
    simp only [RgpcmModel.integralLu0, RgpcmModel.rescale, d, ← mul_sub, e0]
    rw [one_div_div]
    ring
  have e2 : ∀ l u k, (g.rescale c).integralLukLeqM (c * l) (c * u) k = c * g.integralLukLeqM l u k := fun l u k => by
    simp only [RgpcmModel.integralLukLeqM, RgpcmModel.rescale, d, ← mul_sub, e0, RgpcmModel.period_unit]
    rw [div_pow, div_pow, ← add_div, one_div_div]
    field_simp
  have e3 : ∀ l u k, (g.rescale c).integralLukGM (c * l) (c * u) k = c * g.integralLukGM l u k := fun l u k => by
    simp only [RgpcmModel.integralLukGM, RgpcmModel.rescale, d, ← mul_sub, e0, RgpcmModel.period_unit]
    rw [div_pow, div_pow, ← add_div, div_div_eq_mul_div]
    field_simp
  have hg : ∀ u, -(g.gamma / c) * (c * u) = -g.gamma * u := fun u => by field_simp
  have hT : ∀ x y : ℝ, g.alphaT / √c * (g.gammaT / √c) * x * (c * y) = g.alphaT * g.gammaT * x * y := fun x y => by
    rw [div_mul_div_comm, mul_self_sqrt hc.le]
    field_simp
  have hz : ∀ (ms : List ℕ) (r : ℝ), ((RgpcmModel.zeros ms).map fun k : ℕ => c * r + (k : ℝ)) =
      ((RgpcmModel.zeros ms).map fun k : ℕ => r + (k : ℝ)).map (c * ·) := fun ms r => by
    rw [List.map_map]
    refine List.map_congr_left fun k hk => ?_
    have : k = 0 := by simpa [RgpcmModel.zeros] using (List.mem_filter.1 hk).2
    simp [this]
  unfold RgpcmModel.computeIuz
  congr 1
  funext inv
  congr 1
  funext ms
  show mapE _ (g.tU.map (c * ·)) = _
  rw [mapE_comp]
  refine mapE_congr fun u _ => ?_
  simp only [← mul_sub, e1, e2, e3, hz]
  rw [show ((g.rescale c).mid ms).map (fun k : ℕ => c * g.integralLukLeqM (t - u) t k) =
      ((g.mid ms).map fun k : ℕ => g.integralLukLeqM (t - u) t k).map (c * ·) by rw [List.map_map]; rfl,
    show ((g.rescale c).high ms).map (fun k : ℕ => c * g.integralLukGM (t - u) t k) =
      ((g.high ms).map fun k : ℕ => g.integralLukGM (t - u) t k).map (c * ·) by rw [List.map_map]; rfl,
    ← List.map_append, ← List.map_append, RgpcmModel.takeE_map, bind1_map]
  congr 1
  funext row
  congr 1
  rw [List.map_map]
  refine List.map_congr_left fun x _ => ?_
  show g.alphaT / √c * (g.gammaT / √c) * exp (-(g.gamma / c) * (c * u)) * (c * x) = _
  rw [hg, hT]

/-- **C137** What the approximation works with is the same, apart from the clock. -/
theorem c137_rgpcm_integrals {perm : List ℕ} {nu nz : ℕ} {m : Inst (Fin nu) (Fin nz)} (h : g.Returns perm m) :
    (g.rescale c).Returns perm (Spec.reclock (· / c) m) := by
  have hcc : ∀ t, c * (t / c) = t := fun t => mul_div_cancel₀ t hc.ne'
  refine ⟨?_, ?_, h.noise, fun a b => ?_, ?_, fun t => ?_, fun t => ?_⟩
  · refine h.Ku.trans ?_
    show _ = (g.tU.map (c * ·)).map fun x => (g.tU.map (c * ·)).map fun y => _
    simp only [List.map_map, Function.comp_def, RgpcmModel.kuEntry_unit hc]
  · rw [RgpcmModel.computeKz_unit hc]
    exact h.Kz
  · show m.iHx (a / c) (b / c) = _
    rw [h.iHx, ← RgpcmModel.ihx_unit hc, hcc, hcc]
  · show mapE (fun x => mapE (fun y => (g.rescale c).iuxEntry 0 0 x y) (g.tU.map (c * ·))) (g.tU.map (c * ·)) = _
    have e := RgpcmModel.iuxEntry_unit hc g 0 0
    rw [mul_zero] at e
    simp only [mapE_comp, e]
    exact h.iUx
  · rw [← hcc t, RgpcmModel.computeIhz_unit hc]
    show _ = Except.ok (rows (m.iHz (c * (t / c) / c)))
    rw [hcc]
    exact h.iHz _
  · rw [← hcc t, RgpcmModel.computeIuz_unit hc]
    show _ = Except.ok (rows (m.iUz (c * (t / c) / c)))
    rw [hcc]
    exact h.iUz _

/-- **C137** An RGPCM gives the same bounds, fits and predictions in any unit of time. -/
theorem c137_rgpcm {perm : List ℕ} {nu nz : ℕ} {m m' : Inst (Fin nu) (Fin nz)} (h : g.Returns perm m)
    (h' : (g.rescale c).Returns perm m') (C : Chols (Fin nu) (Fin nz)) (W : ℕ → (Fin nu → ℝ) × (Fin nz → ℝ)) :
    Spec.SameOnClock C m (c * ·) W m' := by
  rw [h'.unique (c137_rgpcm_integrals hc g h)]
  exact sameOnClock C m (fun t => mul_div_cancel_left₀ t hc.ne') W

/-- Every RGPCM that has such integrals has them in every unit. -/
example (hM : 0 ≤ g.mMax) {perm : List ℕ} (hp : IsArgsort perm g.ms) (h1 : g.gamma ≠ g.alpha)
    (h2 : (g.gamma - g.alpha) ^ 2 ≠ g.lam ^ 2) : ∃ m m' : Inst (Fin g.tU.length) (Fin g.ms.length),
    g.Returns perm m ∧ (g.rescale c).Returns perm m' := by
  obtain ⟨m, h⟩ := g.exists_returns hM hp h1 h2
  exact ⟨m, _, h, c137_rgpcm_integrals hc g h⟩

end

end Gpcm
