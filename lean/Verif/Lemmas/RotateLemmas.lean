import Verif.Lemmas.FarLemmas
import Verif.Props.OrderProps
import Verif.Props.SessionProps

/-!
# Orthogonal changes of the inducing variables

If the inducing variables of the filter are multiplied by an orthogonal matrix `P` and those of the noise by `Q`, everything
that the approximation computes changes accordingly, and what it reports does not change. Permutations and changes of sign are
special cases.
-/

open Matrix Real

namespace Gpcm

/-- An orthogonal matrix between two index types. -/
structure Spec.Orthogonal {n' n : Type} [Fintype n] [DecidableEq n] [Fintype n'] [DecidableEq n'] (P : Matrix n' n ℝ) : Prop where
  left : Pᵀ * P = 1
  right : P * Pᵀ = 1

/-- The Cholesky factor of `P A Pᵀ` that belongs to that of `A`. -/
def Spec.CholRotated {n' n : Type} [Fintype n] [DecidableEq n] [Fintype n'] [DecidableEq n'] (P : Matrix n' n ℝ)
    (C : CholOracle n) (C' : CholOracle n') : Prop := ∀ A, C'.chol (P * A * Pᵀ) = P * C.chol A * Pᵀ

section normal
variable {n' n : Type} [Fintype n] [DecidableEq n] [Fintype n'] [DecidableEq n'] {P : Matrix n' n ℝ}
  (hP : Spec.Orthogonal P) {C : CholOracle n} {C' : CholOracle n'} (hC : Spec.CholRotated P C C')

include hP in
theorem rotate_back (A : Matrix n n ℝ) : Pᵀ * (P * A * Pᵀ) * P = A := by
  calc Pᵀ * (P * A * Pᵀ) * P = (Pᵀ * P) * A * (Pᵀ * P) := by simp only [Matrix.mul_assoc]
    _ = A := by rw [hP.left, Matrix.one_mul, Matrix.mul_one]

include hP in
theorem rotate_mul (A B : Matrix n n ℝ) : (P * A * Pᵀ) * (P * B * Pᵀ) = P * (A * B) * Pᵀ := by
  calc (P * A * Pᵀ) * (P * B * Pᵀ) = P * A * (Pᵀ * P) * B * Pᵀ := by simp only [Matrix.mul_assoc]
    _ = P * (A * B) * Pᵀ := by rw [hP.left]; simp only [Matrix.mul_one, Matrix.mul_assoc]

include hP in
/-- Such factorisations exist. -/
theorem exists_cholRotated (C : CholOracle n) : ∃ C' : CholOracle n', Spec.CholRotated P C C' := by
  refine ⟨⟨fun B => P * C.chol (Pᵀ * B * P) * Pᵀ, fun B hB => ?_⟩, fun A => ?_⟩
  · have hi : Function.Injective (P *ᵥ ·) := fun x y h => by
      have := congrArg (Pᵀ *ᵥ ·) h
      simpa only [mulVec_mulVec, hP.left, one_mulVec] using this
    have hp : (Pᵀ * B * P).PosDef := by
      have := hB.conjTranspose_mul_mul_same hi
      rwa [conjTranspose_eq_transpose_of_trivial] at this
    have e : ∀ L : Matrix n n ℝ, (P * L * Pᵀ)ᵀ = P * Lᵀ * Pᵀ := fun L => by
      simp only [transpose_mul, transpose_transpose, Matrix.mul_assoc]
    rw [e, rotate_mul hP, C.spec _ hp]
    calc P * (Pᵀ * B * P) * Pᵀ = (P * Pᵀ) * B * (P * Pᵀ) := by simp only [Matrix.mul_assoc]
      _ = B := by rw [hP.right, Matrix.one_mul, Matrix.mul_one]
  · show P * C.chol (Pᵀ * (P * A * Pᵀ) * P) * Pᵀ = _
    rw [rotate_back hP]

omit [DecidableEq n] [Fintype n'] [DecidableEq n'] in
theorem transpose_rotate (L : Matrix n n ℝ) : (P * L * Pᵀ)ᵀ = P * Lᵀ * Pᵀ := by
  simp only [transpose_mul, transpose_transpose, Matrix.mul_assoc]

include hP

theorem inv_rotate (L : Matrix n n ℝ) : (P * L * Pᵀ)⁻¹ = P * L⁻¹ * Pᵀ := by
  have hd : (P * L * Pᵀ).det = L.det := det_conj_of_mul_eq_one hP.right hP.left
  by_cases h : IsUnit L.det
  · refine inv_eq_right_inv ?_
    rw [rotate_mul hP, mul_nonsing_inv _ h, Matrix.mul_one, hP.right]
  · rw [nonsing_inv_apply_not_isUnit _ h, nonsing_inv_apply_not_isUnit _ (by rwa [hd]), Matrix.mul_zero, Matrix.zero_mul]

theorem card_rotate : Fintype.card n' = Fintype.card n := by
  have h := Matrix.trace_mul_comm P Pᵀ
  rw [hP.left, hP.right, trace_one, trace_one] at h
  exact_mod_cast h

theorem cholsolve_rotate {k : Type} (L : Matrix n n ℝ) (b : Matrix n k ℝ) :
    cholsolve (P * L * Pᵀ) (P * b) = P * cholsolve L b := by
  unfold cholsolve
  rw [transpose_rotate, inv_rotate hP, inv_rotate hP]
  calc P * Lᵀ⁻¹ * Pᵀ * (P * L⁻¹ * Pᵀ * (P * b)) = P * Lᵀ⁻¹ * (Pᵀ * P) * L⁻¹ * (Pᵀ * P) * b := by
        simp only [Matrix.mul_assoc]
    _ = _ := by rw [hP.left]; simp only [Matrix.mul_one, Matrix.mul_assoc]

theorem cholsolveVec_rotate (L : Matrix n n ℝ) (b : n → ℝ) :
    cholsolveVec (P * L * Pᵀ) (P *ᵥ b) = P *ᵥ cholsolveVec L b := by
  unfold cholsolveVec
  rw [transpose_rotate, inv_rotate hP, inv_rotate hP]
  simp only [mulVec_mulVec]
  congr 1
  calc P * Lᵀ⁻¹ * Pᵀ * (P * L⁻¹ * Pᵀ * P) = P * Lᵀ⁻¹ * (Pᵀ * P) * L⁻¹ * (Pᵀ * P) := by
        simp only [Matrix.mul_assoc]
    _ = _ := by rw [hP.left]; simp only [Matrix.mul_one, Matrix.mul_assoc]

omit hP in
theorem cholsolve_mul {k l : Type} [Fintype k] (L : Matrix n n ℝ) (b : Matrix n k ℝ) (c : Matrix k l ℝ) :
    cholsolve L (b * c) = cholsolve L b * c := by
  unfold cholsolve
  simp only [Matrix.mul_assoc]

/-- The distribution of a vector that is multiplied by `P`. -/
def NatNormal.rotate (P : Matrix n' n ℝ) (q : NatNormal n) : NatNormal n' := ⟨P *ᵥ q.lam, P * q.prec * Pᵀ⟩

theorem dot_rotate (x y : n → ℝ) : (P *ᵥ x) ⬝ᵥ (P *ᵥ y) = x ⬝ᵥ y := by
  rw [dotProduct_mulVec, vecMul_mulVec, hP.left, vecMul_one]

omit [DecidableEq n] [Fintype n'] [DecidableEq n'] hP in
theorem vecMulVec_rotate (x y : n → ℝ) : vecMulVec (P *ᵥ x) (P *ᵥ y) = P * vecMulVec x y * Pᵀ := by
  rw [mul_vecMulVec, vecMulVec_mul, vecMul_transpose]

omit hP in
theorem frob_trace {α β : Type} [Fintype α] [Fintype β] (X Y : Matrix α β ℝ) : frob X Y = (Xᵀ * Y).trace := by
  unfold frob trace
  simp only [diag_apply, mul_apply, transpose_apply]
  exact Finset.sum_comm

theorem frob_rotate (X Y : Matrix n n ℝ) : frob (P * X * Pᵀ) (P * Y * Pᵀ) = frob X Y := by
  rw [frob_trace, frob_trace, transpose_rotate, rotate_mul hP, trace_mul_comm, ← Matrix.mul_assoc, hP.left, Matrix.one_mul]

include hC

theorem pdInv_rotate (A : Matrix n n ℝ) : pdInv C' (P * A * Pᵀ) = P * pdInv C A * Pᵀ := by
  unfold pdInv
  rw [hC, ← hP.right, cholsolve_rotate hP, ← Matrix.one_mul Pᵀ, cholsolve_mul, Matrix.mul_assoc, Matrix.one_mul]

variable (q : NatNormal n)

theorem NatNormal.mean_rotate : (q.rotate P).mean C' = P *ᵥ q.mean C := by
  unfold NatNormal.mean NatNormal.rotate
  rw [hC, cholsolveVec_rotate hP]

theorem NatNormal.sample_rotate (w : n → ℝ) : (q.rotate P).sample C' (P *ᵥ w) = P *ᵥ q.sample C w := by
  unfold NatNormal.sample NatNormal.rotate
  have e : (P * C.chol q.prec * Pᵀ) *ᵥ (P *ᵥ w) = P *ᵥ (C.chol q.prec *ᵥ w) := by
    simp only [mulVec_mulVec]
    rw [Matrix.mul_assoc, hP.left, Matrix.mul_one]
  rw [hC, e, ← mulVec_add, cholsolveVec_rotate hP]

theorem NatNormal.m2_rotate : (q.rotate P).m2 C' = P * q.m2 C * Pᵀ := by
  have e : ∀ L b : Matrix n n ℝ, cholsolve (P * L * Pᵀ) (P * b * Pᵀ) = P * cholsolve L b * Pᵀ := fun L b => by
    rw [Matrix.mul_assoc P b, cholsolve_rotate hP, cholsolve_mul, Matrix.mul_assoc]
  unfold NatNormal.m2 NatNormal.rotate
  simp only
  rw [hC, vecMulVec_rotate, ← Matrix.add_mul, ← Matrix.mul_add, e, transpose_rotate, e]

theorem NatNormal.kl_rotate (p : NatNormal n) : (q.rotate P).kl C' (p.rotate P) = q.kl C p := by
  have e1 : (C'.chol (q.rotate P).prec)⁻¹ * C'.chol (p.rotate P).prec = P * ((C.chol q.prec)⁻¹ * C.chol p.prec) * Pᵀ := by
    unfold NatNormal.rotate
    rw [hC, hC, inv_rotate hP, rotate_mul hP]
  have e2 : (q.rotate P).mean C' - (p.rotate P).mean C' = P *ᵥ (q.mean C - p.mean C) := by
    rw [NatNormal.mean_rotate hP hC, NatNormal.mean_rotate hP hC, mulVec_sub]
  have e3 : ∀ d : n → ℝ, (∑ i, ((p.rotate P).prec *ᵥ (P *ᵥ d)) i * (P *ᵥ d) i) = ∑ i, (p.prec *ᵥ d) i * d i := fun d => by
    have : (p.rotate P).prec *ᵥ (P *ᵥ d) = P *ᵥ (p.prec *ᵥ d) := by
      unfold NatNormal.rotate
      simp only [mulVec_mulVec]
      rw [Matrix.mul_assoc, hP.left, Matrix.mul_one]
    rw [this]
    exact dot_rotate hP _ _
  have e4 : ∀ R : Matrix n n ℝ, (∑ i, ∑ j, (P * R * Pᵀ) i j ^ 2) = ∑ i, ∑ j, R i j ^ 2 := fun R => by
    have := frob_rotate hP R R
    simpa only [frob, ← sq] using this
  have e5 : ∀ R : Matrix n n ℝ, ((P * R * Pᵀ)ᵀ * (P * R * Pᵀ)).det = (Rᵀ * R).det := fun R => by
    rw [transpose_rotate, rotate_mul hP, det_conj_of_mul_eq_one hP.right hP.left]
  unfold NatNormal.kl
  simp only [e1, e2, e3, e4, e5, card_rotate hP]

theorem NatNormal.logpdf_rotate (x : n → ℝ) : (q.rotate P).logpdf C' (P *ᵥ x) = q.logpdf C x := by
  have e3 : ∀ d : n → ℝ, (∑ i, ((q.rotate P).prec *ᵥ (P *ᵥ d)) i * (P *ᵥ d) i) = ∑ i, (q.prec *ᵥ d) i * d i := fun d => by
    have : (q.rotate P).prec *ᵥ (P *ᵥ d) = P *ᵥ (q.prec *ᵥ d) := by
      unfold NatNormal.rotate
      simp only [mulVec_mulVec]
      rw [Matrix.mul_assoc, hP.left, Matrix.mul_one]
    rw [this]
    exact dot_rotate hP _ _
  unfold NatNormal.logpdf
  simp only [NatNormal.mean_rotate hP hC, ← mulVec_sub, e3, card_rotate hP]
  rw [show (q.rotate P).prec.det = q.prec.det from det_conj_of_mul_eq_one hP.right hP.left]

theorem iqf_rotate (A : Matrix n n ℝ) (b : n → ℝ) : iqf C' (P * A * Pᵀ) (P *ᵥ b) = iqf C A b := by
  have : (P * C.chol A * Pᵀ)⁻¹ *ᵥ (P *ᵥ b) = P *ᵥ ((C.chol A)⁻¹ *ᵥ b) := by
    rw [inv_rotate hP]
    simp only [mulVec_mulVec]
    rw [Matrix.mul_assoc, hP.left, Matrix.mul_one]
  unfold iqf
  rw [hC, this]
  have := dot_rotate hP ((C.chol A)⁻¹ *ᵥ b) ((C.chol A)⁻¹ *ᵥ b)
  simpa only [dotProduct, ← sq] using this

omit hC

theorem rmsVec_rotate (x y : n → ℝ) : rmsVec (P *ᵥ x) (P *ᵥ y) = rmsVec x y := by
  have := dot_rotate hP (x - y) (x - y)
  simp only [mulVec_sub, dotProduct, ← sq, Pi.sub_apply] at this
  rw [rmsVec, rmsVec, this, card_rotate hP]

theorem rmsMat_rotate (x y : Matrix n n ℝ) : rmsMat (P * x * Pᵀ) (P * y * Pᵀ) = rmsMat x y := by
  have := frob_rotate hP (x - y) (x - y)
  simp only [Matrix.mul_sub, Matrix.sub_mul, frob, ← sq, Matrix.sub_apply] at this
  rw [rmsMat, rmsMat, this, card_rotate hP]

end normal

section
variable {ι κ ι' κ' : Type} [Fintype ι] [DecidableEq ι] [Fintype κ] [DecidableEq κ] [Fintype ι'] [DecidableEq ι'] [Fintype κ']
  [DecidableEq κ']

/-- What the approximation works with if the inducing variables are multiplied by `P` and `Q`. -/
def Spec.rotate (P : Matrix ι' ι ℝ) (Q : Matrix κ' κ ℝ) (m : Inst ι κ) : Inst ι' κ' where
  Ku := P * m.Ku * Pᵀ
  Kz := Q * m.Kz * Qᵀ
  noise := m.noise
  iHx := m.iHx
  iUx := P * m.iUx * Pᵀ
  iHz t := Q * m.iHz t * Qᵀ
  iUz t := P * m.iUz t * Qᵀ

/-- The terms if the inducing variables are multiplied by `P` and `Q`. -/
def Terms.rotate (P : Matrix ι' ι ℝ) (Q : Matrix κ' κ ℝ) (ts : Terms ι κ) : Terms ι' κ' where
  n := ts.n
  iHx := ts.iHx
  iUx := P * ts.iUx * Pᵀ
  iHz := ts.iHz.map fun I => Q * I * Qᵀ
  iUz := ts.iUz.map fun I => P * I * Qᵀ
  KuSq := ts.KuSq.map fun I => Q * I * Qᵀ
  KzSq := ts.KzSq.map fun I => P * I * Pᵀ
  ASum := P * ts.ASum * Pᵀ
  BSum := Q * ts.BSum * Qᵀ
  cSum := ts.cSum

/-- The terms if the inducing variables are multiplied by `P` and `Q`. -/
def DataTerms.rotate (P : Matrix ι' ι ℝ) (Q : Matrix κ' κ ℝ) (ts : DataTerms ι κ) : DataTerms ι' κ' :=
  { ts.toTerms.rotate P Q with
    y := ts.y
    iUzSum := P * ts.iUzSum * Qᵀ }

/-- The distributions if the inducing variables are multiplied by `P` and `Q`. -/
def Posts.rotate (P : Matrix ι' ι ℝ) (Q : Matrix κ' κ ℝ) (p : Posts ι κ) : Posts ι' κ' :=
  ⟨p.qi, fun i => (p.qu i).rotate P, fun i => (p.qz i).rotate Q⟩

/-- The pair if the inducing variables are multiplied by `P` and `Q`. -/
def Pair.rotate (P : Matrix ι' ι ℝ) (Q : Matrix κ' κ ℝ) (p : Pair ι κ) : Pair ι' κ' := ⟨p.u.rotate P, p.z.rotate Q⟩

/-- The session if the inducing variables are multiplied by `P` and `Q`. -/
def Session.rotate (P : Matrix ι' ι ℝ) (Q : Matrix κ' κ ℝ) (s : Session ι κ) : Session ι' κ' where
  posts := s.posts.rotate P Q
  samplesU i := (s.samplesU i).map fun l => l.map fun u => P *ᵥ u
  samplesZ i := (s.samplesZ i).map fun l => l.map fun z => Q *ᵥ z
  ts := s.ts.map (DataTerms.rotate P Q)

theorem sum_map_mul_mul {α β γ δ : Type} [Fintype β] [Fintype γ] (P : Matrix α β ℝ) (R : Matrix γ δ ℝ)
    (l : List (Matrix β γ ℝ)) : (l.map fun X => P * X * R).sum = P * l.sum * R := by
  induction l with
  | nil => simp
  | cons X l ih => simp only [List.map_cons, List.sum_cons, ih, Matrix.mul_add, Matrix.add_mul]

variable {P : Matrix ι' ι ℝ} {Q : Matrix κ' κ ℝ} (hP : Spec.Orthogonal P) (hQ : Spec.Orthogonal Q) (C : Chols ι κ)
  (C' : Chols ι' κ') (hu : Spec.CholRotated P C.u C'.u) (hz : Spec.CholRotated Q C.z C'.z) (m : Inst ι κ)

omit [DecidableEq κ] [Fintype κ'] [DecidableEq κ'] in
include hP in
theorem sandwich_u (I : Matrix ι κ ℝ) (X : Matrix ι ι ℝ) : (P * I * Qᵀ)ᵀ * (P * X * Pᵀ) * (P * I * Qᵀ) = Q * (Iᵀ * X * I) * Qᵀ := by
  simp only [transpose_mul, transpose_transpose]
  calc Q * (Iᵀ * Pᵀ) * (P * X * Pᵀ) * (P * I * Qᵀ) = Q * Iᵀ * (Pᵀ * P) * X * (Pᵀ * P) * I * Qᵀ := by
        simp only [Matrix.mul_assoc]
    _ = _ := by rw [hP.left]; simp only [Matrix.mul_one, Matrix.mul_assoc]

omit [DecidableEq ι] [Fintype ι'] [DecidableEq ι'] in
include hQ in
theorem sandwich_z (I : Matrix ι κ ℝ) (X : Matrix κ κ ℝ) : (P * I * Qᵀ) * (Q * X * Qᵀ) * (P * I * Qᵀ)ᵀ = P * (I * X * Iᵀ) * Pᵀ := by
  simp only [transpose_mul, transpose_transpose]
  calc P * I * Qᵀ * (Q * X * Qᵀ) * (Q * (Iᵀ * Pᵀ)) = P * I * (Qᵀ * Q) * X * (Qᵀ * Q) * Iᵀ * Pᵀ := by
        simp only [Matrix.mul_assoc]
    _ = _ := by rw [hQ.left]; simp only [Matrix.mul_one, Matrix.mul_assoc]

omit [DecidableEq ι] [Fintype ι'] [DecidableEq ι'] in
include hQ in
theorem apply_z (I : Matrix ι κ ℝ) (z : κ → ℝ) : (P * I * Qᵀ) *ᵥ (Q *ᵥ z) = P *ᵥ (I *ᵥ z) := by
  simp only [mulVec_mulVec]
  rw [Matrix.mul_assoc, hQ.left, Matrix.mul_one]

omit [DecidableEq κ] [Fintype κ'] [DecidableEq κ'] in
include hP in
theorem apply_u (I : Matrix ι κ ℝ) (u : ι → ℝ) : (P * I * Qᵀ)ᵀ *ᵥ (P *ᵥ u) = Q *ᵥ (Iᵀ *ᵥ u) := by
  simp only [mulVec_mulVec, transpose_mul, transpose_transpose, Matrix.mul_assoc]
  rw [hP.left, Matrix.mul_one]

include hP hQ hu hz

theorem constructTerms_rotate (t : List ℝ) :
    constructTerms C' (Spec.rotate P Q m) t = (constructTerms C m t).rotate P Q := by
  have h1 : (Spec.rotate P Q m).KuInv C' = P * m.KuInv C * Pᵀ := pdInv_rotate hP hu _
  have h2 : (Spec.rotate P Q m).KzInv C' = Q * m.KzInv C * Qᵀ := pdInv_rotate hQ hz _
  have hs : ∀ (a : ℝ) (X : Matrix ι ι ℝ), a • (P * X * Pᵀ) = P * (a • X) * Pᵀ := fun a X => by
    rw [Matrix.mul_smul, Matrix.smul_mul]
  unfold constructTerms
  rw [h1, h2]
  simp only [Spec.rotate, Terms.rotate, List.map_map, Function.comp_def, sandwich_u hP, sandwich_z hQ, Terms.mk.injEq,
    true_and, hs, frob_rotate hP]
  have s1 : ∀ f : ℝ → Matrix ι ι ℝ, (t.map fun x => P * f x * Pᵀ).sum = P * (t.map f).sum * Pᵀ := fun f => by
    rw [← sum_map_mul_mul, List.map_map]
    rfl
  have s2 : ∀ f : ℝ → Matrix κ κ ℝ, (t.map fun x => Q * f x * Qᵀ).sum = Q * (t.map f).sum * Qᵀ := fun f => by
    rw [← sum_map_mul_mul, List.map_map]
    rfl
  refine ⟨?_, ?_, ?_⟩
  · rw [s1, Matrix.mul_sub, Matrix.sub_mul]
  · rw [s2, s2, Matrix.mul_sub, Matrix.sub_mul]
  · rw [s2, frob_rotate hQ]

theorem constructDataTerms_rotate (d : List (ℝ × ℝ)) :
    constructDataTerms C' (Spec.rotate P Q m) d = (constructDataTerms C m d).rotate P Q := by
  unfold constructDataTerms DataTerms.rotate
  rw [constructTerms_rotate hP hQ C C' hu hz m]
  simp only [DataTerms.mk.injEq, true_and]
  rw [← sum_map_mul_mul, List.map_map]
  congr 1
  refine List.map_congr_left fun p _ => ?_
  simp only [Spec.rotate, Function.comp_apply, Matrix.mul_smul, Matrix.smul_mul]

variable (ts : DataTerms ι κ)

omit hP hu hz [DecidableEq ι] [Fintype ι'] [DecidableEq ι'] in
theorem quOptimal_rotate (z : κ → ℝ) :
    quOptimal (Spec.rotate P Q m) (ts.rotate P Q) (Q *ᵥ z) = (quOptimal m ts z).rotate P := by
  simp only [quOptimal, qOptimal, Spec.rotate, DataTerms.rotate, Terms.rotate, NatNormal.rotate, List.map_map,
    Function.comp_def, apply_z hQ, NatNormal.mk.injEq]
  have e : ∀ x : Matrix ι κ ℝ, vecMulVec (P *ᵥ (x *ᵥ z)) (P *ᵥ (x *ᵥ z)) = P * vecMulVec (x *ᵥ z) (x *ᵥ z) * Pᵀ :=
    fun x => vecMulVec_rotate _ _
  simp only [e]
  constructor
  · rw [mulVec_smul]
  · rw [show (fun x : Matrix ι κ ℝ => P * vecMulVec (x *ᵥ z) (x *ᵥ z) * Pᵀ) =
      (fun X : Matrix ι ι ℝ => P * X * Pᵀ) ∘ fun x => vecMulVec (x *ᵥ z) (x *ᵥ z) from rfl, ← List.map_map, sum_map_mul_mul]
    simp only [Matrix.mul_add, Matrix.add_mul, Matrix.mul_smul, Matrix.smul_mul, smul_add]

omit hQ hu hz [DecidableEq κ] [Fintype κ'] [DecidableEq κ'] in
theorem qzOptimal_rotate (u : ι → ℝ) :
    qzOptimal (Spec.rotate P Q m) (ts.rotate P Q) (P *ᵥ u) = (qzOptimal m ts u).rotate Q := by
  simp only [qzOptimal, qOptimal, Spec.rotate, DataTerms.rotate, Terms.rotate, NatNormal.rotate, List.map_map,
    Function.comp_def, apply_u hP, NatNormal.mk.injEq]
  have e : ∀ x : Matrix ι κ ℝ, vecMulVec (Q *ᵥ (xᵀ *ᵥ u)) (Q *ᵥ (xᵀ *ᵥ u)) = Q * vecMulVec (xᵀ *ᵥ u) (xᵀ *ᵥ u) * Qᵀ :=
    fun x => vecMulVec_rotate _ _
  simp only [e]
  constructor
  · rw [mulVec_smul]
  · rw [show (fun x : Matrix ι κ ℝ => Q * vecMulVec (xᵀ *ᵥ u) (xᵀ *ᵥ u) * Qᵀ) =
      (fun X : Matrix κ κ ℝ => Q * X * Qᵀ) ∘ fun x => vecMulVec (xᵀ *ᵥ u) (xᵀ *ᵥ u) from rfl, ← List.map_map, sum_map_mul_mul]
    simp only [Matrix.mul_add, Matrix.add_mul, Matrix.mul_smul, Matrix.smul_mul, smul_add]

omit hP hu in
theorem quOptimalMF_rotate (q : NatNormal κ) :
    quOptimalMF C' (Spec.rotate P Q m) (ts.rotate P Q) (q.rotate Q) = (quOptimalMF C m ts q).rotate P := by
  simp only [quOptimalMF, qOptimal, Spec.rotate, DataTerms.rotate, Terms.rotate, NatNormal.mean_rotate hQ hz,
    NatNormal.m2_rotate hQ hz, List.map_map, Function.comp_def, apply_z hQ, sandwich_z hQ]
  simp only [NatNormal.rotate, NatNormal.mk.injEq]
  constructor
  · rw [mulVec_smul]
  · rw [show (fun x : Matrix ι κ ℝ => P * (x * q.m2 C.z * xᵀ) * Pᵀ) =
      (fun X : Matrix ι ι ℝ => P * X * Pᵀ) ∘ fun x => x * q.m2 C.z * xᵀ from rfl, ← List.map_map, sum_map_mul_mul]
    simp only [Matrix.mul_add, Matrix.add_mul, Matrix.mul_smul, Matrix.smul_mul, smul_add]

omit hQ hz in
theorem qzOptimalMF_rotate (q : NatNormal ι) :
    qzOptimalMF C' (Spec.rotate P Q m) (ts.rotate P Q) (q.rotate P) = (qzOptimalMF C m ts q).rotate Q := by
  have e : ∀ (I : Matrix ι κ ℝ) (X : Matrix ι ι ℝ), (P * I * Qᵀ)ᵀ * (P * X * Pᵀ) * (P * I * Qᵀ)ᵀᵀ = Q * (Iᵀ * X * Iᵀᵀ) * Qᵀ :=
    fun I X => by rw [transpose_transpose, transpose_transpose, sandwich_u hP]
  simp only [qzOptimalMF, qOptimal, Spec.rotate, DataTerms.rotate, Terms.rotate, NatNormal.mean_rotate hP hu,
    NatNormal.m2_rotate hP hu, List.map_map, Function.comp_def, apply_u hP, e]
  simp only [NatNormal.rotate, NatNormal.mk.injEq]
  constructor
  · rw [mulVec_smul]
  · rw [show (fun x : Matrix ι κ ℝ => Q * (xᵀ * q.m2 C.u * xᵀᵀ) * Qᵀ) =
      (fun X : Matrix κ κ ℝ => Q * X * Qᵀ) ∘ fun x => xᵀ * q.m2 C.u * xᵀᵀ from rfl, ← List.map_map, sum_map_mul_mul]
    simp only [Matrix.mul_add, Matrix.add_mul, Matrix.mul_smul, Matrix.smul_mul, smul_add]

theorem meanFieldBound_rotate (pu qu : NatNormal ι) (pz qz : NatNormal κ) :
    meanFieldBound C' (Spec.rotate P Q m) (ts.rotate P Q) (pu.rotate P) (qu.rotate P) (pz.rotate Q) (qz.rotate Q) =
      meanFieldBound C m ts pu qu pz qz := by
  have e : ∀ x y : ι → ℝ, ∑ i, (P *ᵥ x) i * (P *ᵥ y) i = ∑ i, x i * y i := dot_rotate hP
  simp only [meanFieldBound, NatNormal.mean_rotate hP hu, NatNormal.m2_rotate hP hu, NatNormal.kl_rotate hP hu,
    NatNormal.mean_rotate hQ hz, NatNormal.m2_rotate hQ hz, NatNormal.kl_rotate hQ hz]
  simp only [Spec.rotate, DataTerms.rotate, Terms.rotate, List.map_map, Function.comp_def, sandwich_z hQ, frob_rotate hP,
    frob_rotate hQ, apply_z hQ, e]

omit hu in
theorem logZu_rotate (u : ι → ℝ) : logZu C' (Spec.rotate P Q m) (ts.rotate P Q) (P *ᵥ u) = logZu C m ts u := by
  have e : ∑ i, (P *ᵥ u) i * ((P * ts.ASum * Pᵀ) *ᵥ (P *ᵥ u)) i = ∑ i, u i * (ts.ASum *ᵥ u) i := by
    rw [apply_z hP]
    exact dot_rotate hP _ _
  have d1 : ∀ X : Matrix κ κ ℝ, (Q * X * Qᵀ).det = X.det := fun X => det_conj_of_mul_eq_one hQ.right hQ.left
  simp only [logZu, qzOptimal_rotate hP]
  simp only [NatNormal.rotate, Spec.rotate, DataTerms.rotate, Terms.rotate, iqf_rotate hQ hz, e, d1]

omit hP hQ hu hz [DecidableEq ι] [DecidableEq κ] [Fintype ι'] [DecidableEq ι'] [Fintype κ'] [DecidableEq κ'] in
theorem Posts.rotate_pU (p : Posts ι κ) : (p.rotate P Q).pU (Spec.rotate P Q m) = (p.pU m).rotate P := by
  unfold Posts.pU Posts.rotate
  by_cases h : p.qi = 0
  · simp only [h, if_true, NatNormal.rotate, mulVec_zero]
    rfl
  · simp only [h, if_false]

omit hP hQ hu hz [DecidableEq ι] [DecidableEq κ] [Fintype ι'] [DecidableEq ι'] [Fintype κ'] [DecidableEq κ'] in
theorem Posts.rotate_pZ (p : Posts ι κ) : (p.rotate P Q).pZ (Spec.rotate P Q m) = (p.pZ m).rotate Q := by
  unfold Posts.pZ Posts.rotate
  by_cases h : p.qi = 0
  · simp only [h, if_true, NatNormal.rotate, mulVec_zero]
    rfl
  · simp only [h, if_false]

theorem meanField_elbo_rotate (p : Posts ι κ) (d : List (ℝ × ℝ)) (c : Option String) :
    MeanField.elbo C' (Spec.rotate P Q m) (p.rotate P Q) d c = MeanField.elbo C m p d c := by
  have e1 : (p.rotate P Q).qU = p.qU.rotate P := rfl
  have e2 : (p.rotate P Q).qZ = p.qZ.rotate Q := rfl
  simp only [MeanField.elbo, constructDataTerms_rotate hP hQ C C' hu hz m, Posts.rotate_pU, Posts.rotate_pZ, e1, e2,
    quOptimalMF_rotate hQ C C' hz, qzOptimalMF_rotate hP C C' hu, meanFieldBound_rotate hP hQ C C' hu hz]

theorem elboCollapsedZ_rotate (p : Posts ι κ) (d : List (ℝ × ℝ)) (us : List (ι → ℝ)) :
    elboCollapsedZ C' (Spec.rotate P Q m) (p.rotate P Q) d (us.map fun u => P *ᵥ u) = elboCollapsedZ C m p d us := by
  have e1 : (p.rotate P Q).qU = p.qU.rotate P := rfl
  simp only [elboCollapsedZ, constructDataTerms_rotate hP hQ C C' hu hz m, Posts.rotate_pU, e1, List.length_map,
    List.map_map, Function.comp_def, logZu_rotate hP hQ C C' hz, NatNormal.kl_rotate hP hu]

/-! ## Predictions -/

theorem predictMoments_rotate (t : List ℝ) (u : ι → ℝ) (u2 : Matrix ι ι ℝ) (z : κ → ℝ) (z2 : Matrix κ κ ℝ) :
    predictMoments C' (Spec.rotate P Q m) (constructTerms C' (Spec.rotate P Q m) t) (P *ᵥ u) (P * u2 * Pᵀ) (Q *ᵥ z)
      (Q * z2 * Qᵀ) = predictMoments C m (constructTerms C m t) u u2 z z2 := by
  have h1 : (Spec.rotate P Q m).KuInv C' = P * m.KuInv C * Pᵀ := pdInv_rotate hP hu _
  have h2 : (Spec.rotate P Q m).KzInv C' = Q * m.KzInv C * Qᵀ := pdInv_rotate hQ hz _
  have h3 : ∀ X Y : Matrix ι ι ℝ, P * X * Pᵀ - P * Y * Pᵀ = P * (X - Y) * Pᵀ := fun X Y => by
    rw [Matrix.mul_sub, Matrix.sub_mul]
  have h4 : ∀ X Y : Matrix κ κ ℝ, Q * X * Qᵀ - Q * Y * Qᵀ = Q * (X - Y) * Qᵀ := fun X Y => by
    rw [Matrix.mul_sub, Matrix.sub_mul]
  rw [predictMoments_map, predictMoments_map]
  refine List.map_congr_left fun x _ => ?_
  simp only [predictMoment, h1, h2]
  simp only [Spec.rotate, sandwich_u hP, sandwich_z hQ, h3, h4, frob_rotate hP, frob_rotate hQ, apply_z hQ, dot_rotate hP]

theorem meanField_predict_rotate (p : Posts ι κ) (t : List ℝ) :
    MeanField.predict C' (Spec.rotate P Q m) (p.rotate P Q) t = MeanField.predict C m p t := by
  simp only [MeanField.predict, Posts.rotate_pU, Posts.rotate_pZ, NatNormal.mean_rotate hP hu, NatNormal.m2_rotate hP hu,
    NatNormal.mean_rotate hQ hz, NatNormal.m2_rotate hQ hz, predictMoments_rotate hP hQ C C' hu hz]
  rfl

theorem structured_predict_rotate (ts : Option (DataTerms ι κ)) (t : List ℝ) (us : List (ι → ℝ)) :
    Structured.predict C' (Spec.rotate P Q m) (ts.map (DataTerms.rotate P Q)) t (us.map fun u => P *ᵥ u) =
      Structured.predict C m ts t us := by
  cases us with
  | nil => rfl
  | cons u us =>
    cases ts with
    | none => rfl
    | some ts =>
      have e2 : ((u :: us).map fun u => P *ᵥ u).map (fun u =>
          let qz := qzOptimal (Spec.rotate P Q m) (ts.rotate P Q) u
          predictMoments C' (Spec.rotate P Q m) (constructTerms C' (Spec.rotate P Q m) t) u (vecMulVec u u) (qz.mean C'.z)
            (qz.m2 C'.z)) = (u :: us).map fun u =>
          let qz := qzOptimal m ts u
          predictMoments C m (constructTerms C m t) u (vecMulVec u u) (qz.mean C.z) (qz.m2 C.z) := by
        rw [List.map_map]
        refine List.map_congr_left fun v _ => ?_
        simp only [Function.comp_apply, qzOptimal_rotate hP, vecMulVec_rotate, NatNormal.mean_rotate hQ hz,
          NatNormal.m2_rotate hQ hz, predictMoments_rotate hP hQ C C' hu hz]
      have e3 : toMeanVar (Spec.rotate P Q m) = toMeanVar m := rfl
      simp only [Structured.predict, Option.map_some, List.map_cons] at e2 ⊢
      rw [e2, e3]

/-! ## Coordinate ascent -/

theorem caStep_rotate (p : Pair ι κ) :
    caStep C' (Spec.rotate P Q m) (ts.rotate P Q) (p.rotate P Q) = (caStep C m ts p).rotate P Q := by
  simp only [caStep, Pair.rotate, quOptimalMF_rotate hQ C C' hz, qzOptimalMF_rotate hP C C' hu]

omit hu hz in
theorem Pair.diff_rotate (a b : Pair ι κ) : (a.rotate P Q).diff (b.rotate P Q) = a.diff b := by
  simp only [Pair.diff, Pair.rotate, NatNormal.rotate, rmsVec_rotate hP, rmsMat_rotate hP, rmsVec_rotate hQ, rmsMat_rotate hQ]

omit hP hQ hu hz [Fintype ι] [DecidableEq ι] [Fintype κ] [DecidableEq κ] [Fintype ι'] [DecidableEq ι'] [Fintype κ']
  [DecidableEq κ'] in
theorem caLoop_map₂ {σ τ : Type} {step : σ → σ} {step' : τ → τ} {diff : σ → σ → ℝ} {diff' : τ → τ → ℝ} {φ : σ → τ}
    (hs : ∀ p, step' (φ p) = φ (step p)) (hd : ∀ p q, diff' (φ p) (φ q) = diff p q) (k : ℕ) (p : σ) :
    caLoop step' diff' k (φ p) = (φ (caLoop step diff k p).1, (caLoop step diff k p).2.map φ) := by
  induction k generalizing p with
  | zero => rfl
  | succ k ih =>
    by_cases h : diff (step p) p < 1e-6
    · simp only [caLoop, hs, hd, h, if_true, List.map_cons, List.map_nil]
    · simp only [caLoop, hs, hd, h, if_false, List.map_cons, ih]

omit hP hQ hu hz [DecidableEq ι] [DecidableEq κ] [Fintype ι'] [DecidableEq ι'] [Fintype κ'] [DecidableEq κ'] in
theorem Posts.rotate_set (s : Posts ι κ) (a : NatNormal ι) (b : NatNormal κ) :
    ((s.rotate P Q).setU (a.rotate P)).setZ (b.rotate Q) = ((s.setU a).setZ b).rotate P Q := by
  simp only [Posts.setU, Posts.setZ, Posts.rotate, Posts.mk.injEq, true_and]
  constructor <;> funext i <;> by_cases h : i = s.qi <;> simp only [h, if_true, if_false]

theorem fitMeanFieldCA_rotate (p : Posts ι κ) (d : List (ℝ × ℝ)) (iters : ℤ) :
    fitMeanFieldCA C' (Spec.rotate P Q m) (p.rotate P Q) d iters =
      ((fitMeanFieldCA C m p d iters).1.rotate P Q, (fitMeanFieldCA C m p d iters).2.map (Pair.rotate P Q)) := by
  have h := caLoop_map₂ (φ := Pair.rotate P Q) (caStep_rotate hP hQ C C' hu hz m (constructDataTerms C m d))
    (Pair.diff_rotate hP hQ) iters.toNat ⟨p.qU, p.qZ⟩
  have e : (⟨(p.rotate P Q).qU, (p.rotate P Q).qZ⟩ : Pair ι' κ') = Pair.rotate P Q ⟨p.qU, p.qZ⟩ := rfl
  simp only [fitMeanFieldCA, constructDataTerms_rotate hP hQ C C' hu hz m, e, h, Prod.mk.injEq, and_true]
  exact Posts.rotate_set p _ _

/-! ## Sessions -/

/-- The random numbers if the inducing variables are multiplied by `P` and `Q`. -/
def Spec.rotateTape (P : Matrix ι' ι ℝ) (Q : Matrix κ' κ ℝ) (W : ℕ → (ι → ℝ) × (κ → ℝ)) (i : ℕ) : (ι' → ℝ) × (κ' → ℝ) :=
  (P *ᵥ (W i).1, Q *ᵥ (W i).2)

theorem gibbsLoop_rotate (W : ℕ → (ι → ℝ) × (κ → ℝ)) (sub : Option ℕ) (k i j : ℕ) (u : ι → ℝ) (z : κ → ℝ) :
    let r := Fit.gibbsLoop (gibbsU C m ts W) (gibbsZ C m ts W) sub k i (j, u, z)
    Fit.gibbsLoop (gibbsU C' (Spec.rotate P Q m) (ts.rotate P Q) (Spec.rotateTape P Q W))
      (gibbsZ C' (Spec.rotate P Q m) (ts.rotate P Q) (Spec.rotateTape P Q W)) sub k i (j, P *ᵥ u, Q *ᵥ z) =
      (r.1, r.2.map fun x => (P *ᵥ x.1, Q *ᵥ x.2)) := by
  induction k generalizing i j u z with
  | zero => rfl
  | succ k ih =>
    have e1 : ∀ j z, gibbsU C' (Spec.rotate P Q m) (ts.rotate P Q) (Spec.rotateTape P Q W) j (Q *ᵥ z) =
        ((gibbsU C m ts W j z).1, P *ᵥ (gibbsU C m ts W j z).2) := fun j z => by
      simp only [gibbsU, Spec.rotateTape, quOptimal_rotate hQ, NatNormal.sample_rotate hP hu]
    have e2 : ∀ j u, gibbsZ C' (Spec.rotate P Q m) (ts.rotate P Q) (Spec.rotateTape P Q W) j (P *ᵥ u) =
        ((gibbsZ C m ts W j u).1, Q *ᵥ (gibbsZ C m ts W j u).2) := fun j u => by
      simp only [gibbsZ, Spec.rotateTape, qzOptimal_rotate hP, NatNormal.sample_rotate hQ hz]
    have h := ih (i + 1) (gibbsZ C m ts W (gibbsU C m ts W j z).1 (gibbsU C m ts W j z).2).1 (gibbsU C m ts W j z).2
      (gibbsZ C m ts W (gibbsU C m ts W j z).1 (gibbsU C m ts W j z).2).2
    simp only [Fit.gibbsLoop, e1, e2]
    rw [h]
    split <;> rfl

/-- A fit, an evaluation of the bound or a conditioning has the same effect. -/
theorem Session.run_rotate (W : ℕ → (ι → ℝ) × (κ → ℝ)) (s : Session ι κ) (o : Session.Op) :
    (s.rotate P Q).run C' (Spec.rotate P Q m) (Spec.rotateTape P Q W) o = (s.run C m W o).rotate P Q := by
  cases o with
  | elbo d =>
    simp only [Session.run, Session.elboStructured, Session.fitCA]
    have := fitMeanFieldCA_rotate hP hQ C C' hu hz m s.posts d 5000
    simp only [Session.rotate, this]
  | condition d =>
    simp only [Session.run, Session.condition, Session.rotate, constructDataTerms_rotate hP hQ C C' hu hz m, Option.map_some]
    rfl
  | fit d iters =>
    simp only [Session.run, Session.fitStructured, constructDataTerms_rotate hP hQ C C' hu hz m]
    have e1 : (s.rotate P Q).posts.qU.sample C'.u (Spec.rotateTape P Q W 0).1 = P *ᵥ s.posts.qU.sample C.u (W 0).1 :=
      NatNormal.sample_rotate hP hu _ _
    have e2 : (s.rotate P Q).posts.qZ.sample C'.z (Spec.rotateTape P Q W 0).2 = Q *ᵥ s.posts.qZ.sample C.z (W 0).2 :=
      NatNormal.sample_rotate hQ hz _ _
    rw [e1, e2]
    generalize (iters / 2).toNat = k
    have e := gibbsLoop_rotate hP hQ C C' hu hz m (constructDataTerms C m d) W none k 0 1
      (s.posts.qU.sample C.u (W 0).1) (s.posts.qZ.sample C.z (W 0).2)
    simp only at e
    rw [e]
    simp only [List.getLast?_map]
    cases (Fit.gibbsLoop (gibbsU C m (constructDataTerms C m d) W) (gibbsZ C m (constructDataTerms C m d) W) none
      k 0 (1, s.posts.qU.sample C.u (W 0).1, s.posts.qZ.sample C.z (W 0).2)).2.getLast? with
    | none => rfl
    | some x =>
      obtain ⟨u, z⟩ := x
      simp only [Option.map_some]
      rw [gibbsLoop_rotate hP hQ C C' hu hz m (constructDataTerms C m d) W _ _ _ _ u z]
      simp only [Session.setSamples, Session.rotate, Session.mk.injEq, List.map_map, true_and, and_true]
      refine ⟨?_, ?_⟩ <;> funext i <;> by_cases hi : i = s.posts.qi
      · simp only [Posts.rotate, hi, if_true, Option.map_some, List.map_map]
        rfl
      · simp only [Posts.rotate, hi, if_false]
      · simp only [Posts.rotate, hi, if_true, Option.map_some, List.map_map]
        rfl
      · simp only [Posts.rotate, hi, if_false]

theorem Session.ops_rotate (W : ℕ → (ι → ℝ) × (κ → ℝ)) (ops : List Session.Op) (s : Session ι κ) :
    ops.foldl (Session.run C' (Spec.rotate P Q m) (Spec.rotateTape P Q W)) (s.rotate P Q) =
      (ops.foldl (Session.run C m W) s).rotate P Q := by
  induction ops generalizing s with
  | nil => rfl
  | cons o ops ih => rw [List.foldl_cons, List.foldl_cons, Session.run_rotate hP hQ C C' hu hz m, ih]

omit hP hQ hu hz [Fintype ι] [DecidableEq ι] [Fintype κ] [DecidableEq κ] [Fintype ι'] [DecidableEq ι'] [Fintype κ']
  [DecidableEq κ'] in
theorem columns_map₂ {α β : Type} (f : α → β) (xs : List α) (k : Option ℕ) : columns (xs.map f) k = (columns xs k).map f := by
  simp only [columns, List.length_map, List.map_take]

theorem Session.predict_rotate (s : Session ι κ) (t : List ℝ) (ws : List (ι → ℝ)) :
    (s.rotate P Q).predictStructured C' (Spec.rotate P Q m) t (ws.map fun w => P *ᵥ w) = s.predictStructured C m t ws := by
  have e : (s.rotate P Q).samplePU C' (Spec.rotate P Q m) (ws.map fun w => P *ᵥ w) =
      (s.samplePU C m ws).map fun l => l.map fun u => P *ᵥ u := by
    have hq : (s.rotate P Q).posts.qi = s.posts.qi := rfl
    unfold Session.samplePU
    rw [hq]
    by_cases h0 : s.posts.qi = 0
    · simp only [h0, if_true, Except.map]
      have e2 : ∀ w, NatNormal.sample C'.u ⟨0, (Spec.rotate P Q m).Ku⟩ (P *ᵥ w) = P *ᵥ NatNormal.sample C.u ⟨0, m.Ku⟩ w :=
        fun w => by
          rw [← NatNormal.sample_rotate hP hu]
          simp only [NatNormal.rotate, mulVec_zero]
          rfl
      simp only [Gpcm.samplePU, ← columns_map₂, List.map_map, Function.comp_def, e2]
    · simp only [h0, if_false, Session.rotate]
      cases s.samplesU (s.posts.qi - 1) with
      | none => rfl
      | some us => simp only [Option.map_some, Gpcm.samplePU, columns_map₂, Except.map, List.length_map]
  simp only [Session.predictStructured, e]
  cases s.samplePU C m ws with
  | error e => simp only [Except.map, bind1]
  | ok us =>
    simp only [Except.map, bind1]
    exact structured_predict_rotate hP hQ C C' hu hz m s.ts t us

end

end Gpcm
