import Verif.Props.PredictProps
import Mathlib.Analysis.Matrix.Order

/-!
# Posteriors over some inducing variables as posteriors over more
-/

open Matrix Real

namespace Gpcm

section
variable {α β : Type} [Fintype α] [DecidableEq α] [Fintype β] [DecidableEq β]

/-- The weights with which inducing variables predict those that they are combinations of. -/
noncomputable def regress (K : Matrix β β ℝ) (P : Matrix β α ℝ) : Matrix α β ℝ := (Pᵀ * K * P)⁻¹ * Pᵀ * K

/-- The approximate posterior over more inducing variables: the given one, times the conditional prior. -/
noncomputable def NatNormal.pad (K : Matrix β β ℝ) (P : Matrix β α ℝ) (q : NatNormal α) : NatNormal β :=
  ⟨(regress K P)ᵀ *ᵥ q.lam, K + (regress K P)ᵀ * (q.prec - Pᵀ * K * P) * regress K P⟩

variable {K : Matrix β β ℝ} {P : Matrix β α ℝ} (hK : K.PosDef) (h0 : (Pᵀ * K * P).PosDef)
include hK h0

theorem regress_mul : regress K P * P = 1 := by
  rw [regress, Matrix.mul_assoc, Matrix.mul_assoc, ← Matrix.mul_assoc Pᵀ]
  exact nonsing_inv_mul _ (posDef_isUnit_det h0)

theorem regress_inv : regress K P * K⁻¹ = (Pᵀ * K * P)⁻¹ * Pᵀ := by
  rw [regress, Matrix.mul_assoc, mul_nonsing_inv _ (posDef_isUnit_det hK), Matrix.mul_one]

theorem regress_K0 : (Pᵀ * K * P) * regress K P = Pᵀ * K := by
  rw [regress, ← Matrix.mul_assoc, ← Matrix.mul_assoc, mul_nonsing_inv _ (posDef_isUnit_det h0), Matrix.one_mul]

theorem posDef_transpose {n : Type} [Fintype n] {A : Matrix n n ℝ} (h : A.PosDef) : Aᵀ = A := by
  have := h.isHermitian
  rwa [IsHermitian, conjTranspose_eq_transpose_of_trivial] at this

theorem regress_transpose : (regress K P)ᵀ * (Pᵀ * K * P) = K * P := by
  have h1 := congrArg transpose (regress_K0 hK h0)
  rw [transpose_mul, posDef_transpose hK h0 h0, transpose_mul, transpose_transpose, posDef_transpose hK h0 hK] at h1
  exact h1

theorem pad_mul {q : NatNormal α} (hq : q.prec.PosDef) :
    (q.pad K P).prec * (K⁻¹ + P * (q.prec⁻¹ - (Pᵀ * K * P)⁻¹) * Pᵀ) = 1 := by
  obtain ⟨E, hE⟩ : ∃ E, E = regress K P := ⟨_, rfl⟩
  obtain ⟨K0, hK0⟩ : ∃ K0, K0 = Pᵀ * K * P := ⟨_, rfl⟩
  have e1 := regress_mul hK h0
  have e2 := regress_inv hK h0
  have e3 := regress_transpose hK h0
  simp only [NatNormal.pad]
  rw [← hK0] at e2 e3 h0
  rw [← hE] at e1 e2 e3
  rw [← hK0, ← hE]
  have u0 := posDef_isUnit_det h0
  have uq := posDef_isUnit_det hq
  have s1 : K * (P * (q.prec⁻¹ - K0⁻¹) * Pᵀ) = Eᵀ * (K0 * (q.prec⁻¹ - K0⁻¹)) * Pᵀ := by
    rw [← Matrix.mul_assoc, ← Matrix.mul_assoc, ← Matrix.mul_assoc, e3]
  have s2 : Eᵀ * (q.prec - K0) * E * K⁻¹ = Eᵀ * ((q.prec - K0) * K0⁻¹) * Pᵀ := by
    rw [Matrix.mul_assoc, e2]
    simp only [Matrix.mul_assoc]
  have s3 : Eᵀ * (q.prec - K0) * E * (P * (q.prec⁻¹ - K0⁻¹) * Pᵀ) = Eᵀ * ((q.prec - K0) * (q.prec⁻¹ - K0⁻¹)) * Pᵀ := by
    have : E * (P * (q.prec⁻¹ - K0⁻¹) * Pᵀ) = (q.prec⁻¹ - K0⁻¹) * Pᵀ := by
      rw [← Matrix.mul_assoc, ← Matrix.mul_assoc, e1, Matrix.one_mul]
    rw [Matrix.mul_assoc _ E, this]
    simp only [Matrix.mul_assoc]
  have s4 : K0 * (q.prec⁻¹ - K0⁻¹) + (q.prec - K0) * K0⁻¹ + (q.prec - K0) * (q.prec⁻¹ - K0⁻¹) = 0 := by
    simp only [Matrix.mul_sub, Matrix.sub_mul, mul_nonsing_inv _ u0, mul_nonsing_inv _ uq]
    abel
  rw [Matrix.add_mul, Matrix.mul_add, Matrix.mul_add, mul_nonsing_inv _ (posDef_isUnit_det hK), s1, s2, s3, add_assoc, ← Matrix.add_mul,
    ← Matrix.mul_add, ← Matrix.add_mul, ← Matrix.mul_add, ← add_assoc, s4]
  simp

omit hK h0 in
theorem pad_split {E : Matrix α β ℝ} {K0 L : Matrix α α ℝ} (e3 : Eᵀ * K0 = K * P) (e4 : K0 * E = Pᵀ * K) (e5 : E * P = 1) :
    K + Eᵀ * (L - K0) * E = Eᵀ * L * E + (1 - P * E)ᵀ * K * (1 - P * E) := by
  have a1 : Eᵀ * Pᵀ * K = Eᵀ * K0 * E := by rw [Matrix.mul_assoc, ← e4, ← Matrix.mul_assoc]
  have a2 : K * (P * E) = Eᵀ * K0 * E := by rw [← Matrix.mul_assoc, ← e3]
  have a3 : Eᵀ * K0 * E * (P * E) = Eᵀ * K0 * E := by
    rw [Matrix.mul_assoc, ← Matrix.mul_assoc E P E, e5, Matrix.one_mul]
  have a4 : (K - Eᵀ * K0 * E) * (1 - P * E) = K - Eᵀ * K0 * E := by
    rw [Matrix.mul_sub, Matrix.mul_one, Matrix.sub_mul, a2, a3, sub_self, sub_zero]
  rw [transpose_sub, transpose_one, transpose_mul, Matrix.sub_mul, Matrix.one_mul, a1, a4, Matrix.mul_sub, Matrix.sub_mul]
  abel

theorem pad_posDef {q : NatNormal α} (hq : q.prec.PosDef) : (q.pad K P).prec.PosDef := by
  have h1 : (q.pad K P).prec = (regress K P)ᵀ * q.prec * regress K P +
      (1 - P * regress K P)ᵀ * K * (1 - P * regress K P) :=
    pad_split (regress_transpose hK h0) (regress_K0 hK h0) (regress_mul hK h0)
  have h2 : (q.pad K P).prec.PosSemidef := by
    rw [h1]
    generalize regress K P = E
    have a1 := hq.posSemidef.conjTranspose_mul_mul_same E
    have a2 := hK.posSemidef.conjTranspose_mul_mul_same (1 - P * E)
    rw [conjTranspose_eq_transpose_of_trivial] at a1 a2
    exact a1.add a2
  have h3 : IsUnit (q.pad K P).prec := IsUnit.of_mul_eq_one _ (pad_mul hK h0 hq)
  exact h2.posDef_iff_isUnit.2 h3

theorem pad_inv {q : NatNormal α} (hq : q.prec.PosDef) :
    (q.pad K P).prec⁻¹ = K⁻¹ + P * (q.prec⁻¹ - (Pᵀ * K * P)⁻¹) * Pᵀ :=
  inv_eq_right_inv (pad_mul hK h0 hq)

theorem pad_mean {q : NatNormal α} (hq : q.prec.PosDef) : (q.pad K P).prec⁻¹ *ᵥ (q.pad K P).lam = P *ᵥ (q.prec⁻¹ *ᵥ q.lam) := by
  rw [pad_inv hK h0 hq]
  have e1 := congrArg transpose (regress_mul hK h0)
  have e2 := congrArg transpose (regress_inv hK h0)
  rw [transpose_mul, transpose_one] at e1
  rw [transpose_mul, transpose_mul, transpose_nonsing_inv, transpose_nonsing_inv, transpose_transpose, posDef_transpose hK h0 hK,
    posDef_transpose hK h0 h0] at e2
  simp only [NatNormal.pad]
  rw [mulVec_mulVec, Matrix.add_mul, e2, Matrix.mul_assoc _ Pᵀ, e1, Matrix.mul_one, ← Matrix.mul_add, add_sub_cancel, ← mulVec_mulVec]

/-- The divergence from the prior does not change. -/
theorem pad_kl (C : CholOracle α) (C' : CholOracle β) {q : NatNormal α} (hq : q.prec.PosDef) :
    (q.pad K P).kl C' ⟨0, K⟩ = q.kl C ⟨0, Pᵀ * K * P⟩ := by
  have hp := pad_posDef hK h0 hq
  rw [NatNormal.kl_formula C' hp (p := ⟨0, K⟩) hK, NatNormal.kl_formula C hq (p := ⟨0, Pᵀ * K * P⟩) h0]
  rw [NatNormal.mean_eq C' hp, NatNormal.mean_eq C hq, NatNormal.mean_eq C' (d := ⟨0, K⟩) hK,
    NatNormal.mean_eq C (d := ⟨0, Pᵀ * K * P⟩) h0, NatNormal.var_eq C' hp, NatNormal.var_eq C hq, pad_mean hK h0 hq]
  simp only [mulVec_zero, sub_zero]
  have u0 := posDef_isUnit_det h0
  have uK := posDef_isUnit_det hK
  have t1 : (K * (q.pad K P).prec⁻¹).trace = Fintype.card β + ((Pᵀ * K * P * q.prec⁻¹).trace - Fintype.card α) := by
    rw [pad_inv hK h0 hq, Matrix.mul_add, mul_nonsing_inv _ uK, trace_add, trace_one]
    have : (K * (P * (q.prec⁻¹ - (Pᵀ * K * P)⁻¹) * Pᵀ)).trace = (Pᵀ * K * P * (q.prec⁻¹ - (Pᵀ * K * P)⁻¹)).trace := by
      rw [← Matrix.mul_assoc, trace_mul_comm]
      simp only [Matrix.mul_assoc]
    rw [this, Matrix.mul_sub, mul_nonsing_inv _ u0, trace_sub, trace_one]
  have t2 : (P *ᵥ (q.prec⁻¹ *ᵥ q.lam)) ⬝ᵥ (K *ᵥ (P *ᵥ (q.prec⁻¹ *ᵥ q.lam))) =
      (q.prec⁻¹ *ᵥ q.lam) ⬝ᵥ ((Pᵀ * K * P) *ᵥ (q.prec⁻¹ *ᵥ q.lam)) := by
    rw [← mulVec_mulVec, ← mulVec_mulVec, dotProduct_mulVec (q.prec⁻¹ *ᵥ q.lam) Pᵀ, vecMul_transpose]
  have t3 : (q.pad K P).prec.det * (Pᵀ * K * P).det = q.prec.det * K.det := by
    have a1 : (q.pad K P).prec = K * (1 + K⁻¹ * (regress K P)ᵀ * ((q.prec - Pᵀ * K * P) * regress K P)) := by
      rw [Matrix.mul_add, Matrix.mul_one, ← Matrix.mul_assoc K, ← Matrix.mul_assoc K, mul_nonsing_inv _ uK, Matrix.one_mul,
        ← Matrix.mul_assoc, NatNormal.pad]
    have a2 : (q.prec - Pᵀ * K * P) * regress K P * (K⁻¹ * (regress K P)ᵀ) = q.prec * (Pᵀ * K * P)⁻¹ - 1 := by
      have e1 := congrArg transpose (regress_mul hK h0)
      rw [transpose_mul, transpose_one] at e1
      rw [Matrix.mul_assoc, ← Matrix.mul_assoc (regress K P), regress_inv hK h0, Matrix.mul_assoc _ Pᵀ, e1, Matrix.mul_one, Matrix.sub_mul,
        mul_nonsing_inv _ u0]
    rw [a1, det_mul, det_one_add_mul_comm, a2, add_sub_cancel, det_mul, mul_assoc, mul_assoc, ← det_mul, nonsing_inv_mul _ u0, det_one]
    ring
  have t4 : log (q.pad K P).prec.det + log (Pᵀ * K * P).det = log q.prec.det + log K.det := by
    rw [← log_mul hp.det_pos.ne' h0.det_pos.ne', ← log_mul hq.det_pos.ne' hK.det_pos.ne', t3]
  rw [t1, t2]
  linarith

end

section
variable {ι κ ι' κ' : Type} [Fintype ι] [DecidableEq ι] [Fintype κ] [DecidableEq κ] [Fintype ι'] [DecidableEq ι'] [Fintype κ']
  [DecidableEq κ']

/-- The inducing variables of `m` are combinations of those of `m'`. -/
structure Inst.Nested (m : Inst ι κ) (m' : Inst ι' κ') (P : Matrix ι' ι ℝ) (Q : Matrix κ' κ ℝ) : Prop where
  Ku : m.Ku = Pᵀ * m'.Ku * P
  Kz : m.Kz = Qᵀ * m'.Kz * Q
  noise : m.noise = m'.noise
  iHx : ∀ t, m.iHx t t = m'.iHx t t
  iUx : m.iUx = Pᵀ * m'.iUx * P
  iHz : ∀ t, m.iHz t = Qᵀ * m'.iHz t * Q
  iUz : ∀ t, m.iUz t = Pᵀ * m'.iUz t * Q

/-- The moments of the signal in terms of what the posterior adds to the prior. -/
theorem moments_excess {ihx : ℝ} {iux : Matrix ι ι ℝ} {ihz : Matrix κ κ ℝ} {iuz : Matrix ι κ ℝ} {Ki : Matrix ι ι ℝ}
    {Li : Matrix κ κ ℝ} (u : ι → ℝ) (u2 : Matrix ι ι ℝ) (z : κ → ℝ) (z2 : Matrix κ κ ℝ) :
    (Spec.moments ihx iux ihz iuz Ki Li u u2 z z2).2 =
      ihx + frob iux (u2 - Ki) + frob ihz (z2 - Li) + frob (u2 - Ki) (iuz * (z2 - Li) * iuzᵀ) := by
  have hs : ∀ {a b : Type} [Fintype a] [Fintype b] (X Y Z : Matrix a b ℝ), frob X (Y - Z) = frob X Y - frob X Z := by
    intro a b _ _ X Y Z
    rw [frob_comm, frob_sub_left, frob_comm, frob_comm Z]
  simp only [Spec.moments, ← frob_inner]
  have h1 : iuz * (z2 - Li) * iuzᵀ = iuz * z2 * iuzᵀ - iuz * Li * iuzᵀ := by rw [Matrix.mul_sub, Matrix.sub_mul]
  have h2 := frob_sandwich iuz Ki z2
  rw [h1, hs, hs, hs, frob_sub_left, frob_sub_left, frob_sub_left, frob_sub_left, frob_comm Ki iux, frob_comm Li ihz, h2,
    frob_comm (iuz * Li * iuzᵀ) u2]
  ring

theorem frob_pad {α β : Type} [Fintype α] [Fintype β] (P : Matrix β α ℝ) (X : Matrix β β ℝ) (D : Matrix α α ℝ) :
    frob X (P * D * Pᵀ) = frob (Pᵀ * X * P) D := (frob_sandwich P X D).symm

variable {m : Inst ι κ} {m' : Inst ι' κ'} {P : Matrix ι' ι ℝ} {Q : Matrix κ' κ ℝ}

/-- The moments of the signal are those of the padded posterior. -/
theorem moments_nested (h : m.Nested m' P Q) (t : ℝ) {u : ι → ℝ} {u2 : Matrix ι ι ℝ} {z : κ → ℝ} {z2 : Matrix κ κ ℝ}
    {u2' : Matrix ι' ι' ℝ} {z2' : Matrix κ' κ' ℝ} (hu : u2' - m'.Ku⁻¹ = P * (u2 - m.Ku⁻¹) * Pᵀ)
    (hz : z2' - m'.Kz⁻¹ = Q * (z2 - m.Kz⁻¹) * Qᵀ) :
    Spec.moments (m'.iHx t t) m'.iUx (m'.iHz t) (m'.iUz t) m'.Ku⁻¹ m'.Kz⁻¹ (P *ᵥ u) u2' (Q *ᵥ z) z2' =
      Spec.moments (m.iHx t t) m.iUx (m.iHz t) (m.iUz t) m.Ku⁻¹ m.Kz⁻¹ u u2 z z2 := by
  refine Prod.ext ?_ ?_
  · simp only [Spec.moments]
    rw [h.iUz, ← mulVec_mulVec, ← mulVec_mulVec, dotProduct_mulVec u Pᵀ, vecMul_transpose]
  · rw [moments_excess, moments_excess, hu, hz, h.iHx, h.iUx, h.iHz, h.iUz, frob_pad, frob_pad]
    have e : frob (P * (u2 - m.Ku⁻¹) * Pᵀ) (m'.iUz t * (Q * (z2 - m.Kz⁻¹) * Qᵀ) * (m'.iUz t)ᵀ) =
        frob (u2 - m.Ku⁻¹) (Pᵀ * m'.iUz t * Q * (z2 - m.Kz⁻¹) * (Pᵀ * m'.iUz t * Q)ᵀ) := by
      rw [frob_comm, frob_pad, frob_comm]
      congr 1
      simp only [transpose_mul, transpose_transpose, Matrix.mul_assoc]
    rw [e]

theorem m2_pad {α β : Type} [Fintype α] [DecidableEq α] [Fintype β] [DecidableEq β] {K : Matrix β β ℝ} {P : Matrix β α ℝ}
    (hK : K.PosDef) (h0 : (Pᵀ * K * P).PosDef) (C : CholOracle α) (C' : CholOracle β) {q : NatNormal α} (hq : q.prec.PosDef) :
    (q.pad K P).mean C' = P *ᵥ q.mean C ∧ (q.pad K P).m2 C' - K⁻¹ = P * (q.m2 C - (Pᵀ * K * P)⁻¹) * Pᵀ := by
  have hp := pad_posDef hK h0 hq
  have h1 : (q.pad K P).mean C' = P *ᵥ q.mean C := by
    rw [NatNormal.mean_eq C' hp, NatNormal.mean_eq C hq, pad_mean hK h0 hq]
  refine ⟨h1, ?_⟩
  rw [NatNormal.m2_eq C' hp, NatNormal.m2_eq C hq, h1, NatNormal.var_eq C' hp, NatNormal.var_eq C hq, pad_inv hK h0 hq]
  have h2 : vecMulVec (P *ᵥ q.mean C) (P *ᵥ q.mean C) = P * vecMulVec (q.mean C) (q.mean C) * Pᵀ := by
    rw [mul_vecMulVec, vecMulVec_mul, vecMul_transpose]
  rw [h2]
  simp only [Matrix.mul_sub, Matrix.sub_mul, Matrix.mul_add, Matrix.add_mul]
  abel

end

end Gpcm
