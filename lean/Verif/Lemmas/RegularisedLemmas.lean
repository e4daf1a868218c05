import Verif.Model.Regularised
import Verif.Lemmas.Converge
import Verif.Props.MoreDataProps
import Mathlib.Topology.List

/-! # Lemmas about regularised factorisations -/

open Matrix Real Filter Topology

namespace Gpcm.Reg

variable {n : Type} [Fintype n] [DecidableEq n]

/-- The matrix that was factorised. -/
def gram (f : Fac n) (A : Matrix n n ℝ) : Matrix n n ℝ := f A * (f A)ᵀ

theorem Regularised.gram {ε : ℝ} {f : Fac n} (h : Regularised ε f) {A : Matrix n n ℝ} (hA : A.PosDef) :
    ∃ e, 0 ≤ e ∧ e ≤ ε ∧ gram f A = A + e • 1 ∧ (gram f A).PosDef := by
  obtain ⟨e, h0, h1, h2, h3⟩ := h A hA.posSemidef (.inl hA)
  exact ⟨e, h0, h1, h3, by rw [Reg.gram, h3]; exact h2⟩

theorem cholsolve_gram {m : Type} (L : Matrix n n ℝ) (b : Matrix n m ℝ) : cholsolve L b = (L * Lᵀ)⁻¹ * b := by
  rw [cholsolve, Matrix.mul_inv_rev, Matrix.mul_assoc]

theorem cholsolveVec_gram (L : Matrix n n ℝ) (b : n → ℝ) : cholsolveVec L b = (L * Lᵀ)⁻¹ *ᵥ b := by
  rw [cholsolveVec, Matrix.mul_inv_rev, mulVec_mulVec]

theorem pdInv_gram (f : Fac n) (A : Matrix n n ℝ) : pdInv f A = (gram f A)⁻¹ := by
  rw [pdInv, cholsolve_gram, Matrix.mul_one, gram]

theorem mean_gram (f : Fac n) (d : NatNormal n) : mean f d = (gram f d.prec)⁻¹ *ᵥ d.lam := cholsolveVec_gram _ _

theorem m2_gram (f : Fac n) (d : NatNormal n) :
    m2 f d = (gram f d.prec)⁻¹ * ((gram f d.prec)⁻¹ * (d.prec + vecMulVec d.lam d.lam))ᵀ := by
  rw [m2, cholsolve_gram, cholsolve_gram, gram]

theorem iqf_gram (f : Fac n) (A : Matrix n n ℝ) (b : n → ℝ) : iqf f A b = b ⬝ᵥ ((gram f A)⁻¹ *ᵥ b) := by
  rw [gram, ← cholsolveVec_gram, cholsolveVec, dotProduct_mulVec, ← mulVec_transpose, transpose_nonsing_inv, transpose_transpose]
  unfold iqf dotProduct
  exact Finset.sum_congr rfl fun i _ => by ring

/-- The matrix between the two factors in the divergence. -/
noncomputable def ratio (f : Fac n) (q p : NatNormal n) : Matrix n n ℝ := (f q.prec)⁻¹ * f p.prec

theorem kl_def (f : Fac n) (q p : NatNormal n) : kl f q p =
    1 / 2 * (((ratio f q p)ᵀ * ratio f q p).trace - log (gram f ((ratio f q p)ᵀ * ratio f q p)).det +
      (mean f q - mean f p) ⬝ᵥ (p.prec *ᵥ (mean f q - mean f p)) - Fintype.card n) := by
  have h1 : ∑ i, ∑ j, ratio f q p i j ^ 2 = ((ratio f q p)ᵀ * ratio f q p).trace := by
    simp only [trace, diag_apply, mul_apply, transpose_apply]
    rw [Finset.sum_comm]
    exact Finset.sum_congr rfl fun i _ => Finset.sum_congr rfl fun j _ => by ring
  rw [← h1, dotProduct_comm]
  unfold kl ratio dotProduct logdet gram
  norm_num

theorem isUnit_fac {f : Fac n} {A : Matrix n n ℝ} (h : (gram f A).PosDef) : IsUnit (f A).det := by
  have := h.det_pos.ne'
  rw [gram, det_mul, det_transpose] at this
  exact (left_ne_zero_of_mul this).isUnit

theorem ratio_posDef {f : Fac n} {q p : NatNormal n} (hq : (gram f q.prec).PosDef) (hp : (gram f p.prec).PosDef) :
    ((ratio f q p)ᵀ * ratio f q p).PosDef := by
  have hu : IsUnit (ratio f q p).det := by
    rw [ratio, det_mul, det_nonsing_inv]
    exact (isUnit_fac hq).ringInverse.mul (isUnit_fac hp)
  have := Matrix.PosDef.conjTranspose_mul_self (ratio f q p)
    (Matrix.mulVec_injective_iff_isUnit.2 ((Matrix.isUnit_iff_isUnit_det _).2 hu))
  rwa [conjTranspose_eq_transpose_of_trivial] at this

theorem ratio_sq (f : Fac n) (q p : NatNormal n) :
    (ratio f q p)ᵀ * ratio f q p = (f p.prec)ᵀ * (gram f q.prec)⁻¹ * f p.prec := by
  rw [ratio, transpose_mul, gram, Matrix.mul_inv_rev, transpose_nonsing_inv]
  simp only [Matrix.mul_assoc]

theorem ratio_trace (f : Fac n) (q p : NatNormal n) :
    ((ratio f q p)ᵀ * ratio f q p).trace = (gram f p.prec * (gram f q.prec)⁻¹).trace := by
  rw [ratio_sq, trace_mul_comm, ← Matrix.mul_assoc, gram, gram]

theorem ratio_det_add {f : Fac n} {q p : NatNormal n} (hp : (gram f p.prec).PosDef) (e : ℝ) :
    ((ratio f q p)ᵀ * ratio f q p + e • 1).det = (gram f p.prec * (gram f q.prec)⁻¹ + e • 1).det := by
  have hu := isUnit_fac hp
  have h1 : f p.prec * ((ratio f q p)ᵀ * ratio f q p + e • 1) * (f p.prec)⁻¹ =
      gram f p.prec * (gram f q.prec)⁻¹ + e • 1 := by
    rw [ratio_sq, Matrix.mul_add, Matrix.add_mul, Matrix.mul_smul, Matrix.mul_one, Matrix.smul_mul, mul_nonsing_inv _ hu]
    congr 1
    rw [show gram f p.prec = f p.prec * (f p.prec)ᵀ from rfl]
    simp only [Matrix.mul_assoc, mul_nonsing_inv _ hu, Matrix.mul_one]
  rw [← h1, det_mul, det_mul, mul_right_comm, ← det_mul, mul_nonsing_inv _ hu, det_one, one_mul]

/-! ## Terms as functions of the two inverse matrices -/

variable {ι κ : Type} [Fintype ι] [DecidableEq ι] [Fintype κ] [DecidableEq κ]
variable (F : Facs ι κ) (m : Inst ι κ)

/-- The model whose matrices are those that were factorised. -/
noncomputable def regInst : Inst ι κ := { m with Ku := gram F.u m.Ku, Kz := gram F.z m.Kz }

theorem KuInv_eq (C : Chols ι κ) {ε : ℝ} (h : m.Ku.PosDef) (hu : Regularised ε F.u) : KuInv F m = (regInst F m).KuInv C := by
  obtain ⟨e, -, -, -, h4⟩ := hu.gram h
  rw [KuInv, pdInv_gram, Inst.KuInv, pdInv_eq C.u (A := (regInst F m).Ku) h4]
  rfl

theorem KzInv_eq (C : Chols ι κ) {ε : ℝ} (h : m.Kz.PosDef) (hz : Regularised ε F.z) : KzInv F m = (regInst F m).KzInv C := by
  obtain ⟨e, -, -, -, h4⟩ := hz.gram h
  rw [KzInv, pdInv_gram, Inst.KzInv, pdInv_eq C.z (A := (regInst F m).Kz) h4]
  rfl

theorem constructTerms_eq (C : Chols ι κ) {ε : ℝ} (h : m.Valid) (hu : Regularised ε F.u) (hz : Regularised ε F.z) (t : List ℝ) :
    constructTerms F m t = Gpcm.constructTerms C (regInst F m) t := by
  unfold constructTerms Gpcm.constructTerms
  rw [KuInv_eq F m C h.Ku hu, KzInv_eq F m C h.Kz hz]
  rfl

theorem constructDataTerms_eq (C : Chols ι κ) {ε : ℝ} (h : m.Valid) (hu : Regularised ε F.u) (hz : Regularised ε F.z)
    (d : List (ℝ × ℝ)) : constructDataTerms F m d = Gpcm.constructDataTerms C (regInst F m) d := by
  unfold constructDataTerms Gpcm.constructDataTerms
  rw [constructTerms_eq F m C h hu hz]
  rfl

theorem predictMoments_eq (C : Chols ι κ) {ε : ℝ} (h : m.Valid) (hu : Regularised ε F.u) (hz : Regularised ε F.z) (t : List ℝ)
    (u : ι → ℝ) (u2 : Matrix ι ι ℝ) (z : κ → ℝ) (z2 : Matrix κ κ ℝ) :
    predictMoments F m (constructTerms F m t) u u2 z z2 = t.map (ptMoments C (regInst F m) u u2 z z2) := by
  rw [← Gpcm.predictMoments_eq, ← constructTerms_eq F m C h hu hz]
  unfold predictMoments Gpcm.predictMoments predictMoment Gpcm.predictMoment
  rw [KuInv_eq F m C h.Ku hu, KzInv_eq F m C h.Kz hz]

variable {F m}

/-- The model with the factorised matrices meets the assumptions. -/
theorem regInst_valid {ε : ℝ} (h : m.Valid) (hu : Regularised ε F.u) (hz : Regularised ε F.z) : (regInst F m).Valid := by
  obtain ⟨eu, u0, -, u1, u2⟩ := hu.gram h.Ku
  obtain ⟨ez, z0, -, z1, z2⟩ := hz.gram h.Kz
  have hP : (m.Ku⁻¹ - (gram F.u m.Ku)⁻¹).PosSemidef := inv_antitone h.Ku u2 (by
    rw [u1, add_sub_cancel_left]
    exact Matrix.PosSemidef.one.smul u0)
  have hQ : (m.Kz⁻¹ - (gram F.z m.Kz)⁻¹).PosSemidef := inv_antitone h.Kz z2 (by
    rw [z1, add_sub_cancel_left]
    exact Matrix.PosSemidef.one.smul z0)
  have hA : ∀ s, (m.iUx - m.iUz s * (gram F.z m.Kz)⁻¹ * (m.iUz s)ᵀ).PosSemidef := fun s => by
    have h1 := hQ.mul_mul_conjTranspose_same (m.iUz s)
    rw [conjTranspose_eq_transpose_of_trivial] at h1
    have h2 := (h.A s).add h1
    rwa [Matrix.mul_sub, Matrix.sub_mul, sub_add_sub_cancel] at h2
  have hB : ∀ s, (m.iHz s - (m.iUz s)ᵀ * (gram F.u m.Ku)⁻¹ * m.iUz s).PosSemidef := fun s => by
    have h1 := hP.conjTranspose_mul_mul_same (m.iUz s)
    rw [conjTranspose_eq_transpose_of_trivial] at h1
    have h2 := (h.B s).add h1
    rwa [Matrix.mul_sub, Matrix.sub_mul, sub_add_sub_cancel] at h2
  refine ⟨u2, z2, h.noise, hA, hB, fun s => ?_⟩
  have h0 := h.c s
  have hi : ∀ {k : Type} [Fintype k] (X Y : Matrix k k ℝ), Spec.inner X Y = frob X Y := fun X Y => rfl
  simp only [hi] at h0 ⊢
  show 0 ≤ m.iHx s s - frob (gram F.u m.Ku)⁻¹ m.iUx - frob (gram F.z m.Kz)⁻¹ (m.iHz s)
    + frob (gram F.u m.Ku)⁻¹ (m.iUz s * (gram F.z m.Kz)⁻¹ * (m.iUz s)ᵀ)
  have h1 := frob_nonneg hP (hA s)
  have h2 := frob_nonneg hQ (h.B s)
  have e1 : frob (m.Ku⁻¹ - (gram F.u m.Ku)⁻¹) (m.iUx - m.iUz s * (gram F.z m.Kz)⁻¹ * (m.iUz s)ᵀ) =
      frob m.Ku⁻¹ m.iUx - frob m.Ku⁻¹ (m.iUz s * (gram F.z m.Kz)⁻¹ * (m.iUz s)ᵀ) - frob (gram F.u m.Ku)⁻¹ m.iUx +
        frob (gram F.u m.Ku)⁻¹ (m.iUz s * (gram F.z m.Kz)⁻¹ * (m.iUz s)ᵀ) := by
    rw [frob_sub_left, frob_comm _ (m.iUx - _), frob_sub_left, frob_comm _ (m.iUx - _), frob_sub_left, frob_comm m.iUx,
      frob_comm m.iUx, frob_comm (_ * _), frob_comm (_ * _)]
    ring
  have e2 : frob (m.Kz⁻¹ - (gram F.z m.Kz)⁻¹) (m.iHz s - (m.iUz s)ᵀ * m.Ku⁻¹ * m.iUz s) =
      frob m.Kz⁻¹ (m.iHz s) - frob m.Ku⁻¹ (m.iUz s * m.Kz⁻¹ * (m.iUz s)ᵀ) - frob (gram F.z m.Kz)⁻¹ (m.iHz s) +
        frob m.Ku⁻¹ (m.iUz s * (gram F.z m.Kz)⁻¹ * (m.iUz s)ᵀ) := by
    have h3 : ∀ X : Matrix κ κ ℝ, frob m.Ku⁻¹ (m.iUz s * X * (m.iUz s)ᵀ) = frob X ((m.iUz s)ᵀ * m.Ku⁻¹ * m.iUz s) := fun X => by
      rw [frob_comm X, frob_sandwich]
    rw [frob_sub_left, frob_comm _ (m.iHz s - _), frob_sub_left, frob_comm _ (m.iHz s - _), frob_sub_left, frob_comm (m.iHz s),
      frob_comm (m.iHz s), frob_comm (_ * _), frob_comm (_ * _), h3, h3]
    ring
  rw [e1] at h1
  rw [e2] at h2
  linarith

end Gpcm.Reg
