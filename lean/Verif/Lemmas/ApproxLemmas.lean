import Verif.Model.Approx
import Verif.Spec.Approx
import Verif.Lemmas.NormalLemmas

/-! # Helper lemmas: bounds of the approximations -/

set_option linter.unusedSectionVars false

open Matrix Real MeasureTheory

namespace Gpcm

/-! ## Inner products of matrices -/

section frob

variable {α β : Type} [Fintype α] [Fintype β]

theorem frob_eq_trace (X Y : Matrix α β ℝ) : frob X Y = (X * Yᵀ).trace := by
  simp only [frob, trace, diag_apply, mul_apply, transpose_apply]

theorem frob_comm (X Y : Matrix α β ℝ) : frob X Y = frob Y X := by
  simp only [frob, mul_comm]

theorem frob_add_left (X Y Z : Matrix α β ℝ) : frob (X + Y) Z = frob X Z + frob Y Z := by
  simp only [frob, Matrix.add_apply, add_mul, Finset.sum_add_distrib]

theorem frob_add_right (X Y Z : Matrix α β ℝ) : frob X (Y + Z) = frob X Y + frob X Z := by
  rw [frob_comm, frob_add_left, frob_comm Y, frob_comm Z]

theorem frob_sub_left (X Y Z : Matrix α β ℝ) : frob (X - Y) Z = frob X Z - frob Y Z := by
  simp only [frob, Matrix.sub_apply, sub_mul, Finset.sum_sub_distrib]

theorem frob_smul_left (c : ℝ) (X Y : Matrix α β ℝ) : frob (c • X) Y = c * frob X Y := by
  simp only [frob, Matrix.smul_apply, smul_eq_mul, Finset.mul_sum, mul_assoc]

theorem frob_smul_right (c : ℝ) (X Y : Matrix α β ℝ) : frob X (c • Y) = c * frob X Y := by
  rw [frob_comm, frob_smul_left, frob_comm]

theorem frob_zero_left (X : Matrix α β ℝ) : frob 0 X = 0 := by
  simp [frob]

theorem frob_zero_right (X : Matrix α β ℝ) : frob X 0 = 0 := by
  simp [frob]

theorem frob_sum_left (l : List (Matrix α β ℝ)) (Y : Matrix α β ℝ) :
    frob l.sum Y = (l.map fun X => frob X Y).sum := by
  induction l with
  | nil => exact frob_zero_left Y
  | cons a l ih => rw [List.sum_cons, frob_add_left, ih, List.map_cons, List.sum_cons]

theorem frob_sum_right (l : List (Matrix α β ℝ)) (Y : Matrix α β ℝ) :
    frob Y l.sum = (l.map fun X => frob Y X).sum := by
  rw [frob_comm, frob_sum_left]
  simp only [frob_comm]

theorem frob_vecMulVec (X : Matrix α β ℝ) (x : α → ℝ) (y : β → ℝ) :
    frob X (vecMulVec x y) = x ⬝ᵥ (X *ᵥ y) := by
  simp only [frob, vecMulVec_apply, dotProduct, mulVec, Finset.mul_sum]
  exact Finset.sum_congr rfl fun i _ => Finset.sum_congr rfl fun j _ => by ring

theorem frob_sandwich (I : Matrix α β ℝ) (X : Matrix α α ℝ) (Y : Matrix β β ℝ) :
    frob (Iᵀ * X * I) Y = frob X (I * Y * Iᵀ) := by
  rw [frob_eq_trace, frob_eq_trace, transpose_mul, transpose_mul, transpose_transpose, Matrix.mul_assoc,
    Matrix.mul_assoc, trace_mul_comm, Matrix.mul_assoc, Matrix.mul_assoc]

theorem frob_inner (X Y : Matrix α β ℝ) : frob X Y = Spec.inner X Y := rfl

/-- The inner product of positive semi-definite matrices is not negative. -/
theorem frob_nonneg {X Y : Matrix α α ℝ} (hX : X.PosSemidef) (hY : Y.PosSemidef) : 0 ≤ frob X Y := by
  classical
  obtain ⟨hh, hs⟩ := hY.isHermitian.spectral_theorem, hY.eigenvalues_nonneg
  rw [Unitary.conjStarAlgAut_apply, star_eq_conjTranspose, conjTranspose_eq_transpose_of_trivial] at hh
  have h1 : Yᵀ = Y := by
    have := hY.isHermitian.eq
    rwa [conjTranspose_eq_transpose_of_trivial] at this
  rw [frob_eq_trace, h1]
  conv_rhs => rw [hh]
  rw [← Matrix.mul_assoc, ← Matrix.mul_assoc, trace_mul_comm, ← Matrix.mul_assoc, ← Matrix.mul_assoc]
  have h2 := hX.conjTranspose_mul_mul_same (hY.isHermitian.eigenvectorUnitary : Matrix α α ℝ)
  rw [conjTranspose_eq_transpose_of_trivial] at h2
  rw [trace]
  refine Finset.sum_nonneg fun i _ => ?_
  rw [diag_apply, mul_diagonal]
  exact mul_nonneg (h2.diag_nonneg) (hs i)

end frob

variable {n : Type} [Fintype n] [DecidableEq n]

/-! ## Divergence and density in natural parameters -/

namespace NatNormal

variable (C : CholOracle n)

/-- The log-partition function, twice, without the constant. -/
noncomputable def part (d : NatNormal n) : ℝ := d.lam ⬝ᵥ (d.prec⁻¹ *ᵥ d.lam) - log d.prec.det

theorem frob_m2 {q : NatNormal n} (hq : q.prec.PosDef) (P : Matrix n n ℝ) :
    frob P (q.m2 C) = (P * q.var C).trace + q.mean C ⬝ᵥ (P *ᵥ q.mean C) := by
  rw [m2_eq C hq, frob_add_right, frob_vecMulVec, frob_eq_trace, var_eq C hq, inv_symm hq]

theorem mean_quad {p : NatNormal n} (hp : p.prec.PosDef) :
    p.mean C ⬝ᵥ (p.prec *ᵥ p.mean C) = p.lam ⬝ᵥ (p.prec⁻¹ *ᵥ p.lam) := by
  rw [prec_mul_mean C hp, mean_eq C hp, dotProduct_comm]

theorem kl_nat {q p : NatNormal n} (hq : q.prec.PosDef) (hp : p.prec.PosDef) : q.kl C p =
    1 / 2 * (frob p.prec (q.m2 C) - 2 * (p.lam ⬝ᵥ q.mean C) + p.part + log q.prec.det
      - Fintype.card n) := by
  rw [kl_formula C hq hp, frob_m2 C hq, part, ← mean_quad C hp]
  have h1 : (q.mean C - p.mean C) ⬝ᵥ (p.prec *ᵥ (q.mean C - p.mean C)) =
      q.mean C ⬝ᵥ (p.prec *ᵥ q.mean C) - 2 * (p.lam ⬝ᵥ q.mean C) + p.mean C ⬝ᵥ (p.prec *ᵥ p.mean C) := by
    rw [mulVec_sub, dotProduct_sub, sub_dotProduct, sub_dotProduct,
      dot_symm (posDef_symm hp) (p.mean C) (q.mean C), prec_mul_mean C hp,
      dotProduct_comm (q.mean C) p.lam]
    ring
  rw [h1]
  ring

theorem logpdf_nat {p : NatNormal n} (hp : p.prec.PosDef) (x : n → ℝ) : p.logpdf C x =
    -(Fintype.card n * log (2 * π)) / 2 - 1 / 2 * p.part -
      1 / 2 * (x ⬝ᵥ (p.prec *ᵥ x) - 2 * (p.lam ⬝ᵥ x)) := by
  rw [logpdf_eq, part, ← mean_quad C hp]
  have h1 : (x - p.mean C) ⬝ᵥ (p.prec *ᵥ (x - p.mean C)) =
      x ⬝ᵥ (p.prec *ᵥ x) - 2 * (p.lam ⬝ᵥ x) + p.mean C ⬝ᵥ (p.prec *ᵥ p.mean C) := by
    rw [mulVec_sub, dotProduct_sub, sub_dotProduct, sub_dotProduct,
      dot_symm (posDef_symm hp) (p.mean C) x, prec_mul_mean C hp, dotProduct_comm x p.lam]
    ring
  rw [h1]
  ring

/-- Multiplying a normal by an exponentiated quadratic. -/
noncomputable def tilt (p : NatNormal n) (s : ℝ) (D : Matrix n n ℝ) (b : n → ℝ) : NatNormal n :=
  ⟨p.lam + (1 / s) • b, p.prec + (1 / s) • D⟩

theorem tilt_kl {q p : NatNormal n} {s : ℝ} {D : Matrix n n ℝ} {b : n → ℝ} (hq : q.prec.PosDef)
    (hp : p.prec.PosDef) (ho : (p.tilt s D b).prec.PosDef) :
    -(1 / (2 * s)) * (frob D (q.m2 C) - 2 * (b ⬝ᵥ q.mean C)) - q.kl C p =
      1 / 2 * ((p.tilt s D b).part - p.part) - q.kl C (p.tilt s D b) := by
  rw [kl_nat C hq hp, kl_nat C hq ho]
  have h1 : frob (p.tilt s D b).prec (q.m2 C) = frob p.prec (q.m2 C) + 1 / s * frob D (q.m2 C) := by
    rw [tilt, frob_add_left, frob_smul_left]
  have h2 : (p.tilt s D b).lam ⬝ᵥ q.mean C = p.lam ⬝ᵥ q.mean C + 1 / s * (b ⬝ᵥ q.mean C) := by
    rw [tilt, add_dotProduct, smul_dotProduct, smul_eq_mul]
  rw [h1, h2]
  ring

theorem tilt_logpdf {p : NatNormal n} {s : ℝ} {D : Matrix n n ℝ} {b : n → ℝ}
    (hp : p.prec.PosDef) (ho : (p.tilt s D b).prec.PosDef) (x : n → ℝ) :
    p.logpdf C x - 1 / (2 * s) * (x ⬝ᵥ (D *ᵥ x) - 2 * (b ⬝ᵥ x)) =
      1 / 2 * ((p.tilt s D b).part - p.part) + (p.tilt s D b).logpdf C x := by
  rw [logpdf_nat C hp, logpdf_nat C ho]
  have h1 : x ⬝ᵥ ((p.tilt s D b).prec *ᵥ x) = x ⬝ᵥ (p.prec *ᵥ x) + 1 / s * (x ⬝ᵥ (D *ᵥ x)) := by
    rw [tilt, add_mulVec, dotProduct_add, smul_mulVec, dotProduct_smul, smul_eq_mul]
  have h2 : (p.tilt s D b).lam ⬝ᵥ x = p.lam ⬝ᵥ x + 1 / s * (b ⬝ᵥ x) := by
    rw [tilt, add_dotProduct, smul_dotProduct, smul_eq_mul]
  rw [h1, h2]
  ring

/-- The second moment is positive semi-definite. -/
theorem m2_psd {q : NatNormal n} (hq : q.prec.PosDef) : (q.m2 C).PosSemidef := by
  rw [m2_eq C hq, var_eq C hq]
  refine hq.inv.posSemidef.add ?_
  have := Matrix.posSemidef_vecMulVec_self_star (q.mean C)
  simpa using this

end NatNormal

/-! ## Terms of points and of data sets -/

variable {ι κ : Type} [Fintype ι] [DecidableEq ι] [Fintype κ] [DecidableEq κ]
variable (C : Chols ι κ) (m : Inst ι κ)

/-- The term `A` of one point. -/
noncomputable def ptA (s : ℝ) : Matrix ι ι ℝ := m.iUx - m.iUz s * m.KzInv C * (m.iUz s)ᵀ

/-- The term `B` of one point. -/
noncomputable def ptB (s : ℝ) : Matrix κ κ ℝ := m.iHz s - (m.iUz s)ᵀ * m.KuInv C * m.iUz s

/-- The term `c` of one point. -/
noncomputable def ptC (s : ℝ) : ℝ :=
  m.iHx s s - frob (m.KuInv C) m.iUx - frob (m.KzInv C) (m.iHz s)
    + frob (m.KuInv C) (m.iUz s * m.KzInv C * (m.iUz s)ᵀ)

theorem constructTerms_ASum (t : List ℝ) : (constructTerms C m t).ASum = (t.map (ptA C m)).sum := by
  simp only [constructTerms, List.map_map]
  induction t with
  | nil => simp
  | cons s t ih =>
    simp only [List.map_cons, List.sum_cons, List.length_cons, Function.comp_apply, ptA] at ih ⊢
    rw [← ih]
    push_cast
    rw [add_smul, one_smul]
    abel

theorem constructTerms_BSum (t : List ℝ) : (constructTerms C m t).BSum = (t.map (ptB C m)).sum := by
  simp only [constructTerms, List.map_map]
  induction t with
  | nil => simp
  | cons s t ih =>
    simp only [List.map_cons, List.sum_cons, Function.comp_apply, ptB] at ih ⊢
    rw [← ih]
    abel

theorem constructTerms_cSum (t : List ℝ) : (constructTerms C m t).cSum = (t.map (ptC C m)).sum := by
  simp only [constructTerms, List.map_map]
  induction t with
  | nil => simp [frob_zero_right]
  | cons s t ih =>
    simp only [List.map_cons, List.sum_cons, List.length_cons, Function.comp_apply, ptC] at ih ⊢
    rw [← ih]
    push_cast
    rw [add_smul, one_smul, frob_add_right, frob_add_right]
    ring

/-- The moments at one point. -/
noncomputable def ptMoments (u : ι → ℝ) (u2 : Matrix ι ι ℝ) (z : κ → ℝ) (z2 : Matrix κ κ ℝ) (s : ℝ) :
    ℝ × ℝ :=
  (u ⬝ᵥ (m.iUz s *ᵥ z), frob (ptA C m s) u2 + frob (ptB C m s) z2 + ptC C m s +
    frob u2 (m.iUz s * z2 * (m.iUz s)ᵀ))

theorem predictMoments_eq (t : List ℝ) (u : ι → ℝ) (u2 : Matrix ι ι ℝ) (z : κ → ℝ) (z2 : Matrix κ κ ℝ) :
    predictMoments C m (constructTerms C m t) u u2 z z2 = t.map (ptMoments C m u u2 z z2) := by
  simp only [predictMoments, constructTerms, List.map_map]
  induction t with
  | nil => rfl
  | cons s t ih =>
    simp only [List.map_cons, List.zip_cons_cons]
    rw [ih]
    rfl

/-- The expected log-likelihood in terms of the summed terms. -/
noncomputable def sumEll (ts : DataTerms ι κ) (s : ℝ) (u : ι → ℝ) (u2 : Matrix ι ι ℝ) (z : κ → ℝ)
    (z2 : Matrix κ κ ℝ) : ℝ :=
  -(1 / 2) * ts.n * log (2 * π * s) - 1 / (2 * s) * ((ts.y.map fun y => y ^ 2).sum + frob ts.ASum u2
    + frob ts.BSum z2 + (ts.iUz.map fun I => frob (I * z2 * Iᵀ) u2).sum + ts.cSum
    - 2 * (u ⬝ᵥ (ts.iUzSum *ᵥ z)))

theorem sumEll_eq (d : List (ℝ × ℝ)) (s : ℝ) (u : ι → ℝ) (u2 : Matrix ι ι ℝ) (z : κ → ℝ)
    (z2 : Matrix κ κ ℝ) :
    sumEll (constructDataTerms C m d) s u u2 z z2 = (d.map fun p =>
      Spec.ell s p.2 (ptMoments C m u u2 z z2 p.1).1 (ptMoments C m u u2 z z2 p.1).2).sum := by
  have hA : (constructDataTerms C m d).ASum = _ := constructTerms_ASum C m (d.map Prod.fst)
  have hB : (constructDataTerms C m d).BSum = _ := constructTerms_BSum C m (d.map Prod.fst)
  have hc : (constructDataTerms C m d).cSum = _ := constructTerms_cSum C m (d.map Prod.fst)
  rw [sumEll, hA, hB, hc]
  simp only [constructDataTerms, constructTerms, List.map_map, frob_sum_left]
  induction d with
  | nil => simp
  | cons p d ih =>
    simp only [List.map_cons, List.sum_cons, List.length_cons, Function.comp_apply] at ih ⊢
    rw [← ih (constructTerms_ASum C m _) (constructTerms_BSum C m _) (constructTerms_cSum C m _)]
    simp only [Spec.ell, ptMoments]
    rw [add_mulVec, smul_mulVec, dotProduct_add, dotProduct_smul, smul_eq_mul,
      frob_comm u2]
    push_cast
    ring

theorem meanFieldBound_eq (ts : DataTerms ι κ) (pu qu : NatNormal ι) (pz qz : NatNormal κ) :
    meanFieldBound C m ts pu qu pz qz = sumEll ts m.noise (qu.mean C.u) (qu.m2 C.u) (qz.mean C.z) (qz.m2 C.z)
      - qu.kl C.u pu - qz.kl C.z pz := by
  unfold meanFieldBound sumEll
  have : ∑ i, qu.mean C.u i * (ts.iUzSum *ᵥ qz.mean C.z) i =
      qu.mean C.u ⬝ᵥ (ts.iUzSum *ᵥ qz.mean C.z) := rfl
  rw [this]
  norm_num
  ring

/-! ## Isolating one factor -/

/-- The matrix of the quadratic form in `z`. -/
noncomputable def zQuad (ts : DataTerms ι κ) (u2 : Matrix ι ι ℝ) : Matrix κ κ ℝ :=
  ts.BSum + (ts.iUz.map fun I => Iᵀ * u2 * I).sum

/-- The matrix of the quadratic form in `u`. -/
noncomputable def uQuad (ts : DataTerms ι κ) (z2 : Matrix κ κ ℝ) : Matrix ι ι ℝ :=
  ts.ASum + (ts.iUz.map fun I => I * z2 * Iᵀ).sum

theorem sumEll_z (ts : DataTerms ι κ) (s : ℝ) (u : ι → ℝ) (u2 : Matrix ι ι ℝ) (z : κ → ℝ)
    (z2 : Matrix κ κ ℝ) : sumEll ts s u u2 z z2 = sumEll ts s u u2 0 0
      - 1 / (2 * s) * (frob (zQuad ts u2) z2 - 2 * ((ts.iUzSumᵀ *ᵥ u) ⬝ᵥ z)) := by
  have h1 : u ⬝ᵥ (ts.iUzSum *ᵥ z) = (ts.iUzSumᵀ *ᵥ u) ⬝ᵥ z := by
    rw [dotProduct_mulVec, mulVec_transpose]
  have h2 : (ts.iUz.map fun I => frob (I * z2 * Iᵀ) u2).sum =
      (ts.iUz.map fun I => frob (Iᵀ * u2 * I) z2).sum := by
    congr 2
    funext I
    rw [frob_sandwich, frob_comm]
  simp only [sumEll, zQuad, frob_add_left, frob_sum_left, List.map_map, Function.comp_def, h1, h2,
    frob_zero_right, Matrix.mul_zero, Matrix.zero_mul, frob_zero_left, mulVec_zero, dotProduct_zero]
  have h3 : (ts.iUz.map fun _ : Matrix ι κ ℝ => (0 : ℝ)).sum = 0 := by simp
  rw [h3]
  ring

theorem sumEll_u (ts : DataTerms ι κ) (s : ℝ) (u : ι → ℝ) (u2 : Matrix ι ι ℝ) (z : κ → ℝ)
    (z2 : Matrix κ κ ℝ) : sumEll ts s u u2 z z2 = sumEll ts s 0 0 z z2
      - 1 / (2 * s) * (frob (uQuad ts z2) u2 - 2 * ((ts.iUzSum *ᵥ z) ⬝ᵥ u)) := by
  simp only [sumEll, uQuad, frob_add_left, frob_sum_left, List.map_map, Function.comp_def,
    frob_zero_right, zero_dotProduct]
  have h3 : (ts.iUz.map fun _ : Matrix ι κ ℝ => (0 : ℝ)).sum = 0 := by simp
  rw [h3, dotProduct_comm u]
  ring

theorem qzOptimalMF_eq (ts : DataTerms ι κ) (q : NatNormal ι) : qzOptimalMF C m ts q =
    NatNormal.tilt ⟨0, m.Kz⟩ m.noise (zQuad ts (q.m2 C.u)) (ts.iUzSumᵀ *ᵥ q.mean C.u) := by
  unfold qzOptimalMF qOptimal NatNormal.tilt zQuad
  simp only [zero_add, List.map_map, Function.comp_def, transpose_transpose]

theorem quOptimalMF_eq (ts : DataTerms ι κ) (q : NatNormal κ) : quOptimalMF C m ts q =
    NatNormal.tilt ⟨0, m.Ku⟩ m.noise (uQuad ts (q.m2 C.z)) (ts.iUzSum *ᵥ q.mean C.z) := by
  unfold quOptimalMF qOptimal NatNormal.tilt uQuad
  simp only [zero_add]

theorem qzOptimal_eq (ts : DataTerms ι κ) (u : ι → ℝ) : qzOptimal m ts u =
    NatNormal.tilt ⟨0, m.Kz⟩ m.noise (zQuad ts (vecMulVec u u)) (ts.iUzSumᵀ *ᵥ u) := by
  unfold qzOptimal qOptimal NatNormal.tilt zQuad
  simp only [zero_add, List.map_map, Function.comp_def]
  congr 5
  refine List.map_congr_left fun I _ => ?_
  rw [mul_vecMulVec, vecMulVec_mul, mulVec_transpose]

theorem quOptimal_eq (ts : DataTerms ι κ) (z : κ → ℝ) : quOptimal m ts z =
    NatNormal.tilt ⟨0, m.Ku⟩ m.noise (uQuad ts (vecMulVec z z)) (ts.iUzSum *ᵥ z) := by
  unfold quOptimal qOptimal NatNormal.tilt uQuad
  simp only [zero_add]
  congr 5
  refine List.map_congr_left fun I _ => ?_
  rw [mul_vecMulVec, vecMulVec_mul, vecMul_transpose]

theorem iqf_eq (C : CholOracle n) {A : Matrix n n ℝ} (hA : A.PosDef) (b : n → ℝ) :
    iqf C A b = b ⬝ᵥ (A⁻¹ *ᵥ b) := by
  rw [← cholsolveVec_eq C hA, cholsolveVec, dotProduct_mulVec, ← mulVec_transpose,
    transpose_nonsing_inv, transpose_transpose]
  unfold iqf dotProduct
  exact Finset.sum_congr rfl fun i _ => by ring

theorem list_sum_psd {l : List (Matrix n n ℝ)} (h : ∀ A ∈ l, A.PosSemidef) : l.sum.PosSemidef := by
  induction l with
  | nil => exact Matrix.PosSemidef.zero
  | cons a l ih =>
    rw [List.sum_cons]
    exact (h a (by simp)).add (ih fun A hA => h A (by simp [hA]))

theorem tilt_posDef {p : NatNormal n} {s : ℝ} {D : Matrix n n ℝ} (b : n → ℝ) (hp : p.prec.PosDef)
    (hs : 0 < s) (hD : D.PosSemidef) : (p.tilt s D b).prec.PosDef := by
  unfold NatNormal.tilt
  exact hp.add_posSemidef (hD.smul (by positivity))

theorem zQuad_psd {ts : DataTerms ι κ} (hB : ts.BSum.PosSemidef) {u2 : Matrix ι ι ℝ}
    (hu : u2.PosSemidef) : (zQuad ts u2).PosSemidef := by
  refine hB.add (list_sum_psd ?_)
  intro A hA
  obtain ⟨I, -, rfl⟩ := List.mem_map.1 hA
  have := hu.conjTranspose_mul_mul_same I
  rwa [conjTranspose_eq_transpose_of_trivial] at this

theorem uQuad_psd {ts : DataTerms ι κ} (hA : ts.ASum.PosSemidef) {z2 : Matrix κ κ ℝ}
    (hz : z2.PosSemidef) : (uQuad ts z2).PosSemidef := by
  refine hA.add (list_sum_psd ?_)
  intro A hA
  obtain ⟨I, -, rfl⟩ := List.mem_map.1 hA
  have := hz.mul_mul_conjTranspose_same I
  rwa [conjTranspose_eq_transpose_of_trivial] at this

omit [DecidableEq n] [Fintype n] in
theorem outer_psd [Finite n] (x : n → ℝ) : (vecMulVec x x).PosSemidef := by
  have := Matrix.posSemidef_vecMulVec_self_star x
  simpa using this

/-! ## Valid instances -/

/-- The instance comes from an actual convolution: kernel matrices are positive definite, and the residual
second moments of every point are positive semi-definite. -/
structure Inst.Valid (m : Inst ι κ) : Prop where
  Ku : m.Ku.PosDef
  Kz : m.Kz.PosDef
  noise : 0 < m.noise
  A : ∀ s, (m.iUx - m.iUz s * m.Kz⁻¹ * (m.iUz s)ᵀ).PosSemidef
  B : ∀ s, (m.iHz s - (m.iUz s)ᵀ * m.Ku⁻¹ * m.iUz s).PosSemidef
  c : ∀ s, 0 ≤ m.iHx s s - Spec.inner m.Ku⁻¹ m.iUx - Spec.inner m.Kz⁻¹ (m.iHz s)
    + Spec.inner m.Ku⁻¹ (m.iUz s * m.Kz⁻¹ * (m.iUz s)ᵀ)

variable {m}

theorem ptA_psd (h : m.Valid) (s : ℝ) : (ptA C m s).PosSemidef := by
  rw [ptA, Inst.KzInv, pdInv_eq C.z h.Kz]
  exact h.A s

theorem ptB_psd (h : m.Valid) (s : ℝ) : (ptB C m s).PosSemidef := by
  rw [ptB, Inst.KuInv, pdInv_eq C.u h.Ku]
  exact h.B s

theorem ptC_nonneg (h : m.Valid) (s : ℝ) : 0 ≤ ptC C m s := by
  rw [ptC, Inst.KuInv, Inst.KzInv, pdInv_eq C.u h.Ku, pdInv_eq C.z h.Kz]
  exact h.c s

theorem ASum_psd (h : m.Valid) (d : List (ℝ × ℝ)) : (constructDataTerms C m d).ASum.PosSemidef := by
  show (constructTerms C m (d.map Prod.fst)).ASum.PosSemidef
  rw [constructTerms_ASum]
  refine list_sum_psd fun A hA => ?_
  obtain ⟨s, -, rfl⟩ := List.mem_map.1 hA
  exact ptA_psd C h s

theorem BSum_psd (h : m.Valid) (d : List (ℝ × ℝ)) : (constructDataTerms C m d).BSum.PosSemidef := by
  show (constructTerms C m (d.map Prod.fst)).BSum.PosSemidef
  rw [constructTerms_BSum]
  refine list_sum_psd fun A hA => ?_
  obtain ⟨s, -, rfl⟩ := List.mem_map.1 hA
  exact ptB_psd C h s

theorem ptMoments_spec (h : m.Valid) (u : ι → ℝ) (u2 : Matrix ι ι ℝ) (z : κ → ℝ) (z2 : Matrix κ κ ℝ)
    (s : ℝ) : ptMoments C m u u2 z z2 s =
      Spec.moments (m.iHx s s) m.iUx (m.iHz s) (m.iUz s) m.Ku⁻¹ m.Kz⁻¹ u u2 z z2 := by
  rw [ptMoments, ptA, ptB, ptC, Inst.KuInv, Inst.KzInv, pdInv_eq C.u h.Ku, pdInv_eq C.z h.Kz]
  rfl

/-! ## Gaps -/

theorem kl_self {n : Type} [Fintype n] [DecidableEq n] (C : CholOracle n) {q : NatNormal n}
    (hq : q.prec.PosDef) : q.kl C q = 0 := by
  rw [NatNormal.kl_formula C hq hq, sub_self, zero_dotProduct, NatNormal.var_eq C hq,
      mul_nonsing_inv _ (posDef_isUnit_det hq), trace_one]
  ring

theorem bound_gap_z (ts : DataTerms ι κ) {pu qu : NatNormal ι} {pz qz o : NatNormal κ}
    (ho : o = pz.tilt m.noise (zQuad ts (qu.m2 C.u)) (ts.iUzSumᵀ *ᵥ qu.mean C.u))
    (hp : pz.prec.PosDef) (hq : qz.prec.PosDef) (hop : o.prec.PosDef) :
    meanFieldBound C m ts pu qu pz o - meanFieldBound C m ts pu qu pz qz = qz.kl C.z o := by
  subst ho
  have h1 := NatNormal.tilt_kl C.z hq hp hop
  have h2 := NatNormal.tilt_kl C.z hop hp hop
  rw [kl_self C.z hop] at h2
  rw [meanFieldBound_eq, meanFieldBound_eq, sumEll_z]
  conv_lhs => rw [sumEll_z (z := qz.mean C.z)]
  linarith

theorem bound_gap_u (ts : DataTerms ι κ) {pu qu o : NatNormal ι} {pz qz : NatNormal κ}
    (ho : o = pu.tilt m.noise (uQuad ts (qz.m2 C.z)) (ts.iUzSum *ᵥ qz.mean C.z))
    (hp : pu.prec.PosDef) (hq : qu.prec.PosDef) (hop : o.prec.PosDef) :
    meanFieldBound C m ts pu o pz qz - meanFieldBound C m ts pu qu pz qz = qu.kl C.u o := by
  subst ho
  have h1 := NatNormal.tilt_kl C.u hq hp hop
  have h2 := NatNormal.tilt_kl C.u hop hp hop
  rw [kl_self C.u hop] at h2
  rw [meanFieldBound_eq, meanFieldBound_eq, sumEll_u]
  conv_lhs => rw [sumEll_u (u := qu.mean C.u)]
  linarith

theorem qzOptimalMF_posDef (h : m.Valid) (d : List (ℝ × ℝ)) {qu : NatNormal ι} (hq : qu.prec.PosDef) :
    (qzOptimalMF C m (constructDataTerms C m d) qu).prec.PosDef := by
  rw [qzOptimalMF_eq]
  exact tilt_posDef _ h.Kz h.noise (zQuad_psd (BSum_psd C h d) (NatNormal.m2_psd C.u hq))

theorem quOptimalMF_posDef (h : m.Valid) (d : List (ℝ × ℝ)) {qz : NatNormal κ} (hq : qz.prec.PosDef) :
    (quOptimalMF C m (constructDataTerms C m d) qz).prec.PosDef := by
  rw [quOptimalMF_eq]
  exact tilt_posDef _ h.Ku h.noise (uQuad_psd (ASum_psd C h d) (NatNormal.m2_psd C.z hq))

theorem qzOptimal_posDef (h : m.Valid) (d : List (ℝ × ℝ)) (u : ι → ℝ) :
    (qzOptimal m (constructDataTerms C m d) u).prec.PosDef := by
  rw [qzOptimal_eq]
  exact tilt_posDef _ h.Kz h.noise (zQuad_psd (BSum_psd C h d) (outer_psd u))

theorem quOptimal_posDef (h : m.Valid) (d : List (ℝ × ℝ)) (z : κ → ℝ) :
    (quOptimal m (constructDataTerms C m d) z).prec.PosDef := by
  rw [quOptimal_eq]
  exact tilt_posDef _ h.Ku h.noise (uQuad_psd (ASum_psd C h d) (outer_psd z))

variable (m)

theorem logZu_eq (ts : DataTerms ι κ) (u : ι → ℝ) (ho : (qzOptimal m ts u).prec.PosDef) :
    logZu C m ts u = sumEll ts m.noise u (vecMulVec u u) 0 0 +
      1 / 2 * ((qzOptimal m ts u).part - (⟨0, m.Kz⟩ : NatNormal κ).part) := by
  have h4 : ∑ i, u i * (ts.ASum *ᵥ u) i = u ⬝ᵥ (ts.ASum *ᵥ u) := rfl
  simp only [logZu, sumEll, iqf_eq C.z ho, NatNormal.part, frob_zero_right, Matrix.mul_zero, Matrix.zero_mul,
    frob_vecMulVec, mulVec_zero, dotProduct_zero, h4]
  norm_num
  ring

/-! ## The loop -/

theorem caLoop_spec {σ : Type} (step : σ → σ) (diff : σ → σ → ℝ) (k : ℕ) (p : σ) :
    ∃ j ≤ k, (caLoop step diff k p).1 = step^[j] p ∧
      (caLoop step diff k p).2 = (List.range j).map (fun i => step^[i + 1] p) ∧
      (∀ i, i + 1 < j → ¬ diff (step^[i + 1] p) (step^[i] p) < 1e-6) ∧
      (j < k → ∃ i, j = i + 1 ∧ diff (step^[i + 1] p) (step^[i] p) < 1e-6) := by
  induction k generalizing p with
  | zero => exact ⟨0, le_refl _, rfl, rfl, by simp, by simp⟩
  | succ k ih =>
    by_cases hd : diff (step p) p < 1e-6
    · refine ⟨1, by omega, ?_, ?_, by simp, fun _ => ⟨0, rfl, hd⟩⟩
      · simp [caLoop, hd]
      · simp [caLoop, hd]
    · obtain ⟨j, hj, h1, h2, h3, h4⟩ := ih (step p)
      refine ⟨j + 1, by omega, ?_, ?_, ?_, ?_⟩
      · simp only [caLoop, hd, if_false]
        exact h1
      · simp only [caLoop, hd, if_false]
        rw [h2, List.range_succ_eq_map, List.map_cons, List.map_map]
        rfl
      · intro i hi
        cases i with
        | zero => exact hd
        | succ i => exact h3 i (by omega)
      · intro hlt
        obtain ⟨i, rfl, hi⟩ := h4 (by omega)
        exact ⟨i + 1, rfl, hi⟩

theorem caLoop_succ {σ : Type} (step : σ → σ) (diff : σ → σ → ℝ) (k : ℕ) (p : σ) :
    (caLoop step diff (k + 1) p).1 = (caLoop step diff k p).1 ∨
      (caLoop step diff (k + 1) p).1 = step (caLoop step diff k p).1 := by
  induction k generalizing p with
  | zero =>
    right
    by_cases hd : diff (step p) p < 1e-6 <;> simp [caLoop, hd]
  | succ k ih =>
    by_cases hd : diff (step p) p < 1e-6
    · left
      simp [caLoop, hd]
    · have e : ∀ k, (caLoop step diff (k + 1) p).1 = (caLoop step diff k (step p)).1 := fun k => by
        simp [caLoop, hd]
      rw [e, e]
      exact ih (step p)

theorem caLoop_inv {σ : Type} {step : σ → σ} (diff : σ → σ → ℝ) {P : σ → Prop}
    (hs : ∀ p, P p → P (step p)) (k : ℕ) {p : σ} (h : P p) : P (caLoop step diff k p).1 := by
  induction k generalizing p with
  | zero => exact h
  | succ k ih =>
    by_cases hd : diff (step p) p < 1e-6
    · simp only [caLoop, hd, if_true]
      exact hs p h
    · simp only [caLoop, hd, if_false]
      exact ih (hs p h)

/-! ## Averages -/

theorem dotProduct_list_sum {α : Type} [Fintype α] (x : α → ℝ) (l : List (α → ℝ)) :
    x ⬝ᵥ l.sum = (l.map fun y => x ⬝ᵥ y).sum := by
  induction l with
  | nil => simp
  | cons a l ih => rw [List.sum_cons, dotProduct_add, ih, List.map_cons, List.sum_cons]

/-- The expected log-likelihood is affine in the moments of `u`. -/
theorem sumEll_average (ts : DataTerms ι κ) (s : ℝ) (us : List (ι → ℝ)) (hus : us ≠ []) (z : κ → ℝ)
    (z2 : Matrix κ κ ℝ) :
    (us.map fun u => sumEll ts s u (vecMulVec u u) z z2).sum / us.length =
      sumEll ts s ((1 / us.length : ℝ) • us.sum) ((1 / us.length : ℝ) • (us.map fun u => vecMulVec u u).sum)
        z z2 := by
  have hl : (us.length : ℝ) ≠ 0 := by
    have := List.length_pos_iff.2 hus
    positivity
  have key : ∀ l : List (ι → ℝ), (l.map fun u => sumEll ts s u (vecMulVec u u) z z2).sum =
      l.length * sumEll ts s 0 0 z z2 - 1 / (2 * s) * (frob (uQuad ts z2) (l.map fun u => vecMulVec u u).sum -
        2 * ((ts.iUzSum *ᵥ z) ⬝ᵥ l.sum)) := by
    intro l
    induction l with
    | nil => simp [frob_zero_right]
    | cons a l ih =>
      rw [List.map_cons, List.sum_cons, ih, List.map_cons, List.sum_cons, List.sum_cons, frob_add_right,
        dotProduct_add, sumEll_u, List.length_cons]
      push_cast
      ring
  rw [key]
  conv_rhs => rw [sumEll_u, frob_smul_right, dotProduct_smul, smul_eq_mul]
  field_simp

theorem list_sum_le {α : Type} {f g : α → ℝ} {l : List α} (h : ∀ a ∈ l, f a ≤ g a) :
    (l.map f).sum ≤ (l.map g).sum := by
  induction l with
  | nil => simp
  | cons a l ih =>
    rw [List.map_cons, List.map_cons, List.sum_cons, List.sum_cons]
    exact add_le_add (h a (by simp)) (ih fun b hb => h b (by simp [hb]))

/-- The square of an average is at most the average of the squares. -/
theorem sq_sum_le (l : List ℝ) : l.sum ^ 2 ≤ l.length * (l.map fun x => x ^ 2).sum := by
  induction l with
  | nil => simp
  | cons a l ih =>
    rw [List.map_cons, List.sum_cons, List.sum_cons, List.length_cons]
    push_cast
    rcases Nat.eq_zero_or_pos l.length with h0 | hpos
    · have : l = [] := List.length_eq_zero_iff.1 h0
      subst this
      simp
    · have hl : (0 : ℝ) < l.length := by exact_mod_cast hpos
      have h1 : 0 ≤ (l.length * a - l.sum) ^ 2 := sq_nonneg _
      have h2 : 0 ≤ (l.map fun x => x ^ 2).sum := List.sum_nonneg fun x hx => by
        obtain ⟨y, -, rfl⟩ := List.mem_map.1 hx
        positivity
      have h3 : 2 * a * l.sum ≤ l.length * a ^ 2 + (l.map fun x => x ^ 2).sum := by
        have : l.length * (2 * a * l.sum) ≤
            l.length * (l.length * a ^ 2 + (l.map fun x => x ^ 2).sum) := by nlinarith
        exact le_of_mul_le_mul_left this hl
      nlinarith

/-! ## Predictions -/

variable {m}

/-- The variance of the signal is not negative. -/
theorem ptMoments_var (h : m.Valid) {u : ι → ℝ} {u2 : Matrix ι ι ℝ} {z : κ → ℝ} {z2 : Matrix κ κ ℝ}
    (hu : (u2 - vecMulVec u u).PosSemidef) (hz : (z2 - vecMulVec z z).PosSemidef) (s : ℝ) :
    (ptMoments C m u u2 z z2 s).1 ^ 2 ≤ (ptMoments C m u u2 z z2 s).2 := by
  have hu2 : u2.PosSemidef := by
    have := hu.add (outer_psd u)
    rwa [sub_add_cancel] at this
  have hz2 : z2.PosSemidef := by
    have := hz.add (outer_psd z)
    rwa [sub_add_cancel] at this
  have hA := frob_nonneg (ptA_psd C h s) hu2
  have hB := frob_nonneg (ptB_psd C h s) hz2
  have hc := ptC_nonneg C h s
  have p1 : 0 ≤ frob u2 (m.iUz s * (z2 - vecMulVec z z) * (m.iUz s)ᵀ) := by
    refine frob_nonneg hu2 ?_
    have := hz.mul_mul_conjTranspose_same (m.iUz s)
    rwa [conjTranspose_eq_transpose_of_trivial] at this
  have p2 : 0 ≤ frob (u2 - vecMulVec u u) (m.iUz s * vecMulVec z z * (m.iUz s)ᵀ) := by
    refine frob_nonneg hu ?_
    have := (outer_psd z).mul_mul_conjTranspose_same (m.iUz s)
    rwa [conjTranspose_eq_transpose_of_trivial] at this
  have p3 : frob (vecMulVec u u) (m.iUz s * vecMulVec z z * (m.iUz s)ᵀ) = (u ⬝ᵥ (m.iUz s *ᵥ z)) ^ 2 := by
    rw [mul_vecMulVec, vecMulVec_mul, vecMul_transpose, frob_comm, frob_vecMulVec, vecMulVec_mulVec,
      dotProduct_smul, dotProduct_comm (m.iUz s *ᵥ z) u, sq]
    rfl
  have p4 : frob u2 (m.iUz s * z2 * (m.iUz s)ᵀ) = frob u2 (m.iUz s * (z2 - vecMulVec z z) * (m.iUz s)ᵀ) +
      frob (u2 - vecMulVec u u) (m.iUz s * vecMulVec z z * (m.iUz s)ᵀ) +
      frob (vecMulVec u u) (m.iUz s * vecMulVec z z * (m.iUz s)ᵀ) := by
    rw [frob_sub_left, Matrix.mul_sub, Matrix.sub_mul, add_assoc, sub_add_cancel,
      ← frob_add_right, sub_add_cancel]
  simp only [ptMoments]
  rw [p4, p3]
  linarith

theorem m2_sub_outer {n : Type} [Fintype n] [DecidableEq n] (C : CholOracle n) {q : NatNormal n}
    (hq : q.prec.PosDef) : (q.m2 C - vecMulVec (q.mean C) (q.mean C)).PosSemidef := by
  rw [NatNormal.m2_eq C hq, add_sub_cancel_right, NatNormal.var_eq C hq]
  exact hq.inv.posSemidef

/-- Summing lists of moments of functions of a list of points. -/
theorem foldl_addMoments (t : List ℝ) (f : ℝ → ℝ × ℝ) (fs : List (ℝ → ℝ × ℝ)) :
    (fs.map fun g => t.map g).foldl addMoments (t.map f) =
      t.map fun s => (f s + (fs.map fun g => g s).sum) := by
  induction fs generalizing f with
  | nil => simp
  | cons g fs ih =>
    have : addMoments (t.map f) (t.map g) = t.map fun s => f s + g s := by
      simp [addMoments, List.zipWith_map, List.zipWith_self]
    rw [List.map_cons, List.foldl_cons, this, ih]
    refine List.map_congr_left fun s _ => ?_
    rw [List.map_cons, List.sum_cons, add_assoc]

end Gpcm
