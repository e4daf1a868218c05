import Verif.Props.PredictProps
import Verif.Lemmas.JointLemmas
import Mathlib.Topology.Instances.Matrix
import Mathlib.Topology.Algebra.Order.LiminfLimsup
import Mathlib.Analysis.Matrix.PosDef

/-! # Helper lemmas: normal distributions near each other in Kullback-Leibler divergence -/

set_option linter.unusedSectionVars false

open Matrix Real Topology Filter Set

namespace Gpcm

section

variable {n : Type} [Fintype n] [DecidableEq n]

/-- Coordinates are controlled by a positive-definite form. -/
theorem sq_le_form {P : Matrix n n ℝ} (hP : P.PosDef) (x : n → ℝ) (i : n) :
    x i ^ 2 ≤ P⁻¹ i i * (x ⬝ᵥ (P *ᵥ x)) := by
  have h1 : ∀ s : ℝ, 0 ≤ P⁻¹ i i * (s * s) + (-2 * x i) * s + x ⬝ᵥ (P *ᵥ x) := fun s => by
    have h2 := hP.posSemidef.dotProduct_mulVec_nonneg (x - s • (P⁻¹ *ᵥ Pi.single i 1))
    have e : P *ᵥ (P⁻¹ *ᵥ Pi.single i 1) = Pi.single i 1 := by
      rw [mulVec_mulVec, mul_nonsing_inv _ (posDef_isUnit_det hP), one_mulVec]
    rw [star_trivial, mulVec_sub, mulVec_smul, e, sub_dotProduct, dotProduct_sub, dotProduct_sub, smul_dotProduct,
      smul_dotProduct, dotProduct_smul, dotProduct_smul, dot_symm (posDef_symm hP) (P⁻¹ *ᵥ Pi.single i 1) x, e] at h2
    have e1 : x ⬝ᵥ Pi.single i 1 = x i := by simp
    have e2 : (P⁻¹ *ᵥ Pi.single i 1) ⬝ᵥ Pi.single i 1 = P⁻¹ i i := by simp
    rw [e1, e2] at h2
    simp only [smul_eq_mul] at h2
    linarith
  have := discrim_le_zero h1
  unfold discrim at this
  nlinarith

theorem form_trace (P B : Matrix n n ℝ) : (P * (Bᵀ * B)).trace = ∑ k, B k ⬝ᵥ (P *ᵥ B k) := by
  rw [← Matrix.mul_assoc, Matrix.trace_mul_comm, ← Matrix.mul_assoc]
  unfold Matrix.trace
  refine Finset.sum_congr rfl fun k _ => ?_
  rw [Matrix.diag_apply, Matrix.mul_assoc, Matrix.mul_apply]
  unfold dotProduct
  exact Finset.sum_congr rfl fun j _ => by rw [Matrix.mul_apply]; rfl

/-- Positive-definite matrices are controlled by a trace. -/
theorem entry_le_trace {P V : Matrix n n ℝ} (hP : P.PosDef) (hV : V.PosDef) (i j : n) :
    |V i j| ≤ (P⁻¹ i i + P⁻¹ j j) / 2 * (P * V).trace := by
  obtain ⟨C⟩ := cholOracle_nonempty (n := n)
  obtain ⟨B, hB⟩ : ∃ B : Matrix n n ℝ, V = Bᵀ * B := ⟨(C.chol V)ᵀ, by rw [transpose_transpose, C.spec V hV]⟩
  subst hB
  rw [form_trace, Matrix.mul_apply, Finset.mul_sum]
  refine (Finset.abs_sum_le_sum_abs _ _).trans (Finset.sum_le_sum fun k _ => ?_)
  have h1 := sq_le_form hP (B k) i
  have h2 := sq_le_form hP (B k) j
  rw [transpose_apply, abs_mul]
  nlinarith [sq_nonneg (|B k i| - |B k j|), sq_abs (B k i), sq_abs (B k j)]

/-- The normal distribution with the given mean and variance. -/
noncomputable def ofMeanVar (x : (n → ℝ) × Matrix n n ℝ) : NatNormal n := ⟨x.2⁻¹ *ᵥ x.1, x.2⁻¹⟩

theorem eq_ofMeanVar {q : NatNormal n} (hq : q.prec.PosDef) :
    q = ofMeanVar (q.prec⁻¹ *ᵥ q.lam, q.prec⁻¹) := by
  unfold ofMeanVar
  ext1
  · simp only
    rw [mulVec_mulVec, nonsing_inv_mul _ (by
      rw [det_nonsing_inv, Ring.inverse_eq_inv']
      exact (inv_ne_zero hq.det_pos.ne').isUnit), one_mulVec]
  · simp only
    rw [nonsing_inv_nonsing_inv _ (posDef_isUnit_det hq)]

/-- Means and variances in a box, with determinant bounded away from zero. -/
def box (n : Type) [Fintype n] [DecidableEq n] (a b c : ℝ) : Set ((n → ℝ) × Matrix n n ℝ) :=
  {x | (∀ i, x.1 i ∈ Icc (-a) a) ∧ (∀ i j, x.2 i j ∈ Icc (-b) b) ∧ x.2.PosSemidef ∧ c ≤ x.2.det}

theorem isClosed_posSemidef : IsClosed {V : Matrix n n ℝ | V.PosSemidef} := by
  have e : {V : Matrix n n ℝ | V.PosSemidef} = {V | Vᵀ = V} ∩ ⋂ x : n → ℝ, {V | 0 ≤ x ⬝ᵥ (V *ᵥ x)} := by
    ext V
    simp only [mem_ofPred_eq, mem_inter_iff, mem_iInter, posSemidef_iff_dotProduct_mulVec, star_trivial,
      Matrix.IsHermitian, conjTranspose_eq_transpose_of_trivial]
  rw [e]
  refine (isClosed_eq continuous_id.matrix_transpose continuous_id).inter (isClosed_iInter fun x => ?_)
  exact isClosed_le continuous_const (continuous_const.dotProduct (continuous_id.matrix_mulVec continuous_const))

theorem isCompact_box (a b c : ℝ) : IsCompact (box n a b c) := by
  have h1 : IsCompact ((Set.univ.pi fun _ : n => Icc (-a) a) ×ˢ
      (Set.univ.pi fun _ : n => Set.univ.pi fun _ : n => Icc (-b) b : Set (Matrix n n ℝ))) :=
    (isCompact_univ_pi fun _ => isCompact_Icc).prod (isCompact_univ_pi fun _ => isCompact_univ_pi fun _ => isCompact_Icc)
  refine h1.of_isClosed_subset ?_ fun x hx => ⟨fun i _ => hx.1 i, fun i _ j _ => hx.2.1 i j⟩
  have c1 : Continuous fun x : (n → ℝ) × Matrix n n ℝ => x.2 := continuous_snd
  unfold box
  simp only [ofPred_and]
  refine IsClosed.inter ?_ (IsClosed.inter ?_ (IsClosed.inter ?_ ?_))
  · simp only [ofPred_forall]
    exact isClosed_iInter fun i => isClosed_Icc.preimage ((continuous_apply i).comp continuous_fst)
  · simp only [ofPred_forall]
    exact isClosed_iInter fun i => isClosed_iInter fun j => isClosed_Icc.preimage (c1.matrix_elem i j)
  · exact isClosed_posSemidef.preimage c1
  · exact isClosed_le continuous_const c1.matrix_det

theorem box_posDef {a b c : ℝ} (hc : 0 < c) {x : (n → ℝ) × Matrix n n ℝ} (hx : x ∈ box n a b c) : x.2.PosDef :=
  hx.2.2.1.posDef_iff_isUnit.2 ((Matrix.isUnit_iff_isUnit_det _).2 (hc.trans_le hx.2.2.2).ne'.isUnit)

/-- The distributions with bounded divergence from a centred one lie in such a box. -/
theorem kl_le_box {P : Matrix n n ℝ} (hP : P.PosDef) (R : ℝ) : ∃ a b c, 0 < c ∧ ∀ (C : CholOracle n) (q : NatNormal n),
    q.prec.PosDef → q.kl C ⟨0, P⟩ ≤ R → ∃ x ∈ box n a b c, q = ofMeanVar x := by
  obtain ⟨N, hN⟩ : ∃ N : ℝ, N = Fintype.card n := ⟨_, rfl⟩
  obtain ⟨T, hT⟩ : ∃ T, T = 4 * R + 2 * N * log 2 := ⟨_, rfl⟩
  refine ⟨∑ i, (P⁻¹ i i * (2 * R) + 1), ∑ i, ∑ j, |(P⁻¹ i i + P⁻¹ j j) / 2 * T|, exp (-N - 2 * R) / P.det,
    div_pos (exp_pos _) hP.det_pos, fun C q hq hR => ⟨_, ⟨?_, ?_, ?_, ?_⟩, eq_ofMeanVar hq⟩⟩
  all_goals
    obtain ⟨M, hM⟩ : ∃ M, M = (NatNormal.ratio C q ⟨0, P⟩)ᵀ * NatNormal.ratio C q ⟨0, P⟩ := ⟨_, rfl⟩
    have hMp : M.PosDef := by rw [hM]; exact NatNormal.ratio_posDef C hq hP
    have htr : M.trace = (P * q.prec⁻¹).trace := by
      rw [hM, NatNormal.ratio_trace C hq (p := ⟨0, P⟩) hP, NatNormal.var_eq C hq]
    have hdet : M.det = P.det / q.prec.det := by rw [hM, (NatNormal.ratio_det C hq (p := ⟨0, P⟩) hP).2]
    have hkl := hR
    rw [NatNormal.kl_def, ← hM, NatNormal.mean_eq C hq, NatNormal.mean_eq C (d := ⟨0, P⟩) hP, mulVec_zero, sub_zero,
      ← hN] at hkl
    have h1 := (NatNormal.trace_log_det hMp).1
    have h2 := (NatNormal.trace_log_det (hMp.smul (show (0 : ℝ) < 1 / 2 by norm_num))).1
    rw [trace_smul, det_smul, log_mul (by positivity) hMp.det_pos.ne', log_pow, one_div, log_inv, ← hN,
      smul_eq_mul] at h2
    rw [← hN] at h1
    have hq0 := hP.posSemidef.dotProduct_mulVec_nonneg (q.prec⁻¹ *ᵥ q.lam)
    rw [star_trivial] at hq0
    simp only at hkl
    have hquad : q.prec⁻¹ *ᵥ q.lam ⬝ᵥ (P *ᵥ (q.prec⁻¹ *ᵥ q.lam)) ≤ 2 * R := by linarith
    have hR0 : 0 ≤ R := by linarith
    have hT' : M.trace ≤ T := by rw [hT]; linarith
  · intro i
    have h3 := sq_le_form hP (q.prec⁻¹ *ᵥ q.lam) i
    have h4 : 0 ≤ P⁻¹ i i := hP.inv.posSemidef.diag_nonneg
    have h5 := h3.trans (mul_le_mul_of_nonneg_left hquad h4)
    have h6 : |(q.prec⁻¹ *ᵥ q.lam) i| ≤ P⁻¹ i i * (2 * R) + 1 := by
      nlinarith [sq_abs ((q.prec⁻¹ *ᵥ q.lam) i), abs_nonneg ((q.prec⁻¹ *ᵥ q.lam) i)]
    exact abs_le.1 (h6.trans (Finset.single_le_sum (f := fun i => P⁻¹ i i * (2 * R) + 1) (fun j _ => by
      have : 0 ≤ P⁻¹ j j := hP.inv.posSemidef.diag_nonneg
      positivity) (Finset.mem_univ i)))
  · intro i j
    have h3 := entry_le_trace hP hq.inv i j
    rw [← htr] at h3
    have h4 : 0 ≤ P⁻¹ i i := hP.inv.posSemidef.diag_nonneg
    have h5 : 0 ≤ P⁻¹ j j := hP.inv.posSemidef.diag_nonneg
    have h6 := (h3.trans (mul_le_mul_of_nonneg_left hT' (by linarith))).trans (le_abs_self _)
    refine abs_le.1 (h6.trans ?_)
    refine le_trans (Finset.single_le_sum (f := fun j => |(P⁻¹ i i + P⁻¹ j j) / 2 * T|) (fun j _ => abs_nonneg _)
      (Finset.mem_univ j)) ?_
    exact Finset.single_le_sum (f := fun i => ∑ j, |(P⁻¹ i i + P⁻¹ j j) / 2 * T|)
      (fun i _ => Finset.sum_nonneg fun j _ => abs_nonneg _) (Finset.mem_univ i)
  · exact hq.inv.posSemidef
  · simp only
    rw [det_nonsing_inv, Ring.inverse_eq_inv', div_le_iff₀ hP.det_pos]
    rw [show q.prec.det⁻¹ * P.det = M.det by rw [hdet]; ring, ← le_log_iff_exp_le hMp.det_pos]
    have : 0 ≤ M.trace := hMp.posSemidef.trace_nonneg
    linarith

theorem ofMeanVar_posDef {x : (n → ℝ) × Matrix n n ℝ} (hx : x.2.PosDef) : (ofMeanVar x).prec.PosDef := hx.inv

theorem ofMeanVar_mean (C : CholOracle n) {x : (n → ℝ) × Matrix n n ℝ} (hx : x.2.PosDef) :
    (ofMeanVar x).mean C = x.1 := by
  rw [NatNormal.mean_eq C (ofMeanVar_posDef hx)]
  unfold ofMeanVar
  rw [nonsing_inv_nonsing_inv _ (posDef_isUnit_det hx), mulVec_mulVec, mul_nonsing_inv _ (posDef_isUnit_det hx),
    one_mulVec]

theorem ofMeanVar_var (C : CholOracle n) {x : (n → ℝ) × Matrix n n ℝ} (hx : x.2.PosDef) :
    (ofMeanVar x).var C = x.2 := by
  rw [NatNormal.var_eq C (ofMeanVar_posDef hx)]
  unfold ofMeanVar
  rw [nonsing_inv_nonsing_inv _ (posDef_isUnit_det hx)]

theorem continuousAt_inv {V : Matrix n n ℝ} (hV : V.PosDef) : ContinuousAt (fun W : Matrix n n ℝ => W⁻¹) V :=
  continuousAt_matrix_inv V (by
    rw [Ring.inverse_eq_inv']
    exact continuousAt_inv₀ hV.det_pos.ne')

/-- The difference of parameters that coordinate ascent watches, for one variable. -/
noncomputable def paramDiff (a b : NatNormal n) : ℝ := rmsVec a.lam b.lam + rmsMat a.prec b.prec

theorem paramDiff_self (a : NatNormal n) : paramDiff a a = 0 := by
  simp [paramDiff, rmsVec, rmsMat]

theorem continuous_rmsVec {X : Type} [TopologicalSpace X] {f g : X → n → ℝ} (hf : Continuous f) (hg : Continuous g) :
    Continuous fun x => rmsVec (f x) (g x) := by
  unfold rmsVec
  exact ((continuous_finsetSum _ fun i _ =>
    (((continuous_apply i).comp hf).sub ((continuous_apply i).comp hg)).pow 2).div_const _).sqrt

theorem continuous_rmsMat {X : Type} [TopologicalSpace X] {f g : X → Matrix n n ℝ} (hf : Continuous f)
    (hg : Continuous g) : Continuous fun x => rmsMat (f x) (g x) := by
  unfold rmsMat
  exact ((continuous_finsetSum _ fun i _ => continuous_finsetSum _ fun j _ =>
    ((hf.matrix_elem i j).sub (hg.matrix_elem i j)).pow 2).div_const _).sqrt

/-- Among distributions of bounded divergence from a centred one, a small divergence means a small difference of
parameters. -/
theorem kl_controls (C : CholOracle n) {P : Matrix n n ℝ} (hP : P.PosDef) (R : ℝ) {ε : ℝ} (hε : 0 < ε) :
    ∃ δ > 0, ∀ q q' : NatNormal n, q.prec.PosDef → q'.prec.PosDef → q.kl C ⟨0, P⟩ ≤ R → q'.kl C ⟨0, P⟩ ≤ R →
      q.kl C q' < δ → paramDiff q' q < ε := by
  obtain ⟨a, b, c, hc, hbox⟩ := kl_le_box hP R
  obtain ⟨K, hK⟩ : ∃ K, K = box n a b c ×ˢ box n a b c := ⟨_, rfl⟩
  have hKc : IsCompact K := by rw [hK]; exact (isCompact_box a b c).prod (isCompact_box a b c)
  have hK1 : ∀ w ∈ K, w.1.2.PosDef ∧ w.2.2.PosDef := fun w hw => by
    rw [hK] at hw
    exact ⟨box_posDef hc hw.1, box_posDef hc hw.2⟩
  have cA : Continuous fun w : K => w.1.1.2⁻¹ := continuous_iff_continuousAt.2 fun w =>
    (continuousAt_inv (hK1 w.1 w.2).1).comp (f := fun w : K => w.1.1.2) (by fun_prop)
  have cB : Continuous fun w : K => w.1.2.2⁻¹ := continuous_iff_continuousAt.2 fun w =>
    (continuousAt_inv (hK1 w.1 w.2).2).comp (f := fun w : K => w.1.2.2) (by fun_prop)
  have c1 : Continuous fun w : K => w.1.1.1 := by fun_prop
  have c2 : Continuous fun w : K => w.1.2.1 := by fun_prop
  have c3 : Continuous fun w : K => w.1.1.2 := by fun_prop
  have hg : ContinuousOn (fun w => paramDiff (ofMeanVar w.2) (ofMeanVar w.1)) K :=
    continuousOn_iff_continuous_domRestrict.2
      ((continuous_rmsVec (cB.matrix_mulVec c2) (cA.matrix_mulVec c1)).add (continuous_rmsMat cB cA))
  have hf : ContinuousOn (fun w => (ofMeanVar w.1).kl C (ofMeanVar w.2)) K := by
    refine continuousOn_iff_continuous_domRestrict.2 ?_
    have c4 := ((((cB.matrix_mul c3).matrix_trace.sub (cB.matrix_det.log fun w =>
      (hK1 w.1 w.2).2.inv.det_pos.ne')).add (cA.matrix_det.log fun w => (hK1 w.1 w.2).1.inv.det_pos.ne')).add
        ((c1.sub c2).dotProduct (cB.matrix_mulVec (c1.sub c2)))).sub (continuous_const (y := (Fintype.card n : ℝ)))
    refine ((continuous_const (y := (1 / 2 : ℝ))).mul c4).congr fun w => ?_
    rw [domRestrict_apply, NatNormal.kl_formula C (ofMeanVar_posDef (hK1 w.1 w.2).1) (ofMeanVar_posDef (hK1 w.1 w.2).2),
      ofMeanVar_mean C (hK1 w.1 w.2).1, ofMeanVar_mean C (hK1 w.1 w.2).2, ofMeanVar_var C (hK1 w.1 w.2).1]
    rfl
  have hT : IsCompact (K ∩ {w | ε ≤ paramDiff (ofMeanVar w.2) (ofMeanVar w.1)}) :=
    hKc.of_isClosed_subset (hg.preimage_isClosed_of_isClosed hKc.isClosed isClosed_Ici) inter_subset_left
  rcases (K ∩ {w | ε ≤ paramDiff (ofMeanVar w.2) (ofMeanVar w.1)}).eq_empty_or_nonempty with he | he
  · refine ⟨1, one_pos, fun q q' hq hq' h1 h2 _ => ?_⟩
    obtain ⟨x, hx, rfl⟩ := hbox C q hq h1
    obtain ⟨y, hy, rfl⟩ := hbox C q' hq' h2
    by_contra hn
    have : (x, y) ∈ (∅ : Set _) := he ▸ ⟨by rw [hK]; exact ⟨hx, hy⟩, not_lt.1 hn⟩
    exact this
  · obtain ⟨w, hw, hmin⟩ := hT.exists_isMinOn he (hf.mono inter_subset_left)
    have hw1 := hK1 w hw.1
    refine ⟨(ofMeanVar w.1).kl C (ofMeanVar w.2), ?_, fun q q' hq hq' h1 h2 h3 => ?_⟩
    · refine lt_of_le_of_ne (c18_nonneg C (ofMeanVar_posDef hw1.1) (ofMeanVar_posDef hw1.2)) fun h0 => ?_
      have := (c18_zero_iff C (ofMeanVar_posDef hw1.1) (ofMeanVar_posDef hw1.2)).1 h0.symm
      have h4 : ε ≤ paramDiff (ofMeanVar w.2) (ofMeanVar w.1) := hw.2
      rw [this, paramDiff_self] at h4
      linarith
    · obtain ⟨x, hx, rfl⟩ := hbox C q hq h1
      obtain ⟨y, hy, rfl⟩ := hbox C q' hq' h2
      by_contra hn
      exact absurd (hmin (show (x, y) ∈ _ from ⟨by rw [hK]; exact ⟨hx, hy⟩, not_lt.1 hn⟩)) (not_le.2 h3)

end

end Gpcm
