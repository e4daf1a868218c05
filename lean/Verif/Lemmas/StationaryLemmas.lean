import Verif.Props.ConvergeProps
import Verif.Lemmas.Fisher
import Mathlib.Analysis.Calculus.LocalExtr.Basic
import Mathlib.Analysis.Calculus.Deriv.Basic
import Mathlib.Analysis.SpecialFunctions.Log.Deriv

/-! # Lemmas about curves of normal distributions -/

open Matrix Real Filter Topology

namespace Gpcm

variable {n : Type} [Fintype n] [DecidableEq n]

namespace Spec

/-- A curve of proper normal distributions whose parameters are differentiable at zero. -/
structure Curve (c : ℝ → NatNormal n) : Prop where
  lam : ∀ i, DifferentiableAt ℝ (fun t => (c t).lam i) 0
  prec : ∀ i j, DifferentiableAt ℝ (fun t => (c t).prec i j) 0
  proper : ∀ᶠ t in 𝓝 0, (c t).prec.PosDef

end Spec

open Spec

/-- Entrywise differentiability at zero. -/
def MatDiff {k l : Type} (A : ℝ → Matrix k l ℝ) : Prop := ∀ i j, DifferentiableAt ℝ (fun t => A t i j) 0

def VecDiff {k : Type} (v : ℝ → k → ℝ) : Prop := ∀ i, DifferentiableAt ℝ (fun t => v t i) 0

section
variable {k l r : Type}

theorem MatDiff.const (A : Matrix k l ℝ) : MatDiff fun _ => A := fun _ _ => differentiableAt_const _

theorem VecDiff.const (v : k → ℝ) : VecDiff fun _ => v := fun _ => differentiableAt_const _

theorem MatDiff.add {A B : ℝ → Matrix k l ℝ} (hA : MatDiff A) (hB : MatDiff B) : MatDiff fun t => A t + B t :=
  fun i j => (hA i j).fun_add (hB i j)

theorem VecDiff.add {v w : ℝ → k → ℝ} (hv : VecDiff v) (hw : VecDiff w) : VecDiff fun t => v t + w t :=
  fun i => (hv i).fun_add (hw i)

theorem VecDiff.sub {v w : ℝ → k → ℝ} (hv : VecDiff v) (hw : VecDiff w) : VecDiff fun t => v t - w t :=
  fun i => (hv i).fun_sub (hw i)

theorem MatDiff.smul {A : ℝ → Matrix k l ℝ} (hA : MatDiff A) (s : ℝ) : MatDiff fun t => s • A t :=
  fun i j => (hA i j).const_mul s

theorem VecDiff.smul {v : ℝ → k → ℝ} (hv : VecDiff v) (s : ℝ) : VecDiff fun t => s • v t := fun i => (hv i).const_mul s

theorem MatDiff.smulF {A : ℝ → Matrix k l ℝ} (hA : MatDiff A) {s : ℝ → ℝ} (hs : DifferentiableAt ℝ s 0) : MatDiff fun t => s t • A t :=
  fun i j => hs.fun_mul (hA i j)

theorem VecDiff.smulF {v : ℝ → k → ℝ} (hv : VecDiff v) {s : ℝ → ℝ} (hs : DifferentiableAt ℝ s 0) : VecDiff fun t => s t • v t :=
  fun i => hs.fun_mul (hv i)

theorem MatDiff.sub {A B : ℝ → Matrix k l ℝ} (hA : MatDiff A) (hB : MatDiff B) : MatDiff fun t => A t - B t :=
  fun i j => (hA i j).fun_sub (hB i j)

theorem MatC1.matDiff {A : ℝ → Matrix k l ℝ} (hA : MatC1 0 A) : MatDiff A := fun i j => (hA i j).differentiableAt one_ne_zero

theorem MatDiff.transpose {A : ℝ → Matrix k l ℝ} (hA : MatDiff A) : MatDiff fun t => (A t)ᵀ := fun i j => hA j i

theorem MatDiff.mul [Fintype l] {A : ℝ → Matrix k l ℝ} {B : ℝ → Matrix l r ℝ} (hA : MatDiff A) (hB : MatDiff B) :
    MatDiff fun t => A t * B t := fun i j => by
  simp only [Matrix.mul_apply]
  exact DifferentiableAt.fun_sum fun x _ => (hA i x).fun_mul (hB x j)

theorem MatDiff.mulVec [Fintype l] {A : ℝ → Matrix k l ℝ} {v : ℝ → l → ℝ} (hA : MatDiff A) (hv : VecDiff v) :
    VecDiff fun t => A t *ᵥ v t := fun i => by
  simp only [Matrix.mulVec, dotProduct]
  exact DifferentiableAt.fun_sum fun x _ => (hA i x).fun_mul (hv x)

theorem VecDiff.dot [Fintype k] {v w : ℝ → k → ℝ} (hv : VecDiff v) (hw : VecDiff w) :
    DifferentiableAt ℝ (fun t => v t ⬝ᵥ w t) 0 := by
  simp only [dotProduct]
  exact DifferentiableAt.fun_sum fun x _ => (hv x).fun_mul (hw x)

theorem VecDiff.outer {v w : ℝ → k → ℝ} (hv : VecDiff v) (hw : VecDiff w) : MatDiff fun t => vecMulVec (v t) (w t) := fun i j => by
  simp only [vecMulVec_apply]
  exact (hv i).fun_mul (hw j)

theorem MatDiff.list_sum {β : Type} (L : List β) {A : β → ℝ → Matrix k l ℝ} (hA : ∀ b ∈ L, MatDiff (A b)) :
    MatDiff fun t => (L.map fun b => A b t).sum := by
  induction L with
  | nil => exact MatDiff.const 0
  | cons b L ih =>
    simp only [List.map_cons, List.sum_cons]
    exact (hA b (by simp)).add (ih fun c hc => hA c (by simp [hc]))

theorem VecDiff.list_sum {β : Type} (L : List β) {v : β → ℝ → k → ℝ} (hv : ∀ b ∈ L, VecDiff (v b)) :
    VecDiff fun t => (L.map fun b => v b t).sum := by
  induction L with
  | nil => exact VecDiff.const 0
  | cons b L ih =>
    simp only [List.map_cons, List.sum_cons]
    exact (hv b (by simp)).add (ih fun c hc => hv c (by simp [hc]))

end

theorem MatDiff.trace {A : ℝ → Matrix n n ℝ} (hA : MatDiff A) : DifferentiableAt ℝ (fun t => (A t).trace) 0 := by
  simp only [Matrix.trace, diag_apply]
  exact DifferentiableAt.fun_sum fun x _ => hA x x

theorem MatDiff.det {A : ℝ → Matrix n n ℝ} (hA : MatDiff A) : DifferentiableAt ℝ (fun t => (A t).det) 0 := by
  simp only [Matrix.det_apply']
  exact DifferentiableAt.fun_sum fun σ _ => (DifferentiableAt.fun_finset_prod fun i _ => hA (σ i) i).const_mul _

theorem MatDiff.inv {A : ℝ → Matrix n n ℝ} (hA : MatDiff A) (h : (A 0).det ≠ 0) : MatDiff fun t => (A t)⁻¹ := fun i j => by
  simp only [Matrix.inv_def, Ring.inverse_eq_inv', Matrix.smul_apply, smul_eq_mul, Matrix.adjugate_apply]
  refine (hA.det.inv h).fun_mul (MatDiff.det (A := fun t => (A t).updateRow j (Pi.single i 1)) fun a b => ?_)
  by_cases ha : a = j
  · subst ha
    simp only [updateRow_self]
    exact differentiableAt_const _
  · simp only [updateRow_ne ha]
    exact hA a b

variable (C : CholOracle n)

theorem Spec.Curve.zero {c : ℝ → NatNormal n} (hc : Curve c) : (c 0).prec.PosDef := hc.proper.self_of_nhds

theorem Spec.Curve.const {q : NatNormal n} (hq : q.prec.PosDef) : Curve fun _ => q :=
  ⟨fun _ => differentiableAt_const _, fun _ _ => differentiableAt_const _, .of_forall fun _ => hq⟩

theorem diff_congr {f g : ℝ → ℝ} (h : ∀ᶠ t in 𝓝 0, f t = g t) (hg : DifferentiableAt ℝ g 0) : DifferentiableAt ℝ f 0 :=
  hg.congr_of_eventuallyEq h

theorem Spec.Curve.inv {c : ℝ → NatNormal n} (hc : Curve c) : MatDiff fun t => (c t).prec⁻¹ :=
  MatDiff.inv hc.prec hc.zero.det_pos.ne'

theorem Spec.Curve.mean {c : ℝ → NatNormal n} (hc : Curve c) : VecDiff fun t => (c t).mean C := fun i =>
  diff_congr (hc.proper.mono fun t ht => by simp only [NatNormal.mean_eq C ht]) (hc.inv.mulVec hc.lam i)

theorem Spec.Curve.m2 {c : ℝ → NatNormal n} (hc : Curve c) : MatDiff fun t => (c t).m2 C := fun i j =>
  diff_congr (hc.proper.mono fun t ht => by simp only [NatNormal.m2_eq C ht, NatNormal.var_eq C ht])
    (hc.inv.add ((hc.mean C).outer (hc.mean C)) i j)

theorem Spec.Curve.kl {q p : ℝ → NatNormal n} (hq : Curve q) (hp : Curve p) : DifferentiableAt ℝ (fun t => (q t).kl C (p t)) 0 := by
  refine diff_congr ((hq.proper.and hp.proper).mono fun t ht => by
    rw [NatNormal.kl_formula C ht.1 ht.2, NatNormal.var_eq C ht.1]) ?_
  have hd := (hq.mean C).sub (hp.mean C)
  exact (((((MatDiff.mul hp.prec hq.inv).trace.fun_sub ((MatDiff.det hp.prec).log hp.zero.det_pos.ne')).fun_add
    ((MatDiff.det hq.prec).log hq.zero.det_pos.ne')).fun_add (hd.dot (MatDiff.mulVec hp.prec hd))).fun_sub
    (differentiableAt_const _)).const_mul _

/-- A divergence that vanishes at zero has derivative zero there. -/
theorem Spec.Curve.kl_deriv {q p : ℝ → NatNormal n} (hq : Curve q) (hp : Curve p) (h : q 0 = p 0) :
    HasDerivAt (fun t => (q t).kl C (p t)) 0 0 := by
  have hd := (hq.kl C hp).hasDerivAt
  have hm : IsLocalMin (fun t => (q t).kl C (p t)) 0 := by
    filter_upwards [hq.proper, hp.proper] with t h1 h2
    rw [h, kl_self C hp.zero]
    exact c18_nonneg C h1 h2
  rwa [hm.hasDerivAt_eq_zero hd] at hd

/-- Positive definiteness persists for small changes. -/
theorem posDef_perturb {A S : Matrix n n ℝ} (hA : A.PosDef) (hS : Sᵀ = S) : ∀ᶠ t : ℝ in 𝓝 0, (A + t • S).PosDef := by
  have hK : MatC1 0 fun t : ℝ => A + t • S := fun i j => by
    simp only [Matrix.add_apply, Matrix.smul_apply, smul_eq_mul]
    fun_prop
  obtain ⟨c, hc, h⟩ := quad_near hK (by simpa using hA)
  refine h.mono fun t ht => Matrix.PosDef.of_dotProduct_mulVec_pos ?_ fun x hx => ?_
  · have h1 : (A + t • S)ᵀ = A + t • S := by rw [transpose_add, transpose_smul, hS, posDef_symm hA]
    rwa [IsHermitian, conjTranspose_eq_transpose_of_trivial]
  · rw [star_trivial]
    have h2 : 0 < x ⬝ᵥ x := by
      have := dotProduct_star_self_pos_iff (v := x)
      simpa using this.2 hx
    exact (mul_pos hc h2).trans_le (ht x)

/-- The straight line between two distributions in the space of means and variances. -/
noncomputable def segment (q p : NatNormal n) (t : ℝ) : NatNormal n :=
  ofMeanVar (q.prec⁻¹ *ᵥ q.lam + t • (p.prec⁻¹ *ᵥ p.lam - q.prec⁻¹ *ᵥ q.lam), q.prec⁻¹ + t • (p.prec⁻¹ - q.prec⁻¹))

theorem segment_zero {q p : NatNormal n} (hq : q.prec.PosDef) : segment q p 0 = q := by
  rw [segment, zero_smul, zero_smul, add_zero, add_zero, ← eq_ofMeanVar hq]

theorem segment_var_posDef {q p : NatNormal n} (hq : q.prec.PosDef) (hp : p.prec.PosDef) :
    ∀ᶠ t : ℝ in 𝓝 0, (q.prec⁻¹ + t • (p.prec⁻¹ - q.prec⁻¹)).PosDef :=
  posDef_perturb hq.inv (by rw [transpose_sub, inv_symm hq, inv_symm hp])

theorem segment_curve {q p : NatNormal n} (hq : q.prec.PosDef) (hp : p.prec.PosDef) : Curve (segment q p) := by
  have hV : MatDiff fun t : ℝ => q.prec⁻¹ + t • (p.prec⁻¹ - q.prec⁻¹) := fun i j => by
    simp only [Matrix.add_apply, Matrix.smul_apply, smul_eq_mul]
    fun_prop
  have hm : VecDiff fun t : ℝ => q.prec⁻¹ *ᵥ q.lam + t • (p.prec⁻¹ *ᵥ p.lam - q.prec⁻¹ *ᵥ q.lam) := fun i => by
    simp only [Pi.add_apply, Pi.smul_apply, smul_eq_mul]
    fun_prop
  have hI := hV.inv (by simpa using hq.inv.det_pos.ne')
  exact ⟨hI.mulVec hm, hI, (segment_var_posDef hq hp).mono fun t ht => ht.inv⟩

/-- Along that line the divergence is convex. -/
theorem segment_kl {q p : NatNormal n} (hq : q.prec.PosDef) (hp : p.prec.PosDef) {t : ℝ} (h0 : 0 ≤ t) (h1 : t ≤ 1)
    (ht : (q.prec⁻¹ + t • (p.prec⁻¹ - q.prec⁻¹)).PosDef) : (segment q p t).kl C p ≤ (1 - t) * q.kl C p := by
  obtain ⟨V, hV⟩ : ∃ V, V = q.prec⁻¹ + t • (p.prec⁻¹ - q.prec⁻¹) := ⟨_, rfl⟩
  rw [← hV] at ht
  have hs : (segment q p t).prec = V⁻¹ := by rw [hV]; rfl
  have hsp : (segment q p t).prec.PosDef := by rw [hs]; exact ht.inv
  have hi : V⁻¹⁻¹ = V := nonsing_inv_nonsing_inv _ ht.det_pos.ne'.isUnit
  have hm : (segment q p t).mean C = q.mean C + t • (p.mean C - q.mean C) := by
    rw [NatNormal.mean_eq C hsp, NatNormal.mean_eq C hq, NatNormal.mean_eq C hp, hs, hi]
    have : (segment q p t).lam = V⁻¹ *ᵥ (q.prec⁻¹ *ᵥ q.lam + t • (p.prec⁻¹ *ᵥ p.lam - q.prec⁻¹ *ᵥ q.lam)) := by rw [hV]; rfl
    rw [this, mulVec_mulVec, mul_nonsing_inv _ ht.det_pos.ne'.isUnit, one_mulVec]
  have hd : (segment q p t).mean C - p.mean C = (1 - t) • (q.mean C - p.mean C) := by
    rw [hm]
    module
  -- the logarithm of the determinant is concave
  have key : ∀ {W : Matrix n n ℝ}, W.PosDef → log W.det - log V.det ≤ (W * V⁻¹).trace - Fintype.card n := fun {W} hW => by
    have hL := C.spec _ hW
    obtain ⟨L, hLd⟩ : ∃ L, L = C.chol W := ⟨_, rfl⟩
    rw [← hLd] at hL
    have hLu : L.det ≠ 0 := fun h => hW.det_pos.ne' (by rw [← hL, det_mul, h, zero_mul])
    have hM : (Lᵀ * V⁻¹ * L).PosDef := by
      have := ht.inv.conjTranspose_mul_mul_same (B := L) (Matrix.mulVec_injective_iff_isUnit.2
        ((Matrix.isUnit_iff_isUnit_det _).2 hLu.isUnit))
      rwa [conjTranspose_eq_transpose_of_trivial] at this
    have h2 := (NatNormal.trace_log_det hM).1
    have h3 : (Lᵀ * V⁻¹ * L).trace = (W * V⁻¹).trace := by
      rw [trace_mul_comm, ← Matrix.mul_assoc, hL]
    have h4 : (Lᵀ * V⁻¹ * L).det = W.det / V.det := by
      rw [← hL, det_mul, det_mul, det_mul, det_nonsing_inv, Ring.inverse_eq_inv']
      ring
    rw [h3, h4, log_div hW.det_pos.ne' ht.det_pos.ne'] at h2
    linarith
  have k1 := mul_le_mul_of_nonneg_left (key hq.inv) (sub_nonneg.2 h1)
  have k2 := mul_le_mul_of_nonneg_left (key hp.inv) h0
  have k3 : (1 - t) * (q.prec⁻¹ * V⁻¹).trace + t * (p.prec⁻¹ * V⁻¹).trace = Fintype.card n := by
    have := congrArg (fun X => (X * V⁻¹).trace) (show V = (1 - t) • q.prec⁻¹ + t • p.prec⁻¹ by rw [hV]; module)
    simp only [Matrix.add_mul, Matrix.smul_mul, trace_add, trace_smul, smul_eq_mul, mul_nonsing_inv _ ht.det_pos.ne'.isUnit,
      trace_one] at this
    linarith
  have e1 : log q.prec⁻¹.det = -log q.prec.det := by rw [det_nonsing_inv, Ring.inverse_eq_inv', log_inv]
  have e2 : log p.prec⁻¹.det = -log p.prec.det := by rw [det_nonsing_inv, Ring.inverse_eq_inv', log_inv]
  have e3 : log V⁻¹.det = -log V.det := by rw [det_nonsing_inv, Ring.inverse_eq_inv', log_inv]
  have e4 : (p.prec * V).trace = (1 - t) * (p.prec * q.prec⁻¹).trace + t * Fintype.card n := by
    rw [show V = (1 - t) • q.prec⁻¹ + t • p.prec⁻¹ by rw [hV]; module, Matrix.mul_add, trace_add, Matrix.mul_smul, Matrix.mul_smul,
      trace_smul, trace_smul, mul_nonsing_inv _ (posDef_isUnit_det hp), trace_one, smul_eq_mul, smul_eq_mul]
  have h5 : 0 ≤ (q.mean C - p.mean C) ⬝ᵥ (p.prec *ᵥ (q.mean C - p.mean C)) := by
    simpa using hp.posSemidef.dotProduct_mulVec_nonneg (q.mean C - p.mean C)
  rw [NatNormal.kl_formula C hsp hp, NatNormal.kl_formula C hq hp, NatNormal.var_eq C hsp, NatNormal.var_eq C hq, hd, hs, hi, e3, e4,
    mulVec_smul, smul_dotProduct, dotProduct_smul, smul_eq_mul, smul_eq_mul]
  rw [e1] at k1
  rw [e2] at k2
  generalize (q.mean C - p.mean C) ⬝ᵥ (p.prec *ᵥ (q.mean C - p.mean C)) = Q at *
  have k4 : (1 - t) * ((1 - t) * Q) ≤ (1 - t) * Q := by
    have := mul_nonneg (mul_nonneg h0 (sub_nonneg.2 h1)) h5
    nlinarith
  nlinarith [k1, k2, k3, k4]

/-- A distribution at which the divergence from `p` is stationary is `p`. -/
theorem stationary_kl {q p : NatNormal n} (hq : q.prec.PosDef) (hp : p.prec.PosDef)
    (h : ∀ c : ℝ → NatNormal n, Curve c → c 0 = q → HasDerivAt (fun t => (c t).kl C p) 0 0) : q = p := by
  have hd := h _ (segment_curve hq hp) (segment_zero hq)
  refine (c18_zero_iff C hq hp).1 (le_antisymm ?_ (c18_nonneg C hq hp))
  have h1 := hasDerivWithinAt_iff_tendsto_slope.1 (hd.hasDerivWithinAt (s := Set.Ioi 0))
  have h2 : ∀ᶠ t in 𝓝[Set.Ioi 0 \ {0}] (0 : ℝ), slope (fun t => (segment q p t).kl C p) 0 t ≤ -q.kl C p := by
    have h3 : ∀ᶠ t in 𝓝[Set.Ioi 0 \ {0}] (0 : ℝ), t < 1 := (eventually_lt_nhds one_pos).filter_mono nhdsWithin_le_nhds
    have h4 := (segment_var_posDef hq hp).filter_mono (nhdsWithin_le_nhds (s := Set.Ioi 0 \ {0}))
    filter_upwards [h3, h4, self_mem_nhdsWithin] with t ht1 ht2 ht3
    have ht0 : 0 < t := ht3.1
    have h5 := segment_kl C hq hp ht0.le ht1.le ht2
    rw [slope_def_field, segment_zero hq, sub_zero, div_le_iff₀ ht0]
    nlinarith
  have hne : (𝓝[Set.Ioi 0 \ {0}] (0 : ℝ)).NeBot := by
    rw [Set.diff_singleton_eq_self (by simp)]
    infer_instance
  have := le_of_tendsto h1 h2
  linarith

end Gpcm
