import Verif.Props.MoreDataProps
import Verif.Props.PriorPredProps

/-!
# C153: fitted values shrink the observations
-/

open Matrix Real

namespace Gpcm

/-- Values that lie, seen as a vector, in the ball with the observations as diameter: they are no larger than the observations
and explain part of them. -/
def Spec.Shrinks (d : List (ℝ × ℝ)) (f : ℝ → ℝ) : Prop :=
  (d.map fun p => f p.1 ^ 2).sum ≤ (d.map fun p => f p.1 * p.2).sum ∧
    (d.map fun p => f p.1 ^ 2).sum ≤ (d.map fun p => p.2 ^ 2).sum ∧
      (d.map fun p => (p.2 - f p.1) ^ 2).sum ≤ (d.map fun p => p.2 ^ 2).sum

theorem shrinks_of_le {d : List (ℝ × ℝ)} {f : ℝ → ℝ} (h : (d.map fun p => f p.1 ^ 2).sum ≤ (d.map fun p => f p.1 * p.2).sum) :
    Spec.Shrinks d f := by
  have e : (d.map fun p => (p.2 - f p.1) ^ 2).sum = (d.map fun p => p.2 ^ 2).sum - 2 * (d.map fun p => f p.1 * p.2).sum +
      (d.map fun p => f p.1 ^ 2).sum := by
    clear h
    induction d with
    | nil => simp
    | cons p d ih =>
      simp only [List.map_cons, List.sum_cons, ih]
      ring
  have h0 : 0 ≤ (d.map fun p => (p.2 - f p.1) ^ 2).sum := List.sum_nonneg (by simp only [List.mem_map]; rintro _ ⟨p, -, rfl⟩; positivity)
  have h1 : 0 ≤ (d.map fun p => f p.1 ^ 2).sum := List.sum_nonneg (by simp only [List.mem_map]; rintro _ ⟨p, -, rfl⟩; positivity)
  refine ⟨h, ?_, ?_⟩ <;> linarith

section
variable {n : Type} [Fintype n] [DecidableEq n]

theorem dot_list_sum (μ : n → ℝ) (v : ℝ → n → ℝ) (d : List (ℝ × ℝ)) :
    μ ⬝ᵥ (d.map fun p => p.2 • v p.1).sum = (d.map fun p => v p.1 ⬝ᵥ μ * p.2).sum := by
  induction d with
  | nil => simp
  | cons p d ih =>
    simp only [List.map_cons, List.sum_cons, dotProduct_add, dotProduct_smul, smul_eq_mul, ih]
    rw [dotProduct_comm μ, mul_comm p.2]

theorem quad_list_sum {μ : n → ℝ} {S : ℝ → Matrix n n ℝ} {v : ℝ → n → ℝ} (hS : ∀ x, (S x - vecMulVec (v x) (v x)).PosSemidef)
    (d : List (ℝ × ℝ)) : (d.map fun p => (v p.1 ⬝ᵥ μ) ^ 2).sum ≤ μ ⬝ᵥ ((d.map fun p => S p.1).sum *ᵥ μ) := by
  induction d with
  | nil => simp
  | cons p d ih =>
    simp only [List.map_cons, List.sum_cons, add_mulVec, dotProduct_add]
    refine add_le_add ?_ ih
    have := (hS p.1).dotProduct_mulVec_nonneg μ
    rw [star_trivial, sub_mulVec, dotProduct_sub, vecMulVec_mulVec, dotProduct_smul] at this
    have e : (v p.1 ⬝ᵥ μ) ^ 2 = μ ⬝ᵥ v p.1 * (v p.1 ⬝ᵥ μ) := by rw [dotProduct_comm μ, sq]
    rw [e]
    simpa [mul_comm] using this

/-- The posterior mean of a linear model with a zero prior mean. -/
theorem tilt_shrinks {K : Matrix n n ℝ} (hK : K.PosDef) {s : ℝ} (hs : 0 < s)
    (S : ℝ → Matrix n n ℝ) (v : ℝ → n → ℝ) (hS : ∀ x, (S x - vecMulVec (v x) (v x)).PosSemidef) (d : List (ℝ × ℝ)) {b : n → ℝ}
    (hb : b = (d.map fun p => p.2 • v p.1).sum) {o : NatNormal n} (ho : o = NatNormal.tilt ⟨0, K⟩ s (d.map fun p => S p.1).sum b)
    (hp : o.prec.PosDef) : Spec.Shrinks d fun x => v x ⬝ᵥ (o.prec⁻¹ *ᵥ o.lam) := by
  obtain ⟨μ, hμ⟩ : ∃ μ, μ = o.prec⁻¹ *ᵥ o.lam := ⟨_, rfl⟩
  simp only [← hμ]
  have e1 : o.prec *ᵥ μ = o.lam := by
    rw [hμ, mulVec_mulVec, mul_nonsing_inv _ (posDef_isUnit_det hp), one_mulVec]
  have e2 : μ ⬝ᵥ (o.prec *ᵥ μ) = s⁻¹ * (d.map fun p => v p.1 ⬝ᵥ μ * p.2).sum := by
    rw [e1, ho, hb]
    simp only [NatNormal.tilt, zero_add, one_div, dotProduct_smul, smul_eq_mul, dot_list_sum]
  have e3 : μ ⬝ᵥ (o.prec *ᵥ μ) = μ ⬝ᵥ (K *ᵥ μ) + s⁻¹ * (μ ⬝ᵥ ((d.map fun p => S p.1).sum *ᵥ μ)) := by
    rw [ho]
    simp only [NatNormal.tilt, add_mulVec, smul_mulVec, dotProduct_add, dotProduct_smul, smul_eq_mul, one_div]
  have h1 := quad_list_sum (μ := μ) hS d
  have h2 := hK.posSemidef.dotProduct_mulVec_nonneg μ
  rw [star_trivial] at h2
  refine shrinks_of_le (h1.trans ?_)
  have h3 : s⁻¹ * (μ ⬝ᵥ ((d.map fun p => S p.1).sum *ᵥ μ)) ≤ s⁻¹ * (d.map fun p => v p.1 ⬝ᵥ μ * p.2).sum := by
    rw [← e2, e3]
    linarith
  exact le_of_mul_le_mul_left h3 (by positivity)

end

variable {ι κ : Type} [Fintype ι] [DecidableEq ι] [Fintype κ] [DecidableEq κ] (C : Chols ι κ) {m : Inst ι κ}

theorem iUzSum_u (d : List (ℝ × ℝ)) (u : ι → ℝ) : (constructDataTerms C m d).iUzSumᵀ *ᵥ u =
    (d.map fun p => p.2 • ((m.iUz p.1)ᵀ *ᵥ u)).sum := by
  simp only [constructDataTerms]
  induction d with
  | nil => simp
  | cons p d ih =>
    simp only [List.map_cons, List.sum_cons, transpose_add, add_mulVec, ih, transpose_smul, smul_mulVec]

theorem iUzSum_z (d : List (ℝ × ℝ)) (z : κ → ℝ) : (constructDataTerms C m d).iUzSum *ᵥ z =
    (d.map fun p => p.2 • (m.iUz p.1 *ᵥ z)).sum := by
  simp only [constructDataTerms]
  induction d with
  | nil => simp
  | cons p d ih =>
    simp only [List.map_cons, List.sum_cons, add_mulVec, ih, smul_mulVec]

theorem ptZ_sub (h : m.Valid) {u : ι → ℝ} {u2 : Matrix ι ι ℝ} (hu : (u2 - vecMulVec u u).PosSemidef) (x : ℝ) :
    (ptZ C m u2 x - vecMulVec ((m.iUz x)ᵀ *ᵥ u) ((m.iUz x)ᵀ *ᵥ u)).PosSemidef := by
  have e : ptZ C m u2 x - vecMulVec ((m.iUz x)ᵀ *ᵥ u) ((m.iUz x)ᵀ *ᵥ u) = ptZ C m (u2 - vecMulVec u u) x := by
    rw [ptZ, ptZ, Matrix.mul_sub, Matrix.sub_mul, mul_vecMulVec, vecMulVec_mul, mulVec_transpose]
    abel
  rw [e]
  exact ptZ_psd C h hu x

theorem mean_u (u : ι → ℝ) (z : κ → ℝ) (x : ℝ) : u ⬝ᵥ (m.iUz x *ᵥ z) = ((m.iUz x)ᵀ *ᵥ u) ⬝ᵥ z := by
  rw [dotProduct_mulVec, mulVec_transpose]

/-- Fitted values given moments of the filter. -/
theorem fitted_shrinks (h : m.Valid) (d : List (ℝ × ℝ)) {u : ι → ℝ} {u2 : Matrix ι ι ℝ} (hu : (u2 - vecMulVec u u).PosSemidef)
    {o : NatNormal κ} (ho : o = NatNormal.tilt ⟨0, m.Kz⟩ m.noise (zQuad (constructDataTerms C m d) u2)
      ((constructDataTerms C m d).iUzSumᵀ *ᵥ u)) (hp : o.prec.PosDef) :
    Spec.Shrinks d fun x => u ⬝ᵥ (m.iUz x *ᵥ o.mean C.z) := by
  simp only [mean_u, NatNormal.mean_eq C.z hp]
  rw [zQuad_sum] at ho
  exact tilt_shrinks h.Kz h.noise (ptZ C m u2) (fun x => (m.iUz x)ᵀ *ᵥ u) (ptZ_sub C h hu) d (iUzSum_u C d u) ho hp

theorem shrinks_mean {α : Type} (d : List (ℝ × ℝ)) (l : List α) (hl : l ≠ []) (f : α → ℝ → ℝ) (hf : ∀ a ∈ l, Spec.Shrinks d (f a)) :
    Spec.Shrinks d fun x => (l.map fun a => f a x).sum / l.length := by
  have hn : (0 : ℝ) < l.length := by exact_mod_cast List.length_pos_of_ne_nil hl
  have hj : ∀ x, ((l.map fun a => f a x).sum / l.length) ^ 2 ≤ (l.map fun a => f a x ^ 2).sum / l.length := fun x => by
    obtain ⟨c, hc⟩ : ∃ c, c = (l.map fun a => f a x).sum / l.length := ⟨_, rfl⟩
    have key : ∀ l : List α, (l.map fun a => (f a x - c) ^ 2).sum =
        (l.map fun a => f a x ^ 2).sum - 2 * c * (l.map fun a => f a x).sum + l.length * c ^ 2 := fun l => by
      induction l with
      | nil => simp
      | cons a l ih =>
        simp only [List.map_cons, List.sum_cons, ih, List.length_cons, Nat.cast_add, Nat.cast_one]
        ring
    have h0 : 0 ≤ (l.map fun a => (f a x - c) ^ 2).sum :=
      List.sum_nonneg (by simp only [List.mem_map]; rintro _ ⟨p, -, rfl⟩; positivity)
    rw [key l, show (l.map fun a => f a x).sum = c * l.length by rw [hc]; field_simp] at h0
    rw [← hc, le_div_iff₀ hn]
    linarith
  have e1 : (d.map fun p => (l.map fun a => f a p.1 ^ 2).sum / l.length).sum =
      (l.map fun a => (d.map fun p => f a p.1 ^ 2).sum).sum / l.length := by
    clear hf
    induction d with
    | nil => simp
    | cons p d ih => simp only [List.map_cons, List.sum_cons, ih, List.sum_map_add, add_div]
  have e2 : (d.map fun p => (l.map fun a => f a p.1).sum / l.length * p.2).sum =
      (l.map fun a => (d.map fun p => f a p.1 * p.2).sum).sum / l.length := by
    clear hf e1
    induction d with
    | nil => simp
    | cons p d ih =>
      simp only [List.map_cons, List.sum_cons, ih, List.sum_map_add, add_div, List.sum_map_mul_right]
      ring
  refine shrinks_of_le ?_
  rw [e2]
  refine (List.sum_le_sum fun p _ => hj p.1).trans ?_
  rw [e1]
  exact div_le_div_of_nonneg_right (List.sum_le_sum fun a ha => (hf a ha).1) hn.le

/-- **C153** For any samples of the filter, the means that the structured scheme predicts at the times of the observations shrink
the observations. -/
theorem c153_structured (h : m.Valid) (d : List (ℝ × ℝ)) (us : List (ι → ℝ)) (hus : us ≠ []) :
    ∃ f : ℝ → ℝ × ℝ, (∀ t, Structured.predict C m (some (constructDataTerms C m d)) t us = .ok (t.map f)) ∧
      Spec.Shrinks d fun x => (f x).1 := by
  refine ⟨_, structured_predict_map C m _ hus, ?_⟩
  simp only [toMeanVar, ptMoments]
  refine shrinks_mean d us hus _ fun u _ => ?_
  exact fitted_shrinks C h d (u2 := vecMulVec u u) (by simpa using Matrix.PosSemidef.zero) (qzOptimal_eq _ _ _) (qzOptimal_posDef C h d u)

/-- **C153** Hence predicted means at the times of the observations differ no more than the observations do. -/
theorem c153_stable (h : m.Valid) (d : List (ℝ × ℝ × ℝ)) (us : List (ι → ℝ)) (hus : us ≠ []) :
    ∃ f1 f2 : ℝ → ℝ × ℝ,
      (∀ t, Structured.predict C m (some (constructDataTerms C m (d.map fun p => (p.1, p.2.1)))) t us = .ok (t.map f1)) ∧
      (∀ t, Structured.predict C m (some (constructDataTerms C m (d.map fun p => (p.1, p.2.2)))) t us = .ok (t.map f2)) ∧
      (d.map fun p => ((f1 p.1).1 - (f2 p.1).1) ^ 2).sum ≤ (d.map fun p => (p.2.1 - p.2.2) ^ 2).sum := by
  obtain ⟨f1, h1, -⟩ := c153_structured C h (Spec.combined 1 0 d) us hus
  obtain ⟨f2, h2, -⟩ := c153_structured C h (Spec.combined 0 1 d) us hus
  obtain ⟨f, h0, -, hs, -⟩ := c153_structured C h (Spec.combined 1 (-1) d) us hus
  have e1 : Spec.combined 1 0 d = d.map fun p => (p.1, p.2.1) := by simp [Spec.combined]
  have e2 : Spec.combined 0 1 d = d.map fun p => (p.1, p.2.2) := by simp [Spec.combined]
  have e : ∀ x, (f x).1 = (f1 x).1 - (f2 x).1 := fun x => by
    obtain ⟨g, g1, g2, k, k1, k2, hg⟩ := c150_linear C h 1 (-1) d [x] us hus
    rw [h0] at k
    rw [h1] at k1
    rw [h2] at k2
    simp only [List.map_cons, List.map_nil, Except.ok.injEq, List.cons.injEq, and_true] at k k1 k2
    rw [k, k1, k2, hg]
    ring
  refine ⟨f1, f2, e1 ▸ h1, e2 ▸ h2, ?_⟩
  simp only [e, Spec.combined, List.map_map, Function.comp_def, one_mul, neg_one_mul, ← sub_eq_add_neg] at hs
  exact hs

/-- **C153** The same after a fit by coordinate ascent of at least one iteration. -/
theorem c153_mean_field (h : m.Valid) (s : Posts ι κ) (hz : s.qZ.prec.PosDef) (d : List (ℝ × ℝ)) (iters : ℤ) (hi : 0 < iters) :
    ∃ f : ℝ → ℝ × ℝ, (∀ t, MeanField.predict C m (fitMeanFieldCA C m s d iters).1.condition t = t.map f) ∧
      Spec.Shrinks d fun x => (f x).1 := by
  refine ⟨_, meanField_predict_map C m _, ?_⟩
  simp only [toMeanVar, ptMoments]
  obtain ⟨k, hk⟩ : ∃ k, iters.toNat = k + 1 := ⟨iters.toNat - 1, by omega⟩
  obtain ⟨q, hq⟩ : ∃ q, q = (caLoop (caStep C m (constructDataTerms C m d)) Pair.diff (k + 1) ⟨s.qU, s.qZ⟩).1 := ⟨_, rfl⟩
  have hZ : ∀ p : Pair ι κ, p.z.prec.PosDef → (caStep C m (constructDataTerms C m d) p).z.prec.PosDef := fun p hp =>
    qzOptimalMF_posDef C h d (quOptimalMF_posDef C h d hp)
  obtain ⟨p, hp, e⟩ : ∃ p : Pair ι κ, p.z.prec.PosDef ∧ q = caStep C m (constructDataTerms C m d) p := by
    obtain ⟨j, hj, h1, -, -, h4⟩ := caLoop_spec (caStep C m (constructDataTerms C m d)) Pair.diff (k + 1) ⟨s.qU, s.qZ⟩
    cases j with
    | zero =>
      obtain ⟨i, hi, -⟩ := h4 (by omega)
      omega
    | succ j =>
      rw [Function.iterate_succ_apply', ← hq] at h1
      refine ⟨_, ?_, h1⟩
      clear h1 h4 hj
      induction j with
      | zero => exact hz
      | succ j ih => rw [Function.iterate_succ_apply']; exact hZ _ ih
  have eu : (fitMeanFieldCA C m s d iters).1.condition.pU m = quOptimalMF C m (constructDataTerms C m d) p.z := by
    simp [Posts.pU, Posts.condition, fitMeanFieldCA, Posts.setU, Posts.setZ, hk, ← hq, e, caStep]
  have ez : (fitMeanFieldCA C m s d iters).1.condition.pZ m =
      qzOptimalMF C m (constructDataTerms C m d) (quOptimalMF C m (constructDataTerms C m d) p.z) := by
    simp [Posts.pZ, Posts.condition, fitMeanFieldCA, Posts.setU, Posts.setZ, hk, ← hq, e, caStep]
  have hu := quOptimalMF_posDef C h d hp
  rw [eu, ez]
  refine fitted_shrinks C h d (u2 := (quOptimalMF C m (constructDataTerms C m d) p.z).m2 C.u) ?_ (qzOptimalMF_eq _ _ _ _)
    (qzOptimalMF_posDef C h d hu)
  rw [NatNormal.m2_eq C.u hu, NatNormal.mean_eq C.u hu, add_sub_cancel_right]
  rw [NatNormal.var_eq C.u hu]
  exact hu.inv.posSemidef

/-- Fits to two observations. -/
example (D : Chols (Fin 1) (Fin 1)) : ∃ f : ℝ → ℝ × ℝ,
    (∀ t, MeanField.predict D exInst (fitMeanFieldCA D exInst ⟨0, fun _ => ⟨1, 1⟩, fun _ => ⟨1, 1⟩⟩ [(0, 1), (1, -2)] 10).1.condition t =
      t.map f) ∧ (f 0).1 ^ 2 + (f 1).1 ^ 2 ≤ 5 := by
  obtain ⟨f, h1, -, h2, -⟩ := c153_mean_field D exInst_valid ⟨0, fun _ => ⟨1, 1⟩, fun _ => ⟨1, 1⟩⟩ Matrix.PosDef.one
    [(0, 1), (1, -2)] 10 (by norm_num)
  refine ⟨f, h1, ?_⟩
  norm_num at h2
  linarith

end Gpcm
