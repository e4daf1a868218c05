import Verif.Props.ShrinkProps
import Verif.Lemmas.Converge

/-!
# C154: what little predictions say when the noise is large
-/

open Matrix Real Filter Topology

namespace Gpcm

variable {ι κ : Type} [Fintype ι] [DecidableEq ι] [Fintype κ] [DecidableEq κ] (C : Chols ι κ)

variable {m : Inst ι κ}

omit [DecidableEq ι] [DecidableEq κ] in
theorem withNoise_valid [DecidableEq ι] [DecidableEq κ] (h : m.Valid) {v : ℝ} (hv : 0 < v) : (m.withNoise v).Valid :=
  ⟨h.Ku, h.Kz, hv, h.A, h.B, h.c⟩

theorem withNoise_terms (v : ℝ) (d : List (ℝ × ℝ)) : constructDataTerms C (m.withNoise v) d = constructDataTerms C m d := rfl

theorem withNoise_moments (v : ℝ) (u : ι → ℝ) (u2 : Matrix ι ι ℝ) (z : κ → ℝ) (z2 : Matrix κ κ ℝ) (x : ℝ) :
    ptMoments C (m.withNoise v) u u2 z z2 x = ptMoments C m u u2 z z2 x := rfl

section
variable {n : Type} [Fintype n] [DecidableEq n] (D : CholOracle n)

/-- Posteriors that approach the prior. -/
theorem tilt_tendsto {K : Matrix n n ℝ} (hK : K.PosDef) {S : ℝ → Matrix n n ℝ} {b : ℝ → n → ℝ} {S₀ : Matrix n n ℝ} {b₀ : n → ℝ}
    (hS : Tendsto S atTop (𝓝 S₀)) (hb : Tendsto b atTop (𝓝 b₀))
    (hp : ∀ v, 0 < v → (NatNormal.tilt ⟨0, K⟩ v (S v) (b v)).prec.PosDef) :
    Tendsto (fun v => (NatNormal.tilt ⟨0, K⟩ v (S v) (b v)).mean D) atTop (𝓝 0) ∧
      Tendsto (fun v => (NatNormal.tilt ⟨0, K⟩ v (S v) (b v)).m2 D) atTop (𝓝 K⁻¹) := by
  have hv : Tendsto (fun v : ℝ => 1 / v) atTop (𝓝 0) := tendsto_const_nhds.div_atTop tendsto_id
  have h1 : Tendsto (fun v => (NatNormal.tilt ⟨0, K⟩ v (S v) (b v)).lam) atTop (𝓝 0) := by
    have := (tendsto_const_nhds (x := (0 : n → ℝ))).add (hv.smul hb)
    rwa [zero_smul, add_zero] at this
  have h2 : Tendsto (fun v => (NatNormal.tilt ⟨0, K⟩ v (S v) (b v)).prec) atTop (𝓝 K) := by
    have := (tendsto_const_nhds (x := K)).add (hv.smul hS)
    rwa [zero_smul, add_zero] at this
  have h3 := (continuousAt_inv hK).tendsto.comp h2
  have hF : Continuous fun q : Matrix n n ℝ × (n → ℝ) => (q.1 *ᵥ q.2, q.1 + vecMulVec (q.1 *ᵥ q.2) (q.1 *ᵥ q.2)) := by
    refine Continuous.prodMk (by fun_prop) ?_
    refine continuous_fst.add (continuous_matrix fun i j => ?_)
    simp only [vecMulVec_apply]
    fun_prop
  have h4 := (hF.tendsto (K⁻¹, 0)).comp (h3.prodMk_nhds h1)
  rw [mulVec_zero, vecMulVec_zero, add_zero] at h4
  constructor
  · refine ((continuous_fst.tendsto _).comp h4).congr' ?_
    filter_upwards [eventually_gt_atTop 0] with v hv
    rw [NatNormal.mean_eq D (hp v hv)]
    rfl
  · refine ((continuous_snd.tendsto _).comp h4).congr' ?_
    filter_upwards [eventually_gt_atTop 0] with v hv
    rw [NatNormal.m2_eq D (hp v hv), NatNormal.var_eq D (hp v hv), NatNormal.mean_eq D (hp v hv)]
    rfl

end

theorem tendsto_sum_list {α : Type} (f : ℝ → α → Matrix ι ι ℝ) (g : α → Matrix ι ι ℝ) (l : List α)
    (h : ∀ a ∈ l, Tendsto (fun v => f v a) atTop (𝓝 (g a))) : Tendsto (fun v => (l.map (f v)).sum) atTop (𝓝 (l.map g).sum) := by
  induction l with
  | nil => simp
  | cons a l ih =>
    simp only [List.map_cons, List.sum_cons]
    exact (h a (by simp)).add (ih fun b hb => h b (by simp [hb]))

theorem uQuad_tendsto (d : List (ℝ × ℝ)) {f : ℝ → Matrix κ κ ℝ} {g : Matrix κ κ ℝ} (h : Tendsto f atTop (𝓝 g)) :
    Tendsto (fun v => uQuad (constructDataTerms C m d) (f v)) atTop (𝓝 (uQuad (constructDataTerms C m d) g)) := by
  simp only [uQuad_sum]
  refine tendsto_sum_list _ _ d fun p _ => ?_
  have hF : Continuous fun z : Matrix κ κ ℝ => ptU C m z p.1 := by
    unfold ptU
    fun_prop
  exact (hF.tendsto g).comp h

theorem zQuad_tendsto (d : List (ℝ × ℝ)) {f : ℝ → Matrix ι ι ℝ} {g : Matrix ι ι ℝ} (h : Tendsto f atTop (𝓝 g)) :
    Tendsto (fun v => zQuad (constructDataTerms C m d) (f v)) atTop (𝓝 (zQuad (constructDataTerms C m d) g)) := by
  simp only [zQuad_sum]
  refine tendsto_sum_list _ _ d fun p _ => ?_
  have hF : Continuous fun z : Matrix ι ι ℝ => ptZ C m z p.1 := by
    unfold ptZ
    fun_prop
  exact (hF.tendsto g).comp h

/-- Pairs of posteriors whose moments approach those of the prior. -/
def ToPrior (m : Inst ι κ) (p : ℝ → Pair ι κ) : Prop :=
  Tendsto (fun v => (p v).u.mean C.u) atTop (𝓝 0) ∧ Tendsto (fun v => (p v).u.m2 C.u) atTop (𝓝 m.Ku⁻¹) ∧
    Tendsto (fun v => (p v).z.mean C.z) atTop (𝓝 0) ∧ Tendsto (fun v => (p v).z.m2 C.z) atTop (𝓝 m.Kz⁻¹)

theorem caStep_tendsto (h : m.Valid) (d : List (ℝ × ℝ)) {p : ℝ → Pair ι κ} (hp : ∀ v, 0 < v → (p v).z.prec.PosDef) {a : κ → ℝ}
    {b : Matrix κ κ ℝ} (ha : Tendsto (fun v => (p v).z.mean C.z) atTop (𝓝 a)) (hb : Tendsto (fun v => (p v).z.m2 C.z) atTop (𝓝 b)) :
    ToPrior C m fun v => caStep C (m.withNoise v) (constructDataTerms C m d) (p v) := by
  have hU : ∀ v, 0 < v → (quOptimalMF C (m.withNoise v) (constructDataTerms C m d) (p v).z).prec.PosDef := fun v hv =>
    quOptimalMF_posDef C (withNoise_valid h hv) d (hp v hv)
  have hZ : ∀ v, 0 < v → (qzOptimalMF C (m.withNoise v) (constructDataTerms C m d)
      (quOptimalMF C (m.withNoise v) (constructDataTerms C m d) (p v).z)).prec.PosDef := fun v hv =>
    qzOptimalMF_posDef C (withNoise_valid h hv) d (hU v hv)
  have hF : Continuous fun z : κ → ℝ => (constructDataTerms C m d).iUzSum *ᵥ z := by fun_prop
  have hG : Continuous fun u : ι → ℝ => (constructDataTerms C m d).iUzSumᵀ *ᵥ u := by fun_prop
  have e1 : ∀ v, quOptimalMF C (m.withNoise v) (constructDataTerms C m d) (p v).z = _ := fun v => quOptimalMF_eq C (m.withNoise v) _ _
  obtain ⟨u1, u2⟩ := tilt_tendsto C.u h.Ku (uQuad_tendsto C (m := m) d hb) ((hF.tendsto a).comp ha) (fun v hv => by
    have := hU v hv
    rw [e1] at this
    exact this)
  have u1' : Tendsto (fun v => (quOptimalMF C (m.withNoise v) (constructDataTerms C m d) (p v).z).mean C.u) atTop (𝓝 0) :=
    u1.congr fun v => by rw [e1]; rfl
  have u2' : Tendsto (fun v => (quOptimalMF C (m.withNoise v) (constructDataTerms C m d) (p v).z).m2 C.u) atTop (𝓝 m.Ku⁻¹) :=
    u2.congr fun v => by rw [e1]; rfl
  have e2 : ∀ v q, qzOptimalMF C (m.withNoise v) (constructDataTerms C m d) q = _ := fun v q => qzOptimalMF_eq C (m.withNoise v) _ q
  obtain ⟨z1, z2⟩ := tilt_tendsto C.z h.Kz (zQuad_tendsto C (m := m) d u2') ((hG.tendsto 0).comp u1') (fun v hv => by
    have := hZ v hv
    rw [e2] at this
    exact this)
  exact ⟨u1', u2', z1.congr fun v => by simp only [caStep]; rw [e2]; rfl, z2.congr fun v => by simp only [caStep]; rw [e2]; rfl⟩

theorem iterate_toPrior (h : m.Valid) (d : List (ℝ × ℝ)) (p : Pair ι κ) (hp : p.z.prec.PosDef) (j : ℕ) :
    (∀ v, 0 < v → ((caStep C (m.withNoise v) (constructDataTerms C m d))^[j] p).z.prec.PosDef) ∧
    ToPrior C m fun v => (caStep C (m.withNoise v) (constructDataTerms C m d))^[j + 1] p := by
  induction j with
  | zero => exact ⟨fun _ _ => hp, caStep_tendsto C h d (p := fun _ => p) (fun _ _ => hp) tendsto_const_nhds tendsto_const_nhds⟩
  | succ j ih =>
    have h1 : ∀ v, 0 < v → ((caStep C (m.withNoise v) (constructDataTerms C m d))^[j + 1] p).z.prec.PosDef := fun v hv => by
      rw [Function.iterate_succ_apply']
      exact qzOptimalMF_posDef C (withNoise_valid h hv) d (quOptimalMF_posDef C (withNoise_valid h hv) d (ih.1 v hv))
    refine ⟨h1, ?_⟩
    simp only [Function.iterate_succ_apply' _ (j + 1)]
    exact caStep_tendsto C h d h1 ih.2.2.2.1 ih.2.2.2.2

theorem moments_continuous (x : ℝ) : Continuous fun q : ((ι → ℝ) × Matrix ι ι ℝ) × (κ → ℝ) × Matrix κ κ ℝ =>
    ptMoments C m q.1.1 q.1.2 q.2.1 q.2.2 x := by
  unfold ptMoments frob
  fun_prop

/-- **C154** As the noise grows, whatever has been observed, the signal that the fitted model predicts approaches that of the
prior: mean zero and the power of the prior. -/
theorem c154_mean_field (h : m.Valid) (s : Posts ι κ) (hz : s.qZ.prec.PosDef) (d : List (ℝ × ℝ)) (iters : ℤ) (hi : 0 < iters) :
    ∃ f : ℝ → ℝ → ℝ × ℝ,
      (∀ v t, MeanField.predict C (m.withNoise v) (fitMeanFieldCA C (m.withNoise v) s d iters).1.condition t = t.map (f v)) ∧
      ∀ x, Tendsto (fun v => (f v x).1) atTop (𝓝 0) ∧ Tendsto (fun v => (f v x).2 - v) atTop (𝓝 (m.iHx x x)) := by
  obtain ⟨k, hk⟩ : ∃ k, iters.toNat = k + 1 := ⟨iters.toNat - 1, by omega⟩
  obtain ⟨G, hG⟩ : ∃ G : Pair ι κ → ℝ → ℝ × ℝ, G = fun q x => ptMoments C m (q.u.mean C.u) (q.u.m2 C.u) (q.z.mean C.z) (q.z.m2 C.z) x :=
    ⟨_, rfl⟩
  obtain ⟨q, hq⟩ : ∃ q : ℝ → Pair ι κ, q = fun v =>
      (caLoop (caStep C (m.withNoise v) (constructDataTerms C m d)) Pair.diff (k + 1) ⟨s.qU, s.qZ⟩).1 := ⟨_, rfl⟩
  have hlim : ∀ x, Tendsto (fun v => G (q v) x) atTop (𝓝 (0, m.iHx x x)) := by
    intro x
    have hj : ∀ j, Tendsto (fun v => G ((caStep C (m.withNoise v) (constructDataTerms C m d))^[j + 1] ⟨s.qU, s.qZ⟩) x) atTop
        (𝓝 (0, m.iHx x x)) := fun j => by
      obtain ⟨h1, h2, h3, h4⟩ := (iterate_toPrior C h d ⟨s.qU, s.qZ⟩ hz j).2
      have := ((moments_continuous C (m := m) x).tendsto ((0, m.Ku⁻¹), 0, m.Kz⁻¹)).comp
        ((h1.prodMk_nhds h2).prodMk_nhds (h3.prodMk_nhds h4))
      rw [ptMoments_prior C h] at this
      rw [hG]
      exact this
    rw [tendsto_def]
    intro U hU
    have : ∀ᶠ v in atTop, ∀ j ∈ Finset.range (k + 1), G ((caStep C (m.withNoise v) (constructDataTerms C m d))^[j + 1] ⟨s.qU, s.qZ⟩) x ∈ U :=
      (Filter.eventually_all_finset _).2 fun j _ => (hj j).eventually_mem hU
    filter_upwards [this] with v hv
    obtain ⟨j, hj, h1, -, -, h4⟩ := caLoop_spec (caStep C (m.withNoise v) (constructDataTerms C m d)) Pair.diff (k + 1) ⟨s.qU, s.qZ⟩
    show G (q v) x ∈ U
    cases j with
    | zero =>
      obtain ⟨i, hi, -⟩ := h4 (by omega)
      omega
    | succ j =>
      rw [hq]
      simp only [h1]
      exact hv j (Finset.mem_range.2 (by omega))
  refine ⟨fun v x => toMeanVar (m.withNoise v) (G (q v) x), fun v t => ?_, fun x => ⟨?_, ?_⟩⟩
  · rw [meanField_predict_map]
    have eu : (fitMeanFieldCA C (m.withNoise v) s d iters).1.condition.pU (m.withNoise v) = (q v).u := by
      simp [Posts.pU, Posts.condition, fitMeanFieldCA, Posts.setU, Posts.setZ, hk, hq, withNoise_terms]
    have ez : (fitMeanFieldCA C (m.withNoise v) s d iters).1.condition.pZ (m.withNoise v) = (q v).z := by
      simp [Posts.pZ, Posts.condition, fitMeanFieldCA, Posts.setU, Posts.setZ, hk, hq, withNoise_terms]
    rw [eu, ez, hG]
    rfl
  · exact (continuous_fst.tendsto _).comp (hlim x)
  · have h1 : Continuous fun p : ℝ × ℝ => p.2 - p.1 ^ 2 := by fun_prop
    have := (h1.tendsto _).comp (hlim x)
    simp only [ne_eq, OfNat.ofNat_ne_zero, not_false_eq_true, zero_pow, sub_zero] at this
    refine this.congr fun v => ?_
    simp [toMeanVar, Inst.withNoise]

theorem moments_filter (h : m.Valid) (u : ι → ℝ) (x : ℝ) : ptMoments C m u (vecMulVec u u) 0 m.Kz⁻¹ x =
    (0, m.iHx x x + Spec.inner m.iUx (vecMulVec u u - m.Ku⁻¹)) := by
  rw [ptMoments_spec C h]
  refine Prod.ext (by simp [Spec.moments]) ?_
  simp only [Spec.moments, ← frob_inner]
  have e : frob m.iUx (vecMulVec u u - m.Ku⁻¹) = frob m.iUx (vecMulVec u u) - frob m.Ku⁻¹ m.iUx := by
    rw [frob_comm, frob_sub_left, frob_comm]
  rw [frob_sub_left, frob_sub_left, frob_sandwich, e, frob_comm (m.iHz x), frob_comm (m.iUz x * m.Kz⁻¹ * (m.iUz x)ᵀ)]
  ring

theorem tendsto_avg {α : Type} (f : ℝ → α → ℝ) (g : α → ℝ) (l : List α) (h : ∀ a, Tendsto (fun v => f v a) atTop (𝓝 (g a))) :
    Tendsto (fun v => (l.map (f v)).sum / l.length) atTop (𝓝 ((l.map g).sum / l.length)) := by
  refine Tendsto.div_const ?_ _
  induction l with
  | nil => simp
  | cons a l ih =>
    simp only [List.map_cons, List.sum_cons]
    exact (h a).add ih

/-- **C154** The same for the structured scheme, given the samples of the filter. -/
theorem c154_structured (h : m.Valid) (d : List (ℝ × ℝ)) (us : List (ι → ℝ)) (hus : us ≠ []) :
    ∃ f : ℝ → ℝ → ℝ × ℝ,
      (∀ v t, Structured.predict C (m.withNoise v) (some (constructDataTerms C (m.withNoise v) d)) t us = .ok (t.map (f v))) ∧
      ∀ x, Tendsto (fun v => (f v x).1) atTop (𝓝 0) ∧ Tendsto (fun v => (f v x).2 - v) atTop
        (𝓝 ((us.map fun u => m.iHx x x + Spec.inner m.iUx (vecMulVec u u - m.Ku⁻¹)).sum / us.length)) := by
  refine ⟨_, fun v => structured_predict_map C (m.withNoise v) _ hus, fun x => ?_⟩
  have hu : ∀ u, Tendsto (fun v => ptMoments C m u (vecMulVec u u) ((qzOptimal (m.withNoise v) (constructDataTerms C m d) u).mean C.z)
      ((qzOptimal (m.withNoise v) (constructDataTerms C m d) u).m2 C.z) x) atTop
      (𝓝 (0, m.iHx x x + Spec.inner m.iUx (vecMulVec u u - m.Ku⁻¹))) := fun u => by
    have e : ∀ v, qzOptimal (m.withNoise v) (constructDataTerms C m d) u = _ := fun v => qzOptimal_eq (m.withNoise v) _ u
    obtain ⟨h1, h2⟩ := tilt_tendsto C.z h.Kz (tendsto_const_nhds (x := zQuad (constructDataTerms C m d) (vecMulVec u u)))
      (tendsto_const_nhds (x := (constructDataTerms C m d).iUzSumᵀ *ᵥ u)) (fun v hv => by
        have := qzOptimal_posDef C (withNoise_valid h hv) d u
        rw [withNoise_terms, e] at this
        exact this)
    have := ((moments_continuous C (m := m) x).tendsto ((u, vecMulVec u u), 0, m.Kz⁻¹)).comp
      (tendsto_const_nhds.prodMk_nhds (h1.prodMk_nhds h2))
    rw [moments_filter C h] at this
    refine this.congr fun v => ?_
    rw [e]
    rfl
  have a1 := tendsto_avg _ _ us fun u => (continuous_fst.tendsto _).comp (hu u)
  have a2 := tendsto_avg _ _ us fun u => (continuous_snd.tendsto _).comp (hu u)
  simp only [List.map_const', List.sum_replicate, smul_zero, zero_div] at a1
  refine ⟨a1, ?_⟩
  have := a2.sub (a1.pow 2)
  simp only [ne_eq, OfNat.ofNat_ne_zero, not_false_eq_true, zero_pow, sub_zero] at this
  refine this.congr fun v => ?_
  simp only [toMeanVar, withNoise_moments, withNoise_terms, Function.comp_def]
  show _ = _ - _ + v - v
  ring

/-- A fit to two observations with more and more noise. -/
example (D : Chols (Fin 1) (Fin 1)) : ∃ f : ℝ → ℝ → ℝ × ℝ,
    (∀ v t, MeanField.predict D (exInst.withNoise v)
      (fitMeanFieldCA D (exInst.withNoise v) ⟨0, fun _ => ⟨1, 1⟩, fun _ => ⟨1, 1⟩⟩ [(0, 1), (1, -2)] 10).1.condition t = t.map (f v)) ∧
      Tendsto (fun v => (f v 0).2 - v) atTop (𝓝 4) := by
  obtain ⟨f, h1, h2⟩ := c154_mean_field D exInst_valid ⟨0, fun _ => ⟨1, 1⟩, fun _ => ⟨1, 1⟩⟩ Matrix.PosDef.one
    [(0, 1), (1, -2)] 10 (by norm_num)
  exact ⟨f, h1, (h2 0).2⟩

end Gpcm
