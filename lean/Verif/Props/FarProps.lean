import Verif.Lemmas.FarLemmas
import Verif.Props.KernelPredProps
import Verif.Props.TimeProps
import Verif.Props.OrderProps

/-! # Properties C139 and C140: predictions far from the data, and kernels at long lags -/

open MeasureTheory Real Filter Topology Matrix

namespace Gpcm

open Rgpcm RgpcmModel

open Spec (IsKernel)

section
variable {ι κ : Type} [Fintype ι] [DecidableEq ι] [Fintype κ] [DecidableEq κ] (C : Chols ι κ) (m : Inst ι κ)

theorem meanField_predict_map (s : Posts ι κ) (t : List ℝ) : MeanField.predict C m s t = t.map fun x =>
    toMeanVar m (ptMoments C m ((s.pU m).mean C.u) ((s.pU m).m2 C.u) ((s.pZ m).mean C.z) ((s.pZ m).m2 C.z) x) := by
  simp only [MeanField.predict, predictMoments_eq, List.map_map]
  rfl

theorem structured_predict_map (ts : DataTerms ι κ) {us : List (ι → ℝ)} (hus : us ≠ []) (t : List ℝ) :
    Structured.predict C m (some ts) t us = .ok (t.map fun x =>
      let F := fun u => ptMoments C m u (vecMulVec u u) ((qzOptimal m ts u).mean C.z) ((qzOptimal m ts u).m2 C.z) x
      toMeanVar m ((us.map fun u => (F u).1).sum / us.length, (us.map fun u => (F u).2).sum / us.length)) := by
  obtain ⟨u, us, rfl⟩ := List.exists_cons_of_ne_nil hus
  simp only [Structured.predict, predictMoments_eq, List.map_cons, meanMoments, foldl_addMoments_map, List.map_map,
    List.length_map, List.length_cons, foldl_add_pairs, List.sum_cons, Nat.cast_add, Nat.cast_one]
  rfl

theorem tendsto_list_sum {α : Type} {l : Filter ℝ} (us : List α) {f : α → ℝ → ℝ} {v : α → ℝ}
    (h : ∀ u, Tendsto (f u) l (𝓝 (v u))) : Tendsto (fun x => (us.map fun u => f u x).sum) l (𝓝 (us.map v).sum) := by
  induction us with
  | nil => simpa using tendsto_const_nhds
  | cons u us ih => simpa using (h u).add ih

variable {C m} {l : Filter ℝ} {k : ℝ} (hx : ∀ t, m.iHx t t = k) (hz : Tendsto m.iHz l (𝓝 0))
  (hu : Tendsto m.iUz l (𝓝 0))
include hx hz hu

theorem meanField_far (s : Posts ι κ) : ∃ f : ℝ → ℝ × ℝ, (∀ t, MeanField.predict C m s t = t.map f) ∧
    Tendsto f l (𝓝 (0, frob m.iUx ((s.pU m).m2 C.u) + (k - frob (m.KuInv C) m.iUx) + m.noise)) := by
  refine ⟨_, meanField_predict_map C m s, ?_⟩
  have h := ptMoments_tendsto C m hx hz hu ((s.pU m).mean C.u) ((s.pU m).m2 C.u) ((s.pZ m).mean C.z) ((s.pZ m).m2 C.z)
  have hc : Continuous (toMeanVar m) := by unfold toMeanVar; fun_prop
  have := (hc.tendsto _).comp h
  simpa [toMeanVar, Function.comp_def] using this

theorem structured_far (ts : DataTerms ι κ) {us : List (ι → ℝ)} (hus : us ≠ []) :
    ∃ f : ℝ → ℝ × ℝ, (∀ t, Structured.predict C m (some ts) t us = .ok (t.map f)) ∧
      Tendsto f l (𝓝 (0, (us.map fun u => frob m.iUx (vecMulVec u u) + (k - frob (m.KuInv C) m.iUx)).sum / us.length +
        m.noise)) := by
  refine ⟨_, structured_predict_map C m ts hus, ?_⟩
  have h := fun u : ι → ℝ => ptMoments_tendsto C m hx hz hu u (vecMulVec u u) ((qzOptimal m ts u).mean C.z)
    ((qzOptimal m ts u).m2 C.z)
  have h1 := tendsto_list_sum us fun u => (continuous_fst.tendsto _).comp (h u)
  have h2 := tendsto_list_sum us fun u => (continuous_snd.tendsto _).comp (h u)
  have hc : Continuous (toMeanVar m) := by unfold toMeanVar; fun_prop
  have := (hc.tendsto _).comp ((h1.div_const (us.length : ℝ)).prodMk_nhds (h2.div_const (us.length : ℝ)))
  simpa [toMeanVar, Function.comp_def] using this

end

variable (R : Runtime ℝ)

/-! ## C139 -/

theorem GpcmModel.Moderate.rate {g : GpcmModel} (hm : g.Moderate) : ∃ e : ℝ, 0 < e ∧ e ≤ g.params.alpha ∧
    e ≤ g.params.alpha + 2 * g.params.gamma ∧ e ≤ g.params.omega :=
  ⟨1e-10, by norm_num, hm.alpha_lo, hm.gamma_lo, hm.omega_lo⟩

theorem tendsto_zero_of_gauss {e K z : ℝ} (he : 0 < e) {f : ℝ → ℝ} (h : ∀ t, |f t| ≤ K * exp (-e * (t - z) ^ 2)) :
    Tendsto f (cocompact ℝ) (𝓝 0) := by
  refine squeeze_zero_norm h ?_
  simpa using (tendsto_gauss he z).const_mul K

theorem GpcmModel.specInst_far (g : GpcmModel) (hm : g.Moderate) : Tendsto g.specInst.iHz (cocompact ℝ) (𝓝 0) ∧
    Tendsto g.specInst.iUz (cocompact ℝ) (𝓝 0) := by
  obtain ⟨e, he, h1, h2, h3⟩ := hm.rate
  have he4 : 0 < e / 4 := by positivity
  constructor <;> refine tendsto_pi_nhds.2 fun i => tendsto_pi_nhds.2 fun j => ?_
  · refine tendsto_zero_of_gauss (z := g.tZ.get i) he4 (K := _) fun t => (abs_ihz_le h1 h2 h3 he _ _ _).trans
      (mul_le_mul_of_nonneg_right (mul_le_mul_of_nonneg_right (mul_le_of_le_one_right (by positivity)
        (exp_le_one_iff.2 ?_)) (by positivity)) (exp_pos _).le)
    nlinarith [mul_nonneg he4.le (sq_nonneg (t - g.tZ.get j))]
  · exact tendsto_zero_of_gauss he4 fun t => abs_iuz_le h1 h2 h3 he _ _ _

/-- **C139** (GPCM and CGPCM) Under every mean-field posterior, the predicted mean goes to zero away from the inducing
points, and the predicted variance goes to the mean of the sampled kernels at lag zero plus the noise. -/
theorem c139_mean_field_partial (g : GpcmModel) (hm : g.Moderate) (hγ : 0 < g.gamma) (hu : g.tU.Nodup)
    {m : Inst (Fin g.tU.length) (Fin g.tZ.length)} (h : g.IsInst R m) (C : Chols (Fin g.tU.length) (Fin g.tZ.length))
    (s : Posts (Fin g.tU.length) (Fin g.tZ.length)) (hs : (s.pU m).prec.PosDef) :
    ∃ (k : (Fin g.tU.length → ℝ) → ℝ → ℝ) (v : ℝ) (f : ℝ → ℝ × ℝ),
      (∀ tK ws, ws ≠ [] →
        sampleKernelMeanField C.u (g.kernelApprox R C.u) m.Ku (s.pU m) tK ws = .ok (ws.map fun w => tK.map (k w))) ∧
      StdMean (fun w => k w 0) v ∧
      (∀ t, MeanField.predict C m s t = t.map f) ∧ Tendsto f (cocompact ℝ) (𝓝 (0, v + g.noise)) := by
  obtain ⟨k, -, h1, h2⟩ := c110_mean_field R g hm hγ hu C.u h.Ku hs
  obtain rfl : m = g.specInst := (c98_instance R g hm).unique h (g.specInst_isInst R hm)
  obtain ⟨f, h3, h4⟩ := meanField_far (C := C) (fun t => show Spec.ihx g.params t t = Spec.ihx g.params 0 0 by
    have := Spec.ihx_shift g.params t 0 0
    rwa [zero_add] at this) (g.specInst_far hm).1 (g.specInst_far hm).2 s
  refine ⟨k, _, f, h1, h2 0, h3, h4.trans_eq ?_⟩
  have hK := (g.goodKern R hm hγ hu C.u h.Ku).posKu
  rw [Inst.KuInv, pdInv_eq C.u hK, NatNormal.m2_eq C.u hs, NatNormal.var_eq C.u hs, NatNormal.mean_eq C.u hs,
    Spec.expectedKernel, frob_comm, ← add_sub_assoc, add_comm (frob _ _), add_sub_right_comm]
  rfl

/-- **C139** (GPCM and CGPCM) Under the structured scheme, the predicted mean goes to zero away from the inducing points,
and the predicted variance goes to the mean of the sampled kernels at lag zero plus the noise. -/
theorem c139_structured_partial (g : GpcmModel) (hm : g.Moderate) (hγ : 0 < g.gamma) (hu : g.tU.Nodup)
    {m : Inst (Fin g.tU.length) (Fin g.tZ.length)} (h : g.IsInst R m) (C : Chols (Fin g.tU.length) (Fin g.tZ.length))
    (ts : DataTerms (Fin g.tU.length) (Fin g.tZ.length)) {us : List (Fin g.tU.length → ℝ)} (hus : us ≠ []) :
    ∃ (k : (Fin g.tU.length → ℝ) → ℝ → ℝ) (f : ℝ → ℝ × ℝ),
      (∀ tK ws, ws.length = us.length → sampleKernelStructured C.u (g.kernelApprox R C.u) m.Ku (some us) tK ws =
        .ok (us.map fun u => tK.map (k u))) ∧
      (∀ t, Structured.predict C m (some ts) t us = .ok (t.map f)) ∧
      Tendsto f (cocompact ℝ) (𝓝 (0, (us.map fun u => k u 0).sum / us.length + g.noise)) := by
  obtain ⟨k, -, h1, h2⟩ := c110_structured R g hm hγ hu C.u h.Ku
  obtain rfl : m = g.specInst := (c98_instance R g hm).unique h (g.specInst_isInst R hm)
  obtain ⟨f, h3, h4⟩ := structured_far (C := C) (fun t => show Spec.ihx g.params t t = Spec.ihx g.params 0 0 by
    have := Spec.ihx_shift g.params t 0 0
    rwa [zero_add] at this) (g.specInst_far hm).1 (g.specInst_far hm).2 ts hus
  refine ⟨k, f, fun tK ws hws => ?_, h3, h4.trans_eq ?_⟩
  · rw [h2 us tK ws hus (fun h => hus (List.length_eq_zero_iff.1 (by rw [← hws, h]; rfl))), hws, List.take_length]
  · have hK := (g.goodKern R hm hγ hu C.u h.Ku).posKu
    have e : ∀ u, frob g.specInst.iUx (vecMulVec u u) + (Spec.ihx g.params 0 0 - frob (g.specInst.KuInv C) g.specInst.iUx) =
        k u 0 := fun u => by
      rw [Inst.KuInv, pdInv_eq C.u hK, h1, Spec.expectedKernel, frob_comm, ← add_sub_assoc, add_comm (frob _ _),
        add_sub_right_comm]
      rfl
    simp only [e]
    rfl

/-! ### The RGPCM -/

theorem harmonic_add {x P : ℝ} (hP : P ≠ 0) (n : ℤ) : 2 * π * (n : ℝ) / P * (x + P) = 2 * π * n / P * x + n * (2 * π) := by
  field_simp

theorem lu_periodic (g : RgpcmModel) (hab : g.a < g.b) (l t : ℝ) (k : ℕ) :
    g.integralLukLeqM (l + (g.b - g.a)) (t + (g.b - g.a)) k = g.integralLukLeqM l t k ∧
      g.integralLukGM (l + (g.b - g.a)) (t + (g.b - g.a)) k = g.integralLukGM l t k ∧
      g.integralLu0 (l + (g.b - g.a)) (t + (g.b - g.a)) = g.integralLu0 l t := by
  have hne : g.b - g.a ≠ 0 := (sub_pos.2 hab).ne'
  have e : ∀ x : ℝ, x + (g.b - g.a) - g.a = x - g.a + (g.b - g.a) := fun x => by ring
  have e1 : l + (g.b - g.a) - (t + (g.b - g.a)) = l - t := by ring
  have c1 : ∀ x, cos (2 * π * (k : ℝ) / (g.b - g.a) * (x + (g.b - g.a))) = cos (2 * π * (k : ℝ) / (g.b - g.a) * x) := fun x => by
    have := harmonic_add (x := x) hne k
    push_cast at this
    rw [this, cos_add_nat_mul_two_pi]
  have s1 : ∀ x, sin (2 * π * (k : ℝ) / (g.b - g.a) * (x + (g.b - g.a))) = sin (2 * π * (k : ℝ) / (g.b - g.a) * x) := fun x => by
    have := harmonic_add (x := x) hne k
    push_cast at this
    rw [this, sin_add_nat_mul_two_pi]
  have c2 : ∀ x, cos (2 * π * ((k : ℝ) - g.mMax) / (g.b - g.a) * (x + (g.b - g.a))) =
      cos (2 * π * ((k : ℝ) - g.mMax) / (g.b - g.a) * x) := fun x => by
    have := harmonic_add (x := x) hne (k - g.mMax)
    have h := cos_add_int_mul_two_pi (2 * π * (((k - g.mMax : ℤ) : ℝ)) / (g.b - g.a) * x) (k - g.mMax)
    rw [← this] at h
    push_cast at h
    exact h
  have s2 : ∀ x, sin (2 * π * ((k : ℝ) - g.mMax) / (g.b - g.a) * (x + (g.b - g.a))) =
      sin (2 * π * ((k : ℝ) - g.mMax) / (g.b - g.a) * x) := fun x => by
    have := harmonic_add (x := x) hne (k - g.mMax)
    have h := sin_add_int_mul_two_pi (2 * π * (((k - g.mMax : ℤ) : ℝ)) / (g.b - g.a) * x) (k - g.mMax)
    rw [← this] at h
    push_cast at h
    exact h
  refine ⟨?_, ?_, ?_⟩
  · simp only [RgpcmModel.integralLukLeqM, e, e1, c1, s1]
  · simp only [RgpcmModel.integralLukGM, e, e1, c2, s2]
  · simp only [RgpcmModel.integralLu0, e1]

theorem uz_periodic (g : RgpcmModel) (hab : g.a < g.b) (perm : List ℕ) (t : ℝ) :
    g.computeIuz perm (t + (g.b - g.a)) = g.computeIuz perm t := by
  have e : ∀ tu, t + (g.b - g.a) - tu = t - tu + (g.b - g.a) := fun tu => by ring
  simp only [RgpcmModel.computeIuz, e, (lu_periodic g hab _ t _).1, (lu_periodic g hab _ t _).2.1,
    (lu_periodic g hab _ t 0).2.2]

section
variable {g : RgpcmModel} (hab : g.a < g.b) {perm : List ℕ} {m : Inst (Fin g.tU.length) (Fin g.ms.length)}
  (h : g.Returns perm m) (C : Chols (Fin g.tU.length) (Fin g.ms.length))
include hab h

theorem iUz_periodic (t : ℝ) : m.iUz (t + (g.b - g.a)) = m.iUz t := by
  have := uz_periodic g hab perm t
  rw [h.iUz, h.iUz] at this
  exact rows_injective (Except.ok.inj this)

/-- **C139** is false for the RGPCM: outside the interval of the harmonics the predicted mean repeats itself. So after the
last observation the first predictions return. -/
theorem c139_rgpcm_repeats (s : Posts (Fin g.tU.length) (Fin g.ms.length))
    (ts : DataTerms (Fin g.tU.length) (Fin g.ms.length)) {us : List (Fin g.tU.length → ℝ)} (hus : us ≠ []) :
    (∃ f : ℝ → ℝ × ℝ, (∀ t, MeanField.predict C m s t = t.map f) ∧ ∀ t, (f (t + (g.b - g.a))).1 = (f t).1) ∧
      ∃ f : ℝ → ℝ × ℝ, (∀ t, Structured.predict C m (some ts) t us = .ok (t.map f)) ∧
        ∀ t, (f (t + (g.b - g.a))).1 = (f t).1 := by
  refine ⟨⟨_, meanField_predict_map C m s, fun t => ?_⟩, _, structured_predict_map C m ts hus, fun t => ?_⟩
  · simp only [toMeanVar, ptMoments, iUz_periodic hab h]
  · simp only [toMeanVar, ptMoments, iUz_periodic hab h]

omit h in
/-- **C139** is false for the RGPCM: the predicted mean goes to zero after the data only if it is zero everywhere. -/
theorem c139_rgpcm_false {f : ℝ → ℝ × ℝ} (hf : ∀ t, (f (t + (g.b - g.a))).1 = (f t).1)
    (h0 : Tendsto (fun t => (f t).1) atTop (𝓝 0)) (t : ℝ) : (f t).1 = 0 := by
  have hn : ∀ n : ℕ, (f (t + n * (g.b - g.a))).1 = (f t).1 := fun n => by
    induction n with
    | zero => simp
    | succ n ih => rw [← ih, ← hf (t + n * (g.b - g.a))]; congr 2; push_cast; ring
  have h1 : Tendsto (fun n : ℕ => t + n * (g.b - g.a)) atTop atTop :=
    tendsto_atTop_add_const_left _ _ (tendsto_natCast_atTop_atTop.atTop_mul_const (sub_pos.2 hab))
  have h2 := h0.comp h1
  simp only [Function.comp_def, hn] at h2
  exact tendsto_nhds_unique tendsto_const_nhds h2

end

/-- **C139** is false for the RGPCM: for a concrete model and a posterior, the predicted mean is the same number, which is
not zero, at all times. -/
theorem c139_refuted (C : Chols (Fin exRgpcm.tU.length) (Fin exRgpcm.ms.length)) :
    ∃ (m : Inst (Fin exRgpcm.tU.length) (Fin exRgpcm.ms.length)) (s : Posts (Fin exRgpcm.tU.length) (Fin exRgpcm.ms.length))
      (f : ℝ → ℝ × ℝ) (c : ℝ), exRgpcm.Returns [1, 3, 4, 0, 2] m ∧ (s.pU m).prec.PosDef ∧ (s.pZ m).prec.PosDef ∧
      (∀ t, MeanField.predict C m s t = t.map f) ∧ c ≠ 0 ∧ ∀ t, (f t).1 = c := by
  have hp : IsArgsort [1, 3, 4, 0, 2] exRgpcm.ms := ⟨by decide, by decide⟩
  have hM : 0 ≤ exRgpcm.mMax := by norm_num [exRgpcm]
  obtain ⟨m, hm⟩ := RgpcmModel.exists_returns exRgpcm hM hp (by norm_num [exRgpcm]) (by norm_num [exRgpcm])
  have hI : ∀ t i j, m.iUz t i j = exRgpcm.alphaT * exRgpcm.gammaT * exp (-exRgpcm.gamma * exRgpcm.tU.get i) *
      uzEntry exRgpcm (exRgpcm.tU.get i) (exRgpcm.ms.get j) t := fun t i j => by
    have := hm.iUz t
    rw [computeIuz_eq exRgpcm hp hM, map_rows] at this
    exact (congrFun (congrFun (rows_injective (Except.ok.inj this)) i) j).symm
  obtain ⟨i₀, e0⟩ : ∃ i₀ : Fin exRgpcm.tU.length, exRgpcm.tU.get i₀ = 1 := ⟨⟨0, by norm_num [exRgpcm]⟩, rfl⟩
  obtain ⟨j₁, e1⟩ : ∃ j₁ : Fin exRgpcm.ms.length, exRgpcm.ms.get j₁ = 0 := ⟨⟨1, by norm_num [exRgpcm]⟩, rfl⟩
  obtain ⟨s, hs⟩ : ∃ s : Posts (Fin exRgpcm.tU.length) (Fin exRgpcm.ms.length), s =
    ⟨1, fun _ => ⟨Pi.single i₀ 1, 1⟩, fun _ => ⟨Pi.single j₁ 1, 1⟩⟩ := ⟨_, rfl⟩
  have hu : s.pU m = ⟨Pi.single i₀ 1, 1⟩ := by rw [hs]; rfl
  have hz : s.pZ m = ⟨Pi.single j₁ 1, 1⟩ := by rw [hs]; rfl
  refine ⟨m, s, _, exp (-1) * (1 - exp (-1)), hm, by rw [hu]; exact PosDef.one, by rw [hz]; exact PosDef.one,
    meanField_predict_map C m s, ?_, fun t => ?_⟩
  · have : exp (-1 : ℝ) < 1 := by
      rw [← exp_zero]
      exact exp_lt_exp.2 (by norm_num)
    exact mul_ne_zero (exp_pos _).ne' (by linarith)
  · simp only [toMeanVar, ptMoments, hu, hz]
    rw [NatNormal.mean_eq C.u PosDef.one, NatNormal.mean_eq C.z PosDef.one]
    rw [inv_one, inv_one, one_mulVec, one_mulVec, mulVec_single_one, single_one_dotProduct, Matrix.col_apply, hI]
    rw [e0, e1]
    simp only [uzEntry, RgpcmModel.integralLu0]
    norm_num [exRgpcm]

/-! ## C140 -/

theorem continuous_kernelEntry {ι : Type} [Fintype ι] [DecidableEq ι] (C : CholOracle ι) (Ku : Matrix ι ι ℝ) (u : ι → ℝ) :
    Continuous fun q : ℝ × Matrix ι ι ℝ => kernelEntry C Ku q.1 q.2 u := by
  unfold kernelEntry
  fun_prop

theorem kernelEntry_smul {ι : Type} [Fintype ι] [DecidableEq ι] (C : CholOracle ι) (Ku : Matrix ι ι ℝ) (r x : ℝ)
    (I : Matrix ι ι ℝ) (u : ι → ℝ) : kernelEntry C Ku (r * x) (r • I) u = r * kernelEntry C Ku x I u := by
  simp only [kernelEntry, Matrix.mul_smul, Matrix.smul_mul, trace_smul, smul_mulVec, dotProduct_smul, smul_eq_mul]
  ring

/-- **C140** (GPCM and CGPCM) Every sampled kernel goes to zero at long lags. -/
theorem c140_gpcm (g : GpcmModel) (hm : g.Moderate) (C : CholOracle (Fin g.tU.length)) (u : Fin g.tU.length → ℝ) :
    ∃ k : ℝ → ℝ, (∀ t1 t2, g.kernelApprox R C t1 t2 u = .ok (t1.map fun a => t2.map fun b => k (a - b))) ∧
      Tendsto k (cocompact ℝ) (𝓝 0) := by
  obtain ⟨k, -, hk⟩ := c67_stationary R g hm C u
  refine ⟨k, hk, ?_⟩
  obtain ⟨e, he, h1, h2, -⟩ := hm.rate
  have he4 : 0 < e / 4 := by positivity
  have h3 : Tendsto (fun s => Spec.ihx g.params s 0) (cocompact ℝ) (𝓝 0) :=
    tendsto_zero_of_gauss he4 fun s => abs_ihx_le h1 h2 he s 0
  have h4 : Tendsto (fun s => (Matrix.of fun i j => Spec.iux g.params s 0 (g.tU.get i) (g.tU.get j) :
      Matrix (Fin g.tU.length) (Fin g.tU.length) ℝ)) (cocompact ℝ) (𝓝 0) :=
    tendsto_pi_nhds.2 fun i => tendsto_pi_nhds.2 fun j =>
      tendsto_zero_of_gauss he4 fun s => abs_iux_le h1 h2 he s 0 _ _
  have h5 := ((continuous_kernelEntry C (.of fun i j => Spec.kH g.params (g.tU.get i) (g.tU.get j)) u).tendsto (0, 0)).comp
    (h3.prodMk_nhds h4)
  refine (h5.congr fun s => ?_).trans_eq (by simp [kernelEntry])
  have h6 := (g.kernelApprox_eq R hm C [s] [0] u).symm.trans (hk [s] [0])
  simp only [Gpcm.kernelApprox, List.map_cons, List.map_nil, sub_zero, Except.ok.injEq, List.cons.injEq, and_true] at h6
  exact h6

theorem integralAbcdLu_apart {c d : ℝ} (hc : c ≠ 0) {a₁ a₂ b₁ b₂ : ℝ} (h1 : a₁ ≤ b₁) (h2 : a₁ ≤ b₂) (h3 : a₂ ≤ b₁)
    (h4 : a₂ ≤ b₂) : RgpcmModel.integralAbcdLu a₁ a₂ b₁ b₂ c d =
      (exp ((c + d) * a₂) - exp ((c + d) * a₁)) * (exp ((c - d) * b₂) - exp ((c - d) * b₁)) / (c ^ 2 - d ^ 2) := by
  rw [integralAbcdLu_eq hc, absP_le h1, absP_le h2, absP_le h3, absP_le h4]
  simp only [exp_add]
  ring

/-- The lags beyond which the inducing points of the filter do not overlap. -/
def Spec.Beyond (tU : List ℝ) (S : ℝ) : Prop := ∀ u ∈ 0 :: tU, ∀ v ∈ 0 :: tU, u - v ≤ S

theorem iuxEntry_tail (g : RgpcmModel) {S x : ℝ} (hS : Spec.Beyond g.tU S) (hx : S ≤ x) {u1 u2 v w : ℝ} (m1 : u1 ∈ g.tU)
    (m2 : u2 ∈ g.tU) (hv : g.iuxEntry S 0 u1 u2 = .ok v) (hw : g.iuxEntry x 0 u1 u2 = .ok w) :
    w = exp (-g.lam * (x - S)) * v := by
  have m0 : (0 : ℝ) ∈ 0 :: g.tU := List.mem_cons_self
  have h1 := hS 0 m0 0 m0
  have h2 := hS u2 (List.mem_cons_of_mem _ m2) 0 m0
  have h3 := hS 0 m0 u1 (List.mem_cons_of_mem _ m1)
  have h4 := hS u2 (List.mem_cons_of_mem _ m2) u1 (List.mem_cons_of_mem _ m1)
  unfold RgpcmModel.iuxEntry at hv hw
  simp only at hv hw
  split at hv
  · cases hv
  rename_i hc
  rw [if_neg hc] at hw
  have hc : g.gamma - g.alpha ≠ 0 := fun h => hc (.inl h)
  rw [integralAbcdLu_apart hc (by linarith) (by linarith) (by linarith) (by linarith)] at hv hw
  cases hv
  cases hw
  obtain ⟨c, hc'⟩ : ∃ c, c = g.gamma - g.alpha := ⟨_, rfl⟩
  rw [← hc']
  have e : ∀ y : ℝ, exp (-g.gamma * (u1 + u2) + c * (y + 0)) * ((exp ((c + g.lam) * (u2 - y)) - exp ((c + g.lam) * -y)) *
      (exp ((c - g.lam) * (u1 - 0)) - exp ((c - g.lam) * -0)) / (c ^ 2 - g.lam ^ 2)) =
      exp (-g.lam * y) * (exp (-g.gamma * (u1 + u2)) * ((exp ((c + g.lam) * u2) - 1) *
        (exp ((c - g.lam) * (u1 - 0)) - exp ((c - g.lam) * -0)) / (c ^ 2 - g.lam ^ 2))) := fun y => by
    rw [show (c + g.lam) * (u2 - y) = (c + g.lam) * u2 + (-g.lam * y + -(c * y)) by ring,
      show (c + g.lam) * -y = -g.lam * y + -(c * y) by ring, add_zero, exp_add, exp_add, exp_add]
    have : exp (c * y) * exp (-(c * y)) = 1 := by rw [← exp_add, add_neg_cancel, exp_zero]
    linear_combination (exp (-g.lam * y) * (exp (-g.gamma * (u1 + u2)) * ((exp ((c + g.lam) * u2) - 1) *
        (exp ((c - g.lam) * (u1 - 0)) - exp ((c - g.lam) * -0)) / (c ^ 2 - g.lam ^ 2)))) * this
  simp only [mul_assoc (g.alphaT ^ 2 * g.gammaT ^ 2), e]
  have : exp (-g.lam * x) = exp (-g.lam * (x - S)) * exp (-g.lam * S) := by rw [← exp_add]; ring_nf
  rw [this]
  ring

/-- **C140** (RGPCM) Every sampled kernel goes to zero at long lags; beyond the inducing points it decays exactly
exponentially, with the decay of the noise. -/
theorem c140_rgpcm (g : RgpcmModel) (hl : 0 < g.lam) (h1 : g.gamma ≠ g.alpha) (h2 : (g.gamma - g.alpha) ^ 2 ≠ g.lam ^ 2)
    (C : CholOracle (Fin g.tU.length)) (u : Fin g.tU.length → ℝ) :
    ∃ k : ℝ → ℝ, (∀ t1 t2, g.kernelApprox C t1 t2 u = .ok (t1.map fun a => t2.map fun b => k (a - b))) ∧
      (∀ S, Spec.Beyond g.tU S → ∀ x, S ≤ x → k x = exp (-g.lam * (x - S)) * k S) ∧ Tendsto k (cocompact ℝ) (𝓝 0) := by
  obtain ⟨k, hs, hk⟩ := c67_stationary_rgpcm g h1 h2 C u
  obtain ⟨I, hI, hK⟩ := kernelApprox_eq g h1 h2 C u
  have hkI : ∀ x, k x = kernelEntry C g.computeKu (g.ihx x 0) (I x 0) u := fun x => by
    have := (hk [x] [0]).symm.trans (hK [x] [0])
    simpa using this
  have htail : ∀ S, Spec.Beyond g.tU S → ∀ x, S ≤ x → k x = exp (-g.lam * (x - S)) * k S := fun S hS x hx => by
    have h0 : 0 ≤ S := by simpa using hS 0 List.mem_cons_self 0 List.mem_cons_self
    rw [hkI, hkI, ← kernelEntry_smul]
    congr 1
    · unfold RgpcmModel.ihx
      rw [sub_zero, sub_zero, abs_of_nonneg h0, abs_of_nonneg (h0.trans hx), mul_left_comm, ← exp_add]
      ring_nf
    · ext i j
      exact iuxEntry_tail g hS hx (List.get_mem _ _) (List.get_mem _ _) (hI S 0 i j) (hI x 0 i j)
  refine ⟨k, hk, htail, ?_⟩
  obtain ⟨S, hS⟩ : ∃ S, Spec.Beyond g.tU S := by
    refine ⟨((0 :: g.tU).map fun u => |u|).sum + ((0 :: g.tU).map fun u => |u|).sum, fun u hu v hv => ?_⟩
    have hb : ∀ w ∈ 0 :: g.tU, |w| ≤ ((0 :: g.tU).map fun u => |u|).sum := fun w hw =>
      List.single_le_sum (fun y hy => by
        obtain ⟨z, -, rfl⟩ := List.mem_map.1 hy
        exact abs_nonneg z) _ (List.mem_map.2 ⟨w, hw, rfl⟩)
    linarith [hb u hu, hb v hv, le_abs_self u, neg_abs_le v]
  have ht : Tendsto k atTop (𝓝 0) := by
    have h3 : Tendsto (fun x => exp (-g.lam * (x - S)) * k S) atTop (𝓝 (0 * k S)) := by
      refine Tendsto.mul_const _ (tendsto_exp_atBot.comp ?_)
      exact (tendsto_atTop_add_const_right _ (-S) tendsto_id).const_mul_atTop_of_neg (neg_lt_zero.2 hl)
    rw [zero_mul] at h3
    exact h3.congr' (eventually_atTop.2 ⟨S, fun x hx => (htail S hS x hx).symm⟩)
  rw [cocompact_eq_atBot_atTop]
  refine tendsto_sup.2 ⟨?_, ht⟩
  exact (ht.comp tendsto_neg_atBot_atTop).congr fun x => hs x

/-- The assumptions hold for concrete models. -/
example (causal : Bool) : (∃ g : GpcmModel, g.Moderate ∧ 0 < g.gamma ∧ g.tU.Nodup ∧ g.causal = causal) ∧
    exRgpcm.a < exRgpcm.b ∧ Spec.Beyond exRgpcm.tU 2 := by
  obtain ⟨g, hg, hm, -, -, hc, hγ, ht⟩ := witness_moderate causal
  refine ⟨⟨g, hm, hγ, ?_, hc⟩, by norm_num [exRgpcm], ?_⟩
  · rw [ht]
    cases causal <;> norm_num
  · intro u hu v hv
    simp only [exRgpcm, List.mem_cons, List.not_mem_nil, or_false] at hu hv
    rcases hu with rfl | rfl | rfl <;> rcases hv with rfl | rfl | rfl <;> norm_num

end Gpcm
