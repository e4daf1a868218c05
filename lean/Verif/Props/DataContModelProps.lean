import Verif.Props.DataContProps
import Verif.Props.ContinuityProps
import Verif.Props.RgpcmValidProps
import Verif.Props.ValidProps
import Verif.Props.LearnedNoiseProps
import Verif.Props.LaterGradientProps

/-!
# Property C192: the models, and the stopping rule
-/

set_option linter.unusedSectionVars false

open Matrix Real Filter Topology

namespace Gpcm

open Spec Reg

/-! ## The models -/

theorem near_const {ι κ : Type} [Fintype ι] [DecidableEq ι] [Fintype κ] [DecidableEq κ] {m : Inst ι κ} (h : m.Valid) {α : Type}
    (l : Filter α) : Near l (fun _ => m) m :=
  ⟨fun _ => h, h, tendsto_const_nhds, tendsto_const_nhds, tendsto_const_nhds, tendsto_const_nhds⟩

/-- **C192** (GPCM and CGPCM) The hypotheses hold when times approach times. -/
theorem c192_gpcm (R : Runtime ℝ) (g : GpcmModel) (hm : g.Moderate) (hγ : 0 < g.gamma) (hn : 0 < g.noise) (hu : g.tU.Nodup)
    (hz : g.tZ.Nodup) {m : Inst (Fin g.tU.length) (Fin g.tZ.length)} (h : g.IsInst R m) {α : Type} (l : Filter α) :
    Near l (fun _ => m) m ∧ ∀ (t : α → ℝ) (t' : ℝ), Tendsto t l (𝓝 t') → NearAt l (fun _ => m) m t t' := by
  refine ⟨near_const ((c98_valid_iff R g hm hγ hn m h).2 ⟨hu, hz⟩) l, fun t t' ht => ?_⟩
  obtain rfl : m = g.specInst := (c98_instance R g hm).unique h (g.specInst_isInst R hm)
  obtain ⟨e, he, h1, h2, h3⟩ := hm.rate
  have hc : (fun t => g.specInst.iHx t t) = fun _ => Spec.ihx g.params 0 0 := by
    funext t
    have := Spec.ihx_shift g.params t 0 0
    rwa [zero_add] at this
  refine ⟨?_, ?_, ?_⟩
  · have : Continuous fun t => g.specInst.iHx t t := by rw [hc]; exact continuous_const
    exact (this.tendsto t').comp ht
  · exact ((continuous_pi fun i => continuous_pi fun j => continuous_ihz h1 h2 he h3 _ _ :
      Continuous g.specInst.iHz).tendsto t').comp ht
  · exact ((continuous_pi fun i => continuous_pi fun j => continuous_iuz h1 h2 he h3 _ _ :
      Continuous g.specInst.iUz).tendsto t').comp ht

open Rgpcm in
/-- **C192** (RGPCM) They hold when times of the interval of the harmonics approach a time of this interval. -/
theorem c192_rgpcm {g : RgpcmModel} (h : g.Regular) {perm : List ℕ} (hp : IsArgsort perm g.ms) {α : Type} (l : Filter α) :
    ∃ m : Inst (Fin g.tU.length) (Fin g.ms.length), g.IsInst perm g.times m ∧ Near l (fun _ => m) m ∧
      ∀ (t : α → ℝ) (t' : ℝ), (∀ a, t a ∈ g.times) → t' ∈ g.times → Tendsto t l (𝓝 t') → NearAt l (fun _ => m) m t t' := by
  have hi := RgpcmModel.specInst_isInst h hp
  refine ⟨g.specInst, hi, near_const (RgpcmModel.specInst_valid h) l, fun t t' ht ht' hl => ?_⟩
  have hM : 0 ≤ g.mMax := h.mMax
  have hZ : ∀ t ∈ g.times, g.specInst.iHz t = .of fun i j => hzEntry g (g.ms.get i) (g.ms.get j) t := fun t ht => by
    have := hi.iHz t ht
    rw [computeIhz_eq g hp hM, map_rows] at this
    exact (rows_injective (Except.ok.inj this)).symm
  have hI : ∀ t ∈ g.times, g.specInst.iUz t = .of fun i j => g.alphaT * g.gammaT * exp (-g.gamma * g.tU.get i) *
      uzEntry g (g.tU.get i) (g.ms.get j) t := fun t ht => by
    have := hi.iUz t ht
    rw [computeIuz_eq g hp hM, map_rows] at this
    exact (rows_injective (Except.ok.inj this)).symm
  refine ⟨?_, ?_, ?_⟩
  · have e : ∀ s, g.specInst.iHx s s = g.ihx 0 0 := fun s => by
      rw [hi.iHx]
      simp only [RgpcmModel.ihx, sub_self]
    simp only [e]
    exact tendsto_const_nhds
  · simp only [hZ t' ht', fun a => hZ (t a) (ht a)]
    exact tendsto_pi_nhds.2 fun i => tendsto_pi_nhds.2 fun j => ((continuous_hzEntry g _ _).tendsto t').comp hl
  · simp only [hI t' ht', fun a => hI (t a) (ht a)]
    exact tendsto_pi_nhds.2 fun i => tendsto_pi_nhds.2 fun j => (((continuous_uzEntry g _ _).const_mul _).tendsto t').comp hl

/-- **C192** They hold when the noise changes. -/
theorem c192_noise {ι κ : Type} [Fintype ι] [DecidableEq ι] [Fintype κ] [DecidableEq κ] {m : Inst ι κ} (h : m.Valid) {α : Type}
    {l : Filter α} {v : α → ℝ} {v' : ℝ} (hv : ∀ a, 0 < v a) (hv' : 0 < v') (hl : Tendsto v l (𝓝 v')) (s : ℝ) :
    Near l (fun a => m.withNoise (v a)) (m.withNoise v') ∧ NearAt l (fun a => m.withNoise (v a)) (m.withNoise v') (fun _ => s) s :=
  ⟨⟨fun a => Inst.Valid.withNoise h (hv a), Inst.Valid.withNoise h hv', tendsto_const_nhds, tendsto_const_nhds, hl, tendsto_const_nhds⟩,
    ⟨tendsto_const_nhds, tendsto_const_nhds, tendsto_const_nhds⟩⟩

/-! ## The stopping rule -/

theorem mean_fin1 (c : CholOracle (Fin 1)) {q : NatNormal (Fin 1)} (hq : q.prec.PosDef) : q.mean c 0 = q.lam 0 / q.prec 0 0 := by
  rw [NatNormal.mean_eq c hq, Matrix.inv_subsingleton]
  simp [mulVec, dotProduct, div_eq_inv_mul]

theorem m2_fin1 (c : CholOracle (Fin 1)) {q : NatNormal (Fin 1)} (hq : q.prec.PosDef) :
    q.m2 c 0 0 = 1 / q.prec 0 0 + (q.lam 0 / q.prec 0 0) ^ 2 := by
  rw [NatNormal.m2_eq c hq, NatNormal.var_eq c hq, Matrix.add_apply, vecMulVec_apply, mean_fin1 c hq, Matrix.inv_subsingleton]
  simp [sq]

theorem step_u_ex (C : Chols (Fin 1) (Fin 1)) (y : ℝ) {q : NatNormal (Fin 1)} (hq : q.prec.PosDef) :
    (quOptimalMF C exInst (constructDataTerms C exInst [(0, y)]) q).lam 0 = y * (q.lam 0 / q.prec 0 0) ∧
      (quOptimalMF C exInst (constructDataTerms C exInst [(0, y)]) q).prec 0 0 = 2 + (1 / q.prec 0 0 + (q.lam 0 / q.prec 0 0) ^ 2) := by
  constructor
  · rw [ex_lam_uMF, mean_fin1 C.z hq]
    simp
  · rw [quOptimalMF_eq, uQuad_sum, ← m2_fin1 C.z hq]
    have hK : exInst.KzInv C = 1 := by rw [Inst.KzInv, pdInv_eq C.z exInst_valid.Kz]; simp [exInst]
    simp only [NatNormal.tilt, List.map_cons, List.map_nil, List.sum_cons, List.sum_nil, ptU, ptA, hK]
    simp [Matrix.mul_apply, exInst]
    ring

theorem step_z_ex (C : Chols (Fin 1) (Fin 1)) (y : ℝ) {q : NatNormal (Fin 1)} (hq : q.prec.PosDef) :
    (qzOptimalMF C exInst (constructDataTerms C exInst [(0, y)]) q).lam 0 = y * (q.lam 0 / q.prec 0 0) ∧
      (qzOptimalMF C exInst (constructDataTerms C exInst [(0, y)]) q).prec 0 0 = 2 + (1 / q.prec 0 0 + (q.lam 0 / q.prec 0 0) ^ 2) := by
  constructor
  · rw [ex_lam_zMF, mean_fin1 C.u hq]
    simp
  · rw [qzOptimalMF_eq, zQuad_sum, ← m2_fin1 C.u hq]
    have hK : exInst.KuInv C = 1 := by rw [Inst.KuInv, pdInv_eq C.u exInst_valid.Ku]; simp [exInst]
    simp only [NatNormal.tilt, List.map_cons, List.map_nil, List.sum_cons, List.sum_nil, ptZ, ptB, hK]
    simp [Matrix.mul_apply, exInst]
    ring

/-- Posteriors that nearly do not change in a step without signal. -/
noncomputable def stallPosts : Posts (Fin 1) (Fin 1) :=
  ⟨0, fun _ => ⟨fun _ => 0, .of fun _ _ => 1 + √2⟩, fun _ => ⟨fun _ => 1e-7, .of fun _ _ => 1 + √2⟩⟩

theorem stall_proper : AllProper stallPosts := by
  have : (0 : ℝ) < 1 + √2 := by positivity
  exact fun i => ⟨posDef_fin1 this, posDef_fin1 this⟩

/-- The algebra of the counterexample: the two steps differ. -/
theorem stall_algebra {P e y U Z : ℝ} (hP : P ^ 2 = 2 * P + 1) (hP1 : 1 < P) (he : 0 < e) (hy : 0 < y) (hU : U = 2 + (1 / P + e ^ 2))
    (hZ : Z = 2 + (1 / U + (y * e / U) ^ 2)) (h1 : y * e = y * (y * (y * e / U) / Z))
    (h2 : U = 2 + (1 / Z + (y * (y * e / U) / Z) ^ 2)) : False := by
  have hU0 : 0 < U := by rw [hU]; positivity
  have hZ0 : 0 < Z := by rw [hZ]; positivity
  have hPi : 2 + 1 / P = P := by field_simp; linarith
  have h3 : y * (y * e / U) / Z = e := (mul_left_cancel₀ hy.ne' h1).symm
  rw [h3, hU] at h2
  have h4 : 1 / P = 1 / Z := by linarith
  have h5 : Z = P := by
    rw [div_eq_div_iff (by positivity) hZ0.ne'] at h4
    linarith
  have h6 : y ^ 2 = U * Z := by
    have : y * (y * e / U) / Z * (U * Z) = y ^ 2 * e := by field_simp
    rw [h3] at this
    have h7 : e * (y ^ 2 - U * Z) = 0 := by linarith
    rcases mul_eq_zero.1 h7 with h8 | h8
    · exact absurd h8 he.ne'
    · linarith
  have h7 : (y * e / U) ^ 2 = P * e ^ 2 / U := by
    rw [div_pow, mul_pow, h6, h5]
    field_simp
  rw [h7, h5] at hZ
  have h8 : 1 / U + P * e ^ 2 / U = 1 / P := by linarith
  rw [← add_div, div_eq_div_iff hU0.ne' (by positivity)] at h8
  have h9 : U = P + e ^ 2 := by linarith
  nlinarith [mul_pos he he, mul_pos (sub_pos.2 hP1) (mul_pos he he), h8, h9]

/-- **C192, refuted** for fits by coordinate ascent: where the change of the variables in a step is at the threshold of the stopping rule,
the number of steps jumps and with it the result. -/
theorem c192_fit_false (C : Chols (Fin 1) (Fin 1)) : ∃ y' : ℝ,
    ¬Approach (𝓝 y') (fun y => (fitMeanFieldCA C exInst stallPosts [(0, y)] 2).1) (fitMeanFieldCA C exInst stallPosts [(0, y')] 2).1 := by
  obtain ⟨P, hP⟩ : ∃ P : ℝ, P = 1 + √2 := ⟨_, rfl⟩
  have hs2 : √2 ^ 2 = (2 : ℝ) := Real.sq_sqrt (by norm_num)
  have hs1 : (1 : ℝ) < √2 := by nlinarith [Real.sqrt_nonneg (2 : ℝ)]
  have hPP : P ^ 2 = 2 * P + 1 := by rw [hP]; nlinarith
  have hP1 : 2 < P := by rw [hP]; linarith
  obtain ⟨p0, hp0⟩ : ∃ p0 : Pair (Fin 1) (Fin 1), p0 = ⟨stallPosts.qU, stallPosts.qZ⟩ := ⟨_, rfl⟩
  have hu0 : p0.u.prec.PosDef := by rw [hp0]; exact (stall_proper 0).1
  have hz0 : p0.z.prec.PosDef := by rw [hp0]; exact (stall_proper 0).2
  have a1 : p0.u.lam 0 = 0 := by rw [hp0]; rfl
  have a2 : p0.u.prec 0 0 = P := by rw [hp0, hP]; rfl
  have a3 : p0.z.lam 0 = 1e-7 := by rw [hp0]; rfl
  have a4 : p0.z.prec 0 0 = P := by rw [hp0, hP]; rfl
  obtain ⟨e, he⟩ : ∃ e : ℝ, e = 1e-7 / P := ⟨_, rfl⟩
  have he0 : 0 < e := by rw [he]; positivity
  have he1 : e ≤ 1e-7 := by rw [he]; exact div_le_self (by norm_num) (by linarith)
  obtain ⟨S, hS⟩ : ∃ S : ℝ → Pair (Fin 1) (Fin 1) → Pair (Fin 1) (Fin 1), S = fun y => caStep C exInst (constructDataTerms C exInst [(0, y)]) :=
    ⟨_, rfl⟩
  have hpos : ∀ y (p : Pair (Fin 1) (Fin 1)), p.z.prec.PosDef → (S y p).u.prec.PosDef ∧ (S y p).z.prec.PosDef := fun y p hp => by
    rw [hS]
    exact ⟨quOptimalMF_posDef C exInst_valid _ hp, qzOptimalMF_posDef C exInst_valid _ (quOptimalMF_posDef C exInst_valid _ hp)⟩
  have s1 : ∀ y (p : Pair (Fin 1) (Fin 1)), p.z.prec.PosDef → (S y p).u.lam 0 = y * (p.z.lam 0 / p.z.prec 0 0) ∧
      (S y p).u.prec 0 0 = 2 + (1 / p.z.prec 0 0 + (p.z.lam 0 / p.z.prec 0 0) ^ 2) ∧
      (S y p).z.lam 0 = y * ((S y p).u.lam 0 / (S y p).u.prec 0 0) ∧
      (S y p).z.prec 0 0 = 2 + (1 / (S y p).u.prec 0 0 + ((S y p).u.lam 0 / (S y p).u.prec 0 0) ^ 2) := fun y p hp => by
    have h1 := step_u_ex C y hp
    have h2 := step_z_ex C y (quOptimalMF_posDef C exInst_valid [(0, y)] hp)
    rw [hS]
    exact ⟨h1.1, h1.2, h2.1, h2.2⟩
  have hcont : ∀ y', ConvPair (𝓝 y') (fun y => S y p0) (S y' p0) := fun y' => by
    have := ConvPair.caStep C (near_const exInst_valid (𝓝 y')) (idx := [()]) (t := fun _ _ => 0) (t' := fun _ => 0)
      (fun _ _ => ⟨tendsto_const_nhds, tendsto_const_nhds, tendsto_const_nhds⟩) (y := fun y _ => y) (y' := fun _ => y')
      (fun _ _ => tendsto_id) (p := fun _ => p0) (p' := p0) ⟨fun _ => ⟨hu0, hz0⟩, ⟨hu0, hz0⟩, ⟨tendsto_const_nhds, tendsto_const_nhds⟩,
        ⟨tendsto_const_nhds, tendsto_const_nhds⟩⟩
    rw [hS]
    exact this
  obtain ⟨D, hD⟩ : ∃ D : ℝ → ℝ, D = fun y => Pair.diff (S y p0) p0 := ⟨_, rfl⟩
  have hDc : Continuous D := by
    rw [hD]
    exact continuous_iff_continuousAt.2 fun y' => (hcont y').diff (⟨fun _ => ⟨hu0, hz0⟩, ⟨hu0, hz0⟩, ⟨tendsto_const_nhds, tendsto_const_nhds⟩,
      ⟨tendsto_const_nhds, tendsto_const_nhds⟩⟩ : ConvPair (𝓝 y') (fun _ => p0) p0)
  have hDe : ∀ y, D y = |(S y p0).u.lam 0 - p0.u.lam 0| + |(S y p0).u.prec 0 0 - p0.u.prec 0 0| + |(S y p0).z.lam 0 - p0.z.lam 0| +
      |(S y p0).z.prec 0 0 - p0.z.prec 0 0| := fun y => by
    rw [hD]
    simp [Pair.diff, rmsVec, rmsMat, Real.sqrt_sq_eq_abs]
  have hUP : ∀ y, (S y p0).u.prec 0 0 = P + e ^ 2 := fun y => by
    rw [(s1 y p0 hz0).2.1, a3, a4, ← he]
    have : 2 + 1 / P = P := by field_simp; linarith
    linarith
  have hPpos : 0 < P := by linarith
  have hD0 : D 0 < 1e-6 := by
    obtain ⟨b1, b2, b3, b4⟩ := s1 0 p0 hz0
    have c4 : |(S 0 p0).z.prec 0 0 - P| ≤ e ^ 2 := by
      rw [b4, b1, hUP]
      have h2 : 2 + 1 / P = P := by field_simp; linarith
      have h3 : 1 / (P + e ^ 2) ≤ 1 / P := one_div_le_one_div_of_le hPpos (by nlinarith)
      have h4 : 1 / P - 1 / (P + e ^ 2) ≤ e ^ 2 := by
        rw [div_sub_div _ _ hPpos.ne' (by positivity), div_le_iff₀ (by positivity)]
        nlinarith [mul_pos he0 he0, mul_pos (mul_pos he0 he0) hPpos, mul_pos (mul_pos he0 he0) (mul_pos he0 he0)]
      rw [abs_le]
      constructor <;> simp <;> simp at h2 h3 h4 <;> linarith
    rw [hDe, b1, b3, b1, a1, a2, a3, a4, hUP]
    simp only [zero_mul, zero_div, sub_zero, abs_zero, zero_add, zero_sub, abs_neg]
    rw [add_sub_cancel_left, abs_of_pos (by positivity), abs_of_pos (by norm_num : (0 : ℝ) < 1e-7)]
    have : e ^ 2 ≤ 1e-7 := by nlinarith
    linarith [show (1e-7 : ℝ) + 1e-7 + 1e-7 < 1e-6 by norm_num]
  have hDb : 1e-6 ≤ D (10 * P) := by
    obtain ⟨b1, -, -, -⟩ := s1 (10 * P) p0 hz0
    rw [hDe, b1, a1, a3, a4, sub_zero]
    have : 10 * P * (1e-7 / P) = (1e-6 : ℝ) := by field_simp; norm_num
    rw [this, abs_of_pos (by norm_num : (0 : ℝ) < 1e-6)]
    linarith [abs_nonneg ((S (10 * P) p0).u.prec 0 0 - p0.u.prec 0 0), abs_nonneg ((S (10 * P) p0).z.lam 0 - 1e-7),
      abs_nonneg ((S (10 * P) p0).z.prec 0 0 - P)]
  obtain ⟨T, hT⟩ : ∃ T : Set ℝ, T = Set.Icc 0 (10 * P) ∩ {y | 1e-6 ≤ D y} := ⟨_, rfl⟩
  have hTc : IsCompact T := by rw [hT]; exact isCompact_Icc.inter_right (isClosed_le continuous_const hDc)
  have hTn : T.Nonempty := ⟨10 * P, by rw [hT]; exact ⟨⟨by positivity, le_rfl⟩, hDb⟩⟩
  obtain ⟨y', hy', hmin⟩ := hTc.exists_isLeast hTn
  have hy'T := hy'
  rw [hT] at hy'
  have hpos' : 0 < y' := by
    rcases hy'.1.1.lt_or_eq with h | h
    · exact h
    · have := hy'.2
      rw [← h] at this
      exact absurd hD0 (not_lt.2 this)
  have hlt : ∀ y, 0 < y → y < y' → D y < 1e-6 := fun y h0 h1 => by
    by_contra h2
    have : y ∈ T := by rw [hT]; exact ⟨⟨h0.le, h1.le.trans hy'.1.2⟩, not_lt.1 h2⟩
    exact absurd (hmin this) (not_le.2 h1)
  refine ⟨y', fun ha => ?_⟩
  have f1 : ∀ y, D y < 1e-6 → (caLoop (S y) Pair.diff 2 p0).1 = S y p0 := fun y hy => by
    rw [hD] at hy
    unfold caLoop
    dsimp only
    rw [if_pos hy]
  have f2 : (caLoop (S y') Pair.diff 2 p0).1 = S y' (S y' p0) := by
    have h1 : ¬Pair.diff (S y' p0) p0 < 1e-6 := by
      have := hy'.2
      rw [hD] at this
      exact not_lt.2 this
    rw [caLoop]
    dsimp only
    rw [if_neg h1, caLoop]
    dsimp only
    split_ifs <;> rfl
  have eu : ∀ y, (fitMeanFieldCA C exInst stallPosts [(0, y)] 2).1.qu 0 = (caLoop (S y) Pair.diff 2 p0).1.u := fun y => by
    rw [hS, hp0]
    rfl
  have ez : ∀ y, (fitMeanFieldCA C exInst stallPosts [(0, y)] 2).1.qz 0 = (caLoop (S y) Pair.diff 2 p0).1.z := fun y => by
    rw [hS, hp0]
    rfl
  have hev : ∀ᶠ y in 𝓝[<] y', (caLoop (S y) Pair.diff 2 p0).1 = S y p0 := by
    have : ∀ᶠ y in 𝓝[<] y', y ∈ Set.Ioo 0 y' := Ioo_mem_nhdsLT hpos'
    exact this.mono fun y hy => f1 y (hlt y hy.1 hy.2)
  have hc := hcont y'
  have g1 : (S y' (S y' p0)).u.lam = (S y' p0).u.lam := by
    have h1 := ha.quLam 0
    simp only [eu] at h1
    rw [f2] at h1
    exact tendsto_nhds_unique ((h1.mono_left nhdsWithin_le_nhds).congr' (hev.mono fun y hy => by simp only [hy]))
      (hc.u.lam.mono_left nhdsWithin_le_nhds)
  have g2 : (S y' (S y' p0)).u.prec = (S y' p0).u.prec := by
    have h1 := ha.quPrec 0
    simp only [eu] at h1
    rw [f2] at h1
    exact tendsto_nhds_unique ((h1.mono_left nhdsWithin_le_nhds).congr' (hev.mono fun y hy => by simp only [hy]))
      (hc.u.prec.mono_left nhdsWithin_le_nhds)
  obtain ⟨b1, b2, b3, b4⟩ := s1 y' p0 hz0
  obtain ⟨c1, c2, -, -⟩ := s1 y' (S y' p0) (hpos y' p0 hz0).2
  rw [a3, a4, ← he] at b1 b2
  rw [g1, b1, b3, b1] at c1
  rw [g2, b3, b1] at c2
  rw [b1] at b4
  exact stall_algebra hPP (by linarith) he0 hpos' b2 b4 c1 c2

/-! ## Examples -/

theorem approach_const {ι κ : Type} {α : Type} (l : Filter α) {s : Posts ι κ} (h : AllProper s) : Approach l (fun _ => s) s :=
  ⟨fun _ => rfl, fun _ => h, h, fun _ => tendsto_const_nhds, fun _ => tendsto_const_nhds, fun _ => tendsto_const_nhds,
    fun _ => tendsto_const_nhds⟩

/-- A Cholesky factor of one by one matrices exists, and with it an observation that approaches one gives predictions of the structured
scheme that approach those for one. -/
example : ∃ C : Chols (Fin 1) (Fin 1), Scripts.IsCholesky C.u ∧ Scripts.IsCholesky C.z ∧ ∀ W : ℕ → (Fin 1 → ℝ) × (Fin 1 → ℝ),
    ∃ (v : ℝ → List (ℝ × ℝ)) (v' : List (ℝ × ℝ)), Tendsto v (𝓝 1) (𝓝 v') ∧
      (∀ y, ((exSession.fitStructured C exInst W [(0, y)] 10).1.condition C exInst [(0, y)]).predictStructured C exInst [0, 2] [0] =
        .ok (v y)) ∧
      ((exSession.fitStructured C exInst W [(0, 1)] 10).1.condition C exInst [(0, 1)]).predictStructured C exInst [0, 2] [0] = .ok v' := by
  obtain ⟨c, hc⟩ : ∃ c : CholOracle (Fin 1), Scripts.IsCholesky c := by
    refine ⟨⟨fun A => .of fun _ _ => √(A 0 0), fun A hA => ?_⟩, fun A hA => ⟨fun i j hij => ?_, fun i => ?_⟩⟩
    · ext i j
      fin_cases i
      fin_cases j
      simp [Matrix.mul_apply, mul_self_sqrt (hA.diag_pos (i := 0)).le]
    · fin_cases i
      fin_cases j
      simp at hij
    · exact sqrt_pos.2 hA.diag_pos
  refine ⟨⟨c, c⟩, hc, hc, fun W => ?_⟩
  have hn : ∀ s : ℝ, NearAt (𝓝 (1 : ℝ)) (fun _ => exInst) exInst (fun _ => s) s := fun s =>
    ⟨tendsto_const_nhds, tendsto_const_nhds, tendsto_const_nhds⟩
  obtain ⟨v, v', h1, h2, h3⟩ := c192_structured_fit ⟨c, c⟩ (c192_cholesky c hc) (c192_cholesky c hc) (near_const exInst_valid (𝓝 (1 : ℝ)))
    (idx := [()]) (t := fun _ _ => 0) (t' := fun _ => 0) (fun _ _ => hn 0) (y := fun y _ => y) (y' := fun _ => 1) (fun _ _ => tendsto_id) W
    (s := fun _ => exSession) (s' := exSession) (approach_const _ fun _ => ⟨Matrix.PosDef.one, Matrix.PosDef.one⟩) 10 (by norm_num)
    (ws := [0]) (by simp) (xs := [0, 2]) (x := fun _ x => x) (x' := fun x => x) (fun x _ => hn x)
  exact ⟨v, v', h3, fun y => by simpa [data] using h1 y, by simpa [data] using h2⟩

/-- A GPCM and a CGPCM, and an observation whose time and value approach others. -/
example (causal : Bool) (R : Runtime ℝ) : ∃ (g : GpcmModel) (m : Inst (Fin g.tU.length) (Fin g.tZ.length)),
    GpcmModel.new { witnessArgs causal 1 1 with nU := some 3 } = .ok g ∧ g.IsInst R m ∧ ∀ C : Chols (Fin g.tU.length) (Fin g.tZ.length),
      ∃ (v : ℝ → ℝ) (v' : ℝ), Tendsto v (𝓝 0) (𝓝 v') ∧ 
        (∀ x, MeanField.elbo C m ⟨0, fun _ => ⟨0, 1⟩, fun _ => ⟨0, 1⟩⟩ [(x, 1 + x)] (some "z") = .ok (v x)) ∧
        MeanField.elbo C m ⟨0, fun _ => ⟨0, 1⟩, fun _ => ⟨0, 1⟩⟩ [(0, 1)] (some "z") = .ok v' := by
  obtain ⟨g, hg, hm, hz, -, -, hγ, ht⟩ := witness_moderate causal
  have hn : 0 < g.noise := by
    obtain ⟨-, -, -, -, -, -, -, -, hn, -⟩ := GpcmModel.new_ok hg
    rw [hn]
    norm_num [witnessArgs]
  have hu' : g.tU.Nodup := by
    rw [ht]
    cases causal <;> norm_num
  have hz' : g.tZ.Nodup := by
    rw [hz]
    norm_num
  have hi := g.specInst_isInst R hm
  obtain ⟨h1, h2⟩ := c192_gpcm R g hm hγ hn hu' hz' hi (𝓝 (0 : ℝ))
  refine ⟨g, g.specInst, hg, hi, fun C => ?_⟩
  obtain ⟨v, v', e1, e2, e3⟩ := c192_mean_field_bound C h1 (idx := [()]) (t := fun x _ => x) (t' := fun _ => 0)
    (fun _ _ => h2 _ _ tendsto_id) (y := fun x _ => 1 + x) (y' := fun _ => 1)
    (fun _ _ => by simpa using (tendsto_const_nhds (x := (1 : ℝ))).add (tendsto_id (x := 𝓝 (0 : ℝ))))
    (s := fun _ => ⟨0, fun _ => ⟨0, 1⟩, fun _ => ⟨0, 1⟩⟩) (approach_const _ fun _ => ⟨Matrix.PosDef.one, Matrix.PosDef.one⟩)
    (c := some "z") (by simp)
  exact ⟨v, v', e3, e1, e2⟩

end Gpcm
