import Verif.Lemmas.NestedLemmas
import Verif.Props.FarProps
import Verif.Props.EvidenceProps
import Verif.Props.RgpcmValidProps

/-!
# C152: more inducing variables never make the best bound worse
-/

open Matrix Real

namespace Gpcm

section
variable {ι κ ι' κ' : Type} [Fintype ι] [DecidableEq ι] [Fintype κ] [DecidableEq κ] [Fintype ι'] [DecidableEq ι'] [Fintype κ']
  [DecidableEq κ'] (C : Chols ι κ) (C' : Chols ι' κ') {m : Inst ι κ} {m' : Inst ι' κ'} {P : Matrix ι' ι ℝ} {Q : Matrix κ' κ ℝ}

/-- **C152** Every mean-field posterior over some inducing variables is matched by one over more of them, with the same bound for
every data set and the same predictions at all times. -/
theorem c152_mean_field (hm : m.Valid) (hm' : m'.Valid) (h : m.Nested m' P Q) (s : Posts ι κ) (hs : s.qi = 0)
    (hu : s.qU.prec.PosDef) (hz : s.qZ.prec.PosDef) :
    ∃ s' : Posts ι' κ', s'.qi = 0 ∧ s'.qU.prec.PosDef ∧ s'.qZ.prec.PosDef ∧
      (∀ d, MeanField.elbo C' m' s' d none = MeanField.elbo C m s d none) ∧
        ∀ t, MeanField.predict C' m' s'.condition t = MeanField.predict C m s.condition t := by
  have hKu : (Pᵀ * m'.Ku * P).PosDef := h.Ku ▸ hm.Ku
  have hKz : (Qᵀ * m'.Kz * Q).PosDef := h.Kz ▸ hm.Kz
  obtain ⟨u1, u2⟩ := m2_pad hm'.Ku hKu C.u C'.u hu
  obtain ⟨z1, z2⟩ := m2_pad hm'.Kz hKz C.z C'.z hz
  have pu := pad_posDef hm'.Ku hKu hu
  have pz := pad_posDef hm'.Kz hKz hz
  have ku := pad_kl hm'.Ku hKu C.u C'.u hu
  have kz := pad_kl hm'.Kz hKz C.z C'.z hz
  rw [← h.Ku] at u2 ku
  rw [← h.Kz] at z2 kz
  have hM := fun t => moments_nested h t (u := s.qU.mean C.u) (z := s.qZ.mean C.z) u2 z2
  refine ⟨⟨0, fun _ => s.qU.pad m'.Ku P, fun _ => s.qZ.pad m'.Kz Q⟩, rfl, pu, pz, fun d => ?_, fun t => ?_⟩
  · simp only [MeanField.elbo, Posts.pU, Posts.pZ, hs, if_true, Posts.qU, Posts.qZ]
    simp only [Posts.qU, Posts.qZ, hs] at u1 u2 z1 z2 ku kz hM
    rw [meanFieldBound_eq, meanFieldBound_eq, sumEll_expLogLik C' hm', sumEll_expLogLik C hm, ku, kz, u1, z1]
    simp only [expLogLik, hM, h.noise]
  · rw [meanField_predict_map, meanField_predict_map]
    simp only [Posts.condition, Posts.pU, Posts.pZ, hs, zero_add, one_ne_zero, if_false, Nat.sub_self]
    rw [show s.qu 0 = s.qU by rw [Posts.qU, hs], show s.qz 0 = s.qZ by rw [Posts.qZ, hs]]
    refine List.map_congr_left fun x _ => ?_
    rw [ptMoments_spec C' hm', ptMoments_spec C hm, u1, z1, hM, toMeanVar, toMeanVar, h.noise]

/-- **C152** So no bound of the smaller model, collapsed or not, is out of reach of the larger one. -/
theorem c152_bound (hm : m.Valid) (hm' : m'.Valid) (h : m.Nested m' P Q) (s : Posts ι κ) (hs : s.qi = 0)
    (hu : s.qU.prec.PosDef) (hz : s.qZ.prec.PosDef) (d : List (ℝ × ℝ)) (collapsed : Option String) (b : ℝ)
    (hb : MeanField.elbo C m s d collapsed = .ok b) :
    ∃ s' : Posts ι' κ', s'.qi = 0 ∧ s'.qU.prec.PosDef ∧ s'.qZ.prec.PosDef ∧ MeanField.elbo C' m' s' d none = .ok b := by
  have key : ∀ (qu : NatNormal ι) (qz : NatNormal κ), qu.prec.PosDef → qz.prec.PosDef →
      ∃ s' : Posts ι' κ', s'.qi = 0 ∧ s'.qU.prec.PosDef ∧ s'.qZ.prec.PosDef ∧ MeanField.elbo C' m' s' d none =
        .ok (meanFieldBound C m (constructDataTerms C m d) (s.pU m) qu (s.pZ m) qz) := by
    intro qu qz hqu hqz
    obtain ⟨s', h1, h2, h3, h4, -⟩ := c152_mean_field C C' hm hm' h ⟨0, fun _ => qu, fun _ => qz⟩ rfl hqu hqz
    refine ⟨s', h1, h2, h3, (h4 d).trans ?_⟩
    simp [MeanField.elbo, Posts.pU, Posts.pZ, hs, Posts.qU, Posts.qZ]
  simp only [MeanField.elbo] at hb
  split at hb
  · rw [← hb]
    exact key _ _ hu hz
  · split_ifs at hb
    · rw [← hb]
      exact key _ _ hu (qzOptimalMF_posDef C hm d hu)
    · rw [← hb]
      exact key _ _ (quOptimalMF_posDef C hm d hz) hz

variable {n' : Inst ι κ'} (D : CholOracle κ')

/-- **C152** The bound of the structured scheme never decreases with more inducing variables of the excitation, for the same
samples of the filter. -/
theorem c152_structured (hm : m.Valid) (hn : n'.Valid) (h : m.Nested n' 1 Q) (s : Posts ι κ) (hs : s.qi = 0) (s' : Posts ι κ')
    (hs' : s'.qi = 0) (hq : s'.qU = s.qU) (d : List (ℝ × ℝ)) (us : List (ι → ℝ)) (b : ℝ)
    (hb : elboCollapsedZ C m s d us = .ok b) : ∃ b', elboCollapsedZ ⟨C.u, D⟩ n' s' d us = .ok b' ∧ b ≤ b' := by
  have hKu : m.Ku = n'.Ku := by simpa using h.Ku
  have hKz : (Qᵀ * n'.Kz * Q).PosDef := h.Kz ▸ hm.Kz
  have hle : ∀ u, logZu C m (constructDataTerms C m d) u ≤ logZu ⟨C.u, D⟩ n' (constructDataTerms ⟨C.u, D⟩ n' d) u := by
    intro u
    obtain ⟨ho, hmax⟩ := c25_maximum C hm d u
    have heq := ((hmax _ ho).2).2 rfl
    obtain ⟨z1, z2⟩ := m2_pad hn.Kz hKz C.z D ho
    have pz := pad_posDef hn.Kz hKz ho
    have kz := pad_kl hn.Kz hKz C.z D ho
    rw [← h.Kz] at z2 kz
    have hM := fun t => moments_nested h t (u := u) (u2 := vecMulVec u u) (u2' := vecMulVec u u)
      (z := (qzOptimal m (constructDataTerms C m d) u).mean C.z) (by simp [hKu]) z2
    have h1 := ((c25_maximum ⟨C.u, D⟩ hn d u).2 _ pz).1
    refine le_trans (le_of_eq ?_) h1
    rw [← heq]
    simp only [kz, z1]
    simp only [one_mulVec] at hM
    simp only [expLogLik, hM, h.noise]
  simp only [elboCollapsedZ] at hb ⊢
  split_ifs at hb with h0
  rw [if_neg h0]
  refine ⟨_, rfl, ?_⟩
  rw [← Except.ok.inj hb]
  have e1 : s'.pU n' = s.pU m := by simp [Posts.pU, hs, hs', hKu]
  rw [e1, hq]
  refine sub_le_sub_right (div_le_div_of_nonneg_right (List.sum_le_sum fun u _ => hle u) (Nat.cast_nonneg _)) _

end

/-! ## The models -/

section
variable {α β : Type} [Fintype α] [Fintype β] [DecidableEq β]

/-- The choice of some inducing variables among others. -/
def select (e : α → β) : Matrix β α ℝ := .of fun b a => if b = e a then 1 else 0

theorem select_mul {γ δ : Type} [Fintype γ] [Fintype δ] [DecidableEq δ] (e : α → β) (f : γ → δ) (X : Matrix β δ ℝ) (i : α) (j : γ) :
    ((select e)ᵀ * X * select f) i j = X (e i) (f j) := by
  simp [Matrix.mul_apply, select]

end

variable (R : Runtime ℝ)

/-- The same model with more inducing points. -/
structure GpcmModel.Within (g g' : GpcmModel) : Prop where
  causal : g'.causal = g.causal
  noise : g'.noise = g.noise
  alpha : g'.alpha = g.alpha
  alphaT : g'.alphaT = g.alphaT
  gamma : g'.gamma = g.gamma
  omega : g'.omega = g.omega
  omegaT : g'.omegaT = g.omegaT
  tU : g.tU ⊆ g'.tU
  tZ : g.tZ ⊆ g'.tZ

/-- **C152** (GPCM and CGPCM) Adding inducing points, for the filter, for the excitation or for both, never makes the best bound
worse. -/
theorem c152_gpcm (g g' : GpcmModel) (hg : g.Within g') (hm : g.Moderate) (hγ : 0 < g.gamma) (hn : 0 < g.noise) (hu : g.tU.Nodup) (hz : g.tZ.Nodup)
    (hu' : g'.tU.Nodup) (hz' : g'.tZ.Nodup)
    {m : Inst (Fin g.tU.length) (Fin g.tZ.length)} (h : g.IsInst R m) {m' : Inst (Fin g'.tU.length) (Fin g'.tZ.length)}
    (h' : g'.IsInst R m') (C : Chols (Fin g.tU.length) (Fin g.tZ.length)) (C' : Chols (Fin g'.tU.length) (Fin g'.tZ.length))
    (s : Posts (Fin g.tU.length) (Fin g.tZ.length)) (hs : s.qi = 0) (hpu : s.qU.prec.PosDef) (hpz : s.qZ.prec.PosDef)
    (d : List (ℝ × ℝ)) (collapsed : Option String) (b : ℝ) (hb : MeanField.elbo C m s d collapsed = .ok b) :
    ∃ s' : Posts (Fin g'.tU.length) (Fin g'.tZ.length), s'.qi = 0 ∧ s'.qU.prec.PosDef ∧ s'.qZ.prec.PosDef ∧
      MeanField.elbo C' m' s' d none = .ok b := by
  have hp : g'.params = g.params := by
    simp only [GpcmModel.params, hg.causal, hg.alpha, hg.alphaT, hg.gamma, hg.omega, hg.omegaT]
  have hm' : g'.Moderate := by
    obtain ⟨h1, h2, h3, h4, h5, h6, h7, h8⟩ := hm
    constructor <;> simp only [hg.alpha, hg.alphaT, hg.gamma, hg.omega, hg.omegaT] <;> assumption
  have hv := (c98_valid_iff R g hm hγ hn m h).2 ⟨hu, hz⟩
  have hv' := (c98_valid_iff R g' hm' (hg.gamma ▸ hγ) (hg.noise ▸ hn) m' h').2 ⟨hu', hz'⟩
  obtain rfl : m = g.specInst := (c98_instance R g hm).unique h (g.specInst_isInst R hm)
  obtain rfl : m' = g'.specInst := (c98_instance R g' hm').unique h' (g'.specInst_isInst R hm')
  have eU : ∀ i : Fin g.tU.length, ∃ j : Fin g'.tU.length, g'.tU.get j = g.tU.get i := fun i => List.get_of_mem (hg.tU (List.get_mem _ _))
  have eZ : ∀ i : Fin g.tZ.length, ∃ j : Fin g'.tZ.length, g'.tZ.get j = g.tZ.get i := fun i => List.get_of_mem (hg.tZ (List.get_mem _ _))
  choose e he using eU
  choose f hf using eZ
  refine c152_bound C C' hv hv' (P := select e) (Q := select f) ⟨?_, ?_, hg.noise.symm, fun t => ?_, ?_, fun t => ?_, fun t => ?_⟩ s hs hpu hpz d
    collapsed b hb
  all_goals first | (ext i j; rw [select_mul]; simp only [GpcmModel.specInst, of_apply, he, hf, hp]) | simp only [GpcmModel.specInst, hp]

namespace Rgpcm

/-- The feature: whether it is a cosine, and which harmonic. -/
def feature (M : ℤ) (m : ℕ) : Bool × ℤ := if (m : ℤ) ≤ M then (true, m) else (false, m - M)

theorem feature_cases {M M' : ℤ} {m n : ℕ} (h : feature M m = feature M' n) :
    ((m : ℤ) ≤ M ↔ (n : ℤ) ≤ M') ∧ ((m : ℤ) ≤ M → m = n) ∧ (¬ (m : ℤ) ≤ M → (m : ℝ) - M = n - M') := by
  unfold feature at h
  by_cases h1 : (m : ℤ) ≤ M <;> by_cases h2 : (n : ℤ) ≤ M' <;> simp only [h1, h2, if_true, if_false, Prod.mk.injEq] at h
  · exact ⟨by simp [h1, h2], fun _ => by exact_mod_cast h.2, fun h => absurd h1 h⟩
  · exact absurd h.1 (by decide)
  · exact absurd h.1 (by decide)
  · exact ⟨by simp [h1, h2], fun h => absurd h h1, fun _ => by exact_mod_cast h.2⟩

variable {g g' : RgpcmModel}

/-- Two models that differ in their inducing variables only. -/
structure SameBut (g g' : RgpcmModel) : Prop where
  noise : g'.noise = g.noise
  alpha : g'.alpha = g.alpha
  alphaT : g'.alphaT = g.alphaT
  lam : g'.lam = g.lam
  a : g'.a = g.a
  b : g'.b = g.b
  gamma : g'.gamma = g.gamma
  gammaT : g'.gammaT = g.gammaT

theorem freq_feature {p p' : Spec.R.Params} (ha : p'.a = p.a) (hb : p'.b = p.b) {m n : ℕ} (hf : feature p'.M m = feature p.M n) :
    Spec.R.freq p' m = Spec.R.freq p n := by
  obtain ⟨h1, h2, h3⟩ := feature_cases hf
  simp only [Spec.R.freq, ha, hb]
  by_cases hm : (m : ℤ) ≤ p'.M
  · rw [if_pos hm, if_pos (h1.1 hm), h2 hm]
  · rw [if_neg hm, if_neg (fun h => hm (h1.2 h)), h3 hm]

theorem wave_feature {p p' : Spec.R.Params} (ha : p'.a = p.a) (hb : p'.b = p.b) {m n : ℕ} (hf : feature p'.M m = feature p.M n) :
    Spec.R.wave p' m = Spec.R.wave p n := by
  obtain ⟨h1, -⟩ := feature_cases hf
  funext τ
  simp only [Spec.R.wave, freq_feature ha hb hf, ha, h1]

theorem phi_feature {p p' : Spec.R.Params} (ha : p'.a = p.a) (hb : p'.b = p.b) (hl : p'.lam = p.lam) {m n : ℕ}
    (hf : feature p'.M m = feature p.M n) : Spec.R.phi p' m = Spec.R.phi p n := by
  obtain ⟨h1, -⟩ := feature_cases hf
  funext τ
  simp only [Spec.R.phi, wave_feature ha hb hf, ha, hb, hl, h1]

/-- **C152** (RGPCM) Adding inducing points for the filter or features for the excitation, in the same interval, never makes the
best bound worse. -/
theorem c152_rgpcm (h : SameBut g g') (hU : g.tU ⊆ g'.tU) (hZ : g.ms.map (feature g.mMax) ⊆ g'.ms.map (feature g'.mMax))
    (hr : g.Regular) (hr' : g'.Regular) {perm perm' : List ℕ} (hp : IsArgsort perm g.ms) (hp' : IsArgsort perm' g'.ms)
    {m : Inst (Fin g.tU.length) (Fin g.ms.length)} (hm : g.IsInst perm g.times m)
    {m' : Inst (Fin g'.tU.length) (Fin g'.ms.length)} (hm' : g'.IsInst perm' g'.times m')
    (C : Chols (Fin g.tU.length) (Fin g.ms.length)) (C' : Chols (Fin g'.tU.length) (Fin g'.ms.length))
    (s : Posts (Fin g.tU.length) (Fin g.ms.length)) (hs : s.qi = 0) (hpu : s.qU.prec.PosDef) (hpz : s.qZ.prec.PosDef)
    (d : List (ℝ × ℝ)) (hd : ∀ x ∈ d, x.1 ∈ g'.times) (collapsed : Option String) (b : ℝ)
    (hb : MeanField.elbo C m s d collapsed = .ok b) :
    ∃ s' : Posts (Fin g'.tU.length) (Fin g'.ms.length), s'.qi = 0 ∧ s'.qU.prec.PosDef ∧ s'.qZ.prec.PosDef ∧
      MeanField.elbo C' m' s' d none = .ok b := by
  have hd0 : ∀ x ∈ d, x.1 ∈ g.times := fun x hx => by
    obtain ⟨h1, h2, h3⟩ := hd x hx
    exact ⟨fun u hu => h.a ▸ h1 u (hU hu), h.a ▸ h2, h.b ▸ h3⟩
  rw [(hm.agree (RgpcmModel.specInst_isInst hr hp)).elbo C s hd0] at hb
  have e' := fun s' => (hm'.agree (RgpcmModel.specInst_isInst hr' hp')).elbo C' s' hd none
  simp only [e']
  have eU : ∀ i : Fin g.tU.length, ∃ j : Fin g'.tU.length, g'.tU.get j = g.tU.get i := fun i => List.get_of_mem (hU (List.get_mem _ _))
  have eZ : ∀ i : Fin g.ms.length, ∃ j : Fin g'.ms.length, feature g'.mMax (g'.ms.get j) = feature g.mMax (g.ms.get i) := fun i => by
    obtain ⟨k, hk, hk'⟩ := List.mem_map.1 (hZ (List.mem_map.2 ⟨_, List.get_mem g.ms i, rfl⟩))
    obtain ⟨j, hj⟩ := List.get_of_mem hk
    exact ⟨j, by rw [hj, hk']⟩
  choose e he using eU
  choose f hf using eZ
  have hw := fun j => wave_feature (p := specOf g) (p' := specOf g') h.a h.b (hf j)
  have hφ := fun j => phi_feature (p := specOf g) (p' := specOf g') h.a h.b h.lam (hf j)
  have hwin : Spec.R.win (specOf g') = Spec.R.win (specOf g) := by
    funext x; simp only [Spec.R.win, specOf, h.alpha, h.alphaT]
  have hsm : Spec.R.smooth (specOf g') = Spec.R.smooth (specOf g) := by
    funext x y; simp only [Spec.R.smooth, specOf, h.gamma, h.gammaT]
  have hkx : Spec.R.kx (specOf g') = Spec.R.kx (specOf g) := by
    funext x y; simp only [Spec.R.kx, specOf, h.lam]
  have hkhu : Spec.R.khu (specOf g') = Spec.R.khu (specOf g) := by
    funext x y; simp only [Spec.R.khu, hwin, hsm]
  refine c152_bound C C' (RgpcmModel.specInst_valid hr) (RgpcmModel.specInst_valid hr') (P := select e) (Q := select f)
    ⟨?_, ?_, h.noise.symm, fun t => ?_, ?_, fun t => ?_, fun t => ?_⟩ s hs hpu hpz d collapsed b hb
  · ext i j
    rw [select_mul]
    simp only [RgpcmModel.specInst, of_apply, he, Spec.R.ku, hsm]
  · ext i j
    rw [select_mul]
    simp only [RgpcmModel.specInst, of_apply, hw, h.lam, h.a, h.b]
  · simp only [RgpcmModel.specInst, Spec.R.ihx, hwin, hkx]
  · ext i j
    rw [select_mul]
    simp only [RgpcmModel.specInst, of_apply, he, Spec.R.iux, hkhu, hkx]
  · ext i j
    rw [select_mul]
    simp only [RgpcmModel.specInst, of_apply, Spec.R.ihz, hφ, hwin]
  · ext i j
    rw [select_mul]
    simp only [RgpcmModel.specInst, of_apply, Spec.R.iuz, hφ, hkhu, he]

/-- Another inducing point and more features. -/
example : SameBut exRgpcm { exRgpcm with tU := [2, 3, 1], mMax := 3, ms := [0, 1, 2, 3, 4, 5, 6] } ∧
    exRgpcm.tU ⊆ [2, 3, 1] ∧ exRgpcm.ms.map (feature exRgpcm.mMax) ⊆ [0, 1, 2, 3, 4, 5, 6].map (feature 3) := by
  refine ⟨⟨rfl, rfl, rfl, rfl, rfl, rfl, rfl, rfl⟩, ?_, ?_⟩
  · show [1, 2] ⊆ [(2 : ℝ), 3, 1]
    simp
  · show [3, 0, 4, 1, 2].map (feature 2) ⊆ _
    decide

end Rgpcm

/-- More inducing points for the filter and for the excitation. -/
example : ∃ g g' : GpcmModel, g.tU = [-2, 0, 2] ∧ g.tZ = [0, 1] ∧ g'.tU = [-2, -1, 0, 1, 2] ∧ g'.tZ = [2, 0, 1 / 2, 1] ∧ g.Within g' ∧ g.Moderate ∧ 0 < g.gamma := by
  obtain ⟨g, hg, hm, hz, -, -, hγ, hu⟩ := witness_moderate false
  simp only [Bool.false_eq_true, if_false] at hu
  refine ⟨g, { g with tU := [-2, -1, 0, 1, 2], tZ := [2, 0, 1 / 2, 1] }, hu, hz, rfl, rfl, ⟨rfl, rfl, rfl, rfl, rfl, rfl, rfl, ?_, ?_⟩, hm, hγ⟩
  · rw [hu]
    simp
  · rw [hz]
    simp

end Gpcm
