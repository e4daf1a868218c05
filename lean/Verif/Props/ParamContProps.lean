import Verif.Lemmas.RgpcmParamLimit

/-!
# Property C193: nearly equal parameters give nearly equal results
-/

set_option linter.unusedSectionVars false

open Matrix Real Filter Topology

namespace Gpcm

open Spec

/-- GPCMs (or CGPCMs) with equally many inducing points whose numbers approach those of a GPCM (or CGPCM). -/
structure Spec.GpcmNear {α : Type} (l : Filter α) (g : α → GpcmModel) (g' : GpcmModel) : Prop where
  params : ParamsNear l (fun a => (g a).params) g'.params
  noise : Tendsto (fun a => (g a).noise) l (𝓝 g'.noise)
  lenU : ∀ a, (g a).tU.length = g'.tU.length
  lenZ : ∀ a, (g a).tZ.length = g'.tZ.length
  tU : ∀ i : ℕ, Tendsto (fun a => (g a).tU.getD i 0) l (𝓝 (g'.tU.getD i 0))
  tZ : ∀ i : ℕ, Tendsto (fun a => (g a).tZ.getD i 0) l (𝓝 (g'.tZ.getD i 0))

/-! ## The integrals -/

theorem rows_entry {m n : ℕ} {M : Matrix (Fin m) (Fin n) ℝ} {γ δ : Type} {k : List γ} {k' : List δ} {f : γ → δ → ℝ} (d : γ) (d' : δ)
    (h : rows M = k.map fun x => k'.map fun y => f x y) (i : Fin m) (j : Fin n) : M i j = f (k.getD i d) (k'.getD j d') := by
  have h1 := congrArg (fun L : List (List ℝ) => (L[(i : ℕ)]?).bind fun r => r[(j : ℕ)]?) h
  simp only [rows, List.getElem?_ofFn, List.getElem?_map, i.2, dif_pos, Option.bind_some, j.2] at h1
  rcases hk : k[(i : ℕ)]? with _ | x
  · simp [hk] at h1
  rcases hk' : k'[(j : ℕ)]? with _ | y
  · simp [hk, hk'] at h1
  simp only [hk, hk', Option.map_some, Option.bind_some, Option.some.injEq, List.getElem?_map] at h1
  simpa [List.getD_eq_getElem?_getD, hk, hk'] using h1

theorem rows_length {m n : ℕ} {M : Matrix (Fin m) (Fin n) ℝ} {γ : Type} {k : List γ} {f : γ → List ℝ} (h : rows M = k.map f) :
    k.length = m := by
  have := congrArg List.length h
  simpa [rows] using this.symm

theorem GpcmModel.Returns.valid {R : Runtime ℝ} {g : GpcmModel} (hm : g.Moderate) (hγ : 0 < g.gamma) (hn : 0 < g.noise) (hu : g.tU.Nodup)
    (hz : g.tZ.Nodup) {nu nz : ℕ} {m : Inst (Fin nu) (Fin nz)} (h : g.Returns R m) : m.Valid := by
  have h1 := h.Ku
  have h2 := h.Kz
  rw [c65_K_u] at h1
  rw [c65_K_z R g hm] at h2
  obtain rfl := rows_length (Except.ok.inj h1).symm
  obtain rfl := rows_length (Except.ok.inj h2).symm
  exact (c98_valid_iff R g hm hγ hn m ((g.isInst_iff_returns R m).2 h)).2 ⟨hu, hz⟩

section
variable {α : Type} {l : Filter α}

/-- **C193** (GPCM and CGPCM) If the parameters and the inducing points of models approach those of a model, and the models satisfy what
their integrals need, then what the models give to the approximation approaches what the limit gives, also if the times approach a
time. -/
theorem c193_gpcm [l.IsCountablyGenerated] (R : Runtime ℝ) {g : α → GpcmModel} {g' : GpcmModel} (hg : GpcmNear l g g')
    (hm : ∀ a, (g a).Moderate) (hm' : g'.Moderate) (hγ : ∀ a, 0 < (g a).gamma) (hγ' : 0 < g'.gamma) (hn : ∀ a, 0 < (g a).noise)
    (hn' : 0 < g'.noise) (hu : ∀ a, (g a).tU.Nodup) (hu' : g'.tU.Nodup) (hz : ∀ a, (g a).tZ.Nodup) (hz' : g'.tZ.Nodup) {nu nz : ℕ}
    {m : α → Inst (Fin nu) (Fin nz)} {m' : Inst (Fin nu) (Fin nz)} (h : ∀ a, (g a).Returns R (m a)) (h' : g'.Returns R m') :
    Near l m m' ∧ ∀ (t : α → ℝ) (t' : ℝ), Tendsto t l (𝓝 t') → NearAt l m m' t t' := by
  have ku : ∀ {g : GpcmModel} {m : Inst (Fin nu) (Fin nz)}, g.Returns R m → ∀ i j, m.Ku i j =
      kH g.params (g.tU.getD i 0) (g.tU.getD j 0) := fun {g m} h i j => by
    have := h.Ku
    rw [c65_K_u] at this
    exact rows_entry 0 0 (Except.ok.inj this).symm i j
  have kz : ∀ {g : GpcmModel} {m : Inst (Fin nu) (Fin nz)}, g.Moderate → g.Returns R m → ∀ i j, m.Kz i j =
      Spec.kz g.params (g.tZ.getD i 0) (g.tZ.getD j 0) := fun {g m} hm h i j => by
    have := h.Kz
    rw [c65_K_z R g hm] at this
    exact rows_entry 0 0 (Except.ok.inj this).symm i j
  have ux : ∀ {g : GpcmModel} {m : Inst (Fin nu) (Fin nz)}, g.Moderate → g.Returns R m → ∀ i j, m.iUx i j =
      Spec.iux g.params 0 0 (g.tU.getD i 0) (g.tU.getD j 0) := fun {g m} hm h i j => by
    have := h.iUx
    rw [c65_I_ux_default R g hm] at this
    exact rows_entry 0 0 (Except.ok.inj this).symm i j
  have hx : ∀ {g : GpcmModel} {m : Inst (Fin nu) (Fin nz)}, g.Moderate → g.Returns R m → ∀ t, m.iHx t t =
      Spec.ihx g.params 0 0 := fun {g m} hm h t => by
    have := h.iHx t t
    rw [c65_i_hx R g hm] at this
    rw [← Except.ok.inj this]
    have := Spec.ihx_shift g.params t 0 0
    rwa [zero_add] at this
  have hzE : ∀ {g : GpcmModel} {m : Inst (Fin nu) (Fin nz)}, g.Moderate → g.Returns R m → ∀ t i j, m.iHz t i j =
      Spec.ihz g.params t (g.tZ.getD i 0) (g.tZ.getD j 0) := fun {g m} hm h t i j => by
    have := h.iHz [t]
    rw [c65_I_hz R g hm] at this
    exact rows_entry 0 0 (List.head_eq_of_cons_eq (Except.ok.inj this)).symm i j
  have uzE : ∀ {g : GpcmModel} {m : Inst (Fin nu) (Fin nz)}, g.Moderate → g.Returns R m → ∀ t i j, m.iUz t i j =
      Spec.iuz g.params t (g.tU.getD i 0) (g.tZ.getD j 0) := fun {g m} hm h t i j => by
    have := h.iUz [t]
    rw [c65_I_uz R g hm] at this
    exact rows_entry 0 0 (List.head_eq_of_cons_eq (Except.ok.inj this)).symm i j
  have he : (0 : ℝ) < 1e-10 := by norm_num
  have h1 : ∀ a, (1e-10 : ℝ) ≤ (g a).params.alpha := fun a => (hm a).alpha_lo
  have h2 : ∀ a, (1e-10 : ℝ) ≤ (g a).params.alpha + 2 * (g a).params.gamma := fun a => (hm a).gamma_lo
  have h3 : ∀ a, (1e-10 : ℝ) ≤ (g a).params.omega := fun a => (hm a).omega_lo
  have hp := hg.params
  refine ⟨⟨fun a => (h a).valid (hm a) (hγ a) (hn a) (hu a) (hz a), h'.valid hm' hγ' hn' hu' hz', ?_, ?_, ?_, ?_⟩, fun t t' ht =>
    ⟨?_, ?_, ?_⟩⟩
  · refine tendsto_pi_nhds.2 fun i => tendsto_pi_nhds.2 fun j => ?_
    simp only [ku h', fun a => ku (h a)]
    exact hp.kH (hg.tU i) (hg.tU j)
  · refine tendsto_pi_nhds.2 fun i => tendsto_pi_nhds.2 fun j => ?_
    simp only [kz hm' h', fun a => kz (hm a) (h a)]
    exact hp.kz (fun a => he.trans_le (h3 a)) (he.trans_le hm'.omega_lo) (hg.tZ i) (hg.tZ j)
  · simp only [h'.noise, fun a => (h a).noise]
    exact hg.noise
  · refine tendsto_pi_nhds.2 fun i => tendsto_pi_nhds.2 fun j => ?_
    simp only [ux hm' h', fun a => ux (hm a) (h a)]
    exact hp.iux he h1 h2 (hg.tU i) (hg.tU j)
  · simp only [hx hm' h', fun a => hx (hm a) (h a)]
    exact hp.ihx he h1 h2
  · refine tendsto_pi_nhds.2 fun i => tendsto_pi_nhds.2 fun j => ?_
    simp only [hzE hm' h', fun a => hzE (hm a) (h a)]
    exact hp.ihz he h1 h2 h3 ht (hg.tZ i) (hg.tZ j)
  · refine tendsto_pi_nhds.2 fun i => tendsto_pi_nhds.2 fun j => ?_
    simp only [uzE hm' h', fun a => uzE (hm a) (h a)]
    exact hp.iuz he h1 h2 h3 ht (hg.tU i) (hg.tZ j)

/-- **C193** (RGPCM) The same holds for models with the same features, at times at which their integrals are right. -/
theorem c193_rgpcm {g : α → RgpcmModel} {g' : RgpcmModel} (hg : RgpcmNear l g g') (hr : ∀ a, (g a).Regular) (hr' : g'.Regular)
    {perm : List ℕ} (hp : IsArgsort perm g'.ms) :
    ∃ (m : α → Inst (Fin g'.tU.length) (Fin g'.ms.length)) (m' : Inst (Fin g'.tU.length) (Fin g'.ms.length)),
      (∀ a, (g a).ReturnsOn perm (g a).times (m a)) ∧ g'.ReturnsOn perm g'.times m' ∧ Near l m m' ∧
      ∀ (t : α → ℝ) (t' : ℝ), (∀ a, t a ∈ (g a).times) → t' ∈ g'.times → Tendsto t l (𝓝 t') → NearAt l m m' t t' := by
  have hp' : ∀ a, IsArgsort perm (g a).ms := fun a => by rw [hg.ms]; exact hp
  choose m h using fun a => RgpcmModel.exists_returnsOn (hr a) (hp' a) (hg.lenU a) (congrArg List.length (hg.ms a))
  obtain ⟨m', h', hv'⟩ := RgpcmModel.exists_returnsOn hr' hp rfl rfl
  have ku : ∀ {g : RgpcmModel} {m : Inst (Fin g'.tU.length) (Fin g'.ms.length)}, g.ReturnsOn perm g.times m → ∀ i j, m.Ku i j =
      g.kuEntry (g.tU.getD i 0) (g.tU.getD j 0) := fun {g m} h i j => rows_entry 0 0 h.Ku i j
  have kz : ∀ {g : RgpcmModel} {m : Inst (Fin g'.tU.length) (Fin g'.ms.length)}, g.ms = g'.ms → g.ReturnsOn perm g.times m → ∀ i j,
      m.Kz i j = (if i = j then g.kzAlpha (g'.ms.get i) else 0) + g.kzBeta (g'.ms.get i) * g.kzBeta (g'.ms.get j) := fun {g m} e h i j => by
    have := h.Kz
    obtain ⟨noise, alpha, alphaT, lam, extent, a, b, mMax, ms, nZ, nU, tU, gamma, gammaT⟩ := g
    obtain rfl : ms = g'.ms := e
    rw [rows_injective this]
    rfl
  have ux : ∀ {g : RgpcmModel} {m : Inst (Fin g'.tU.length) (Fin g'.ms.length)}, g.Regular → g.ReturnsOn perm g.times m → ∀ i j,
      m.iUx i j = iuxClosed g (g.tU.getD i 0) (g.tU.getD j 0) := fun {g m} hr h i j => by
    have := h.iUx
    rw [mapE_eq_map fun x hx => mapE_eq_map fun y hy => iuxEntry_closed hr.ne hr.ne_sq (hr.tU_pos x hx) (hr.tU_pos y hy)] at this
    exact rows_entry 0 0 (Except.ok.inj this).symm i j
  have hzE : ∀ {g : RgpcmModel} {m : Inst (Fin g'.tU.length) (Fin g'.ms.length)}, g.ms = g'.ms → g.mMax = g'.mMax →
      g.ReturnsOn perm g.times m → ∀ t ∈ g.times, ∀ i j, m.iHz t i j = Rgpcm.hzEntry g (g'.ms.getD i 0) (g'.ms.getD j 0) t :=
    fun {g m} e e' h t ht i j => by
      have := h.iHz t ht
      rw [Rgpcm.computeIhz_eq g (by rw [e]; exact hp) (by rw [e']; exact hr'.mMax)] at this
      rw [rows_entry 0 0 (Except.ok.inj this).symm i j, e]
  have uzE : ∀ {g : RgpcmModel} {m : Inst (Fin g'.tU.length) (Fin g'.ms.length)}, g.ms = g'.ms → g.mMax = g'.mMax →
      g.ReturnsOn perm g.times m → ∀ t ∈ g.times, ∀ i j, m.iUz t i j = g.alphaT * g.gammaT * exp (-g.gamma * g.tU.getD i 0) *
        Rgpcm.uzEntry g (g.tU.getD i 0) (g'.ms.getD j 0) t := fun {g m} e e' h t ht i j => by
      have := h.iUz t ht
      rw [Rgpcm.computeIuz_eq g (by rw [e]; exact hp) (by rw [e']; exact hr'.mMax)] at this
      rw [rows_entry 0 0 (Except.ok.inj this).symm i j, e]
  refine ⟨m, m', fun a => (h a).1, h', ⟨fun a => (h a).2, hv', ?_, ?_, ?_, ?_⟩, fun t t' hta hta' ht => ⟨?_, ?_, ?_⟩⟩
  · refine tendsto_pi_nhds.2 fun i => tendsto_pi_nhds.2 fun j => ?_
    simp only [ku h', fun a => ku (h a).1]
    exact hg.kuEntry hr' (hg.tU i) (hg.tU j)
  · refine tendsto_pi_nhds.2 fun i => tendsto_pi_nhds.2 fun j => ?_
    simp only [kz rfl h', fun a => kz (hg.ms a) (h a).1]
    refine Tendsto.add ?_ ?_
    · split_ifs
      · exact hg.kzAlpha hr' _
      · exact tendsto_const_nhds
    · simp only [RgpcmModel.kzBeta, hg.mMax]
      exact tendsto_const_nhds
  · simp only [h'.noise, fun a => (h a).1.noise]
    exact hg.noise
  · refine tendsto_pi_nhds.2 fun i => tendsto_pi_nhds.2 fun j => ?_
    simp only [ux hr' h', fun a => ux (hr a) (h a).1]
    exact hg.iux hr' (hg.tU i) (hg.tU j)
  · have e : ∀ (g : RgpcmModel) s, g.ihx s s = g.ihx 0 0 := fun g s => by simp only [RgpcmModel.ihx, sub_self]
    simp only [h'.iHx, fun a => (h a).1.iHx, e]
    exact hg.ihx0 hr'
  · refine tendsto_pi_nhds.2 fun i => tendsto_pi_nhds.2 fun j => ?_
    simp only [hzE rfl rfl h' t' hta', fun a => hzE (hg.ms a) (hg.mMax a) (h a).1 _ (hta a)]
    exact hg.hzEntry hr' _ _ ht
  · refine tendsto_pi_nhds.2 fun i => tendsto_pi_nhds.2 fun j => ?_
    simp only [uzE rfl rfl h' t' hta', fun a => uzE (hg.ms a) (hg.mMax a) (h a).1 _ (hta a)]
    exact hg.uzEntry hr' _ ht (hg.tU i)

end

/-! ## Objectives and predictions -/

section
variable {ι κ : Type} [Fintype ι] [DecidableEq ι] [Fintype κ] [DecidableEq κ] (C : Chols ι κ) {α : Type} {l : Filter α}
  {m : α → Inst ι κ} {m' : Inst ι κ} (h : Near l m m') (ht : ∀ t, NearAt l m m' (fun _ => t) t)
include h ht

theorem data_self (d : List (ℝ × ℝ)) : data d Prod.fst Prod.snd = d := by simp [data]

/-- **C193** The objectives of training approach the objective of the limit: the mean-field bounds, collapsed or not, and the bound of the
structured approximation for given samples. -/
theorem c193_objectives {s : Posts ι κ} (hs : AllProper s) (d : List (ℝ × ℝ)) {us : List (ι → ℝ)} (hus : us ≠ []) :
    (∀ c : Option String, c = none ∨ c = some "z" ∨ c = some "u" → ∃ (v : α → ℝ) (v' : ℝ),
      (∀ a, MeanField.elbo C (m a) s d c = .ok (v a)) ∧ MeanField.elbo C m' s d c = .ok v' ∧ Tendsto v l (𝓝 v')) ∧
    ∃ (v : α → ℝ) (v' : ℝ), (∀ a, elboCollapsedZ C (m a) s d us = .ok (v a)) ∧ elboCollapsedZ C m' s d us = .ok v' ∧
      Tendsto v l (𝓝 v') := by
  refine ⟨fun c hc => ?_, ?_⟩
  · obtain ⟨v, v', e1, e2, e3⟩ := c192_mean_field_bound C h (idx := d) (t := fun _ => Prod.fst) (t' := Prod.fst) (fun i _ => ht i.1)
      (y := fun _ => Prod.snd) (y' := Prod.snd) (fun _ _ => tendsto_const_nhds) (approach_const l hs) hc
    rw [data_self h ht] at e2
    exact ⟨v, v', fun a => by rw [← e1 a, data_self h ht], e2, e3⟩
  · obtain ⟨v, v', e1, e2, e3⟩ := c192_structured_bound C h (idx := d) (t := fun _ => Prod.fst) (t' := Prod.fst) (fun i _ => ht i.1)
      (y := fun _ => Prod.snd) (y' := Prod.snd) (fun _ _ => tendsto_const_nhds) (approach_const l hs) hus (u := fun _ u => u)
      (u' := fun u => u) fun _ _ => tendsto_const_nhds
    rw [data_self h ht, List.map_id'] at e2
    exact ⟨v, v', fun a => by rw [← e1 a, data_self h ht, List.map_id'], e2, e3⟩

/-- **C193** So do the predictions of both approximations. -/
theorem c193_predictions {s : Posts ι κ} (hs : AllProper s) (d : List (ℝ × ℝ)) (x : List ℝ) {us : List (ι → ℝ)} (hus : us ≠ []) :
    Tendsto (fun a => MeanField.predict C (m a) s x) l (𝓝 (MeanField.predict C m' s x)) ∧
    ∃ (v : α → List (ℝ × ℝ)) (v' : List (ℝ × ℝ)),
      (∀ a, Structured.predict C (m a) (some (constructDataTerms C (m a) d)) x us = .ok (v a)) ∧
      Structured.predict C m' (some (constructDataTerms C m' d)) x us = .ok v' ∧ Tendsto v l (𝓝 v') := by
  refine ⟨?_, ?_⟩
  · have := c192_mean_field_predict C h (approach_const l hs) (xs := x) (x := fun _ x => x) (x' := fun x => x) fun i _ => ht i
    simpa only [List.map_id'] using this
  · obtain ⟨v, v', e1, e2, e3⟩ := c192_structured_predict C h (idx := d) (t := fun _ => Prod.fst) (t' := Prod.fst) (fun i _ => ht i.1)
      (y := fun _ => Prod.snd) (y' := Prod.snd) (fun _ _ => tendsto_const_nhds) hus (u := fun _ u => u)
      (u' := fun u => u) (fun _ _ => tendsto_const_nhds) (xs := x) (x := fun _ x => x) (x' := fun x => x) fun i _ => ht i
    rw [data_self h ht, List.map_id', List.map_id'] at e2
    exact ⟨v, v', fun a => by rw [← e1 a, data_self h ht, List.map_id', List.map_id'], e2, e3⟩

end

/-! ## The constructor -/

theorem getD_range_map (k i : ℕ) (f : ℕ → ℝ) : ((List.range k).map f).getD i 0 = if i < k then f i else 0 := by
  by_cases h : i < k <;> simp [List.getD_eq_getElem?_getD, h]

/-- The arguments with another noise, window and scale. -/
def Spec.tuned (b : GpcmArgs) (noise window scale : ℝ) : GpcmArgs :=
  { b with noise := noise, window := some window, scale := some scale }

/-- **C193, partial** Models that are constructed with a noise, a window and a scale that approach others approach the model that is
constructed with these, if the numbers of inducing points are given. -/
theorem c193_constructor_partial {b : GpcmArgs} (hα : b.alpha = none) (hγ : b.gamma = none) (htu : b.tU = none) {n : ℤ}
    (hn : b.nU = some n) (he : b.extendTZ = false) (hz : b.tZ ≠ none ∨ b.nZ ≠ none) {α : Type} {l : Filter α} {ν w s : α → ℝ}
    {ν' w' s' : ℝ} (hν : Tendsto ν l (𝓝 ν')) (hw : Tendsto w l (𝓝 w')) (hs : Tendsto s l (𝓝 s')) (hw0 : w' ≠ 0) (hs0 : s' ≠ 0)
    {g : α → GpcmModel} {g' : GpcmModel} (h : ∀ a, GpcmModel.new (tuned b (ν a) (w a) (s a)) = .ok (g a))
    (h' : GpcmModel.new (tuned b ν' w' s') = .ok g') : GpcmNear l g g' := by
  have key : ∀ {ν w s : ℝ} {g : GpcmModel}, GpcmModel.new (tuned b ν w s) = .ok g → g.noise = ν ∧ g.alpha = scaleToFactor w ∧
      g.gamma = scaleToFactor s - 0.5 * scaleToFactor w ∧ g.alphaT = initAlphaT b (scaleToFactor w) ∧ g.causal = b.causal ∧
      initTZ b = .ok (g.nZ, g.tZ) ∧ initOmega b g.tZ = .ok g.omega ∧ g.omegaT = (2 * g.omega / π) ^ (0.25 : ℝ) ∧
      initTU (tuned b ν w s) (scaleToFactor w) = .ok (g.nU, g.tU) := fun {ν w s g} h => by
    obtain ⟨h1, h2, h3, ⟨z, h4, h5⟩, h6, h7, h8, h9, h10, -⟩ := GpcmModel.new_ok h
    have e1 : g.alpha = scaleToFactor w := by
      unfold initAlpha tuned at h1
      simp only [hα] at h1
      exact (Except.ok.inj h1).symm
    have e2 : g.gamma = scaleToFactor s - 0.5 * g.alpha := by
      unfold initGamma tuned at h2
      simp only [hγ] at h2
      exact (Except.ok.inj h2).symm
    have e3 : initTZ (tuned b ν w s) = initTZ b := by
      unfold initTZ autoNZ tuned
      rcases h1 : b.tZ with _ | tZ
      · rcases h2 : b.nZ with _ | nZ
        · exact absurd hz (by simp [h1, h2])
        · rfl
      · rfl
    have e4 : z = (g.nZ, g.tZ) := by
      have : Gpcm.extendTZ (tuned b ν w s) g.alpha z = .ok z := if_pos he
      rw [this] at h5
      exact Except.ok.inj h5
    rw [e3] at h4
    subst e4
    rw [e1] at e2 h7 h3
    exact ⟨h10, e1, e2, h7, h9, h4, h6, h8, h3⟩
  obtain ⟨k1, k2, k3, k4, k5, k6, k7, k8, k9⟩ := key h'
  have hz' : ∀ a, (g a).tZ = g'.tZ ∧ (g a).omega = g'.omega ∧ (g a).omegaT = g'.omegaT := fun a => by
    obtain ⟨-, -, -, -, -, j6, j7, j8, -⟩ := key (h a)
    have e1 : (g a).tZ = g'.tZ := congrArg Prod.snd (Except.ok.inj (j6.symm.trans k6))
    rw [e1] at j7
    have e2 : (g a).omega = g'.omega := Except.ok.inj (j7.symm.trans k7)
    exact ⟨e1, e2, by rw [j8, k8, e2]⟩
  have hf : ∀ {f : α → ℝ} {f' : ℝ}, Tendsto f l (𝓝 f') → f' ≠ 0 → Tendsto (fun a => scaleToFactor (f a)) l (𝓝 (scaleToFactor f')) :=
    fun {f f'} hf h0 => tendsto_const_nhds.div ((hf.pow 2).const_mul 2) (by positivity)
  have hA := hf hw hw0
  have hA0 : 0 < scaleToFactor w' := by unfold scaleToFactor; positivity
  have hM : Tendsto (fun a => 2 * factorToScale (scaleToFactor (w a))) l (𝓝 (2 * factorToScale (scaleToFactor w'))) :=
    (tendsto_const_nhds.div ((hA.const_mul 4).div_const π).sqrt (by positivity)).const_mul 2
  obtain ⟨F, hF, hFl⟩ : ∃ F : ℝ → List ℝ, (∀ ν w s k t, initTU (tuned b ν w s) (scaleToFactor w) = .ok (k, t) →
      t = F (2 * factorToScale (scaleToFactor w))) ∧ (∀ x y, (F x).length = (F y).length) ∧
      ∀ i : ℕ, Continuous fun x => (F x).getD i 0 := by
    have cl : ∀ (c d : ℝ) (N : ℕ) (e : ℝ) (i : ℕ), Continuous fun x : ℝ =>
        ((List.range N).map fun i : ℕ => c * x + (d * x - c * x) / e * (i : ℝ)).getD i 0 := fun c d N e i => by
      simp only [getD_range_map]
      split_ifs
      · fun_prop
      · exact continuous_const
    rcases hc : b.causal with _ | _
    · obtain ⟨N, hN⟩ : ∃ N : ℤ, N = if n % 2 = 0 then n + 1 else n := ⟨_, rfl⟩
      refine ⟨fun x => (List.range N.toNat).map fun i : ℕ => -1 * x + (1 * x - -1 * x) / ((N : ℝ) - 1) * (i : ℝ), fun ν w s k t h => ?_,
        fun _ _ => by simp, fun i => cl _ _ _ _ _⟩
      unfold initTU autoNU tuned at h
      simp only [htu, hn, hc, bind1_val, ← hN, Bool.false_eq_true, if_false] at h
      obtain ⟨t', h1, h2⟩ := bind1_ok h
      unfold linspace at h1
      split_ifs at h1
      have h3 := Except.ok.inj h1
      have h4 := (Prod.mk.inj (Except.ok.inj h2)).2
      rw [← h4, ← h3]
      simp only [neg_mul, one_mul]
    · refine ⟨fun x => (List.range (n + 2).toNat).map fun i : ℕ => -2 / (((n - 1 : ℤ)) : ℝ) * x + (1 * x - -2 / (((n - 1 : ℤ)) : ℝ) * x) /
        (((n + 2 : ℤ) : ℝ) - 1) * (i : ℝ), fun ν w s k t h => ?_, fun _ _ => by simp, fun i => cl _ _ _ _ _⟩
      unfold initTU autoNU tuned at h
      simp only [htu, hn, hc, bind1_val, if_true] at h
      split_ifs at h
      obtain ⟨t', h1, h2⟩ := bind1_ok h
      unfold linspace at h1
      split_ifs at h1
      have h3 := Except.ok.inj h1
      have h4 := (Prod.mk.inj (Except.ok.inj h2)).2
      rw [← h4, ← h3]
      refine List.map_congr_left fun i _ => ?_
      ring
  have hg0 := fun a => key (h a)
  refine ⟨⟨fun a => ((hg0 a).2.2.2.2.1).trans k5.symm, ?_, ?_, ?_, ?_, ?_⟩, ?_, fun a => ?_, fun a => ?_, fun i => ?_, fun i => ?_⟩
  · show Tendsto (fun a => (g a).alpha) l (𝓝 g'.alpha)
    simp only [k2, fun a => (hg0 a).2.1]
    exact hA
  · show Tendsto (fun a => (g a).alphaT) l (𝓝 g'.alphaT)
    simp only [k4, fun a => (hg0 a).2.2.2.1, initAlphaT]
    rcases b.alphaT with _ | x
    · simp only
      split_ifs
      · exact ((hA.const_mul 8).div_const π).rpow_const (Or.inl (by positivity))
      · exact ((hA.const_mul 2).div_const π).rpow_const (Or.inl (by positivity))
    · exact tendsto_const_nhds
  · show Tendsto (fun a => (g a).gamma) l (𝓝 g'.gamma)
    simp only [k3, fun a => (hg0 a).2.2.1]
    exact (hf hs hs0).sub (hA.const_mul _)
  · show Tendsto (fun a => (g a).omega) l (𝓝 g'.omega)
    simp only [fun a => (hz' a).2.1]
    exact tendsto_const_nhds
  · show Tendsto (fun a => (g a).omegaT) l (𝓝 g'.omegaT)
    simp only [fun a => (hz' a).2.2]
    exact tendsto_const_nhds
  · simp only [k1, fun a => (hg0 a).1]
    exact hν
  · rw [hF _ _ _ _ _ k9, hF _ _ _ _ _ (hg0 a).2.2.2.2.2.2.2.2]
    exact hFl.1 _ _
  · rw [(hz' a).1]
  · simp only [hF _ _ _ _ _ k9, fun a => hF _ _ _ _ _ (hg0 a).2.2.2.2.2.2.2.2]
    exact ((hFl.2 i).tendsto _).comp hM
  · simp only [fun a => (hz' a).1]
    exact tendsto_const_nhds

/-- **C193, refuted** when the number of inducing points is chosen by the constructor: it jumps where four windows are a whole number of
scales. -/
theorem c193_constructor_false : (∀ s : ℝ, 4 / 5 < s → s < 1 → ∃ g, GpcmModel.new (witnessArgs true 1 s) = .ok g ∧ g.tU.length = 7) ∧
    ∃ g, GpcmModel.new (witnessArgs true 1 1) = .ok g ∧ g.tU.length = 6 := by
  have key : ∀ (s : ℝ) (k : ℤ), ⌈2 * 2 * 1 / s⌉ = k → 2 ≤ k → k ≤ 300 →
      ∃ g, GpcmModel.new (witnessArgs true 1 s) = .ok g ∧ (g.tU.length : ℤ) = k + 2 := fun s k hk h2 h3 => by
    have hu : ∃ t : List ℝ, initTU (witnessArgs true 1 s) (scaleToFactor 1) = .ok (k + 2, t) ∧ (t.length : ℤ) = k + 2 := by
      unfold initTU autoNU witnessArgs
      simp only [need, bind1_val, hk, if_true]
      rw [if_neg (by omega), bind1_val, if_neg (by omega), linspace_of_nonneg (by omega), bind1_val]
      refine ⟨_, rfl, ?_⟩
      simp
      omega
    obtain ⟨t, ht, hl⟩ := hu
    obtain ⟨g, hg, -, h4, -⟩ := witness_new true ht
    exact ⟨g, hg, by rw [h4]; exact hl⟩
  refine ⟨fun s h1 h2 => ?_, ?_⟩
  · have hs : 0 < s := by linarith
    obtain ⟨g, hg, hl⟩ := key s 5 (by
      rw [Int.ceil_eq_iff]
      constructor
      · rw [lt_div_iff₀ hs]
        norm_num
        linarith
      · rw [div_le_iff₀ hs]
        norm_num
        linarith) (by norm_num) (by norm_num)
    exact ⟨g, hg, by omega⟩
  · obtain ⟨g, hg, hl⟩ := key 1 4 (by norm_num) (by norm_num) (by norm_num)
    exact ⟨g, hg, by omega⟩

/-! ## Examples -/

theorem GpcmModel.exists_returns (R : Runtime ℝ) {g : GpcmModel} (hm : g.Moderate) {nu nz : ℕ} (hu : g.tU.length = nu)
    (hz : g.tZ.length = nz) : ∃ m : Inst (Fin nu) (Fin nz), g.Returns R m := by
  subst hu hz
  exact ⟨g.specInst, (g.isInst_iff_returns R _).1 (g.specInst_isInst R hm)⟩

/-- GPCMs and CGPCMs whose noise and window approach one: all hypotheses hold, so the integrals approach those of the limit. -/
example (causal : Bool) (R : Runtime ℝ) : ∃ (g : ℕ → GpcmModel) (g' : GpcmModel) (nu nz : ℕ) (m : ℕ → Inst (Fin nu) (Fin nz))
    (m' : Inst (Fin nu) (Fin nz)), (∀ k, (g k).Returns R (m k)) ∧ g'.Returns R m' ∧ g'.alpha ≠ (g 0).alpha ∧ Near atTop m m' ∧
      ∀ (t : ℕ → ℝ) (t' : ℝ), Tendsto t atTop (𝓝 t') → NearAt atTop m m' t t' := by
  obtain ⟨b, hb⟩ : ∃ b : GpcmArgs, b = { witnessArgs causal 1 1 with nU := some 3 } := ⟨_, rfl⟩
  have new : ∀ ν w : ℝ, 1 ≤ w → w ≤ 2 → 0 < ν → ∃ g, GpcmModel.new (tuned b ν w 1) = .ok g ∧ g.Moderate ∧ 0 < g.gamma ∧ 0 < g.noise ∧
      g.tU.Nodup ∧ g.tZ.Nodup ∧ g.alpha = scaleToFactor w := fun ν w h1 h2 h3 => by
    have hu : ∃ u, initTU (tuned b ν w 1) (scaleToFactor w) = .ok u := by
      unfold initTU autoNU tuned
      rw [hb]
      cases causal <;> simp [witnessArgs, bind1, linspace]
    obtain ⟨u, hu⟩ := hu
    have hz : initTZ (tuned b ν w 1) = .ok (2, [0, 1]) := by rw [hb]; exact witness_tz causal 1 1
    have hg := GpcmModel.new_of (a := tuned b ν w 1) (al := scaleToFactor w) (ga := scaleToFactor 1 - 0.5 * scaleToFactor w)
      (om := scaleToFactor 0.5) (z := (2, [0, 1])) (by rw [hb]; rfl) (by rw [hb]; rfl) hu hz (by rw [hb]; rfl)
      (by rw [hb]; simp [initOmega, witnessArgs, tuned])
    have hm := c65_default_moderate hg (by rw [hb]; rfl) (by rw [hb]; rfl) (by rw [hb]; rfl) (by rw [hb]; rfl) (w := w) (s := 1) rfl rfl
      (by linarith [show (1e-4 : ℝ) ≤ 1 by norm_num]) (by linarith [show (2 : ℝ) ≤ 1e4 by norm_num]) (by norm_num) (by norm_num) (by
        rintro z0 z1 ⟨⟩ ⟨⟩
        norm_num)
    have hα := hm.alpha_lo
    refine ⟨_, hg, hm, ?_, h3, c98_distinct_u hg (by rw [hb]; rfl) (by linarith), by simp, rfl⟩
    have h4 : scaleToFactor w ≤ scaleToFactor 1 := by
      unfold scaleToFactor
      exact div_le_div_of_nonneg_left (by positivity) (by norm_num) (by nlinarith)
    have h5 := scaleToFactor_pos one_pos
    show 0 < scaleToFactor 1 - 0.5 * scaleToFactor w
    linarith
  have hk : ∀ k : ℕ, (0 : ℝ) < 1 / ((k : ℝ) + 1) ∧ 1 / ((k : ℝ) + 1) ≤ 1 := fun k =>
    ⟨by positivity, by rw [div_le_one (by positivity)]; linarith [(Nat.cast_nonneg k : (0 : ℝ) ≤ k)]⟩
  choose g h1 h2 h3 h4 h5 h6 h7 using fun k : ℕ => new (1 + 1 / ((k : ℝ) + 1)) (1 + 1 / ((k : ℝ) + 1)) (by linarith [(hk k).1])
    (by linarith [(hk k).2]) (by linarith [(hk k).1])
  obtain ⟨g', h1', h2', h3', h4', h5', h6', h7'⟩ := new 1 1 le_rfl (by norm_num) one_pos
  have hl : Tendsto (fun k : ℕ => 1 + 1 / ((k : ℝ) + 1)) atTop (𝓝 1) := by
    simpa using (tendsto_one_div_add_atTop_nhds_zero_nat (𝕜 := ℝ)).const_add 1
  have hg := c193_constructor_partial (b := b) (by rw [hb]; rfl) (by rw [hb]; rfl) (by rw [hb]; rfl) (n := 3) (by rw [hb])
    (by rw [hb]; rfl) (by rw [hb]; simp [witnessArgs]) hl hl (tendsto_const_nhds (x := 1)) one_ne_zero one_ne_zero h1 h1'
  choose m hm using fun k => GpcmModel.exists_returns R (h2 k) (hg.lenU k) (hg.lenZ k)
  obtain ⟨m', hm'⟩ := GpcmModel.exists_returns R h2' (nu := g'.tU.length) (nz := g'.tZ.length) rfl rfl
  refine ⟨g, g', _, _, m, m', hm, hm', ?_, c193_gpcm R hg h2 h2' h3 h3' h4 h4' h5 h5' h6 h6' hm hm'⟩
  rw [h7', h7 0]
  unfold scaleToFactor
  norm_num
  intro h
  have := pi_pos
  linarith

open Rgpcm in
/-- RGPCMs whose noise, window and scale approach those of a concrete model. -/
example : ∃ g : ℕ → RgpcmModel, (∀ k, (g k).Regular) ∧ (∀ k, (g k).alpha ≠ exRgpcm.alpha) ∧ exRgpcm.Regular ∧
    IsArgsort [1, 3, 4, 0, 2] exRgpcm.ms ∧ RgpcmNear atTop g exRgpcm ∧ (∀ k, (1 : ℝ) ∈ (g k).times) ∧ (1 : ℝ) ∈ exRgpcm.times := by
  have hk : ∀ k : ℕ, (0 : ℝ) < 1 / ((k : ℝ) + 1) := fun k => by positivity
  have hl := tendsto_one_div_add_atTop_nhds_zero_nat (𝕜 := ℝ)
  have h : exRgpcm.Regular := by constructor <;> norm_num [exRgpcm]
  have ht : (1 : ℝ) ∈ exRgpcm.times := by constructor <;> norm_num [exRgpcm]
  refine ⟨fun k => { exRgpcm with noise := 1 + 1 / ((k : ℝ) + 1), alpha := exRgpcm.alpha + 1 / ((k : ℝ) + 1), lam := exRgpcm.lam +
    10 * (1 / ((k : ℝ) + 1)) }, fun k => ?_, fun k => ?_, h, ⟨by decide, by decide⟩, ?_, fun _ => ht, ht⟩
  · have h0 := hk k
    beta_reduce
    generalize 1 / ((k : ℝ) + 1) = x at h0 ⊢
    refine ⟨?_, ?_, h.gamma, h.gammaT, ?_, h.ab, h.mMax, h.tU_pos, h.tU, h.ms, ?_, ?_⟩
    · exact add_pos h.alpha h0
    · exact add_pos h.lam (by positivity)
    · exact add_pos one_pos h0
    · simp only [exRgpcm]
      intro h1
      linarith
    · simp only [exRgpcm]
      intro h1
      nlinarith
  · simpa using (hk k).ne'
  · refine ⟨fun _ => rfl, fun _ => rfl, ?_, ?_, tendsto_const_nhds, ?_, tendsto_const_nhds, tendsto_const_nhds, tendsto_const_nhds,
      tendsto_const_nhds, fun _ => rfl, fun _ => tendsto_const_nhds⟩
    · simpa [exRgpcm] using hl.const_add 1
    · simpa using hl.const_add exRgpcm.alpha
    · simpa using (hl.const_mul 10).const_add exRgpcm.lam

end Gpcm
