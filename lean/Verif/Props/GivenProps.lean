import Verif.Props.RGPCMParamProps

/-! # Property C185: parameters that are given are used -/

set_option linter.unusedSimpArgs false

open Real

namespace Gpcm

/-- If an argument is given, then it is what is used. -/
def Spec.Uses {α : Type} (given : Option α) (used : α) : Prop := ∀ v, given = some v → used = v

/-- **C185** (partial) A GPCM or CGPCM takes every parameter as it is given. Missing: the number of inducing points of the filter
is increased if it is even, and always by two for the CGPCM, and inducing points of the noise are replaced if they are to be
extended. -/
theorem c185_gpcm_partial {x : GpcmArgs} {g : GpcmModel} (h : GpcmModel.new x = .ok g) :
    g.causal = x.causal ∧ g.noise = x.noise ∧ Spec.Uses x.alpha g.alpha ∧ Spec.Uses x.alphaT g.alphaT ∧
      Spec.Uses x.gamma g.gamma ∧ Spec.Uses x.omega g.omega ∧ Spec.Uses x.tU g.tU ∧
      (x.extendTZ = false → Spec.Uses x.tZ g.tZ ∧ Spec.Uses x.nZ g.nZ) ∧
      (x.tU ≠ none → Spec.Uses x.nU g.nU) ∧
      (x.tU = none → ∀ n, x.nU = some n → g.nU = if x.causal then n + 2 else if n % 2 = 0 then n + 1 else n) := by
  obtain ⟨h1, h2, h3, ⟨z, h4, h5⟩, h6, h7, -, h8, h9, -⟩ := GpcmModel.new_ok h
  refine ⟨h8, h9, fun v hv => ?_, fun v hv => ?_, fun v hv => ?_, fun v hv => ?_, fun v hv => ?_, fun he => ?_,
    fun hu v hv => ?_, fun hu n hn => ?_⟩
  · rw [initAlpha, hv] at h1
    exact (Except.ok.inj h1).symm
  · rw [h7, initAlphaT, hv]
  · rw [initGamma, hv] at h2
    exact (Except.ok.inj h2).symm
  · simp only [initOmega, hv] at h6
    exact (Except.ok.inj h6).symm
  · rw [initTU, hv] at h3
    exact (congrArg Prod.snd (Except.ok.inj h3)).symm
  · rw [extendTZ, if_pos he] at h5
    obtain rfl := Except.ok.inj h5
    refine ⟨fun v hv => ?_, fun v hv => ?_⟩
    · rw [initTZ, hv] at h4
      exact (congrArg Prod.snd (Except.ok.inj h4)).symm
    · cases hz : x.tZ with
      | some tZ =>
        rw [initTZ, hz, hv] at h4
        exact (congrArg Prod.fst (Except.ok.inj h4)).symm
      | none =>
        rw [initTZ, hz] at h4
        simp only [autoNZ, hv] at h4
        obtain ⟨n, e, h4⟩ := bind1_ok h4
        obtain ⟨t, -, h4⟩ := bind1_ok h4
        obtain ⟨lo, -, h4⟩ := bind1_ok h4
        obtain ⟨hi, -, h4⟩ := bind1_ok h4
        obtain ⟨l, -, h4⟩ := bind1_ok h4
        rw [Except.ok.inj e]
        exact (congrArg Prod.fst (Except.ok.inj h4)).symm
  · obtain ⟨tU, e⟩ := Option.ne_none_iff_exists'.1 hu
    rw [initTU, e, hv] at h3
    exact (congrArg Prod.fst (Except.ok.inj h3)).symm
  · rw [initTU, hu] at h3
    simp only [autoNU, hn] at h3
    obtain ⟨k, e, h3⟩ := bind1_ok h3
    obtain rfl := Except.ok.inj e
    cases hc : x.causal
    · simp only [hc, Bool.false_eq_true, if_false] at h3 ⊢
      obtain ⟨l, -, h3⟩ := bind1_ok h3
      exact (congrArg Prod.fst (Except.ok.inj h3)).symm
    · simp only [hc, if_true] at h3 ⊢
      split_ifs at h3
      obtain ⟨l, -, h3⟩ := bind1_ok h3
      exact (congrArg Prod.fst (Except.ok.inj h3)).symm

/-- **C185** (refutation) Asking a GPCM for an even number of inducing points of the filter gives one more, and asking a CGPCM for
any number gives two more. -/
theorem c185_false {x : GpcmArgs} {g : GpcmModel} (h : GpcmModel.new x = .ok g) {n : ℤ} (hn : x.nU = some n) (hu : x.tU = none)
    (hc : x.causal = true ∨ n % 2 = 0) : g.nU ≠ n := by
  rw [(c185_gpcm_partial h).2.2.2.2.2.2.2.2.2 hu n hn]
  rcases hc with hc | hc
  · rw [if_pos hc]
    omega
  · split
    · omega
    · omega

/-- **C185** Once the decays and the numbers or the places of the inducing points are given, the window, the scale, and the caps do
not matter. -/
theorem c185_alternatives (x : GpcmArgs) (h1 : x.alpha ≠ none) (h2 : x.gamma ≠ none) (h3 : x.nU ≠ none ∨ x.tU ≠ none)
    (h4 : x.nZ ≠ none ∨ x.tZ ≠ none) (w s : Option ℝ) (cu cz : ℤ) :
    GpcmModel.new { x with window := w, scale := s, nUCap := cu, nZCap := cz } = GpcmModel.new x := by
  obtain ⟨al, e1⟩ := Option.ne_none_iff_exists'.1 h1
  obtain ⟨ga, e2⟩ := Option.ne_none_iff_exists'.1 h2
  have a1 : initAlpha { x with window := w, scale := s, nUCap := cu, nZCap := cz } = initAlpha x := by
    simp only [initAlpha, e1]
  have a2 : ∀ a, initGamma { x with window := w, scale := s, nUCap := cu, nZCap := cz } a = initGamma x a := by
    intro a
    simp only [initGamma, e2]
  have a3 : ∀ a, initTU { x with window := w, scale := s, nUCap := cu, nZCap := cz } a = initTU x a := by
    intro a
    cases e : x.tU with
    | some v => simp only [initTU, e]
    | none =>
      obtain ⟨n, e'⟩ := Option.ne_none_iff_exists'.1 (h3.resolve_right fun h => h e)
      simp only [initTU, e, autoNU, e']
  have a4 : initTZ { x with window := w, scale := s, nUCap := cu, nZCap := cz } = initTZ x := by
    cases e : x.tZ with
    | some v => simp only [initTZ, e]
    | none =>
      obtain ⟨n, e'⟩ := Option.ne_none_iff_exists'.1 (h4.resolve_right fun h => h e)
      simp only [initTZ, e, autoNZ, e']
  have a5 : ∀ a, extendTZ { x with window := w, scale := s, nUCap := cu, nZCap := cz } a = extendTZ x a := fun a => rfl
  have a6 : ∀ l, initOmega { x with window := w, scale := s, nUCap := cu, nZCap := cz } l = initOmega x l := fun l => rfl
  have a7 : ∀ a, initAlphaT { x with window := w, scale := s, nUCap := cu, nZCap := cz } a = initAlphaT x a := fun a => rfl
  unfold GpcmModel.new
  simp only [a1, a2, a3, a4, a5, a6, a7]

namespace Rgpcm

/-- **C185** (partial) An RGPCM takes every parameter as it is given. Missing: a decay of the filter above two thirds of the window's
is decreased, and the number of frequencies that is asked for is only a guideline (C93). -/
theorem c185_rgpcm_partial {x : RgpcmArgs} {g : RgpcmModel} (h : RgpcmModel.new x = .ok g) :
    g.noise = x.noise ∧ Spec.Uses x.alpha g.alpha ∧ Spec.Uses x.alphaT g.alphaT ∧ Spec.Uses x.lam g.lam ∧
      Spec.Uses x.gammaT g.gammaT ∧ Spec.Uses x.a g.a ∧ Spec.Uses x.b g.b ∧ Spec.Uses x.mMax g.mMax ∧
      Spec.Uses x.ms g.ms ∧ Spec.Uses x.tU g.tU ∧ Spec.Uses x.nU g.nU ∧
      ∀ v, x.gamma = some v → (g.gamma = v ↔ v ≤ g.alpha / 1.5) := by
  have h0 : g.noise = x.noise := by
    unfold RgpcmModel.new at h
    obtain ⟨_, -, h⟩ := bind1_ok h
    obtain ⟨_, -, h⟩ := bind1_ok h
    obtain ⟨_, -, h⟩ := bind1_ok h
    obtain ⟨_, -, h⟩ := bind1_ok h
    obtain ⟨_, -, h⟩ := bind1_ok h
    obtain ⟨_, -, h⟩ := bind1_ok h
    obtain ⟨_, -, h⟩ := bind1_ok h
    obtain ⟨_, -, h⟩ := bind1_ok h
    rw [← Except.ok.inj h]
  obtain ⟨h1, h2, h3, h4, h5, h6, h7, -, h8, c, h9, h10, h11⟩ := new_ok h
  refine ⟨h0, fun v hv => ?_, fun v hv => ?_, fun v hv => ?_, fun v hv => ?_, fun v hv => ?_, fun v hv => ?_, fun v hv => ?_,
    fun v hv => ?_, fun v hv => ?_, fun v hv => ?_, fun v hv => ?_⟩
  · rw [hv] at h1
    exact orElse_some h1
  · rw [h8, hv]
    rfl
  · rw [hv] at h2
    exact orElse_some h2
  · rw [h11, hv]
    rfl
  · rw [initA, hv] at h4
    exact orElse_some h4
  · rw [initB, hv] at h5
    exact orElse_some h5
  · rw [initMMax, hv] at h6
    exact (Except.ok.inj h6).symm
  · rw [h7, initMs, hv]
    rfl
  · rw [Rgpcm.initTU, hv] at h3
    exact (congrArg Prod.snd (Except.ok.inj h3)).symm
  · cases hu : x.tU with
    | some tU =>
      rw [Rgpcm.initTU, hu, hv] at h3
      exact (congrArg Prod.fst (Except.ok.inj h3)).symm
    | none =>
      rw [Rgpcm.initTU, hu] at h3
      simp only [Rgpcm.autoNU, hv] at h3
      obtain ⟨m, -, h3⟩ := bind1_ok h3
      obtain ⟨n, e, h3⟩ := bind1_ok h3
      obtain ⟨l, -, h3⟩ := bind1_ok h3
      rw [← orElse_some e]
      exact (congrArg Prod.fst (Except.ok.inj h3)).symm
  · unfold Rgpcm.initGamma at h9
    simp only [hv] at h9
    rw [h10, orElse_some h9]
    exact min_eq_left_iff

/-- **C185** (refutation) An RGPCM does not use a decay of the filter that is above two thirds of the window's. -/
theorem c185_rgpcm_false {x : RgpcmArgs} {g : RgpcmModel} (h : RgpcmModel.new x = .ok g) {v : ℝ} (hv : x.gamma = some v)
    (hg : g.alpha / 1.5 < v) : g.gamma ≠ v := fun e =>
  absurd (((c185_rgpcm_partial h).2.2.2.2.2.2.2.2.2.2.2 v hv).1 e) (not_le.2 hg)

/-- An RGPCM with parameters instead of a window and a scale, and a decay that is too large. -/
example : ∃ g, RgpcmModel.new
    { alpha := some 3, lam := some 5, gamma := some 4, a := some (-1), b := some 2, mMax := some 1, tU := some [0, 1] } = .ok g ∧ g.alpha = 3 ∧ g.lam = 5 ∧ g.gamma ≠ 4 := by
  obtain ⟨g, hg⟩ : ∃ g, RgpcmModel.new
      { alpha := some 3, lam := some 5, gamma := some 4, a := some (-1), b := some 2, mMax := some 1, tU := some [0, 1] } =
        .ok g := by
    simp [RgpcmModel.new, orElse, divE, bind1, Rgpcm.initTU, initA, initB, initMMax, Rgpcm.initGamma]
  have e := c185_rgpcm_partial hg
  have ha := e.2.1 3 rfl
  exact ⟨g, hg, ha, e.2.2.2.1 5 rfl, c185_rgpcm_false hg rfl (by rw [ha]; norm_num)⟩

end Rgpcm

/-- A CGPCM with parameters instead of a window and a scale, asked for three inducing points of the filter. -/
example : ∃ g, GpcmModel.new
    { causal := true, alpha := some 3, gamma := some 5, omega := some 7, nU := some 3, tZ := some [0, 1] } = .ok g ∧ g.alpha = 3 ∧ g.gamma = 5 ∧ g.omega = 7 ∧ g.tZ = [0, 1] ∧ g.nU = 5 := by
  obtain ⟨g, hg⟩ : ∃ g, GpcmModel.new
      { causal := true, alpha := some 3, gamma := some 5, omega := some 7, nU := some 3, tZ := some [0, 1] } = .ok g := by
    simp [GpcmModel.new, initAlpha, initGamma, initTU, autoNU, initTZ, extendTZ, initOmega, bind1, linspace]
  have e := c185_gpcm_partial hg
  exact ⟨g, hg, e.2.2.1 3 rfl, e.2.2.2.2.1 5 rfl, e.2.2.2.2.2.1 7 rfl, (e.2.2.2.2.2.2.2.1 rfl).1 _ rfl,
    e.2.2.2.2.2.2.2.2.2 rfl 3 rfl⟩

end Gpcm
