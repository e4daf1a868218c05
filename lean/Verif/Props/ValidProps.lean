import Verif.Model.Instance
import Verif.Lemmas.GpcmValid
import Verif.Props.GPCMIntProps
import Verif.Props.KernelProps
import Verif.Props.PredictProps
import Verif.Props.RGPCMParamProps

/-! # Property C98: the GPCM and the CGPCM satisfy the assumptions of the approximation -/

open MeasureTheory Matrix Real

namespace Gpcm

variable (R : Runtime ℝ)

theorem map_rows {α β : Type} (l : List α) (l' : List β) (f : α → β → ℝ) :
    (l.map fun a => l'.map fun b => f a b) = rows (.of fun i j => f (l.get i) (l'.get j)) := by
  have h : ∀ {γ δ : Type} (l : List γ) (g : γ → δ), l.map g = List.ofFn fun i : Fin l.length => g (l.get i) :=
    fun l g => by
      conv_lhs => rw [← List.ofFn_get l, List.map_ofFn]
      rfl
  unfold rows
  rw [h]
  congr 1
  funext i
  rw [h]
  rfl

theorem rows_injective {m n : ℕ} {A B : Matrix (Fin m) (Fin n) ℝ} (h : rows A = rows B) : A = B := by
  ext i j
  exact congrFun (List.ofFn_injective (congrFun (List.ofFn_injective h) i)) j

/-- The instance in terms of the specified integrals. -/
noncomputable def GpcmModel.specInst (g : GpcmModel) : Inst (Fin g.tU.length) (Fin g.tZ.length) where
  Ku := .of fun i j => Spec.kH g.params (g.tU.get i) (g.tU.get j)
  Kz := .of fun i j => Spec.kz g.params (g.tZ.get i) (g.tZ.get j)
  noise := g.noise
  iHx := Spec.ihx g.params
  iUx := .of fun i j => Spec.iux g.params 0 0 (g.tU.get i) (g.tU.get j)
  iHz := fun t => .of fun i j => Spec.ihz g.params t (g.tZ.get i) (g.tZ.get j)
  iUz := fun t => .of fun i j => Spec.iuz g.params t (g.tU.get i) (g.tZ.get j)

theorem GpcmModel.specInst_isInst (g : GpcmModel) (hm : g.Moderate) : g.IsInst R g.specInst where
  Ku := by rw [c65_K_u, map_rows]; rfl
  Kz := by rw [c65_K_z R g hm, map_rows]; rfl
  noise := rfl
  iHx := c65_i_hx R g hm
  iUx := by rw [c65_I_ux_default R g hm, map_rows]; rfl
  iHz := fun t => by rw [c65_I_hz R g hm]; simp only [map_rows]; rfl
  iUz := fun t => by rw [c65_I_uz R g hm]; simp only [map_rows]; rfl

/-- **C98** All integrals that the approximation asks for are computed without error, and they determine
what it works with. -/
theorem c98_instance (g : GpcmModel) (hm : g.Moderate) : ∃! m, g.IsInst R m := by
  refine ⟨g.specInst, g.specInst_isInst R hm, fun m h => ?_⟩
  have h0 := g.specInst_isInst R hm
  have e1 := rows_injective (Except.ok.inj (h.Ku.symm.trans h0.Ku))
  have e2 := rows_injective (Except.ok.inj (h.Kz.symm.trans h0.Kz))
  have e3 := h.noise.trans h0.noise.symm
  have e4 : m.iHx = g.specInst.iHx := by
    funext a b
    exact Except.ok.inj ((h.iHx a b).symm.trans (h0.iHx a b))
  have e5 := rows_injective (Except.ok.inj (h.iUx.symm.trans h0.iUx))
  have e6 : m.iHz = g.specInst.iHz := by
    funext a
    have := Except.ok.inj ((h.iHz [a]).symm.trans (h0.iHz [a]))
    exact rows_injective (List.head_eq_of_cons_eq this)
  have e7 : m.iUz = g.specInst.iUz := by
    funext a
    have := Except.ok.inj ((h.iUz [a]).symm.trans (h0.iUz [a]))
    exact rows_injective (List.head_eq_of_cons_eq this)
  cases m
  simp only at e1 e2 e3 e4 e5 e6 e7
  subst e1 e2 e3 e4 e5 e6 e7
  rfl

theorem GpcmModel.specInst_valid (g : GpcmModel) (hm : g.Moderate) (hγ : 0 < g.gamma) (hn : 0 < g.noise)
    (hu : g.tU.Nodup) (hz : g.tZ.Nodup) : g.specInst.Valid := by
  have ha : 0 < g.params.alpha := by have := hm.alpha_lo; show 0 < g.alpha; linarith
  have hγ' : 0 < g.params.gamma := hγ
  have ho : 0 < g.params.omega := by have := hm.omega_lo; show 0 < g.omega; linarith
  have hku := ku_posDef g.tU.get hγ' hm.alphaT (List.nodup_iff_injective_get.1 hu)
  have hkz := kz_posDef g.tZ.get ho hm.omegaT (List.nodup_iff_injective_get.1 hz)
  have hiux : ∀ s, g.specInst.iUx = .of fun i j => Spec.iux g.params s s (g.tU.get i) (g.tU.get j) :=
    fun s => by
      ext i j
      have := spec_iux_shift g.params 0 0 s (g.tU.get i) (g.tU.get j)
      rw [zero_add] at this
      exact this.symm
  have hβ : ∀ i, MemLp (factU g.params (g.tU.get i)) 2 := fun i => memLp_factU hγ' _
  have hψ : ∀ j, MemLp (fun τ => Spec.kXS g.params τ (g.tZ.get j)) 2 := fun j => memLp_kXS ho _
  refine ⟨hku, hkz, hn, fun s => ?_, fun s => ?_, fun s => ?_⟩
  · have hF := biL2_factF ha hγ' s
    rw [hiux s]
    have := hF.residual_A hβ hψ (by rw [gram_kz]; exact hkz) rfl
    rwa [gram_kz, gram_iux _ hγ', gram_iuz _ _ hγ'] at this
  · have hF := biL2_factF ha hγ' s
    have := hF.residual_B hβ hψ (by rw [gram_ku _ hγ']; exact hku) rfl
    rwa [gram_ku _ hγ', gram_ihz _ ha hγ' ho, gram_iuz _ _ hγ'] at this
  · have hF := biL2_factF ha hγ' s
    rw [hiux s]
    have := hF.residual_c hβ hψ (by rw [gram_ku _ hγ']; exact hku) (by rw [gram_kz]; exact hkz) rfl
    rwa [gram_ku _ hγ', gram_kz, gram_ihz _ ha hγ' ho, gram_iuz _ _ hγ', gram_iux _ hγ', ihx_factF hγ'] at this

theorem not_posDef_of_repeat {n : ℕ} {α : Type} {x : Fin n → α} {k : α → α → ℝ} {i j : Fin n} (hij : i ≠ j)
    (h : x i = x j) : ¬(Matrix.of fun i j => k (x i) (x j)).PosDef := by
  intro hp
  have hv : (Pi.single i 1 - Pi.single j 1 : Fin n → ℝ) ≠ 0 := fun h0 => by
    have := congrFun h0 i
    simp [hij] at this
  have := hp.dotProduct_mulVec_pos hv
  rw [mulVec_sub, mulVec_single_one, mulVec_single_one, star_trivial] at this
  have e : ((Matrix.of fun i j => k (x i) (x j)).col i - (Matrix.of fun i j => k (x i) (x j)).col j) = 0 := by
    ext l
    simp [h]
  rw [e, dotProduct_zero] at this
  exact lt_irrefl _ this

/-- **C98** What the GPCM and the CGPCM hand to the approximation satisfies its assumptions exactly when
no inducing point is repeated: the kernel matrices are positive definite and all residual second moments
are positive semi-definite. -/
theorem c98_valid_iff (g : GpcmModel) (hm : g.Moderate) (hγ : 0 < g.gamma) (hn : 0 < g.noise)
    (m : Inst (Fin g.tU.length) (Fin g.tZ.length)) (h : g.IsInst R m) :
    m.Valid ↔ g.tU.Nodup ∧ g.tZ.Nodup := by
  obtain rfl := (c98_instance R g hm).unique h (g.specInst_isInst R hm)
  refine ⟨fun hv => ⟨?_, ?_⟩, fun ⟨hu, hz⟩ => g.specInst_valid hm hγ hn hu hz⟩
  · rw [List.nodup_iff_injective_get]
    intro i j hij
    by_contra hne
    exact not_posDef_of_repeat hne hij hv.Ku
  · rw [List.nodup_iff_injective_get]
    intro i j hij
    by_contra hne
    exact not_posDef_of_repeat hne hij hv.Kz

/-! ### The inducing points of constructed models are distinct -/

theorem linspace_nodup {a b : ℝ} {n : ℤ} {l : List ℝ} (h : linspace a b n = .ok l)
    (hab : 2 ≤ n → a ≠ b) : l.Nodup := by
  unfold linspace at h
  split_ifs at h with hn
  obtain rfl := Except.ok.inj h
  rw [List.nodup_iff_injective_get]
  intro i j hij
  have hi := i.2
  have hj := j.2
  simp only [List.length_map, List.length_range] at hi hj
  simp only [List.get_eq_getElem, List.getElem_map, List.getElem_range] at hij
  by_cases h2 : 2 ≤ n
  · have hd : (b - a) / ((n : ℝ) - 1) ≠ 0 := by
      have : (2 : ℝ) ≤ n := by exact_mod_cast h2
      exact div_ne_zero (sub_ne_zero.2 (hab h2).symm) (by linarith)
    have := mul_left_cancel₀ hd (add_left_cancel hij)
    exact Fin.ext (by exact_mod_cast this)
  · exact Fin.ext (by omega)

/-- **C98** The inducing points that the constructor places on the filter are distinct. -/
theorem c98_distinct_u {a : GpcmArgs} {g : GpcmModel} (h : GpcmModel.new a = .ok g) (ha : a.tU = none)
    (hα : 0 < g.alpha) : g.tU.Nodup := by
  obtain ⟨-, -, h, -⟩ := GpcmModel.new_ok h
  have hm := factorToScale_pos hα
  unfold initTU at h
  rw [ha] at h
  dsimp only at h
  obtain ⟨n, -, h⟩ := bind1_ok h
  split_ifs at h with hc hn
  · obtain ⟨l, hl, h⟩ := bind1_ok h
    have e : l = g.tU := congrArg Prod.snd (Except.ok.inj h)
    subst e
    refine linspace_nodup hl fun h2 he => ?_
    have hn1 : ((n - 1 : ℤ) : ℝ) ≠ 0 := by exact_mod_cast hn
    rw [mul_div_assoc', div_eq_iff hn1] at he
    have h3 : 2 * factorToScale g.alpha * (((n - 1 : ℤ) : ℝ) + 2) = 0 := by linarith
    have h4 : (((n - 1 : ℤ) : ℝ) + 2) = 0 := (mul_eq_zero.1 h3).resolve_left (by positivity)
    have h5 : n - 1 + 2 = 0 := by exact_mod_cast h4
    omega
  all_goals
    obtain ⟨l, hl, h⟩ := bind1_ok h
    have e : l = g.tU := congrArg Prod.snd (Except.ok.inj h)
    subst e
    refine linspace_nodup hl fun _ he => ?_
    linarith

/-- **C98** The inducing points that the constructor places on the noise are distinct when the data are
not all at the same time. -/
theorem c98_distinct_z {a : GpcmArgs} {g : GpcmModel} (h : GpcmModel.new a = .ok g) (ha : a.tZ = none)
    (hα : 0 < g.alpha) {t : List ℝ} (ht : a.t = some t) {x y : ℝ} (hx : x ∈ t) (hy : y ∈ t) (hxy : x ≠ y) :
    g.tZ.Nodup := by
  obtain ⟨-, -, -, ⟨z, h1, h2⟩, -⟩ := GpcmModel.new_ok h
  have hlt : ∀ {lo hi}, pyMin t = .ok lo → pyMax t = .ok hi → lo < hi := fun h1 h2 => by
    have a1 := Rgpcm.pyMin_le h1 x hx
    have a2 := Rgpcm.pyMin_le h1 y hy
    have a3 := Rgpcm.pyMax_ge h2 x hx
    have a4 := Rgpcm.pyMax_ge h2 y hy
    rcases lt_or_gt_of_ne hxy with h | h <;> linarith
  have hm := factorToScale_pos hα
  unfold initTZ at h1
  rw [ha, ht] at h1
  dsimp only at h1
  obtain ⟨n, -, h1⟩ := bind1_ok h1
  obtain ⟨t', ht', h1⟩ := bind1_ok h1
  obtain rfl : t = t' := Except.ok.inj ht'
  obtain ⟨lo, hlo, h1⟩ := bind1_ok h1
  obtain ⟨hi, hhi, h1⟩ := bind1_ok h1
  obtain ⟨l, hl, h1⟩ := bind1_ok h1
  obtain rfl := Except.ok.inj h1
  have hn := (linspace_ok hl).1
  have hlh := hlt hlo hhi
  unfold extendTZ at h2
  by_cases he : a.extendTZ = false
  · rw [if_pos he] at h2
    have e : l = g.tZ := congrArg Prod.snd (Except.ok.inj h2)
    subst e
    exact linspace_nodup hl fun _ => hlh.ne
  · rw [if_neg he, ht] at h2
    obtain ⟨t', ht', h2⟩ := bind1_ok h2
    obtain rfl : t = t' := Except.ok.inj ht'
    obtain ⟨hi', hhi', h2⟩ := bind1_ok h2
    obtain ⟨lo', hlo', h2⟩ := bind1_ok h2
    obtain rfl : lo = lo' := Except.ok.inj (hlo.symm.trans hlo')
    obtain rfl : hi = hi' := Except.ok.inj (hhi.symm.trans hhi')
    dsimp only at h2
    obtain ⟨d, hd⟩ : ∃ d, d = (hi - lo) / (((n - 1 : ℤ)) : ℝ) := ⟨_, rfl⟩
    rw [← hd] at h2
    obtain ⟨k, hk⟩ : ∃ k, k = ⌈2 * factorToScale g.alpha / d⌉ := ⟨_, rfl⟩
    rw [← hk] at h2
    have hkd : n - 1 ≠ 0 → (n = 0 ∧ k ≤ 0) ∨ 0 ≤ (k : ℝ) * d := fun h1 => by
      rcases (by omega : n = 0 ∨ 2 ≤ n) with h0 | h0
      · have hd0 : d < 0 := by
          rw [hd, h0]
          norm_num
          linarith
        have : k ≤ 0 := by
          rw [hk, Int.ceil_le, Int.cast_zero]
          exact (div_neg_of_pos_of_neg (by positivity) hd0).le
        exact .inl ⟨h0, this⟩
      · refine .inr ?_
        have h3 : (0 : ℝ) < ((n - 1 : ℤ) : ℝ) := by exact_mod_cast (by omega : 0 < n - 1)
        have hd0 : 0 < d := by
          rw [hd]
          exact div_pos (by linarith) h3
        have : 0 ≤ k := by
          rw [hk]
          exact Int.ceil_nonneg (by positivity)
        have : (0 : ℝ) ≤ k := by exact_mod_cast this
        positivity
    split_ifs at h2 with hn1 hd1 hc
    · obtain ⟨l', hl', h2⟩ := bind1_ok h2
      have e : l' = g.tZ := congrArg Prod.snd (Except.ok.inj h2)
      subst e
      refine linspace_nodup hl' fun h2 he => ?_
      have h3 : 2 ≤ n + k := h2
      rcases hkd hn1 with ⟨h4, h5⟩ | h4
      · omega
      · linarith
    · obtain ⟨l', hl', h2⟩ := bind1_ok h2
      have e : l' = g.tZ := congrArg Prod.snd (Except.ok.inj h2)
      subst e
      refine linspace_nodup hl' fun h2 he => ?_
      have h3 : 2 ≤ n + 2 * k := h2
      rcases hkd hn1 with ⟨h4, h5⟩ | h4
      · omega
      · linarith

/-- **C98** For a constructed GPCM or CGPCM whose placement of inducing points is left to the constructor,
the assumptions of the approximation hold: nothing but the parameters has to be checked. -/
theorem c98_constructed {a : GpcmArgs} {g : GpcmModel} (h : GpcmModel.new a = .ok g) (hu : a.tU = none)
    (hz : a.tZ = none) {t : List ℝ} (ht : a.t = some t) {x y : ℝ} (hx : x ∈ t) (hy : y ∈ t) (hxy : x ≠ y)
    (hm : g.Moderate) (hγ : 0 < g.gamma) (hn : 0 < g.noise) :
    ∃ m, g.IsInst R m ∧ m.Valid := by
  have hα : 0 < g.alpha := by have := hm.alpha_lo; linarith
  exact ⟨_, g.specInst_isInst R hm, (c98_valid_iff R g hm hγ hn _ (g.specInst_isInst R hm)).2
    ⟨c98_distinct_u h hu hα, c98_distinct_z h hz hα ht hx hy hxy⟩⟩

/-- **C98** Predictions of a GPCM or a CGPCM have at least the variance of the noise. -/
theorem c98_predict (g : GpcmModel) (hm : g.Moderate) (hγ : 0 < g.gamma) (hn : 0 < g.noise)
    (hu : g.tU.Nodup) (hz : g.tZ.Nodup) (m : Inst (Fin g.tU.length) (Fin g.tZ.length)) (h : g.IsInst R m)
    (C : Chols (Fin g.tU.length) (Fin g.tZ.length)) (d : List (ℝ × ℝ)) (t : List ℝ)
    (us : List (Fin g.tU.length → ℝ)) (hus : us ≠ []) :
    ∃ l, Structured.predict C m (some (constructDataTerms C m d)) t us = .ok l ∧ l.length = t.length ∧
      ∀ p ∈ l, g.noise ≤ p.2 := by
  have hv := (c98_valid_iff R g hm hγ hn m h).2 ⟨hu, hz⟩
  obtain ⟨l, h1, h2, h3⟩ := c28_structured C hv d t us hus
  exact ⟨l, h1, h2, by rwa [← h.noise]⟩

/-- A causal model with five inducing points on the filter and two on the noise. -/
example (causal : Bool) : ∃ g : GpcmModel, GpcmModel.new { witnessArgs causal 1 1 with nU := some 3 } = .ok g ∧
    g.Moderate ∧ 0 < g.gamma ∧ 0 < g.noise ∧ g.tU.Nodup ∧ g.tZ.Nodup := by
  obtain ⟨g, hg, hm, hz, -, -, hγ, ht⟩ := witness_moderate causal
  refine ⟨g, hg, hm, hγ, ?_, ?_, ?_⟩
  · obtain ⟨-, -, -, -, -, -, -, -, hn, -⟩ := GpcmModel.new_ok hg
    rw [hn]
    norm_num [witnessArgs]
  · rw [ht]
    cases causal <;> norm_num
  · rw [hz]
    norm_num

end Gpcm
