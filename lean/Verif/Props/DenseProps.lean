import Verif.Lemmas.GaussDense
import Verif.Lemmas.GaussGap
import Verif.Lemmas.GpcmGrid
import Verif.Props.ValidProps
import Verif.Lemmas.ApproxLemmas

/-! # Property C190: with ever more inducing points the inducing variables determine the signal -/

open MeasureTheory Matrix Real Filter
open scoped Topology

namespace Gpcm

/-! ## Specification -/

/-- The points of a sequence of grids come arbitrarily close to every point of an interval. -/
def Spec.Fills (x : ℕ → List ℝ) (a b : ℝ) : Prop :=
  ∀ y ∈ Set.Ioo a b, ∀ ε > 0, ∀ᶠ n in atTop, ∃ u ∈ x n, |u - y| < ε

/-- The power of the signal at a time that the inducing variables leave unexplained: the power minus that of
the signal's mean given the inducing variables. -/
noncomputable def Spec.unexplPower {ι κ : Type} [Fintype ι] [DecidableEq ι] [Fintype κ] [DecidableEq κ]
    (m : Inst ι κ) (t : ℝ) : ℝ :=
  m.iHx t t - Spec.inner m.Ku⁻¹ (m.iUz t * m.Kz⁻¹ * (m.iUz t)ᵀ)

/-! ## The unexplained power -/

section One

variable (g : GpcmModel) (hm : g.Moderate) (hγ : 0 < g.gamma)

/-- What remains of the filter. -/
noncomputable def GpcmModel.restU (t : ℝ) : ℝ :=
  ∫ τ, ∫ s, residual volume (fun i => factU g.params (g.tU.get i)) (factF g.params t) τ s ^ 2

/-- What remains of the excitation. -/
noncomputable def GpcmModel.restZ (t : ℝ) : ℝ :=
  ∫ s, ∫ τ, residual volume (fun j τ => Spec.kXS g.params τ (g.tZ.get j)) (fun s τ => factF g.params t τ s) s τ ^ 2

include hm hγ

theorem GpcmModel.rest (hu : g.tU.Nodup) (hz : g.tZ.Nodup) (t : ℝ) :
    g.restU t ≤ Spec.unexplPower g.specInst t ∧ g.restZ t ≤ Spec.unexplPower g.specInst t ∧
    Spec.unexplPower g.specInst t ≤ g.restU t + g.restZ t ∧
    ∀ C : Chols (Fin g.tU.length) (Fin g.tZ.length), 0 ≤ ptC C g.specInst t ∧ ptC C g.specInst t ≤ g.restU t := by
  have ha : 0 < g.params.alpha := by have := hm.alpha_lo; show 0 < g.alpha; linarith
  have hγ' : 0 < g.params.gamma := hγ
  have ho : 0 < g.params.omega := by have := hm.omega_lo; show 0 < g.omega; linarith
  have hku := ku_posDef g.tU.get hγ' hm.alphaT (List.nodup_iff_injective_get.1 hu)
  have hkz := kz_posDef g.tZ.get ho hm.omegaT (List.nodup_iff_injective_get.1 hz)
  have hiux : g.specInst.iUx = .of fun i j => Spec.iux g.params t t (g.tU.get i) (g.tU.get j) := by
    ext i j
    have := spec_iux_shift g.params 0 0 t (g.tU.get i) (g.tU.get j)
    rw [zero_add] at this
    exact this.symm
  have hβ : ∀ i, MemLp (factU g.params (g.tU.get i)) 2 := fun i => memLp_factU hγ' _
  have hψ : ∀ j, MemLp (fun τ => Spec.kXS g.params τ (g.tZ.get j)) 2 := fun j => memLp_kXS ho _
  have hF := biL2_factF ha hγ' t
  have hA := hF.residual_A hβ hψ (by rw [gram_kz]; exact hkz) rfl
  have hB := hF.residual_B hβ hψ (by rw [gram_ku _ hγ']; exact hku) rfl
  have hc := hF.residual_c hβ hψ (by rw [gram_ku _ hγ']; exact hku) (by rw [gram_kz]; exact hkz) rfl
  have hU := hF.residual_sq hβ (by rw [gram_ku _ hγ']; exact hku)
  have hZ := hF.swap.residual_sq hψ (by rw [gram_kz]; exact hkz)
  have hsw : ∫ s, ∫ τ, factF g.params t τ s ^ 2 = ∫ τ, ∫ s, factF g.params t τ s ^ 2 :=
    (integral_integral_swap (f := fun τ s => factF g.params t τ s ^ 2) hF.prod.integrable_sq).symm
  rw [gram_kz, gram_iux _ hγ', gram_iuz _ _ hγ', ← hiux] at hA
  rw [gram_ku _ hγ', gram_ihz _ ha hγ' ho, gram_iuz _ _ hγ'] at hB
  rw [gram_ku _ hγ', gram_kz, gram_ihz _ ha hγ' ho, gram_iuz _ _ hγ', gram_iux _ hγ', ihx_factF hγ', ← hiux] at hc
  rw [gram_ku _ hγ', gram_iux _ hγ', ihx_factF hγ', ← hiux] at hU
  rw [gram_kz, gram_ihz _ ha hγ' ho, hsw, ihx_factF hγ'] at hZ
  have hA' := frob_nonneg hku.inv.posSemidef hA
  have hB' := frob_nonneg hkz.inv.posSemidef hB
  have hsub : ∀ {ι : Type} [Fintype ι] (P Q S : Matrix ι ι ℝ), frob P (Q - S) = Spec.inner P Q - Spec.inner P S :=
    fun P Q S => by simp only [frob_inner, Spec.inner, Matrix.sub_apply, mul_sub, Finset.sum_sub_distrib]
  rw [hsub] at hA' hB'
  rw [inner_mul_transpose] at hB'
  have hU' : g.restU t = Spec.ihx g.params t t - Spec.inner g.specInst.Ku⁻¹ g.specInst.iUx := hU
  have hZ' : g.restZ t = Spec.ihx g.params t t - Spec.inner g.specInst.Kz⁻¹ (g.specInst.iHz t) := hZ
  have eA : 0 ≤ Spec.inner g.specInst.Ku⁻¹ g.specInst.iUx -
    Spec.inner g.specInst.Ku⁻¹ (g.specInst.iUz t * g.specInst.Kz⁻¹ * (g.specInst.iUz t)ᵀ) := hA'
  have eB : 0 ≤ Spec.inner g.specInst.Kz⁻¹ (g.specInst.iHz t) -
    Spec.inner g.specInst.Ku⁻¹ (g.specInst.iUz t * g.specInst.Kz⁻¹ * (g.specInst.iUz t)ᵀ) := hB'
  have eC : 0 ≤ Spec.ihx g.params t t - Spec.inner g.specInst.Ku⁻¹ g.specInst.iUx -
    Spec.inner g.specInst.Kz⁻¹ (g.specInst.iHz t) +
    Spec.inner g.specInst.Ku⁻¹ (g.specInst.iUz t * g.specInst.Kz⁻¹ * (g.specInst.iUz t)ᵀ) := hc
  have hun : Spec.unexplPower g.specInst t = Spec.ihx g.params t t -
    Spec.inner g.specInst.Ku⁻¹ (g.specInst.iUz t * g.specInst.Kz⁻¹ * (g.specInst.iUz t)ᵀ) := rfl
  rw [hun, hU', hZ']
  refine ⟨by linarith, by linarith, by linarith, fun C => ?_⟩
  have hC : ptC C g.specInst t = Spec.ihx g.params t t - Spec.inner g.specInst.Ku⁻¹ g.specInst.iUx -
      Spec.inner g.specInst.Kz⁻¹ (g.specInst.iHz t) +
      Spec.inner g.specInst.Ku⁻¹ (g.specInst.iUz t * g.specInst.Kz⁻¹ * (g.specInst.iUz t)ᵀ) := by
    rw [ptC, Inst.KuInv, Inst.KzInv, pdInv_eq C.u (show g.specInst.Ku.PosDef from hku),
      pdInv_eq C.z (show g.specInst.Kz.PosDef from hkz)]
    rfl
  rw [hC]
  exact ⟨eC, by linarith⟩

end One

/-! ## C190 -/

variable (R : Runtime ℝ)

/-- **C190** When the inducing points of the filter and of the excitation fill intervals, however short, while
the other parameters stay as they are, the inducing variables explain all of the power of the signal at every
time in the limit, and the corrections in the bound for what they leave unexplained vanish. -/
theorem c190_fill {g : ℕ → GpcmModel} {p : Spec.Params} (hp : ∀ n, (g n).params = p) (hm : ∀ n, (g n).Moderate)
    (hγ : 0 < p.gamma) (hu : ∀ n, (g n).tU.Nodup) (hz : ∀ n, (g n).tZ.Nodup) {a b a' b' : ℝ} (hab : a < b)
    (hab' : a' < b') (hfu : Spec.Fills (fun n => (g n).tU) a b) (hfz : Spec.Fills (fun n => (g n).tZ) a' b')
    (m : ∀ n, Inst (Fin (g n).tU.length) (Fin (g n).tZ.length)) (hi : ∀ n, (g n).IsInst R (m n)) :
    (∀ t, Tendsto (fun n => Spec.unexplPower (m n) t) atTop (𝓝 0)) ∧
    ∀ (t : List ℝ) (C : ∀ n, Chols (Fin (g n).tU.length) (Fin (g n).tZ.length)),
      Tendsto (fun n => (constructTerms (C n) (m n) t).cSum) atTop (𝓝 0) := by
  have hgγ : ∀ n, 0 < (g n).gamma := fun n => by have := hγ; rw [← hp n] at this; exact this
  obtain rfl : m = fun n => (g n).specInst := by
    funext n
    exact (c98_instance R (g n) (hm n)).unique (hi n) ((g n).specInst_isInst R (hm n))
  have ha : 0 < p.alpha := by rw [← hp 0]; have := (hm 0).alpha_lo; show 0 < (g 0).alpha; linarith
  have ho : 0 < p.omega := by rw [← hp 0]; have := (hm 0).omega_lo; show 0 < (g 0).omega; linarith
  have haT : p.alphaT ≠ 0 := by rw [← hp 0]; exact (hm 0).alphaT
  have hoT : p.omegaT ≠ 0 := by rw [← hp 0]; exact (hm 0).omegaT
  have hfs : factScale p ≠ 0 := mul_ne_zero haT (rpow_pos_of_pos (by positivity) _).ne'
  have hget : ∀ {x : ℕ → List ℝ} {a b : ℝ}, Spec.Fills x a b →
      ∀ y ∈ Set.Ioo a b, ∀ δ > 0, ∀ᶠ n in atTop, ∃ i : Fin (x n).length, |(x n).get i - y| < δ := by
    intro x a b h y hy δ hδ
    filter_upwards [h y hy δ hδ] with n hn
    obtain ⟨u, hu, hd⟩ := hn
    obtain ⟨i, rfl⟩ := List.get_of_mem hu
    exact ⟨i, hd⟩
  have hU : ∀ t, Tendsto (fun n => (g n).restU t) atTop (𝓝 0) := fun t => by
    have hF := biL2_factF ha hγ t
    have := hF.residual_tendsto (w := 2 * p.gamma) (by linarith) hab (m := fun n => (g n).tU.length)
      (x := fun n => (g n).tU.get)
      (k := fun n i => factScale p * exp (-(p.alpha * (g n).tU.get i ^ 2)))
      (fun n i => mul_ne_zero hfs (exp_ne_zero _)) (hget hfu)
      (β := fun n i => factU p ((g n).tU.get i)) (fun n i s => rfl) (fun n => by
        rw [gram_ku _ hγ]
        exact ku_posDef _ hγ haT (List.nodup_iff_injective_get.1 (hu n)))
    simpa only [GpcmModel.restU, hp] using this
  have hZ : ∀ t, Tendsto (fun n => (g n).restZ t) atTop (𝓝 0) := fun t => by
    have hF := (biL2_factF ha hγ t).swap
    have := hF.residual_tendsto (w := p.omega) ho hab' (m := fun n => (g n).tZ.length)
      (x := fun n => (g n).tZ.get) (k := fun n i => p.omegaT) (fun n i => hoT) (hget hfz)
      (β := fun n j τ => Spec.kXS p τ ((g n).tZ.get j)) (fun n i s => by rw [kXS_symm]; rfl) (fun n => by
        rw [gram_kz]
        exact kz_posDef _ ho hoT (List.nodup_iff_injective_get.1 (hz n)))
    simpa only [GpcmModel.restZ, hp] using this
  have hrest := fun n => (g n).rest (hm n) (hgγ n) (hu n) (hz n)
  refine ⟨fun t => ?_, fun t C => ?_⟩
  · refine tendsto_of_tendsto_of_tendsto_of_le_of_le tendsto_const_nhds
      (by simpa only [add_zero] using (hU t).add (hZ t)) (fun n => ?_) fun n => (hrest n t).2.2.1
    refine le_trans ?_ (hrest n t).1
    exact integral_nonneg fun τ => integral_nonneg fun s => sq_nonneg _
  · simp only [constructTerms_cSum]
    induction t with
    | nil => simp
    | cons s t ih =>
      simp only [List.map_cons, List.sum_cons]
      have h1 : Tendsto (fun n => ptC (C n) (g n).specInst s) atTop (𝓝 0) :=
        tendsto_of_tendsto_of_tendsto_of_le_of_le tendsto_const_nhds (hU s)
          (fun n => ((hrest n s).2.2.2 (C n)).1) fun n => ((hrest n s).2.2.2 (C n)).2
      simpa only [add_zero] using h1.add ih

/-! ### The grids of the constructor -/

theorem fills_of_linspace {x : ℕ → List ℝ} {a b : ℝ} (hab : a < b) {s : ℕ → ℝ} (hs : Tendsto s atTop (𝓝 0))
    (h : ∀ᶠ n in atTop, ∃ lo hi k, linspace lo hi k = .ok (x n) ∧ lo ≤ a ∧ b ≤ hi ∧ 2 ≤ k ∧
      (hi - lo) / ((k : ℝ) - 1) ≤ s n) : Spec.Fills x a b := by
  intro y hy ε hε
  filter_upwards [h, hs.eventually_lt_const hε] with n hn hsn
  obtain ⟨lo, hi, k, hl, hlo, hhi, hk, hd⟩ := hn
  obtain ⟨-, hlen, hget⟩ := linspace_ok hl
  have hk1 : (1 : ℝ) ≤ (k : ℝ) - 1 := by
    have : (2 : ℝ) ≤ k := by exact_mod_cast hk
    linarith
  obtain ⟨δ, hδ⟩ : ∃ δ, δ = (hi - lo) / ((k : ℝ) - 1) := ⟨_, rfl⟩
  rw [← hδ] at hd hget
  have hδ0 : 0 < δ := by rw [hδ]; exact div_pos (by linarith) (by linarith)
  have hδk : δ * ((k : ℝ) - 1) = hi - lo := by rw [hδ]; field_simp
  have hy0 : 0 ≤ (y - lo) / δ := div_nonneg (by linarith [hy.1]) hδ0.le
  obtain ⟨i, hi'⟩ : ∃ i, i = ⌊(y - lo) / δ⌋₊ := ⟨_, rfl⟩
  have h1 : (i : ℝ) ≤ (y - lo) / δ := by rw [hi']; exact Nat.floor_le hy0
  have h2 : (y - lo) / δ < i + 1 := by rw [hi']; exact Nat.lt_floor_add_one _
  rw [le_div_iff₀ hδ0] at h1
  rw [div_lt_iff₀ hδ0] at h2
  have hik : (i : ℤ) < k := by
    have : (i : ℝ) * δ < ((k : ℝ) - 1) * δ := by linarith [hy.2]
    have := lt_of_mul_lt_mul_right this hδ0.le
    have : (i : ℝ) < k := by linarith
    exact_mod_cast this
  refine ⟨lo + δ * i, List.mem_of_getElem? (hget i hik), ?_⟩
  rw [abs_lt]
  constructor <;> nlinarith

theorem GpcmModel.grid_u {a : GpcmArgs} {g : GpcmModel} (h : GpcmModel.new a = .ok g) (ha : a.tU = none) {N : ℤ}
    (hN : a.nU = some N) (h2 : 2 ≤ N) (hα : 0 < g.alpha) : ∃ lo hi k, linspace lo hi k = .ok g.tU ∧ lo ≤ 0 ∧
      2 * factorToScale g.alpha ≤ hi ∧ 2 ≤ k ∧ (hi - lo) / ((k : ℝ) - 1) ≤ 4 * factorToScale g.alpha / ((N : ℝ) - 1) := by
  obtain ⟨-, -, h, -⟩ := GpcmModel.new_ok h
  have hm := factorToScale_pos hα
  have hN1 : (1 : ℝ) ≤ (N : ℝ) - 1 := by
    have : (2 : ℝ) ≤ N := by exact_mod_cast h2
    linarith
  unfold initTU autoNU at h
  rw [ha, hN] at h
  dsimp only [bind1] at h
  split_ifs at h with hc hn hp
  · obtain ⟨l, hl, h⟩ := bind1_ok h
    have e : l = g.tU := congrArg Prod.snd (Except.ok.inj h)
    subst e
    have hd0 : 0 ≤ 2 * factorToScale g.alpha / ((N - 1 : ℤ) : ℝ) := by push_cast; positivity
    refine ⟨_, _, _, hl, by linarith, le_rfl, by omega, ?_⟩
    push_cast
    rw [div_le_div_iff₀ (by linarith) (by linarith)]
    have : (2 * factorToScale g.alpha - -2 * (2 * factorToScale g.alpha / ((N : ℝ) - 1))) * ((N : ℝ) - 1) =
        2 * factorToScale g.alpha * ((N : ℝ) + 1) := by
      field_simp
      ring
    rw [this]
    nlinarith
  · obtain ⟨l, hl, h⟩ := bind1_ok h
    have e : l = g.tU := congrArg Prod.snd (Except.ok.inj h)
    subst e
    refine ⟨_, _, _, hl, by linarith, le_rfl, by omega, ?_⟩
    push_cast
    rw [div_le_div_iff₀ (by linarith) (by linarith)]
    nlinarith
  · obtain ⟨l, hl, h⟩ := bind1_ok h
    have e : l = g.tU := congrArg Prod.snd (Except.ok.inj h)
    subst e
    refine ⟨_, _, _, hl, by linarith, le_rfl, h2, le_of_eq ?_⟩
    ring

theorem GpcmModel.grid_z {a : GpcmArgs} {g : GpcmModel} (h : GpcmModel.new a = .ok g) (ha : a.tZ = none) {Z : ℤ}
    (hZ : a.nZ = some Z) (h2 : 2 ≤ Z) (hα : 0 < g.alpha) {t : List ℝ} (ht : a.t = some t) {lo hi : ℝ}
    (hlo : pyMin t = .ok lo) (hhi : pyMax t = .ok hi) (hlt : lo < hi) :
    ∃ lo' hi' k, linspace lo' hi' k = .ok g.tZ ∧ lo' ≤ lo ∧ hi ≤ hi' ∧ 2 ≤ k ∧
      (hi' - lo') / ((k : ℝ) - 1) ≤ (hi - lo) / ((Z : ℝ) - 1) := by
  obtain ⟨-, -, -, ⟨z, h1, h3⟩, -⟩ := GpcmModel.new_ok h
  have hm := factorToScale_pos hα
  have hZ1 : (1 : ℝ) ≤ (Z : ℝ) - 1 := by
    have : (2 : ℝ) ≤ Z := by exact_mod_cast h2
    linarith
  unfold initTZ autoNZ at h1
  rw [ha, ht, hZ] at h1
  dsimp only [need, bind1] at h1
  rw [hlo, hhi] at h1
  dsimp only [bind1] at h1
  obtain ⟨l, hl, h1⟩ := bind1_ok h1
  obtain rfl := Except.ok.inj h1
  unfold extendTZ at h3
  by_cases he : a.extendTZ = false
  · rw [if_pos he] at h3
    have e : l = g.tZ := congrArg Prod.snd (Except.ok.inj h3)
    subst e
    exact ⟨_, _, _, hl, le_rfl, le_rfl, h2, le_rfl⟩
  · rw [if_neg he, ht] at h3
    dsimp only [need, bind1] at h3
    rw [hlo, hhi] at h3
    dsimp only [bind1] at h3
    rw [if_neg (by omega)] at h3
    obtain ⟨d, hd⟩ : ∃ d, d = (hi - lo) / (((Z - 1 : ℤ)) : ℝ) := ⟨_, rfl⟩
    rw [← hd] at h3
    push_cast at hd
    have hd0 : 0 < d := by rw [hd]; exact div_pos (by linarith) (by linarith)
    have hdZ : d * ((Z : ℝ) - 1) = hi - lo := by rw [hd]; field_simp
    rw [if_neg hd0.ne'] at h3
    obtain ⟨k, hk⟩ : ∃ k, k = ⌈2 * factorToScale g.alpha / d⌉ := ⟨_, rfl⟩
    rw [← hk] at h3
    have hk0 : 0 ≤ k := by rw [hk]; exact Int.ceil_nonneg (by positivity)
    have hk0' : (0 : ℝ) ≤ k := by exact_mod_cast hk0
    have hkd : 0 ≤ (k : ℝ) * d := by positivity
    rw [← hd]
    split_ifs at h3 with hc
    · obtain ⟨l', hl', h3⟩ := bind1_ok h3
      have e : l' = g.tZ := congrArg Prod.snd (Except.ok.inj h3)
      subst e
      refine ⟨_, _, _, hl', by linarith, le_rfl, by omega, ?_⟩
      push_cast
      rw [div_le_iff₀ (by linarith)]
      nlinarith
    · obtain ⟨l', hl', h3⟩ := bind1_ok h3
      have e : l' = g.tZ := congrArg Prod.snd (Except.ok.inj h3)
      subst e
      refine ⟨_, _, _, hl', by linarith, by linarith, by omega, ?_⟩
      push_cast
      rw [div_le_iff₀ (by linarith)]
      nlinarith

theorem tendsto_spacing {N : ℕ → ℤ} (hN : Tendsto N atTop atTop) (c : ℝ) :
    Tendsto (fun n => c / ((N n : ℝ) - 1)) atTop (𝓝 0) := by
  have h1 : Tendsto (fun n => (N n : ℝ)) atTop atTop := tendsto_intCast_atTop_atTop.comp hN
  have h2 : Tendsto (fun n => (N n : ℝ) - 1) atTop atTop := by
    simpa only [sub_eq_add_neg] using tendsto_atTop_add_const_right atTop (-1) h1
  exact h2.const_div_atTop c

/-- **C190** The grids of the constructor do so: when the frequency `omega` of the transform of the excitation
is given, asking for ever more inducing points explains all of the power. -/
theorem c190_constructor {a : GpcmArgs} (hU : a.tU = none) (hZ : a.tZ = none) {ω : ℝ} (ho : a.omega = some ω)
    {t : List ℝ} (ht : a.t = some t) {x y : ℝ} (hx : x ∈ t) (hy : y ∈ t) (hxy : x ≠ y) {N Z : ℕ → ℤ}
    (hN : Tendsto N atTop atTop) (hZt : Tendsto Z atTop atTop) {g : ℕ → GpcmModel}
    (hg : ∀ n, GpcmModel.new { a with nU := some (N n), nZ := some (Z n) } = .ok (g n)) (hm : ∀ n, (g n).Moderate)
    (hγ : ∀ n, 0 < (g n).gamma) (m : ∀ n, Inst (Fin (g n).tU.length) (Fin (g n).tZ.length))
    (hi : ∀ n, (g n).IsInst R (m n)) :
    (∀ t, Tendsto (fun n => Spec.unexplPower (m n) t) atTop (𝓝 0)) ∧
    ∀ (t : List ℝ) (C : ∀ n, Chols (Fin (g n).tU.length) (Fin (g n).tZ.length)),
      Tendsto (fun n => (constructTerms (C n) (m n) t).cSum) atTop (𝓝 0) := by
  have hα : ∀ n, 0 < (g n).alpha := fun n => by have := (hm n).alpha_lo; linarith
  have hk := fun n => GpcmModel.new_ok (hg n)
  have eα : ∀ n, (g n).alpha = (g 0).alpha := fun n => Except.ok.inj ((hk n).1.symm.trans (hk 0).1)
  have eγ : ∀ n, (g n).gamma = (g 0).gamma := fun n => by
    have h1 := (hk n).2.1
    rw [eα n] at h1
    exact Except.ok.inj (h1.symm.trans (hk 0).2.1)
  have eω : ∀ n, (g n).omega = ω := fun n => by
    have h1 := (hk n).2.2.2.2.1
    unfold initOmega at h1
    simp only [ho] at h1
    exact (Except.ok.inj h1).symm
  have hp : ∀ n, (g n).params = (g 0).params := fun n => by
    have h1 := (hk n).2.2.2.2.2.1
    have h2 := (hk n).2.2.2.2.2.2.1
    have h3 := (hk n).2.2.2.2.2.2.2.1
    rw [eα n] at h1
    rw [eω n, ← eω 0] at h2
    unfold GpcmModel.params
    rw [eα n, eγ n, eω n, h1, h2, h3, (hk 0).2.2.2.2.2.1, (hk 0).2.2.2.2.2.2.1, (hk 0).2.2.2.2.2.2.2.1, eω 0]
    rfl
  obtain ⟨lo, hlo⟩ : ∃ lo, pyMin t = .ok lo := by
    cases t with
    | nil => simp at hx
    | cons c t => exact ⟨_, rfl⟩
  obtain ⟨hi', hhi⟩ : ∃ hi, pyMax t = .ok hi := by
    cases t with
    | nil => simp at hx
    | cons c t => exact ⟨_, rfl⟩
  have hlt : lo < hi' := by
    have a1 := Rgpcm.pyMin_le hlo x hx
    have a2 := Rgpcm.pyMin_le hlo y hy
    have a3 := Rgpcm.pyMax_ge hhi x hx
    have a4 := Rgpcm.pyMax_ge hhi y hy
    rcases lt_or_gt_of_ne hxy with h | h <;> linarith
  refine c190_fill R hp hm (hγ 0) (fun n => c98_distinct_u (hg n) hU (hα n))
    (fun n => c98_distinct_z (hg n) hZ (hα n) ht hx hy hxy) (a := 0) (b := 2 * factorToScale (g 0).alpha)
    (by have := factorToScale_pos (hα 0); positivity) hlt ?_ ?_ m hi
  · refine fills_of_linspace (by have := factorToScale_pos (hα 0); positivity) (tendsto_spacing hN (4 * factorToScale (g 0).alpha)) ?_
    filter_upwards [hN.eventually_ge_atTop 2] with n hn
    have := GpcmModel.grid_u (hg n) hU rfl hn (hα n)
    rwa [eα n] at this
  · refine fills_of_linspace hlt (tendsto_spacing hZt (hi' - lo)) ?_
    filter_upwards [hZt.eventually_ge_atTop 2] with n hn
    exact GpcmModel.grid_z (hg n) hZ rfl hn (hα n) ht hlo hhi hlt

/-! ### The default frequency -/

theorem GpcmModel.linspace_z {a : GpcmArgs} {g : GpcmModel} (h : GpcmModel.new a = .ok g) (ha : a.tZ = none) :
    ∃ lo hi k, linspace lo hi k = .ok g.tZ := by
  obtain ⟨-, -, -, ⟨z, h1, h2⟩, -⟩ := GpcmModel.new_ok h
  unfold initTZ at h1
  rw [ha] at h1
  dsimp only at h1
  obtain ⟨n, -, h1⟩ := bind1_ok h1
  obtain ⟨t, -, h1⟩ := bind1_ok h1
  obtain ⟨lo, -, h1⟩ := bind1_ok h1
  obtain ⟨hi, -, h1⟩ := bind1_ok h1
  obtain ⟨l, hl, h1⟩ := bind1_ok h1
  obtain rfl := Except.ok.inj h1
  unfold extendTZ at h2
  by_cases he : a.extendTZ = false
  · rw [if_pos he] at h2
    have e : l = g.tZ := congrArg Prod.snd (Except.ok.inj h2)
    exact ⟨_, _, _, e ▸ hl⟩
  · rw [if_neg he] at h2
    obtain ⟨t, -, h2⟩ := bind1_ok h2
    obtain ⟨hi, -, h2⟩ := bind1_ok h2
    obtain ⟨lo, -, h2⟩ := bind1_ok h2
    dsimp only at h2
    split_ifs at h2
    all_goals
      obtain ⟨l', hl', h2⟩ := bind1_ok h2
      have e : l' = g.tZ := congrArg Prod.snd (Except.ok.inj h2)
      exact ⟨_, _, _, e ▸ hl'⟩

theorem factF_gauss {p : Spec.Params} (hc : p.causal = false) (hb : 0 < p.alpha + 2 * p.gamma) (t s : ℝ) :
    ∃ a c, ∀ τ, factF p t τ s = a * gaussAt (p.alpha + 2 * p.gamma) c τ := by
  refine ⟨factScale p * exp (-(p.alpha * (2 * p.gamma) / (p.alpha + 2 * p.gamma) * (t - (t - s)) ^ 2)),
    (p.alpha * t + 2 * p.gamma * (t - s)) / (p.alpha + 2 * p.gamma), fun τ => ?_⟩
  rw [mul_assoc, ← gaussAt_mul hb]
  have hg : Spec.gate p (t - τ) = 1 := by
    unfold Spec.gate
    simp [hc]
  unfold factF factU gaussAt
  rw [hg, one_mul, mul_assoc]
  congr 4
  ring

/-- **C190, refuted for the default frequency.** By default `omega` follows the spacing of the inducing points of
the excitation. However finely they are then placed, and however many inducing points the filter has, they leave
more than 0.03% of the power of the signal unexplained, at every time. -/
theorem c190_default_false {a : GpcmArgs} {g : GpcmModel} (hg : GpcmModel.new a = .ok g) (hc : a.causal = false)
    (hZ : a.tZ = none) (ho : a.omega = none) (hm : g.Moderate) (hγ : 0 < g.gamma) (hu : g.tU.Nodup)
    (hz : g.tZ.Nodup) {z0 z1 : ℝ} (h0 : g.tZ[0]? = some z0) (h1 : g.tZ[1]? = some z1)
    (hs : (g.alpha + 2 * g.gamma) * (z1 - z0) ^ 2 ≤ 1) (m : Inst (Fin g.tU.length) (Fin g.tZ.length))
    (hi : g.IsInst R m) (t : ℝ) : 0 < m.iHx t t ∧ m.iHx t t / 3000 ≤ Spec.unexplPower m t := by
  obtain rfl := (c98_instance R g hm).unique hi (g.specInst_isInst R hm)
  have ha : 0 < g.params.alpha := by have := hm.alpha_lo; show 0 < g.alpha; linarith
  have hγ' : 0 < g.params.gamma := hγ
  have hb : 0 < g.params.alpha + 2 * g.params.gamma := by linarith
  have hk := GpcmModel.new_ok hg
  have hcau : g.params.causal = false := hk.2.2.2.2.2.2.2.1.trans hc
  obtain ⟨h, hh⟩ : ∃ h, h = z1 - z0 := ⟨_, rfl⟩
  rw [← hh] at hs
  have hne : h ≠ 0 := fun e => by
    have l0 := List.getElem?_eq_some_iff.1 h0
    have l1 := List.getElem?_eq_some_iff.1 h1
    obtain ⟨l0, e0⟩ := l0
    obtain ⟨l1, e1⟩ := l1
    have := (List.Nodup.getElem_inj_iff hz (hi := l0) (hj := l1)).1 (by rw [e0, e1]; linarith)
    omega
  have hom : g.params.omega = π / h ^ 2 := by
    have h2 := hk.2.2.2.2.1
    unfold initOmega at h2
    rw [ho] at h2
    match hl : g.tZ with
    | [] => rw [hl] at h0; simp at h0
    | [_] => rw [hl] at h1; simp at h1
    | y0 :: y1 :: l =>
      rw [hl] at h0 h1 h2
      simp only [List.getElem?_cons_zero, List.getElem?_cons_succ, Option.some.injEq] at h0 h1
      subst h0 h1
      have := (Except.ok.inj h2).symm
      show g.omega = _
      rw [this, scaleToFactor, hh]
      have : y1 - y0 ≠ 0 := hh ▸ hne
      field_simp
      norm_num
  obtain ⟨lo, hi', k, hl⟩ := GpcmModel.linspace_z hg hZ
  obtain ⟨-, hlen, hget⟩ := linspace_ok hl
  have hgrid : ∀ j : Fin g.tZ.length, g.tZ.get j = z0 + ((j : ℕ) : ℤ) * h := fun j => by
    have l1 := (List.getElem?_eq_some_iff.1 h1).1
    have e0 := hget 0 (by omega)
    have e1 := hget 1 (by omega)
    have ej := hget j (by have := j.2; omega)
    rw [h0] at e0
    rw [h1] at e1
    rw [List.getElem?_eq_getElem j.2] at ej
    have e0 := Option.some.inj e0
    have e1 := Option.some.inj e1
    have ej := Option.some.inj ej
    rw [List.get_eq_getElem, ej, hh, e0, e1]
    push_cast
    ring
  have hF := biL2_factF ha hγ' t
  have ho' : 0 < g.params.omega := by rw [hom]; positivity
  have hψ : ∀ j, MemLp (fun τ => Spec.kXS g.params τ (g.tZ.get j)) 2 := fun j => memLp_kXS ho' _
  have key : ∀ s, (∫ τ, factF g.params t τ s ^ 2) / 3000 ≤ ∫ τ, residual volume
      (fun j τ => Spec.kXS g.params τ (g.tZ.get j)) (fun s τ => factF g.params t τ s) s τ ^ 2 := fun s => by
    obtain ⟨A, c, hA⟩ := factF_gauss hcau hb t s
    unfold residual
    have e1 : ∫ τ, factF g.params t τ s ^ 2 = A ^ 2 * √(π / (2 * (g.params.alpha + 2 * g.params.gamma))) := by
      simp only [hA, mul_pow]
      rw [integral_const_mul]
      have := (gauss_prod hb c c).2
      simp only [sub_self, ne_eq, OfNat.ofNat_ne_zero, not_false_eq_true, zero_pow, mul_zero, neg_zero, exp_zero,
        mul_one] at this
      rw [← this]
      congr 2
      funext τ
      unfold gaussAt
      rw [sq, ← neg_sub c τ, neg_sq]
    rw [e1]
    refine (gap_le hb c z0 hne hs (fun j : Fin g.tZ.length => ((j : ℕ) : ℤ)) (fun _ => g.params.omegaT)
      ((gram volume (fun j τ => Spec.kXS g.params τ (g.tZ.get j)) fun j τ => Spec.kXS g.params τ (g.tZ.get j))⁻¹ *ᵥ
        fun j => ∫ τ, factF g.params t τ s * Spec.kXS g.params τ (g.tZ.get j)) A).trans (le_of_eq ?_)
    congr 1
    funext τ
    beta_reduce
    rw [hA]
    congr 2
    refine Finset.sum_congr rfl fun j _ => ?_
    rw [kXS_symm, ← hgrid, ← hom]
    rfl
  have hsw : ∫ s, ∫ τ, factF g.params t τ s ^ 2 = ∫ τ, ∫ s, factF g.params t τ s ^ 2 :=
    (integral_integral_swap (f := fun τ s => factF g.params t τ s ^ 2) hF.prod.integrable_sq).symm
  have hZ' : Spec.ihx g.params t t / 3000 ≤ g.restZ t := by
    rw [← ihx_factF hγ', ← hsw, ← integral_div]
    refine integral_mono ?_ ?_ key
    · exact (hF.swap.prod.integrable_sq.integral_prod_left).div_const _
    · exact (hF.swap.residual hψ).prod.integrable_sq.integral_prod_left
  refine ⟨?_, hZ'.trans (g.rest hm hγ hu hz t).2.1⟩
  show 0 < Spec.ihx g.params t t
  have e : ∀ τ, Spec.gate g.params (t - τ) * Spec.gate g.params (t - τ) * Spec.kH g.params (t - τ) (t - τ) =
      g.params.alphaT ^ 2 * (exp (-(g.params.alpha * (t - τ) ^ 2)) * exp (-(g.params.alpha * (τ - t) ^ 2))) := fun τ => by
    unfold Spec.gate Spec.kH
    rw [← neg_sub t τ, neg_sq]
    simp [hcau]
    ring
  unfold Spec.ihx
  simp only [e]
  rw [integral_const_mul, (gauss_prod ha t t).2]
  have := hm.alphaT
  have : 0 < g.params.alphaT ^ 2 := by
    have : g.params.alphaT ≠ 0 := hm.alphaT
    positivity
  positivity

/-! ### Examples -/

/-- Models with ever more inducing points. -/
theorem c190_witness (causal : Bool) (n : ℕ) : ∃ g : GpcmModel,
    GpcmModel.new { { witnessArgs causal 1 1 with omega := some 1 } with nU := some ((n : ℤ) + 2), nZ := some ((n : ℤ) + 2) } =
      .ok g ∧ g.Moderate ∧ 0 < g.gamma := by
  have hs : scaleToFactor 1 = π / 4 := by unfold scaleToFactor; ring
  have h1 := pi_gt_three
  have h2 := pi_lt_d2
  obtain ⟨u, hu⟩ : ∃ u, initTU { { witnessArgs causal 1 1 with omega := some 1 } with
      nU := some ((n : ℤ) + 2), nZ := some ((n : ℤ) + 2) } (scaleToFactor 1) = .ok u := by
    unfold initTU
    dsimp only [autoNU, witnessArgs, bind1]
    cases causal
    · simp only [Bool.false_eq_true, if_false]
      rw [linspace_of_nonneg (by split_ifs <;> omega)]
      exact ⟨_, rfl⟩
    · simp only [if_true]
      rw [if_neg (by omega), linspace_of_nonneg (by omega)]
      exact ⟨_, rfl⟩
  obtain ⟨z, hz⟩ : ∃ z, initTZ { { witnessArgs causal 1 1 with omega := some 1 } with
      nU := some ((n : ℤ) + 2), nZ := some ((n : ℤ) + 2) } = .ok z := by
    unfold initTZ
    dsimp only [autoNZ, witnessArgs, bind1, need, pyMin, pyMax]
    rw [linspace_of_nonneg (by omega)]
    exact ⟨_, rfl⟩
  have hg := GpcmModel.new_of (a := { { witnessArgs causal 1 1 with omega := some 1 } with
      nU := some ((n : ℤ) + 2), nZ := some ((n : ℤ) + 2) }) (al := scaleToFactor 1)
    (ga := scaleToFactor 1 - 0.5 * scaleToFactor 1) (om := 1) (z := z) (z0 := z) rfl rfl hu hz rfl rfl
  refine ⟨_, hg, ⟨?_, ?_, ?_, ?_, ?_, ?_, ?_, ?_⟩, ?_⟩
  · rw [(GpcmModel.new_ok hg).2.2.2.2.2.1]
    dsimp only [initAlphaT, witnessArgs]
    rw [hs]
    split_ifs <;> exact (rpow_pos_of_pos (by positivity) _).ne'
  · exact (rpow_pos_of_pos (by positivity) _).ne'
  · show (1e-10 : ℝ) ≤ scaleToFactor 1
    rw [hs]
    norm_num
    linarith
  · show scaleToFactor 1 ≤ (1e10 : ℝ)
    rw [hs]
    norm_num
    linarith
  · show (1e-10 : ℝ) ≤ scaleToFactor 1 + 2 * (scaleToFactor 1 - 0.5 * scaleToFactor 1)
    rw [hs]
    norm_num
    linarith
  · show scaleToFactor 1 + 2 * (scaleToFactor 1 - 0.5 * scaleToFactor 1) ≤ (1e10 : ℝ)
    rw [hs]
    norm_num
    linarith
  · show (1e-10 : ℝ) ≤ 1
    norm_num
  · show (1 : ℝ) ≤ 1e10
    norm_num
  · show 0 < scaleToFactor 1 - 0.5 * scaleToFactor 1
    rw [hs]
    linarith

example (causal : Bool) : ∃ (g : ℕ → GpcmModel) (m : ∀ n, Inst (Fin (g n).tU.length) (Fin (g n).tZ.length)),
    (∀ n, (g n).causal = causal) ∧ (∀ n, (g n).IsInst R (m n)) ∧
    ∀ t, Tendsto (fun n => Spec.unexplPower (m n) t) atTop (𝓝 0) := by
  choose g hg hm hγ using c190_witness causal
  refine ⟨g, fun n => (g n).specInst, fun n => ((GpcmModel.new_ok (hg n)).2.2.2.2.2.2.2.1),
    fun n => (g n).specInst_isInst R (hm n), ?_⟩
  have hN : Tendsto (fun n : ℕ => (n : ℤ) + 2) atTop atTop :=
    tendsto_atTop_add_const_right _ _ tendsto_natCast_atTop_atTop
  exact (c190_constructor R (a := { witnessArgs causal 1 1 with omega := some 1 }) rfl rfl rfl rfl (x := 0) (y := 1)
    (by simp) (by simp) (by norm_num) hN hN hg hm hγ _ fun n => (g n).specInst_isInst R (hm n)).1

/-- A model with the default frequency. -/
example : ∃ (g : GpcmModel) (m : Inst (Fin g.tU.length) (Fin g.tZ.length)), g.IsInst R m ∧
    ∀ t, 0 < m.iHx t t ∧ m.iHx t t / 3000 ≤ Spec.unexplPower m t := by
  have hu : initTU { witnessArgs false 1 1 with nU := some 3, nZ := some 3 } (scaleToFactor 1) = .ok (3, [-2, 0, 2]) := by
    simp [initTU, witnessArgs, autoNU, bind1]
    norm_num [linspace, List.range_succ, c58_inverse.2.2.1, toNat3]
  have hz : initTZ { witnessArgs false 1 1 with nU := some 3, nZ := some 3 } = .ok (3, [0, 1 / 2, 1]) := by
    simp [initTZ, witnessArgs, autoNZ, need, pyMin, pyMax, bind1, linspace, List.range_succ, toNat3]
    norm_num
  have hg := GpcmModel.new_of (a := { witnessArgs false 1 1 with nU := some 3, nZ := some 3 }) (al := scaleToFactor 1)
    (ga := scaleToFactor 1 - 0.5 * scaleToFactor 1) (om := scaleToFactor (0.5 * (1 / 2 - 0))) (z := (3, [0, 1 / 2, 1]))
    (z0 := (3, [0, 1 / 2, 1])) rfl rfl hu hz rfl rfl
  have hs : scaleToFactor 1 = π / 4 := by unfold scaleToFactor; ring
  have h1 := pi_gt_three
  have h2 := pi_lt_d2
  have hm := c65_default_moderate hg rfl rfl rfl rfl rfl rfl (by norm_num) (by norm_num)
    (by norm_num) (by norm_num) (by
      rintro z0 z1 ⟨⟩ ⟨⟩
      norm_num)
  refine ⟨_, _, GpcmModel.specInst_isInst R _ hm, fun t => c190_default_false R hg rfl rfl rfl hm ?_ ?_ ?_ (z0 := 0)
    (z1 := 1 / 2) rfl rfl ?_ _ (GpcmModel.specInst_isInst R _ hm) t⟩
  · show 0 < scaleToFactor 1 - 0.5 * scaleToFactor 1
    rw [hs]
    linarith
  · show [(-2 : ℝ), 0, 2].Nodup
    simp
    norm_num
  · show [(0 : ℝ), 1 / 2, 1].Nodup
    simp
  · show (scaleToFactor 1 + 2 * (scaleToFactor 1 - 0.5 * scaleToFactor 1)) * (1 / 2 - 0) ^ 2 ≤ 1
    rw [hs]
    norm_num
    linarith

end Gpcm
