import Verif.Lemmas.ResidualPos
import Verif.Props.BestProps
import Verif.Props.LearnedNoiseProps
import Verif.Props.PriorPredProps
import Verif.Props.ValidProps
import Verif.Props.RgpcmValidProps

/-!
# Property C191: training cannot drive the noise to zero

The inducing variables never determine the signal: `c_sum` is positive. It enters the bounds divided by the noise.
-/

set_option linter.unusedSectionVars false

open MeasureTheory Matrix Real Filter
open scoped Topology

namespace Gpcm

/-! ## The residual is positive -/

section gpcm

variable {p : Spec.Params}

theorem residual_pos_gpcm {a b : ℕ} {u : Fin a → ℝ} {z : Fin b → ℝ}
    (ha : 0 < p.alpha) (hγ : 0 < p.gamma) (ho : 0 < p.omega) (haT : p.alphaT ≠ 0) (hoT : p.omegaT ≠ 0)
    (hu : Function.Injective u) (hz : Function.Injective z) (t : ℝ) :
    0 < Spec.ihx p t t
      - Spec.inner (Matrix.of fun i j => Spec.kH p (u i) (u j))⁻¹ (Matrix.of fun i j => Spec.iux p t t (u i) (u j))
      - Spec.inner (Matrix.of fun i j => Spec.kz p (z i) (z j))⁻¹ (Matrix.of fun i j => Spec.ihz p t (z i) (z j))
      + Spec.inner (Matrix.of fun i j => Spec.kH p (u i) (u j))⁻¹ ((Matrix.of fun (i : Fin a) (j : Fin b) => Spec.iuz p t (u i) (z j)) *
        (Matrix.of fun i j => Spec.kz p (z i) (z j))⁻¹ * (Matrix.of fun (i : Fin a) (j : Fin b) => Spec.iuz p t (u i) (z j))ᵀ) := by
  have hku := ku_posDef (p := p) u hγ haT hu
  have hkz := kz_posDef (p := p) z ho hoT hz
  have hβ : ∀ i, MemLp (factU p (u i)) 2 := fun i => memLp_factU hγ _
  have hψ : ∀ j, MemLp (fun τ => Spec.kXS p τ (z j)) 2 := fun j => memLp_kXS ho _
  have hF := biL2_factF ha hγ t
  have := hF.residual_c_pos hβ hψ (by rw [gram_ku _ hγ]; exact hku) (by rw [gram_kz]; exact hkz) rfl
    (w := fun τ => Spec.gate p (t - τ)) (φ := fun τ => factU p (t - τ)) (fun τ s => rfl) (fun τ => memLp_factU hγ _)
    (show t - 1 < t by linarith) (fun τ hτ => by
      unfold Spec.gate
      rw [if_neg]
      · exact one_ne_zero
      · rintro ⟨-, h⟩
        have := hτ.2
        linarith)
    (fun x => by
      have e : ∀ τ, ∫ s, factU p (t - τ) s * factU p (t - x) s = Spec.kH p (t - τ) (t - x) := fun τ => integral_factU hγ _ _
      simp only [e]
      unfold Spec.kH
      fun_prop)
    (fun n x hx => by
      have h1 : Function.Injective fun k => t - x k := fun a b h => hx (by
        have h : t - x a = t - x b := h
        linarith)
      have := ku_posDef (p := p) (fun k => t - x k) hγ haT h1
      rwa [← gram_ku _ hγ] at this)
  rw [gram_ku _ hγ, gram_kz, gram_ihz _ ha hγ ho, gram_iuz _ _ hγ, gram_iux _ hγ, ihx_factF hγ] at this
  exact this

end gpcm

section rgpcm

open Rgpcm RgpcmModel

theorem ou_posDef {p : Spec.R.Params} (hl : 0 < p.lam) {n : ℕ} {x : Fin n → ℝ} (hx : Function.Injective x) :
    (gram volume (fun k => factX p (x k)) fun k => factX p (x k)).PosDef := by
  obtain ⟨g, hg⟩ : ∃ g : RgpcmModel, g = { exRgpcm with gamma := p.lam, gammaT := √(2 * p.lam), tU := List.ofFn x } := ⟨_, rfl⟩
  have hγ : g.gamma = p.lam := by rw [hg]
  have hγT : g.gammaT = √(2 * p.lam) := by rw [hg]
  have htU : g.tU = List.ofFn x := by rw [hg]
  have hlen : n = g.tU.length := by rw [htU, List.length_ofFn]
  have h := c74_posDef (g := g) (by rw [hγ]; exact hl) (by rw [hγT]; exact (sqrt_pos.2 (by linarith)).ne')
    (by rw [htU]; exact List.nodup_ofFn.2 hx)
  have h2 := h.submatrix (e := fun k : Fin n => Fin.cast hlen k) (Fin.cast_injective hlen)
  have e : (gram volume (fun k => factX p (x k)) fun k => factX p (x k)) =
      g.computeKu.submatrix (fun k : Fin n => Fin.cast hlen k) fun k : Fin n => Fin.cast hlen k := by
    ext i j
    rw [submatrix_apply, c74_covariance (by rw [hγ]; exact hl)]
    have e1 : ∀ k : Fin n, g.tU.get (Fin.cast hlen k) = x k := fun k => by
      simp [htU]
    rw [e1, e1]
    simp only [gram, of_apply]
    unfold Spec.R.ku factX Spec.R.smooth
    simp only [specOf, hγ, hγT]
    rfl
  rwa [e]

variable {g : RgpcmModel}

theorem residual_pos_rgpcm (h : g.Regular) (haT : g.alphaT ≠ 0) (s : ℝ) :
    0 < g.specInst.iHx s s - Spec.inner g.specInst.Ku⁻¹ g.specInst.iUx - Spec.inner g.specInst.Kz⁻¹ (g.specInst.iHz s) +
      Spec.inner g.specInst.Ku⁻¹ (g.specInst.iUz s * g.specInst.Kz⁻¹ * (g.specInst.iUz s)ᵀ) := by
  obtain ⟨p, hp⟩ : ∃ p, p = specOf g := ⟨_, rfl⟩
  have hα : 0 < p.alpha := hp ▸ h.alpha
  have hl : 0 < p.lam := hp ▸ h.lam
  have hγ : 0 < p.gamma := hp ▸ h.gamma
  have hab : p.a < p.b := hp ▸ h.ab
  have haT : p.alphaT ≠ 0 := hp ▸ haT
  have hv := specInst_valid h
  have eku : g.specInst.Ku = .of fun i j => Spec.R.ku p (g.tU.get i) (g.tU.get j) := by rw [hp]; rfl
  have ekz : g.specInst.Kz = .of fun i j => Spec.R.inner p.lam p.a p.b (Spec.R.wave p (g.ms.get i))
      (Spec.R.wave p (g.ms.get j)) := by rw [hp]; rfl
  have hku := eku ▸ hv.Ku
  have hkz := ekz ▸ hv.Kz
  have hiux : g.specInst.iUx = .of fun i j => Spec.R.iux p s s (g.tU.get i) (g.tU.get j) := by
    ext i j
    rw [hp]
    exact (iux_shift s _ _).symm
  have eihz : g.specInst.iHz s = .of fun i j => Spec.R.ihz p s (g.ms.get i) (g.ms.get j) := by rw [hp]; rfl
  have eiuz : g.specInst.iUz s = .of fun i j => Spec.R.iuz p s (g.tU.get i) (g.ms.get j) := by rw [hp]; rfl
  have eihx : g.specInst.iHx s s = Spec.R.ihx p s s := by rw [hp]; rfl
  have hβ : ∀ j, MemLp (factZ p (g.ms.get j)) 2 := fun j => memLp_factZ hl _
  have hψ : ∀ i, MemLp (Spec.R.smooth p (g.tU.get i)) 2 := fun i => memLp_smooth hγ _
  have hF := biL2_factS hα hl s
  have := hF.residual_c_pos hβ hψ (by rw [gram_factZ _ hl hab]; exact hkz) (by rw [gram_smooth]; exact hku) rfl
    (w := Spec.R.win p) (φ := fun τ => factX p (s - τ)) (fun τ r => rfl) (fun τ => memLp_factX hl _)
    (show (0 : ℝ) < 1 by norm_num) (fun τ hτ => by
      unfold Spec.R.win
      rw [if_pos hτ.1.le]
      exact mul_ne_zero haT (exp_ne_zero _))
    (fun x => by
      have e : ∀ τ, ∫ r, factX p (s - τ) r * factX p (s - x) r = Spec.R.kx p (s - τ) (s - x) := fun τ => integral_factX hl _ _
      simp only [e]
      unfold Spec.R.kx
      fun_prop)
    (fun n x hx => ou_posDef hl (x := fun k => s - x k) fun a b h => hx (by
        have h : s - x a = s - x b := h
        linarith))
  rw [gram_smooth, gram_factZ _ hl hab, gram_iuzR _ _ hl hab, gram_ihzR _ hl hab, gram_iuxR _ hα hl hγ,
    transpose_transpose, ihx_factS hl] at this
  rw [eihz, eiuz, eku, ekz, eihx, hiux, ← inner_mul_transpose]
  linarith

end rgpcm

/-! ## C191 -/

/-- **C191** Inducing variables never determine the signal of a GPCM or CGPCM: `c_sum` is positive for any observations. -/
theorem c191_positive {g : GpcmModel} (R : Runtime ℝ) (hm : g.Moderate) (hγ : 0 < g.gamma) (hu : g.tU.Nodup) (hz : g.tZ.Nodup)
    {m : Inst (Fin g.tU.length) (Fin g.tZ.length)} (hi : g.IsInst R m) (C : Chols (Fin g.tU.length) (Fin g.tZ.length))
    {t : List ℝ} (ht : t ≠ []) : 0 < (constructTerms C m t).cSum := by
  have ha : 0 < g.params.alpha := by have := hm.alpha_lo; show 0 < g.alpha; linarith
  have ho : 0 < g.params.omega := by have := hm.omega_lo; show 0 < g.omega; linarith
  obtain rfl := (c98_instance R g hm).unique hi (g.specInst_isInst R hm)
  have hu' := List.nodup_iff_injective_get.1 hu
  have hz' := List.nodup_iff_injective_get.1 hz
  have hku := ku_posDef (p := g.params) g.tU.get hγ hm.alphaT hu'
  have hkz := kz_posDef (p := g.params) g.tZ.get ho hm.omegaT hz'
  have key : ∀ s, 0 < ptC C g.specInst s := fun s => by
    have := residual_pos_gpcm (p := g.params) ha hγ ho hm.alphaT hm.omegaT hu' hz' s
    have hiux : g.specInst.iUx = .of fun i j => Spec.iux g.params s s (g.tU.get i) (g.tU.get j) := by
      ext i j
      have := spec_iux_shift g.params 0 0 s (g.tU.get i) (g.tU.get j)
      rw [zero_add] at this
      exact this.symm
    rw [← hiux] at this
    rw [ptC, Inst.KuInv, Inst.KzInv, pdInv_eq C.u (show g.specInst.Ku.PosDef from hku),
      pdInv_eq C.z (show g.specInst.Kz.PosDef from hkz)]
    exact this
  rw [constructTerms_cSum]
  exact List.sum_pos _ (fun x hx => by
    obtain ⟨s, -, rfl⟩ := List.mem_map.1 hx
    exact key s) (by simpa using ht)

open RgpcmModel in
/-- **C191** Nor do they determine that of an RGPCM. -/
theorem c191_positive_rgpcm {g : RgpcmModel} (h : g.Regular) (haT : g.alphaT ≠ 0) {perm : List ℕ} (hp : IsArgsort perm g.ms)
    {m : Inst (Fin g.tU.length) (Fin g.ms.length)} (hm : g.IsInst perm g.times m) (C : Chols (Fin g.tU.length) (Fin g.ms.length))
    {t : List ℝ} (ht : t ≠ []) (hts : ∀ s ∈ t, s ∈ g.times) : 0 < (constructTerms C m t).cSum := by
  have ha := hm.agree (specInst_isInst h hp)
  have hv := specInst_valid h
  rw [constructTerms_cSum]
  refine List.sum_pos _ (fun x hx => ?_) (by simpa using ht)
  obtain ⟨s, hs, rfl⟩ := List.mem_map.1 hx
  have := residual_pos_rgpcm h haT s
  rw [ptC, Inst.KuInv, Inst.KzInv, ha.Ku, ha.Kz, ha.iHx, ha.iUx, ha.iHz s (hts s hs), ha.iUz s (hts s hs), pdInv_eq C.u hv.Ku,
    pdInv_eq C.z hv.Kz]
  exact this

section

variable {ι κ : Type} [Fintype ι] [DecidableEq ι] [Fintype κ] [DecidableEq κ] (C : Chols ι κ) {m : Inst ι κ}

/-- The model without what the inducing variables do not determine. -/
noncomputable def Inst.explained (m : Inst ι κ) : Inst ι κ := { m with iHx := fun a b => m.iHx a b - ptC C m a }

theorem explained_valid (h : m.Valid) : (m.explained C).Valid :=
  ⟨h.Ku, h.Kz, h.noise, h.A, h.B, fun s => by
    show 0 ≤ m.iHx s s - ptC C m s - Spec.inner m.Ku⁻¹ m.iUx - Spec.inner m.Kz⁻¹ (m.iHz s) +
      Spec.inner m.Ku⁻¹ (m.iUz s * m.Kz⁻¹ * (m.iUz s)ᵀ)
    rw [ptC, Inst.KuInv, Inst.KzInv, pdInv_eq C.u h.Ku, pdInv_eq C.z h.Kz]
    simp only [frob_inner]
    linarith⟩

theorem ptMoments_floor (h : m.Valid) {u : ι → ℝ} {u2 : Matrix ι ι ℝ} {z : κ → ℝ} {z2 : Matrix κ κ ℝ}
    (hu : (u2 - vecMulVec u u).PosSemidef) (hz : (z2 - vecMulVec z z).PosSemidef) (s : ℝ) :
    (ptMoments C m u u2 z z2 s).1 ^ 2 + ptC C m s ≤ (ptMoments C m u u2 z z2 s).2 := by
  have h1 := ptMoments_var C (explained_valid C h) hu hz s
  have e1 : (ptMoments C (m.explained C) u u2 z z2 s).1 = (ptMoments C m u u2 z z2 s).1 := rfl
  have e2 : (ptMoments C (m.explained C) u u2 z z2 s).2 = (ptMoments C m u u2 z z2 s).2 - ptC C m s := by
    show frob (ptA C m s) u2 + frob (ptB C m s) z2 + (m.iHx s s - ptC C m s - frob (m.KuInv C) m.iUx - frob (m.KzInv C) (m.iHz s)
      + frob (m.KuInv C) (m.iUz s * m.KzInv C * (m.iUz s)ᵀ)) + frob u2 (m.iUz s * z2 * (m.iUz s)ᵀ) = _
    simp only [ptMoments, ptC]
    ring
  rw [e1, e2] at h1
  linarith

/-- The expected squared misfit. -/
noncomputable def misfitSum (d : List (ℝ × ℝ)) (u : ι → ℝ) (u2 : Matrix ι ι ℝ) (z : κ → ℝ) (z2 : Matrix κ κ ℝ) : ℝ :=
  (d.map fun p => p.2 ^ 2 - 2 * p.2 * (ptMoments C m u u2 z z2 p.1).1 + (ptMoments C m u u2 z z2 p.1).2).sum

theorem misfitSum_floor (h : m.Valid) (d : List (ℝ × ℝ)) {u : ι → ℝ} {u2 : Matrix ι ι ℝ} {z : κ → ℝ} {z2 : Matrix κ κ ℝ}
    (hu : (u2 - vecMulVec u u).PosSemidef) (hz : (z2 - vecMulVec z z).PosSemidef) :
    (constructDataTerms C m d).cSum ≤ misfitSum C (m := m) d u u2 z z2 := by
  rw [show (constructDataTerms C m d).cSum = _ from constructTerms_cSum C m _, List.map_map]
  refine list_sum_le fun p _ => ?_
  have := ptMoments_floor C h hu hz p.1
  show ptC C m p.1 ≤ _
  nlinarith [sq_nonneg (p.2 - (ptMoments C m u u2 z z2 p.1).1)]

theorem noiseFit_anti {n S S' v : ℝ} (hv : 0 < v) (h : S ≤ S') : noiseFit n S' v ≤ noiseFit n S v := by
  unfold noiseFit
  have := div_le_div_of_nonneg_right h (show (0 : ℝ) ≤ 2 * v by linarith)
  linarith

theorem sumEll_floor (h : m.Valid) (d : List (ℝ × ℝ)) {u : ι → ℝ} {u2 : Matrix ι ι ℝ} {z : κ → ℝ} {z2 : Matrix κ κ ℝ}
    (hu : (u2 - vecMulVec u u).PosSemidef) (hz : (z2 - vecMulVec z z).PosSemidef) :
    sumEll (constructDataTerms C m d) m.noise u u2 z z2 ≤ noiseFit d.length (constructDataTerms C m d).cSum m.noise := by
  rw [sumEll_noise]
  exact noiseFit_anti h.noise (misfitSum_floor C h d hu hz)

/-- **C191** What the mean-field bounds can reach with a given noise, for whatever posteriors. -/
theorem c191_mean_field (h : m.Valid) (s : Posts ι κ) (d : List (ℝ × ℝ)) (hpu : (s.pU m).prec.PosDef)
    (hpz : (s.pZ m).prec.PosDef) (hu : s.qU.prec.PosDef) (hz : s.qZ.prec.PosDef) (collapsed : Option String) (b : ℝ)
    (hb : MeanField.elbo C m s d collapsed = .ok b) :
    b ≤ -(1 / 2) * d.length * log (2 * π * m.noise) - (constructDataTerms C m d).cSum / (2 * m.noise) := by
  have key : ∀ {qu : NatNormal ι} {qz : NatNormal κ}, qu.prec.PosDef → qz.prec.PosDef →
      meanFieldBound C m (constructDataTerms C m d) (s.pU m) qu (s.pZ m) qz ≤
        noiseFit d.length (constructDataTerms C m d).cSum m.noise := by
    intro qu qz hqu hqz
    rw [meanFieldBound_eq]
    have h1 := sumEll_floor C h d (m2_sub_outer C.u hqu) (m2_sub_outer C.z hqz)
    have h2 := c18_nonneg C.u hqu hpu
    have h3 := c18_nonneg C.z hqz hpz
    linarith
  simp only [MeanField.elbo] at hb
  split at hb
  · rw [← Except.ok.inj hb]
    exact key hu hz
  · split_ifs at hb
    · rw [← Except.ok.inj hb]
      exact key hu (qzOptimalMF_posDef C h d hu)
    · rw [← Except.ok.inj hb]
      exact key (quOptimalMF_posDef C h d hz) hz

theorem logZu_floor (h : m.Valid) (d : List (ℝ × ℝ)) (u : ι → ℝ) :
    logZu C m (constructDataTerms C m d) u ≤ noiseFit d.length (constructDataTerms C m d).cSum m.noise := by
  have hq := qzOptimal_posDef C h d u
  have := ((c25_maximum C h d u).2 _ hq).2.2 rfl
  beta_reduce at this
  rw [← sumEll_expLogLik C h] at this
  have h1 := sumEll_floor C h d (u := u) (u2 := vecMulVec u u) (by rw [sub_self]; exact PosSemidef.zero) (m2_sub_outer C.z hq)
  have h2 := c18_nonneg C.z hq (p := ⟨0, m.Kz⟩) h.Kz
  linarith

/-- **C191** What the bound of the structured scheme can reach with a given noise, whatever the samples. -/
theorem c191_structured (h : m.Valid) (s : Posts ι κ) (d : List (ℝ × ℝ)) (hpu : (s.pU m).prec.PosDef)
    (hu : s.qU.prec.PosDef) (us : List (ι → ℝ)) (b : ℝ) (hb : elboCollapsedZ C m s d us = .ok b) :
    b ≤ -(1 / 2) * d.length * log (2 * π * m.noise) - (constructDataTerms C m d).cSum / (2 * m.noise) := by
  simp only [elboCollapsedZ] at hb
  split_ifs at hb with h0
  rw [← Except.ok.inj hb]
  have hl : 0 < (us.length : ℝ) := by positivity
  have h1 : (us.map (logZu C m (constructDataTerms C m d))).sum ≤
      us.length * noiseFit d.length (constructDataTerms C m d).cSum m.noise := by
    clear hb h0 hl
    induction us with
    | nil => simp
    | cons u us ih =>
      rw [List.map_cons, List.sum_cons, List.length_cons]
      have := logZu_floor C h d u
      push_cast
      linarith
  have h2 := c18_nonneg C.u hu hpu
  have h3 := (div_le_iff₀' hl).2 h1
  have h4 : noiseFit d.length (constructDataTerms C m d).cSum m.noise =
    -(1 / 2) * d.length * log (2 * π * m.noise) - (constructDataTerms C m d).cSum / (2 * m.noise) := rfl
  linarith

/-- **C191** What the objective of structured training can reach with a given noise, whatever the state of the sampler. -/
theorem c191_gibbs (h : m.Valid) (s : Posts ι κ) (d : List (ℝ × ℝ)) (hpu : (s.pU m).prec.PosDef)
    (W : ℕ → (ι → ℝ) × (κ → ℝ)) (k : ℕ) (x : (ι → ℝ) × (κ → ℝ)) :
    (elboGibbs C m s d W k x).1 ≤ -(1 / 2) * d.length * log (2 * π * m.noise) -
      (constructDataTerms C m d).cSum / (2 * m.noise) + (s.pU m).logpdf C.u ((s.pU m).mean C.u) := by
  have key : ∀ u, (s.pU m).logpdf C.u u ≤ (s.pU m).logpdf C.u ((s.pU m).mean C.u) := fun u => by
    have := hpu.posSemidef.dotProduct_mulVec_nonneg (u - (s.pU m).mean C.u)
    simp only [star_trivial] at this
    have e : ∑ i, ((s.pU m).prec *ᵥ (u - (s.pU m).mean C.u)) i * (u - (s.pU m).mean C.u) i =
        (u - (s.pU m).mean C.u) ⬝ᵥ ((s.pU m).prec *ᵥ (u - (s.pU m).mean C.u)) :=
      Finset.sum_congr rfl fun i _ => mul_comm _ _
    simp only [NatNormal.logpdf, e, sub_self, mulVec_zero, Pi.zero_apply, mul_zero, Finset.sum_const_zero]
    linarith
  have h1 := logZu_floor C h d
  exact add_le_add (h1 _) (key _)

/-! ### Limits -/

theorem noiseFit_zero {n c : ℝ} (hc : 0 < c) : Tendsto (noiseFit n c) (𝓝[>] 0) atBot := by
  have h1 : Tendsto (fun v : ℝ => -(n / 2) * (2 * π * v * log (2 * π * v) / (2 * π)) - c / 2) (𝓝[>] 0) (𝓝 (-(c / 2))) := by
    have : Continuous fun v : ℝ => -(n / 2) * (2 * π * v * log (2 * π * v) / (2 * π)) - c / 2 := by
      have := continuous_mul_log.comp (show Continuous fun v : ℝ => 2 * π * v by fun_prop)
      exact ((this.div_const _).const_mul _).sub continuous_const
    have := this.tendsto 0
    simp only [mul_zero, zero_mul, zero_div, zero_sub] at this
    exact this.mono_left nhdsWithin_le_nhds
  refine (tendsto_inv_nhdsGT_zero.atTop_mul_neg (by linarith : -(c / 2) < 0) h1).congr' ?_
  filter_upwards [self_mem_nhdsWithin] with v hv
  have hv : 0 < v := hv
  have := pi_pos
  unfold noiseFit
  field_simp

theorem noiseFit_top {n c : ℝ} (hn : 0 < n) (hc : 0 ≤ c) : Tendsto (noiseFit n c) atTop atBot := by
  have h1 : Tendsto (fun v : ℝ => log (2 * π * v)) atTop atTop :=
    tendsto_log_atTop.comp (tendsto_id.const_mul_atTop (by positivity))
  refine tendsto_atBot_mono' _ ?_ (h1.const_mul_atTop_of_neg (by linarith : -(1 / 2) * n < 0))
  filter_upwards [eventually_gt_atTop 0] with v hv
  unfold noiseFit
  have : 0 ≤ c / (2 * v) := by positivity
  linarith

/-- **C191** So the bounds of all schemes fall below any value as the noise vanishes, for all posteriors and samples alike. -/
theorem c191_vanish (h : m.Valid) (d : List (ℝ × ℝ)) (hc : 0 < (constructDataTerms C m d).cSum) (B : ℝ) :
    ∃ ε > 0, ∀ v, 0 < v → v < ε → ∀ s : Posts ι κ, s.qi = 0 → s.Proper →
      (∀ c b, MeanField.elbo C (m.withNoise v) s d c = .ok b → b < B) ∧
      (∀ us b, elboCollapsedZ C (m.withNoise v) s d us = .ok b → b < B) ∧
      ∀ W k x, (elboGibbs C (m.withNoise v) s d W k x).1 < B := by
  obtain ⟨P, hP⟩ : ∃ P : NatNormal ι, P = ⟨0, m.Ku⟩ := ⟨_, rfl⟩
  have h1 := (noiseFit_zero (n := d.length) hc).eventually
    ((eventually_lt_atBot B).and (eventually_lt_atBot (B - P.logpdf C.u (P.mean C.u))))
  rw [eventually_nhdsWithin_iff, Metric.eventually_nhds_iff] at h1
  obtain ⟨ε, hε, h1⟩ := h1
  refine ⟨ε, hε, fun v hv hvε s hs hp => ?_⟩
  obtain ⟨h2, h3⟩ := h1 (y := v) (by rw [Real.dist_eq, sub_zero, abs_of_pos hv]; exact hvε) hv
  have eu : s.pU (m.withNoise v) = ⟨0, m.Ku⟩ := if_pos hs
  have ez : s.pZ (m.withNoise v) = ⟨0, m.Kz⟩ := if_pos hs
  have hku : (s.pU (m.withNoise v)).prec.PosDef := by rw [eu]; exact h.Ku
  have hkz : (s.pZ (m.withNoise v)).prec.PosDef := by rw [ez]; exact h.Kz
  refine ⟨fun c b hb => ?_, fun us b hb => ?_, fun W k x => ?_⟩
  · exact (c191_mean_field C (h.withNoise hv) s d hku hkz hp.1 hp.2 c b hb).trans_lt h2
  · exact (c191_structured C (h.withNoise hv) s d hku hp.1 us b hb).trans_lt h2
  · have h4 := c191_gibbs C (h.withNoise hv) s d hku W k x
    rw [eu] at h4
    rw [hP] at h3
    refine lt_of_le_of_lt h4 ?_
    have : noiseFit d.length (constructDataTerms C m d).cSum v < B - (⟨0, m.Ku⟩ : NatNormal ι).logpdf C.u
      ((⟨0, m.Ku⟩ : NatNormal ι).mean C.u) := h3
    unfold noiseFit at this
    exact lt_sub_iff_add_lt.1 this

/-- **C191** Nor can training make the noise arbitrarily large. -/
theorem c191_large (h : m.Valid) (d : List (ℝ × ℝ)) (hd : d ≠ []) (B : ℝ) :
    ∃ M, ∀ v, M < v → ∀ s : Posts ι κ, s.qi = 0 → s.Proper →
      (∀ c b, MeanField.elbo C (m.withNoise v) s d c = .ok b → b < B) ∧
      ∀ us b, elboCollapsedZ C (m.withNoise v) s d us = .ok b → b < B := by
  have hn : (0 : ℝ) < d.length := by exact_mod_cast List.length_pos_iff.2 hd
  have hc : 0 ≤ (constructDataTerms C m d).cSum := by
    rw [show (constructDataTerms C m d).cSum = _ from constructTerms_cSum C m _]
    refine List.sum_nonneg fun x hx => ?_
    obtain ⟨s, -, rfl⟩ := List.mem_map.1 hx
    have := h.c s
    rw [ptC, Inst.KuInv, Inst.KzInv, pdInv_eq C.u h.Ku, pdInv_eq C.z h.Kz]
    exact this
  obtain ⟨M, h1⟩ := eventually_atTop.1 ((noiseFit_top hn hc).eventually (eventually_lt_atBot B))
  refine ⟨max M 0, fun v hv s hs hp => ?_⟩
  have hv0 := (le_max_right M 0).trans_lt hv
  have h2 := h1 v ((le_max_left M 0).trans hv.le)
  have hku : (s.pU (m.withNoise v)).prec.PosDef := by
    rw [show s.pU (m.withNoise v) = ⟨0, m.Ku⟩ from if_pos hs]; exact h.Ku
  have hkz : (s.pZ (m.withNoise v)).prec.PosDef := by
    rw [show s.pZ (m.withNoise v) = ⟨0, m.Kz⟩ from if_pos hs]; exact h.Kz
  exact ⟨fun c b hb => (c191_mean_field C (h.withNoise hv0) s d hku hkz hp.1 hp.2 c b hb).trans_lt h2,
    fun us b hb => (c191_structured C (h.withNoise hv0) s d hku hp.1 us b hb).trans_lt h2⟩

/-! ### The learned noise -/

/-- **C191** A noise that is locally optimal for the bound without collapsing is at least the average of what the inducing variables
cannot express. -/
theorem c191_learned (h : m.Valid) (s : Posts ι κ) (hp : s.Proper) (d : List (ℝ × ℝ))
    (hb : Spec.LocallyBest (fun v => MeanField.elbo C (m.withNoise v) s d none) m.noise) :
    (constructDataTerms C m d).cSum ≤ d.length * m.noise := by
  rw [c168_mean_field C h s d hb, unexplained_predict]
  exact misfitSum_floor C h d (m2_sub_outer C.u hp.1) (m2_sub_outer C.z hp.2)

/-- **C191** So is one that is locally optimal for a collapsed bound, -/
theorem c191_learned_collapsed (h : m.Valid) (s : Posts ι κ) (hs : s.qi = 0) (hp : s.Proper) (d : List (ℝ × ℝ)) {c : String}
    (hb : Spec.LocallyBest (fun v => MeanField.elbo C (m.withNoise v) s d (some c)) m.noise) :
    (constructDataTerms C m d).cSum ≤ d.length * m.noise := by
  have hc : c = "z" ∨ c = "u" := by
    obtain ⟨b, hb, -⟩ := hb
    simp only [MeanField.elbo] at hb
    split_ifs at hb with h1 h2
    · exact .inl h1
    · exact .inr h2
  rcases hc with rfl | rfl
  · rw [c168_collapsed_z C h s hs hp d hb, unexplained_predict, setZ_qU, setZ_qZ]
    exact misfitSum_floor C h d (m2_sub_outer C.u hp.1) (m2_sub_outer C.z (qzOptimalMF_posDef C h d hp.1))
  · rw [c168_collapsed_u C h s hs hp d hb, unexplained_predict, setU_qU, setU_qZ]
    exact misfitSum_floor C h d (m2_sub_outer C.u (quOptimalMF_posDef C h d hp.2)) (m2_sub_outer C.z hp.2)

/-- **C191** or for the bound of the structured scheme. -/
theorem c191_learned_structured (h : m.Valid) (s : Posts ι κ) (d : List (ℝ × ℝ)) (us : List (ι → ℝ))
    (hb : Spec.LocallyBest (fun v => elboCollapsedZ C (m.withNoise v) s d us) m.noise) :
    (constructDataTerms C m d).cSum ≤ d.length * m.noise := by
  have hus : us ≠ [] := by
    rintro rfl
    obtain ⟨b, hb, -⟩ := hb
    simp [elboCollapsedZ] at hb
  have hk0 : (0 : ℝ) < us.length := by exact_mod_cast List.length_pos_iff.2 hus
  obtain ⟨l, hl, e⟩ := c168_structured C h s d us hb
  rw [structured_predict_map C m _ hus] at hl
  rw [e, ← Except.ok.inj hl]
  simp only [toMeanVar]
  rw [unexplained_map m.noise d fun x => (_, _), show (constructDataTerms C m d).cSum = _ from constructTerms_cSum C m _, List.map_map]
  refine list_sum_le fun p _ => ?_
  show ptC C m p.1 ≤ p.2 ^ 2 - 2 * p.2 * (_ / _) + _ / _
  obtain ⟨f, hf⟩ : ∃ f : (ι → ℝ) → ℝ × ℝ, f = fun u => ptMoments C m u (vecMulVec u u)
    ((qzOptimal m (constructDataTerms C m d) u).mean C.z) ((qzOptimal m (constructDataTerms C m d) u).m2 C.z) p.1 := ⟨_, rfl⟩
  have hfl : ∀ u, (f u).1 ^ 2 + ptC C m p.1 ≤ (f u).2 := fun u => by
    rw [hf]
    exact ptMoments_floor C h (by rw [sub_self]; exact PosSemidef.zero) (m2_sub_outer C.z (qzOptimal_posDef C h d u)) p.1
  have key : ∀ l : List (ι → ℝ), l.length * ptC C m p.1 ≤
      l.length * p.2 ^ 2 - 2 * p.2 * (l.map fun u => (f u).1).sum + (l.map fun u => (f u).2).sum := fun l => by
    induction l with
    | nil => simp
    | cons u l ih =>
      rw [List.map_cons, List.sum_cons, List.map_cons, List.sum_cons, List.length_cons]
      have := hfl u
      push_cast
      nlinarith [sq_nonneg (p.2 - (f u).1)]
  have h1 := key us
  rw [hf] at h1
  have h2 : ∀ a b : ℝ, p.2 ^ 2 - 2 * p.2 * (a / us.length) + b / us.length = (us.length * p.2 ^ 2 - 2 * p.2 * a + b) / us.length :=
    fun a b => by field_simp
  rw [h2, le_div_iff₀' hk0]
  exact h1

/-! ### A best noise exists -/

theorem pairBound_noise (d : List (ℝ × ℝ)) (v : ℝ) (p : Pair ι κ) : pairBound C (m.withNoise v) d p =
    noiseFit d.length (misfitSum C (m := m) d (p.u.mean C.u) (p.u.m2 C.u) (p.z.mean C.z) (p.z.m2 C.z)) v -
      p.u.kl C.u ⟨0, m.Ku⟩ - p.z.kl C.z ⟨0, m.Kz⟩ := by
  unfold pairBound
  rw [meanFieldBound_eq]
  have := sumEll_noise C (m := m.withNoise v) d v (p.u.mean C.u) (p.u.m2 C.u) (p.z.mean C.z) (p.z.m2 C.z)
  rw [show (m.withNoise v).noise = v from rfl, this]
  rfl

theorem tendsto_misfit (d : List (ℝ × ℝ)) {it : ℕ → Pair ι κ} {r : Pair ι κ} (hp : ∀ k, (it k).Proper)
    (hr : r.Proper) (hu : ConvTo (fun k => (it k).u) r.u) (hz : ConvTo (fun k => (it k).z) r.z) :
    Tendsto (fun k => misfitSum C (m := m) d ((it k).u.mean C.u) ((it k).u.m2 C.u) ((it k).z.mean C.z) ((it k).z.m2 C.z)) atTop
      (𝓝 (misfitSum C (m := m) d (r.u.mean C.u) (r.u.m2 C.u) (r.z.mean C.z) (r.z.m2 C.z))) := by
  obtain ⟨a1, a2⟩ := hu.moments C.u (fun k => (hp k).1) hr.1
  obtain ⟨b1, b2⟩ := hz.moments C.z (fun k => (hp k).2) hr.2
  have h1 := tendsto_sumEll (constructDataTerms C m d) 1 a1 a2 b1 b2
  have e : ∀ u u2 z z2, misfitSum C (m := m) d u u2 z z2 =
      (-(1 / 2) * d.length * log (2 * π * 1) - sumEll (constructDataTerms C m d) 1 u u2 z z2) * 2 := fun u u2 z z2 => by
    rw [sumEll_noise]
    unfold misfitSum noiseFit
    ring
  simp only [e]
  exact (h1.const_sub _).mul_const _

/-- **C191** There is a noise and a mean-field approximation that are jointly best, and this noise is positive. -/
theorem c191_best (h : m.Valid) (d : List (ℝ × ℝ)) (hd : d ≠ []) (hc : 0 < (constructDataTerms C m d).cSum) :
    ∃ (v : ℝ) (p : Pair ι κ) (b : ℝ), (constructDataTerms C m d).cSum / d.length ≤ v ∧ p.u.prec.PosDef ∧ p.z.prec.PosDef ∧
      (∀ s : Posts ι κ, s.qi = 0 → s.qU = p.u → s.qZ = p.z → MeanField.elbo C (m.withNoise v) s d none = .ok b) ∧
      ∀ w, 0 < w → ∀ s : Posts ι κ, s.qi = 0 → s.Proper → ∀ c a, MeanField.elbo C (m.withNoise w) s d c = .ok a → a ≤ b := by
  have hn : (0 : ℝ) < d.length := by exact_mod_cast List.length_pos_iff.2 hd
  obtain ⟨F, hF⟩ : ∃ F : Pair ι κ → ℝ, F = fun p => misfitSum C (m := m) d (p.u.mean C.u) (p.u.m2 C.u) (p.z.mean C.z) (p.z.m2 C.z) :=
    ⟨_, rfl⟩
  obtain ⟨G, hG⟩ : ∃ G : Pair ι κ → ℝ, G = fun p => noiseFit d.length (F p) (F p / d.length) - p.u.kl C.u ⟨0, m.Ku⟩ -
    p.z.kl C.z ⟨0, m.Kz⟩ := ⟨_, rfl⟩
  have hFc : ∀ p : Pair ι κ, p.Proper → (constructDataTerms C m d).cSum ≤ F p := fun p hp => by
    rw [hF]
    exact misfitSum_floor C h d (m2_sub_outer C.u hp.1) (m2_sub_outer C.z hp.2)
  have hF0 : ∀ p : Pair ι κ, p.Proper → 0 < F p := fun p hp => hc.trans_le (hFc p hp)
  have hGb : ∀ p : Pair ι κ, G p = pairBound C (m.withNoise (F p / d.length)) d p := fun p => by
    rw [pairBound_noise, hG, hF]
  have hopt : ∀ p : Pair ι κ, p.Proper → ∀ w, 0 < w → pairBound C (m.withNoise w) d p ≤ G p := fun p hp w hw => by
    have h1 := hF0 p hp
    rw [pairBound_noise, hG]
    simp only [hF] at h1 ⊢
    by_cases e : w = misfitSum C (m := m) d (p.u.mean C.u) (p.u.m2 C.u) (p.z.mean C.z) (p.z.m2 C.z) / d.length
    · rw [← e]
    · have := noiseFit_lt hn h1 hw e
      linarith
  have hGle : ∀ p : Pair ι κ, p.Proper → G p ≤ -(1 / 2) * d.length * log (2 * π * ((constructDataTerms C m d).cSum / d.length)) -
      p.u.kl C.u ⟨0, m.Ku⟩ - p.z.kl C.z ⟨0, m.Kz⟩ := fun p hp => by
    have h1 := hFc p hp
    have h2 := hF0 p hp
    have h3 : log (2 * π * ((constructDataTerms C m d).cSum / d.length)) ≤ log (2 * π * (F p / d.length)) :=
      log_le_log (by have := pi_pos; positivity) (by gcongr)
    have h4 : 0 ≤ F p / (2 * (F p / d.length)) := by positivity
    rw [hG]
    unfold noiseFit
    nlinarith
  obtain ⟨S, hS⟩ : ∃ S, S = {b | ∃ q : Pair ι κ, q.Proper ∧ G q = b} := ⟨_, rfl⟩
  obtain ⟨p₀, hp₀⟩ : ∃ p : Pair ι κ, p = ⟨⟨0, 1⟩, ⟨0, 1⟩⟩ := ⟨_, rfl⟩
  have hP₀ : p₀.Proper := by rw [hp₀]; exact ⟨Matrix.PosDef.one, Matrix.PosDef.one⟩
  have hne : S.Nonempty := ⟨_, by rw [hS]; exact ⟨p₀, hP₀, rfl⟩⟩
  have hkl0 : ∀ p : Pair ι κ, p.Proper → 0 ≤ p.u.kl C.u ⟨0, m.Ku⟩ ∧ 0 ≤ p.z.kl C.z ⟨0, m.Kz⟩ := fun p hp =>
    ⟨c18_nonneg C.u hp.1 (p := ⟨0, m.Ku⟩) h.Ku, c18_nonneg C.z hp.2 (p := ⟨0, m.Kz⟩) h.Kz⟩
  have hbd : BddAbove S := by
    refine ⟨-(1 / 2) * d.length * log (2 * π * ((constructDataTerms C m d).cSum / d.length)), ?_⟩
    rw [hS]
    rintro _ ⟨q, hq, rfl⟩
    have h1 := hGle q hq
    have h2 := hkl0 q hq
    linarith [h2.1, h2.2]
  have hmax : ∀ q : Pair ι κ, q.Proper → G q ≤ sSup S := fun q hq => le_csSup hbd (by rw [hS]; exact ⟨q, hq, rfl⟩)
  have hex : ∃ r : Pair ι κ, r.Proper ∧ ∀ q : Pair ι κ, q.Proper → G q ≤ G r := by
    obtain ⟨v, -, hv, hvS⟩ := exists_seq_tendsto_sSup hne hbd
    have hvS' : ∀ k, ∃ q : Pair ι κ, q.Proper ∧ G q = v k := fun k => by
      have := hvS k
      rw [hS] at this
      exact this
    choose q hq hqv using hvS'
    by_cases hs : sSup S ≤ G p₀
    · exact ⟨p₀, hP₀, fun q hq => (hmax q hq).trans hs⟩
    rw [not_le] at hs
    obtain ⟨N, hN⟩ := eventually_atTop.1 (hv.eventually (lt_mem_nhds hs))
    have hkl : ∀ k, (q (k + N)).u.kl C.u ⟨0, m.Ku⟩ ≤ -(1 / 2) * d.length *
        log (2 * π * ((constructDataTerms C m d).cSum / d.length)) - G p₀ ∧ (q (k + N)).z.kl C.z ⟨0, m.Kz⟩ ≤
        -(1 / 2) * d.length * log (2 * π * ((constructDataTerms C m d).cSum / d.length)) - G p₀ := fun k => by
      have h1 := hGle _ (hq (k + N))
      have h2 := hkl0 _ (hq (k + N))
      have h3 := hN _ (Nat.le_add_left N k)
      rw [← hqv] at h3
      exact ⟨by linarith [h2.1, h2.2], by linarith [h2.1, h2.2]⟩
    obtain ⟨r, φ, hφ, c1, c2⟩ := limit_exists C h (it := fun k => q (k + N)) (fun k => hq _) hkl
    have hr : r.Proper := ⟨c1.posDef C.u h.Ku (fun k => (hq _).1) fun k => (hkl (φ k)).1,
      c2.posDef C.z h.Kz (fun k => (hq _).2) fun k => (hkl (φ k)).2⟩
    have tF := tendsto_misfit C (m := m) d (it := fun k => q (φ k + N)) (fun k => hq _) hr c1 c2
    have tG : Tendsto (fun k => G (q (φ k + N))) atTop (𝓝 (G r)) := by
      have hr0 := hF0 r hr
      have t1 : Tendsto (fun k => F (q (φ k + N))) atTop (𝓝 (F r)) := by rw [hF]; exact tF
      have t2 := t1.div_const (d.length : ℝ)
      have t3 := (((t2.const_mul (2 * π)).log (by have := pi_pos; positivity)).const_mul (-(1 / 2) * (d.length : ℝ))).sub
        (t1.div (t2.const_mul 2) (by positivity))
      rw [hG]
      exact (t3.sub (c1.kl C.u h.Ku (fun k => (hq _).1) hr.1)).sub (c2.kl C.z h.Kz (fun k => (hq _).2) hr.2)
    have ht' : Tendsto (fun k => G (q (φ k + N))) atTop (𝓝 (sSup S)) := by
      simp only [hqv]
      exact hv.comp ((tendsto_add_atTop_nat N).comp hφ.tendsto_atTop)
    have e := tendsto_nhds_unique tG ht'
    exact ⟨r, hr, fun q hq => (hmax q hq).trans e.ge⟩
  obtain ⟨r, hr, hbest⟩ := hex
  refine ⟨F r / d.length, r, G r, by have := hFc r hr; gcongr, hr.1, hr.2, fun s hs hu hz => ?_, fun w hw s hs hp c a ha => ?_⟩
  · rw [hGb]
    simp only [MeanField.elbo, pairBound, hu, hz, show ∀ w, s.pU (m.withNoise w) = ⟨0, m.Ku⟩ from fun w => if_pos hs,
      show ∀ w, s.pZ (m.withNoise w) = ⟨0, m.Kz⟩ from fun w => if_pos hs]
    rfl
  · obtain ⟨q, hq, rfl⟩ := elbo_le_pair C (h.withNoise hw) s hs hp d c a ha
    exact (hopt q hq w hw).trans (hbest q hq)

end

/-- The hypotheses hold for a GPCM and a CGPCM: there is a best noise for two equal observations at the same time. -/
example (causal : Bool) (R : Runtime ℝ) : ∃ (g : GpcmModel) (m : Inst (Fin g.tU.length) (Fin g.tZ.length)),
    GpcmModel.new { witnessArgs causal 1 1 with nU := some 3 } = .ok g ∧ g.IsInst R m ∧ m.Valid ∧ ∀ C : Chols (Fin g.tU.length) (Fin g.tZ.length),
      0 < (constructDataTerms C m [(0, 1), (0, 1)]).cSum ∧
      ∃ (v : ℝ) (p : Pair (Fin g.tU.length) (Fin g.tZ.length)) (b : ℝ), 0 < v ∧
        MeanField.elbo C (m.withNoise v) ⟨0, fun _ => p.u, fun _ => p.z⟩ [(0, 1), (0, 1)] none = .ok b ∧
        ∀ w, 0 < w → ∀ s : Posts _ _, s.qi = 0 → s.Proper → ∀ c a,
          MeanField.elbo C (m.withNoise w) s [(0, 1), (0, 1)] c = .ok a → a ≤ b := by
  obtain ⟨g, hg, hm, hz, -, -, hγ, ht⟩ := witness_moderate causal
  have hn : 0 < g.noise := by
    obtain ⟨-, -, -, -, -, -, -, -, hn, -⟩ := GpcmModel.new_ok hg
    rw [hn]
    norm_num [witnessArgs]
  have hu' : g.tU.Nodup := by
    rw [ht]
    cases causal <;> norm_num
  have hz' : g.tZ.Nodup := by
    rw [hz]
    norm_num
  have hv := g.specInst_valid hm hγ hn hu' hz'
  refine ⟨g, _, hg, g.specInst_isInst R hm, hv, fun C => ?_⟩
  have h0 : 0 < (constructDataTerms C g.specInst [(0, 1), (0, 1)]).cSum :=
    c191_positive R hm hγ hu' hz' (g.specInst_isInst R hm) C (t := [0, 0]) (by simp)
  obtain ⟨v, p, b, h1, -, -, h2, h3⟩ := c191_best C hv [(0, 1), (0, 1)] (by simp) h0
  exact ⟨h0, v, p, b, (div_pos h0 (by norm_num)).trans_le h1, h2 _ rfl rfl rfl, h3⟩

open Rgpcm in
/-- And for an RGPCM. -/
example (C : Chols (Fin exRgpcm.tU.length) (Fin exRgpcm.ms.length)) :
    ∃ m, exRgpcm.IsInst [1, 3, 4, 0, 2] exRgpcm.times m ∧ 0 < (constructTerms C m [1, 2]).cSum := by
  have h : exRgpcm.Regular := by constructor <;> norm_num [exRgpcm]
  have hp : IsArgsort [1, 3, 4, 0, 2] exRgpcm.ms := ⟨by decide, by decide⟩
  exact ⟨_, RgpcmModel.specInst_isInst h hp, c191_positive_rgpcm h (by norm_num [exRgpcm]) hp (RgpcmModel.specInst_isInst h hp) C
    (by simp) (by simp [RgpcmModel.times]; constructor <;> norm_num [exRgpcm])⟩

end Gpcm
