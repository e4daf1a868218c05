import Verif.Model.RgpcmInstance
import Verif.Lemmas.RgpcmValid
import Verif.Props.SignalProps

/-! # Property C109: the RGPCM satisfies the assumptions of the approximation -/

open MeasureTheory Matrix Real

namespace Gpcm

/-! ## The approximation looks at the integrals only at the times it is given -/

section congr

variable {ι κ : Type} [Fintype ι] [DecidableEq ι] [Fintype κ] [DecidableEq κ] (C : Chols ι κ) {m m' : Inst ι κ} {T : Set ℝ}

/-- Two instances differ at most in the integrals at times outside `T`. -/
structure Inst.AgreeOn (T : Set ℝ) (m m' : Inst ι κ) : Prop where
  Ku : m.Ku = m'.Ku
  Kz : m.Kz = m'.Kz
  noise : m.noise = m'.noise
  iHx : m.iHx = m'.iHx
  iUx : m.iUx = m'.iUx
  iHz : ∀ t ∈ T, m.iHz t = m'.iHz t
  iUz : ∀ t ∈ T, m.iUz t = m'.iUz t

theorem Inst.AgreeOn.terms (h : m.AgreeOn T m') {t : List ℝ} (ht : ∀ s ∈ t, s ∈ T) :
    constructTerms C m t = constructTerms C m' t := by
  have e1 : t.map m.iHz = t.map m'.iHz := List.map_congr_left fun s hs => h.iHz s (ht s hs)
  have e2 : t.map m.iUz = t.map m'.iUz := List.map_congr_left fun s hs => h.iUz s (ht s hs)
  unfold constructTerms Inst.KuInv Inst.KzInv
  simp only [e1, e2, h.Ku, h.Kz, h.iHx, h.iUx]

theorem Inst.AgreeOn.dataTerms (h : m.AgreeOn T m') {d : List (ℝ × ℝ)} (hd : ∀ s ∈ d, s.1 ∈ T) :
    constructDataTerms C m d = constructDataTerms C m' d := by
  have e : (d.map fun p => p.2 • m.iUz p.1) = d.map fun p => p.2 • m'.iUz p.1 :=
    List.map_congr_left fun s hs => by rw [h.iUz _ (hd s hs)]
  unfold constructDataTerms
  rw [e, h.terms C (t := d.map Prod.fst) fun s hs => by
    obtain ⟨p, hp, rfl⟩ := List.mem_map.1 hs
    exact hd p hp]

theorem Inst.AgreeOn.meanField (h : m.AgreeOn T m') (s : Posts ι κ) {t : List ℝ} (ht : ∀ s ∈ t, s ∈ T) :
    MeanField.predict C m s t = MeanField.predict C m' s t := by
  unfold MeanField.predict
  rw [h.terms C ht]
  obtain ⟨_, _, _, _, _, _, _⟩ := m
  obtain ⟨_, _, _, _, _, _, _⟩ := m'
  obtain ⟨h1, h2, h3, h4, h5, -, -⟩ := h
  simp only at h1 h2 h3 h4 h5
  subst h1 h2 h3 h4 h5
  rfl

theorem Inst.AgreeOn.structured (h : m.AgreeOn T m') (ts : Option (DataTerms ι κ)) {t : List ℝ} (ht : ∀ s ∈ t, s ∈ T)
    (us : List (ι → ℝ)) : Structured.predict C m ts t us = Structured.predict C m' ts t us := by
  unfold Structured.predict
  rw [h.terms C ht]
  obtain ⟨_, _, _, _, _, _, _⟩ := m
  obtain ⟨_, _, _, _, _, _, _⟩ := m'
  obtain ⟨h1, h2, h3, h4, h5, -, -⟩ := h
  simp only at h1 h2 h3 h4 h5
  subst h1 h2 h3 h4 h5
  rfl

theorem Inst.AgreeOn.elbo (h : m.AgreeOn T m') (s : Posts ι κ) {d : List (ℝ × ℝ)} (hd : ∀ s ∈ d, s.1 ∈ T)
    (c : Option String) : MeanField.elbo C m s d c = MeanField.elbo C m' s d c := by
  unfold MeanField.elbo
  rw [h.dataTerms C hd]
  obtain ⟨_, _, _, _, _, _, _⟩ := m
  obtain ⟨_, _, _, _, _, _, _⟩ := m'
  obtain ⟨h1, h2, h3, h4, h5, -, -⟩ := h
  simp only at h1 h2 h3 h4 h5
  subst h1 h2 h3 h4 h5
  rfl

theorem Inst.AgreeOn.elboCollapsed (h : m.AgreeOn T m') (s : Posts ι κ) {d : List (ℝ × ℝ)} (hd : ∀ s ∈ d, s.1 ∈ T)
    (us : List (ι → ℝ)) : elboCollapsedZ C m s d us = elboCollapsedZ C m' s d us := by
  unfold elboCollapsedZ
  rw [h.dataTerms C hd]
  obtain ⟨_, _, _, _, _, _, _⟩ := m
  obtain ⟨_, _, _, _, _, _, _⟩ := m'
  obtain ⟨h1, h2, h3, h4, h5, -, -⟩ := h
  simp only at h1 h2 h3 h4 h5
  subst h1 h2 h3 h4 h5
  rfl

end congr

/-! ## The instance -/

namespace RgpcmModel

variable (g : RgpcmModel)

/-- The times at which the RGPCM's integrals are right: the window of every inducing point of the filter ends in `[a, b]`. -/
def times : Set ℝ := {t | (∀ u ∈ g.tU, g.a ≤ t - u) ∧ g.a ≤ t ∧ t ≤ g.b}

/-- What the RGPCM needs for its integrals to be computed and to be right. -/
structure Regular : Prop where
  alpha : 0 < g.alpha
  lam : 0 < g.lam
  gamma : 0 < g.gamma
  gammaT : g.gammaT ≠ 0
  noise : 0 < g.noise
  ab : g.a < g.b
  mMax : 0 ≤ g.mMax
  tU_pos : ∀ u ∈ g.tU, 0 ≤ u
  tU : g.tU.Nodup
  ms : g.ms.Nodup
  ne : g.gamma ≠ g.alpha
  ne_sq : (g.gamma - g.alpha) ^ 2 ≠ g.lam ^ 2

open Rgpcm

/-- The instance in terms of the specified integrals. -/
noncomputable def specInst : Inst (Fin g.tU.length) (Fin g.ms.length) where
  Ku := .of fun i j => Spec.R.ku (specOf g) (g.tU.get i) (g.tU.get j)
  Kz := .of fun i j => Spec.R.inner g.lam g.a g.b (Spec.R.wave (specOf g) (g.ms.get i)) (Spec.R.wave (specOf g) (g.ms.get j))
  noise := g.noise
  iHx := Spec.R.ihx (specOf g)
  iUx := .of fun i j => Spec.R.iux (specOf g) 0 0 (g.tU.get i) (g.tU.get j)
  iHz := fun t => .of fun i j => Spec.R.ihz (specOf g) t (g.ms.get i) (g.ms.get j)
  iUz := fun t => .of fun i j => Spec.R.iuz (specOf g) t (g.tU.get i) (g.ms.get j)

variable {g}

theorem specInst_isInst (h : g.Regular) {perm : List ℕ} (hp : IsArgsort perm g.ms) :
    g.IsInst perm g.times g.specInst where
  Ku := by ext i j; exact (c74_covariance h.gamma i j).symm
  Kz := by ext i j; exact (c73_gram h.lam h.ab h.mMax h.ms i j).symm
  noise := rfl
  iHx := fun a b => (c63_covariance_rgpcm h.alpha a b).symm
  iUx := fun i j => c69_equal_times g h.ne h.ne_sq 0 (h.tU_pos _ (List.get_mem _ _)) (h.tU_pos _ (List.get_mem _ _))
  iHz := fun t ht => by
    rw [c70_ihz h.alpha h.lam h.mMax hp ht.2.1 ht.2.2, map_rows]
    rfl
  iUz := fun t ht => by
    rw [c71_iuz h.ne.symm h.mMax hp h.tU_pos ht.1 ht.2.2, map_rows]
    rfl

theorem IsInst.agree {perm : List ℕ} {T : Set ℝ} {m m' : Inst (Fin g.tU.length) (Fin g.ms.length)}
    (h : g.IsInst perm T m) (h' : g.IsInst perm T m') : m.AgreeOn T m' where
  Ku := h.Ku.trans h'.Ku.symm
  Kz := h.Kz.trans h'.Kz.symm
  noise := h.noise.trans h'.noise.symm
  iHx := by funext a b; exact (h.iHx a b).trans (h'.iHx a b).symm
  iUx := by ext i j; exact Except.ok.inj ((h.iUx i j).symm.trans (h'.iUx i j))
  iHz := fun t ht => rows_injective (Except.ok.inj ((h.iHz t ht).symm.trans (h'.iHz t ht)))
  iUz := fun t ht => rows_injective (Except.ok.inj ((h.iUz t ht).symm.trans (h'.iUz t ht)))

theorem iux_shift (t : ℝ) (u1 u2 : ℝ) :
    Spec.R.iux (specOf g) t t u1 u2 = Spec.R.iux (specOf g) 0 0 u1 u2 := by
  unfold Spec.R.iux Spec.R.kx
  simp only [sub_sub_sub_cancel_left]

theorem specInst_valid (h : g.Regular) : g.specInst.Valid := by
  obtain ⟨p, hp⟩ : ∃ p, p = specOf g := ⟨_, rfl⟩
  have hα : 0 < p.alpha := hp ▸ h.alpha
  have hl : 0 < p.lam := hp ▸ h.lam
  have hγ : 0 < p.gamma := hp ▸ h.gamma
  have hab : p.a < p.b := hp ▸ h.ab
  have hku : (Matrix.of fun i j => Spec.R.ku p (g.tU.get i) (g.tU.get j)).PosDef := by
    have := c74_posDef h.gamma h.gammaT h.tU
    rwa [show g.computeKu = g.specInst.Ku by ext i j; exact c74_covariance h.gamma i j, specInst, ← hp] at this
  have hkz : (Matrix.of fun i j => Spec.R.inner p.lam p.a p.b (Spec.R.wave p (g.ms.get i))
      (Spec.R.wave p (g.ms.get j))).PosDef := by
    have := c73_posDef h.lam h.ab
    rw [show g.computeKz = g.specInst.Kz by ext i j; exact c73_gram h.lam h.ab h.mMax h.ms i j, specInst] at this
    rw [hp]
    exact this
  have hiux : ∀ s, g.specInst.iUx = .of fun i j => Spec.R.iux p s s (g.tU.get i) (g.tU.get j) := fun s => by
    ext i j
    rw [hp]
    exact (iux_shift s _ _).symm
  have eku : g.specInst.Ku = .of fun i j => Spec.R.ku p (g.tU.get i) (g.tU.get j) := by rw [hp]; rfl
  have ekz : g.specInst.Kz = .of fun i j => Spec.R.inner p.lam p.a p.b (Spec.R.wave p (g.ms.get i))
      (Spec.R.wave p (g.ms.get j)) := by rw [hp]; rfl
  have eihz : ∀ t, g.specInst.iHz t = .of fun i j => Spec.R.ihz p t (g.ms.get i) (g.ms.get j) := fun t => by rw [hp]; rfl
  have eiuz : ∀ t, g.specInst.iUz t = .of fun i j => Spec.R.iuz p t (g.tU.get i) (g.ms.get j) := fun t => by rw [hp]; rfl
  have eihx : ∀ t, g.specInst.iHx t t = Spec.R.ihx p t t := fun t => by rw [hp]; rfl
  have hβ : ∀ j, MemLp (factZ p (g.ms.get j)) 2 := fun j => memLp_factZ hl _
  have hψ : ∀ i, MemLp (Spec.R.smooth p (g.tU.get i)) 2 := fun i => memLp_smooth hγ _
  refine ⟨eku ▸ hku, ekz ▸ hkz, h.noise, fun s => ?_, fun s => ?_, fun s => ?_⟩
  · have hF := biL2_factS hα hl s
    have := hF.residual_B hβ hψ (by rw [gram_factZ _ hl hab]; exact hkz) rfl
    rw [gram_factZ _ hl hab, gram_iuzR _ _ hl hab, gram_iuxR _ hα hl hγ, transpose_transpose] at this
    rw [hiux s, eiuz, ekz]
    exact this
  · have hF := biL2_factS hα hl s
    have := hF.residual_A hβ hψ (by rw [gram_smooth]; exact hku) rfl
    rw [gram_smooth, gram_iuzR _ _ hl hab, gram_ihzR _ hl hab, transpose_transpose] at this
    rw [eihz, eiuz, eku]
    exact this
  · have hF := biL2_factS hα hl s
    have := hF.residual_c hβ hψ (by rw [gram_factZ _ hl hab]; exact hkz) (by rw [gram_smooth]; exact hku) rfl
    rw [gram_smooth, gram_factZ _ hl hab, gram_iuzR _ _ hl hab, gram_ihzR _ hl hab, gram_iuxR _ hα hl hγ,
      transpose_transpose, ihx_factS hl] at this
    rw [eihz, eiuz, eku, ekz, eihx, hiux s, ← inner_mul_transpose]
    linarith

end RgpcmModel

open Rgpcm RgpcmModel

variable {g : RgpcmModel}

/-- **C109** At the times that its interval covers, the RGPCM computes all integrals without error, they determine what the
approximation works with at these times, and they satisfy its assumptions: the kernel matrices are positive definite and
all residual second moments are positive semi-definite. -/
theorem c109_valid (h : g.Regular) {perm : List ℕ} (hp : IsArgsort perm g.ms) :
    ∃ m, g.IsInst perm g.times m ∧ m.Valid ∧ ∀ m', g.IsInst perm g.times m' → m'.AgreeOn g.times m :=
  ⟨g.specInst, specInst_isInst h hp, specInst_valid h, fun _ h' => h'.agree (specInst_isInst h hp)⟩

/-- **C109** A model that was constructed with default inducing points, interval, features and inter-domain transform
satisfies what this needs, and its data lie in its interval, unless `alpha - gamma` happens to equal `lam`. -/
theorem c109_constructed {x : RgpcmArgs} (hg : RgpcmModel.new x = .ok g) (hx : x.tU = none) (ha : x.a = none)
    (hb : x.b = none) (hms : x.ms = none) (hγ : x.gamma = none) (hγT : x.gammaT = none) (hα : 0 < g.alpha)
    (hl : 0 < g.lam) (hn : 0 < x.noise) (hM : 0 ≤ g.mMax) (hne : g.alpha - g.gamma ≠ g.lam) :
    g.Regular ∧ ∃ t, x.t = some t ∧ ∀ s ∈ t, s ∈ g.times := by
  have hnoise : g.noise = x.noise := by
    unfold RgpcmModel.new at hg
    obtain ⟨alpha, h1, h⟩ := bind1_ok hg
    obtain ⟨lam, h2, h⟩ := bind1_ok h
    obtain ⟨extent, h3, h⟩ := bind1_ok h
    obtain ⟨u, h4, h⟩ := bind1_ok h
    obtain ⟨a, h5, h⟩ := bind1_ok h
    obtain ⟨b, h6, h⟩ := bind1_ok h
    obtain ⟨m, h7, h⟩ := bind1_ok h
    obtain ⟨gamma, h8, h⟩ := bind1_ok h
    obtain rfl := Except.ok.inj h
    rfl
  obtain ⟨h1, h2⟩ := c75_constructed hg hα
  obtain ⟨t, ht, hts⟩ := c77_constructed_partial hg ha hb
  obtain ⟨-, -, h3, h4, h5, -, h7, -, -, gamma, h8, h9, h10⟩ := new_ok hg
  unfold Rgpcm.initTU at h3
  rw [hx] at h3
  dsimp only at h3
  obtain ⟨m, hm, h3⟩ := bind1_ok h3
  obtain ⟨n, hn', h3⟩ := bind1_ok h3
  obtain ⟨l, hlin, h3⟩ := bind1_ok h3
  obtain rfl : l = g.tU := congrArg Prod.snd (Except.ok.inj h3)
  have hmv : m = π / g.alpha := by
    unfold divE at hm
    rw [if_neg hα.ne'] at hm
    exact (Except.ok.inj hm).symm
  have hm0 : 0 < m := by rw [hmv]; positivity
  have hnd : g.tU.Nodup := linspace_nodup hlin fun _ => hm0.ne
  unfold linspace at hlin
  split_ifs at hlin with hneg
  have hlist := Except.ok.inj hlin
  have hpos : ∀ u ∈ g.tU, 0 ≤ u := fun u hu => by
    rw [← hlist] at hu
    obtain ⟨i, hi, rfl⟩ := List.mem_map.1 hu
    have hi := List.mem_range.1 hi
    have : (0 : ℝ) ≤ (n : ℝ) - 1 := by
      have : (1 : ℤ) ≤ n := by omega
      have : (1 : ℝ) ≤ n := by exact_mod_cast this
      linarith
    have : 0 ≤ (m - 0) / ((n : ℝ) - 1) := div_nonneg (by linarith) this
    have h0 : (0 : ℝ) ≤ i := Nat.cast_nonneg i
    have := mul_nonneg this h0
    linarith
  unfold Rgpcm.initGamma at h8
  rw [hγ] at h8
  simp only [orElse] at h8
  have hgam : 0 < gamma ∧ ∃ v ∈ g.tU, 0 < v := by
    split at h8
    · rename_i u0 u1 r he
      have e0 : g.tU[0]? = some u0 := by rw [he]; rfl
      have e1 : g.tU[1]? = some u1 := by rw [he]; rfl
      rw [← hlist] at e0 e1
      have hn2 : 2 ≤ n := by
        by_contra hc
        have : n.toNat ≤ 1 := by omega
        rw [List.getElem?_map, List.getElem?_eq_none (by simpa using this)] at e1
        exact nomatch e1
      have hn3 : (0 : ℝ) < (n : ℝ) - 1 := by
        have : (2 : ℝ) ≤ n := by exact_mod_cast hn2
        linarith
      have h02 : 0 < n.toNat := by omega
      have h12 : 1 < n.toNat := by omega
      rw [List.getElem?_map, List.getElem?_range h02] at e0
      rw [List.getElem?_map, List.getElem?_range h12] at e1
      have e0 := Option.some.inj e0
      have e1 := Option.some.inj e1
      simp only [Nat.cast_zero, mul_zero, add_zero, Nat.cast_one, mul_one, sub_zero, zero_add] at e0 e1
      have hd : 0 < m / ((n : ℝ) - 1) := div_pos hm0 hn3
      refine ⟨?_, u1, by rw [he]; simp, by rw [← e1]; exact hd⟩
      unfold divE at h8
      rw [if_neg (by rw [← e0, ← e1]; nlinarith)] at h8
      rw [← Except.ok.inj h8, ← e0, ← e1, sub_zero]
      positivity
    · exact nomatch h8
  obtain ⟨hg0, v, hv, hv0⟩ := hgam
  have hgg : 0 < g.gamma := by
    rw [h9]
    exact lt_min hg0 (by positivity)
  have hab : g.a < g.b := by
    unfold initB at h5
    rw [hb, ht] at h5
    have h5 : pyMax t = .ok g.b := h5
    cases t with
    | nil => exact nomatch h5
    | cons s r =>
      obtain ⟨h6, h7⟩ := hts s (by simp)
      have := h6 v hv
      linarith
  refine ⟨⟨hα, hl, hgg, ?_, hnoise ▸ hn, hab, hM, hpos, hnd, ?_, h1.ne, fun h => ?_⟩, t, ht, fun s hs => ?_⟩
  · rw [h10, hγT]
    exact (sqrt_pos.2 (by linarith)).ne'
  · rw [h7, initMs, hms]
    exact List.nodup_range
  · rcases sq_eq_sq_iff_eq_or_eq_neg.1 h with h | h
    · linarith
    · exact hne (by linarith)
  · obtain ⟨h6, h7⟩ := hts s hs
    have := h6 v hv
    exact ⟨h6, by linarith, h7⟩

/-! ## C108 for the RGPCM -/

/-- The mean and the second moment of the signal, when the inducing variables are independent with means `u` and `z` and
second moments `u2` and `z2`. -/
noncomputable def RgpcmModel.signal (g : RgpcmModel) (u : Fin g.tU.length → ℝ)
    (u2 : Matrix (Fin g.tU.length) (Fin g.tU.length) ℝ) (z : Fin g.ms.length → ℝ)
    (z2 : Matrix (Fin g.ms.length) (Fin g.ms.length) ℝ) (t : ℝ) : ℝ × ℝ :=
  let c := fun m => Spec.R.phi (specOf g) (g.ms.get m)
  let d := fun i s => Spec.R.khu (specOf g) s (g.tU.get i)
  (Spec.signalMean c z d u t,
    Spec.signalM2 (Spec.R.kx (specOf g)) c (z2 - (Matrix.of fun i j => Spec.R.inner g.lam g.a g.b
        (Spec.R.wave (specOf g) (g.ms.get i)) (Spec.R.wave (specOf g) (g.ms.get j)))⁻¹)
      (Spec.R.win (specOf g)) d (u2 - (Matrix.of fun i j => Spec.R.ku (specOf g) (g.tU.get i) (g.tU.get j))⁻¹) t)

theorem moments_change_swap {ι κ : Type} [Fintype ι] [DecidableEq ι] [Fintype κ] [DecidableEq κ] (ihx : ℝ) (iux : Matrix ι ι ℝ) (ihz : Matrix κ κ ℝ)
    (iuz : Matrix ι κ ℝ) (KuInv : Matrix ι ι ℝ) (KzInv : Matrix κ κ ℝ) (u : ι → ℝ) (u2 : Matrix ι ι ℝ) (z : κ → ℝ)
    (z2 : Matrix κ κ ℝ) :
    (Spec.moments ihx iux ihz iuz KuInv KzInv u u2 z z2).2 = ihx + Spec.inner (z2 - KzInv) ihz +
      Spec.inner (u2 - KuInv) (iux + iuz * (z2 - KzInv) * iuzᵀ) := by
  have ha : ∀ {n : Type} [Fintype n] (A B C : Matrix n n ℝ), Spec.inner A (B + C) = Spec.inner A B + Spec.inner A C :=
    fun A B C => by simp only [Spec.inner, Matrix.add_apply, mul_add, Finset.sum_add_distrib]
  rw [moments_change, ha, ha, inner_mul_transpose]
  ring

theorem RgpcmModel.signal_eq (h : g.Regular) (u : Fin g.tU.length → ℝ) (u2 : Matrix (Fin g.tU.length) (Fin g.tU.length) ℝ)
    (z : Fin g.ms.length → ℝ) (z2 : Matrix (Fin g.ms.length) (Fin g.ms.length) ℝ) (t : ℝ) :
    g.specInst.momentsAt u u2 z z2 t = g.signal u u2 z z2 t := by
  obtain ⟨p, hp⟩ : ∃ p, p = specOf g := ⟨_, rfl⟩
  have hα : 0 < p.alpha := hp ▸ h.alpha
  have hl : 0 < p.lam := hp ▸ h.lam
  have hγ : 0 < p.gamma := hp ▸ h.gamma
  have hab : p.a < p.b := hp ▸ h.ab
  have hF := biL2_factS hα hl t
  obtain ⟨c, hc⟩ : ∃ c : Fin g.ms.length → ℝ → ℝ, c = fun m => Spec.R.phi p (g.ms.get m) := ⟨_, rfl⟩
  obtain ⟨d, hd⟩ : ∃ d : Fin g.tU.length → ℝ → ℝ, d = fun i s => Spec.R.khu p s (g.tU.get i) := ⟨_, rfl⟩
  have hψ : ∀ i, MemLp (Spec.R.smooth p (g.tU.get i)) 2 := fun i => memLp_smooth hγ _
  have hwc : ∀ a, MemLp (fun τ => Spec.R.win p τ * c a (t - τ)) 2 := fun a => by
    have := hF.memLp_integral (memLp_factZ hl (g.ms.get a))
    simp only [integral_factS_factZ hl hab] at this
    rw [hc]
    exact this
  have hcd : ∀ a b, Integrable fun τ => c a (t - τ) * d b τ := fun a b => by
    refine (integrable_mul_L2 (hwc a) (hψ b)).congr (ae_of_all _ fun τ => ?_)
    simp only [hd, ← win_smooth]
    ring
  have hW : ∀ τ τ' i, Spec.R.win p τ * (Spec.R.kx p (t - τ) (t - τ') * d i τ') =
      (∫ r, factS p t τ' r * factS p t τ r) * Spec.R.smooth p (g.tU.get i) τ' := fun τ τ' i => by
    rw [integral_factS hl, kx_symm, hd]
    simp only [← win_smooth]
    ring
  have hKi : ∀ τ τ' i, Spec.R.kx p (t - τ) (t - τ') * d i τ' = (∫ r, factS p t τ' r * factX p (t - τ) r) *
      Spec.R.smooth p (g.tU.get i) τ' := fun τ τ' i => by
    unfold factS
    simp only [mul_assoc]
    rw [integral_const_mul, integral_factX hl, kx_symm, hd]
    simp only [← win_smooth]
    ring
  have hin : ∀ τ i, Integrable fun τ' => Spec.R.kx p (t - τ) (t - τ') * d i τ' := fun τ i => by
    simp only [hKi]
    exact integrable_mul_L2 (hF.memLp_integral (memLp_factX hl _)) (hψ i)
  have hbi : ∀ τ i, Spec.R.win p τ * ∫ τ', Spec.R.kx p (t - τ) (t - τ') * d i τ' =
      ∫ r, factS p t τ r * ∫ τ', factS p t τ' r * Spec.R.smooth p (g.tU.get i) τ' := fun τ i => by
    rw [← integral_const_mul]
    simp only [hW]
    rw [hF.fubini (hF.right τ) (hψ i)]
    simp only [mul_comm]
  have hbi' : ∀ τ i j, d i τ * ∫ τ', Spec.R.kx p (t - τ) (t - τ') * d j τ' = Spec.R.smooth p (g.tU.get i) τ *
      ∫ r, factS p t τ r * ∫ τ', factS p t τ' r * Spec.R.smooth p (g.tU.get j) τ' := fun τ i j => by
    rw [← hbi]
    nth_rw 1 [hd]
    simp only [← win_smooth]
    ring
  have hout : ∀ i j, Integrable fun τ => d i τ * ∫ τ', Spec.R.kx p (t - τ) (t - τ') * d j τ' := fun i j => by
    simp only [hbi']
    exact integrable_mul_L2 (hψ i) (hF.memLp_integral (hF.swap.memLp_integral (hψ j)))
  have hK : Integrable fun τ => Spec.R.win p τ ^ 2 * Spec.R.kx p (t - τ) (t - τ) := by
    have e : ∀ τ, Spec.R.kx p (t - τ) (t - τ) = 1 := fun τ => by simp [Spec.R.kx]
    simp only [e, mul_one]
    exact (memLp_win hα).integrable_sq
  have hX : (Matrix.of fun a b => ∫ τ, c a (t - τ) * d b τ) = (g.specInst.iUz t)ᵀ := by
    ext a b
    show ∫ τ, c a (t - τ) * d b τ = Spec.R.iuz (specOf g) t _ _
    rw [← hp]
    unfold Spec.R.iuz
    rw [← integral_sub_left_eq_self _ volume t]
    congr 1
    funext s
    rw [sub_sub_cancel, hc, hd]
    ring
  have eih : (∫ τ, Spec.R.win p τ ^ 2 * Spec.R.kx p (t - τ) (t - τ)) = g.specInst.iHx t t := by
    show _ = Spec.R.ihx (specOf g) t t
    rw [← hp]
    unfold Spec.R.ihx
    simp only [sq]
  have e2 : (Matrix.of fun a b => ∫ τ, Spec.R.win p τ ^ 2 * (c a (t - τ) * c b (t - τ))) = g.specInst.iHz t := by
    ext a b
    show ∫ τ, _ = Spec.R.ihz (specOf g) t _ _
    rw [← hp]
    unfold Spec.R.ihz
    rw [← integral_sub_left_eq_self _ volume t]
    congr 1
    funext s
    rw [sub_sub_cancel, hc]
    ring
  have e3 : (Matrix.of fun a b => ∫ τ, d a τ * ∫ τ', Spec.R.kx p (t - τ) (t - τ') * d b τ') = g.specInst.iUx := by
    ext a b
    show ∫ τ, _ = Spec.R.iux (specOf g) 0 0 _ _
    rw [← iux_shift t, ← hp]
    unfold Spec.R.iux
    congr 1
    funext τ
    rw [← integral_const_mul, hd]
    congr 1
    funext τ'
    ring
  have hm1 := signalMean_eq hcd z u
  have hm2 := signalM2_eq (P := z2 - g.specInst.Kz⁻¹) (Q := u2 - g.specInst.Ku⁻¹) hK hwc hcd hin hout
  rw [hX] at hm1
  rw [eih, e2, e3, hX, transpose_transpose] at hm2
  subst hp hc hd
  refine Prod.ext ?_ ?_
  · show u ⬝ᵥ (g.specInst.iUz t *ᵥ z) = _
    refine Eq.trans ?_ hm1.symm
    rw [dotProduct_mulVec, ← mulVec_transpose, dotProduct_comm]
  · refine Eq.trans ?_ hm2.symm
    exact moments_change_swap _ _ _ _ _ _ _ _ _ _

/-- The mean and the variance of an observation of the signal, when the inducing variables are independent and normal
with the given means and covariances. -/
noncomputable def RgpcmModel.observation (g : RgpcmModel) (u : Fin g.tU.length → ℝ)
    (S : Matrix (Fin g.tU.length) (Fin g.tU.length) ℝ) (z : Fin g.ms.length → ℝ)
    (T : Matrix (Fin g.ms.length) (Fin g.ms.length) ℝ) (t : ℝ) : ℝ × ℝ :=
  let M := g.signal u (S + vecMulVec u u) z (T + vecMulVec z z) t
  (M.1, M.2 - M.1 ^ 2 + g.noise)

section props

variable (h : g.Regular) {perm : List ℕ} (hp : IsArgsort perm g.ms) {m : Inst (Fin g.tU.length) (Fin g.ms.length)}
  (hm : g.IsInst perm g.times m) (C : Chols (Fin g.tU.length) (Fin g.ms.length))

include h hp hm

/-- **C108** Mean-field predictions of the RGPCM after conditioning, at times in its interval. -/
theorem c108_rgpcm_mean_field (s : Posts (Fin g.tU.length) (Fin g.ms.length)) (hqu : s.qU.prec.PosDef)
    (hqz : s.qZ.prec.PosDef) {t : List ℝ} (ht : ∀ s ∈ t, s ∈ g.times) :
    MeanField.predict C m s.condition t =
      t.map (g.observation (s.qU.prec⁻¹ *ᵥ s.qU.lam) s.qU.prec⁻¹ (s.qZ.prec⁻¹ *ᵥ s.qZ.lam) s.qZ.prec⁻¹) := by
  rw [(hm.agree (specInst_isInst h hp)).meanField C _ ht, mean_field_predict_eq C (specInst_valid h) s hqu hqz]
  refine List.map_congr_left fun x _ => ?_
  rw [signal_eq h, toMeanVar]
  rfl

/-- **C108** Mean-field predictions of the RGPCM before conditioning, at times in its interval. -/
theorem c108_rgpcm_prior (s : Posts (Fin g.tU.length) (Fin g.ms.length)) (hs : s.qi = 0) {t : List ℝ}
    (ht : ∀ s ∈ t, s ∈ g.times) :
    MeanField.predict C m s t = t.map fun x => (0, Spec.R.ihx (specOf g) x x + g.noise) := by
  rw [(hm.agree (specInst_isInst h hp)).meanField C _ ht, mean_field_prior_eq C (specInst_valid h) s hs]
  rfl

/-- **C108** Structured predictions of the RGPCM after conditioning on data, at times in its interval. -/
theorem c108_rgpcm_structured {d : List (ℝ × ℝ)} (hd : ∀ s ∈ d, s.1 ∈ g.times) {t : List ℝ}
    (ht : ∀ s ∈ t, s ∈ g.times) (us : List (Fin g.tU.length → ℝ)) (hus : us ≠ []) :
    let q := qzOptimal m (constructDataTerms C m d)
    let M := fun u x => g.signal u (vecMulVec u u) ((q u).prec⁻¹ *ᵥ (q u).lam)
      ((q u).prec⁻¹ + vecMulVec ((q u).prec⁻¹ *ᵥ (q u).lam) ((q u).prec⁻¹ *ᵥ (q u).lam)) x
    let μ := fun x => (us.map fun u => (M u x).1).sum / us.length
    Structured.predict C m (some (constructDataTerms C m d)) t us =
      .ok (t.map fun x => (μ x, (us.map fun u => (M u x).2).sum / us.length - μ x ^ 2 + g.noise)) := by
  have ha := hm.agree (specInst_isInst h hp)
  intro q M μ
  have eq : q = qzOptimal g.specInst (constructDataTerms C g.specInst d) := by
    show qzOptimal m (constructDataTerms C m d) = _
    rw [ha.dataTerms C hd]
    unfold qzOptimal
    rw [ha.noise, ha.Kz]
  rw [ha.structured C _ ht, ha.dataTerms C hd, structured_predict_eq C (specInst_valid h) d t us hus]
  have e : ∀ u x, g.specInst.momentsAt u (vecMulVec u u)
      ((qzOptimal g.specInst (constructDataTerms C g.specInst d) u).mean C.z)
      ((qzOptimal g.specInst (constructDataTerms C g.specInst d) u).m2 C.z) x = M u x := fun u x => by
    have ho := qzOptimal_posDef C (specInst_valid h) d u
    show _ = g.signal u (vecMulVec u u) ((q u).prec⁻¹ *ᵥ (q u).lam)
      ((q u).prec⁻¹ + vecMulVec ((q u).prec⁻¹ *ᵥ (q u).lam) ((q u).prec⁻¹ *ᵥ (q u).lam)) x
    rw [signal_eq h, NatNormal.m2_eq C.z ho, NatNormal.var_eq C.z ho, NatNormal.mean_eq C.z ho, eq]
  simp only [e]
  congr 1

end props

/-- The hypotheses hold for a concrete model, with two inducing points and five features in random order. -/
example : exRgpcm.Regular ∧ IsArgsort [1, 3, 4, 0, 2] exRgpcm.ms ∧ (1 : ℝ) ∈ exRgpcm.times ∧ (2 : ℝ) ∈ exRgpcm.times := by
  refine ⟨?_, ⟨by decide, by decide⟩, ?_, ?_⟩
  · constructor <;> norm_num [exRgpcm]
  · constructor <;> norm_num [exRgpcm]
  · constructor <;> norm_num [exRgpcm]

end Gpcm
