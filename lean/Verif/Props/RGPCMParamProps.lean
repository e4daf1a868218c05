import Verif.Props.RGPCMGramProps
import Verif.Lemmas.GpcmGrid
import Mathlib.Analysis.Real.Pi.Bounds

/-! # Properties C75 to C77, C93 to C95 and the RGPCM's part of C60, C63 and C64 -/

open MeasureTheory Real Set

namespace Gpcm.Rgpcm

theorem orElse_some {α : Type} {v : α} {d : Except PyErr α} {x : α} (h : orElse (some v) d = .ok x) : x = v :=
  (Except.ok.inj h).symm

theorem pyMax_ge {l : List ℝ} {hi : ℝ} (h : pyMax l = .ok hi) : ∀ x ∈ l, x ≤ hi := by
  cases l with
  | nil => simp [pyMax] at h
  | cons a l =>
    obtain rfl := Except.ok.inj h
    have key : ∀ (l : List ℝ) (a : ℝ), a ≤ l.foldl max a ∧ ∀ x ∈ l, x ≤ l.foldl max a := by
      intro l
      induction l with
      | nil => simp
      | cons b l ih =>
        intro a
        obtain ⟨h1, h2⟩ := ih (max a b)
        refine ⟨(le_max_left a b).trans h1, fun x hx => ?_⟩
        rcases List.mem_cons.1 hx with rfl | hx
        · exact (le_max_right a x).trans h1
        · exact h2 x hx
    intro x hx
    rcases List.mem_cons.1 hx with rfl | hx
    · exact (key l x).1
    · exact (key l a).2 x hx

theorem pyMin_le {l : List ℝ} {lo : ℝ} (h : pyMin l = .ok lo) : ∀ x ∈ l, lo ≤ x := by
  cases l with
  | nil => simp [pyMin] at h
  | cons a l =>
    obtain rfl := Except.ok.inj h
    have key : ∀ (l : List ℝ) (a : ℝ), l.foldl min a ≤ a ∧ ∀ x ∈ l, l.foldl min a ≤ x := by
      intro l
      induction l with
      | nil => simp
      | cons b l ih =>
        intro a
        obtain ⟨h1, h2⟩ := ih (min a b)
        refine ⟨h1.trans (min_le_left a b), fun x hx => ?_⟩
        rcases List.mem_cons.1 hx with rfl | hx
        · exact h1.trans (min_le_right a x)
        · exact h2 x hx
    intro x hx
    rcases List.mem_cons.1 hx with rfl | hx
    · exact (key l x).1
    · exact (key l a).2 x hx

/-- The steps of the constructor. -/
theorem new_ok {x : RgpcmArgs} {g : RgpcmModel} (h : RgpcmModel.new x = .ok g) :
    orElse x.alpha (bind1 (need x.window) (divE 1)) = .ok g.alpha ∧
    orElse x.lam (bind1 (need x.scale) (divE 1)) = .ok g.lam ∧
    Rgpcm.initTU x g.alpha = .ok (g.nU, g.tU) ∧
    initA x g.tU = .ok g.a ∧ initB x = .ok g.b ∧ initMMax x g.a g.b = .ok g.mMax ∧
    g.ms = initMs x g.mMax ∧ g.nZ = g.ms.length ∧
    g.alphaT = x.alphaT.getD (√(2 * g.alpha)) ∧
    ∃ gamma, Rgpcm.initGamma x g.tU = .ok gamma ∧ g.gamma = min gamma (g.alpha / 1.5) ∧
      g.gammaT = x.gammaT.getD (√(2 * gamma)) := by
  unfold RgpcmModel.new at h
  obtain ⟨alpha, h1, h⟩ := bind1_ok h
  obtain ⟨lam, h2, h⟩ := bind1_ok h
  obtain ⟨extent, h3, h⟩ := bind1_ok h
  obtain ⟨u, h4, h⟩ := bind1_ok h
  obtain ⟨a, h5, h⟩ := bind1_ok h
  obtain ⟨b, h6, h⟩ := bind1_ok h
  obtain ⟨m, h7, h⟩ := bind1_ok h
  obtain ⟨gamma, h8, h⟩ := bind1_ok h
  obtain rfl := Except.ok.inj h
  exact ⟨h1, h2, h4, h5, h6, h7, rfl, rfl, rfl, gamma, h8, rfl, rfl⟩

/-! ## C75 -/

/-- **C75.** At construction `gamma` is smaller than `alpha`, even if a larger value was asked for. -/
theorem c75_constructed {x : RgpcmArgs} {g : RgpcmModel} (h : RgpcmModel.new x = .ok g) (hα : 0 < g.alpha) :
    g.gamma < g.alpha ∧ 0 < g.alpha - g.gamma := by
  obtain ⟨-, -, -, -, -, -, -, -, -, gamma, -, hg, -⟩ := new_ok h
  have : g.gamma < g.alpha := by
    rw [hg]
    refine (min_le_right _ _).trans_lt ?_
    rw [div_lt_iff₀ (by norm_num)]
    linarith
  exact ⟨this, sub_pos.2 this⟩

/-- **C75.** At every value of the learned variables `gamma` is positive and smaller than `alpha`. -/
theorem c75_learned {g : RgpcmModel} {θ : RgpcmLearned} (hv : θ.Valid g) (fn fw fs : Bool)
    (hα : fw = true → 0 < g.alpha) :
    0 < (g.prior fn fw fs θ).gamma ∧ (g.prior fn fw fs θ).gamma < (g.prior fn fw fs θ).alpha ∧
      0 < (g.prior fn fw fs θ).alpha - (g.prior fn fw fs θ).gamma := by
  have ha : 0 < (g.prior fn fw fs θ).alpha := by
    cases fw
    · exact hv.alpha
    · exact hα rfl
  have hf := hv.factor_lo
  have hf0 : 0 < θ.gammaFactor := by linarith
  have e : (g.prior fn fw fs θ).gamma = (g.prior fn fw fs θ).alpha / θ.gammaFactor := rfl
  have hlt : (g.prior fn fw fs θ).gamma < (g.prior fn fw fs θ).alpha := by
    rw [e, div_lt_iff₀ hf0]
    exact lt_mul_of_one_lt_right ha hf
  exact ⟨e ▸ div_pos ha hf0, hlt, sub_pos.2 hlt⟩

/-! ## C76 and C93 -/

/-- **C76.** `n_z` is the number of frequencies. By default the frequencies are `0, ..., 2 m_max`. `m_max` is the
argument, else half of `n_z` rounded up, else from the scale, capped. -/
theorem c76_features {x : RgpcmArgs} {g : RgpcmModel} (h : RgpcmModel.new x = .ok g) :
    g.nZ = g.ms.length ∧
    (∀ ms, x.ms = some ms → g.ms = ms) ∧
    (x.ms = none → g.ms = List.range (2 * g.mMax + 1).toNat ∧ (0 ≤ g.mMax → (g.nZ : ℤ) = 2 * g.mMax + 1)) ∧
    (∀ m, x.mMax = some m → g.mMax = m) ∧
    (∀ n, x.mMax = none → x.nZ = some n → g.mMax = ⌈(n : ℝ) / 2⌉) ∧
    (∀ s, x.mMax = none → x.nZ = none → x.scale = some s →
      s ≠ 0 ∧ g.mMax = min ⌈1 / s * (g.b - g.a)⌉ x.mMaxCap) := by
  obtain ⟨-, -, -, -, -, hm, hms, hnz, -, -⟩ := new_ok h
  refine ⟨hnz, fun ms hx => by rw [hms, initMs, hx]; rfl, fun hx => ?_, fun m hx => ?_, fun n h1 h2 => ?_,
    fun s h1 h2 h3 => ?_⟩
  · have e : g.ms = List.range (2 * g.mMax + 1).toNat := by rw [hms, initMs, hx]; rfl
    refine ⟨e, fun h0 => ?_⟩
    rw [hnz, e, List.length_range]
    omega
  · unfold initMMax at hm
    rw [hx] at hm
    exact (Except.ok.inj hm).symm
  · unfold initMMax at hm
    rw [h1, h2] at hm
    exact (Except.ok.inj hm).symm
  · unfold initMMax at hm
    rw [h1, h2, h3] at hm
    simp only [need, bind1, divE] at hm
    by_cases hs : s = 0
    · rw [if_pos hs] at hm
      cases hm
    · rw [if_neg hs] at hm
      simp only at hm
      refine ⟨hs, ?_⟩
      split at hm
      · rename_i hc
        rw [← Except.ok.inj hm, min_eq_right hc.le]
      · rename_i hc
        rw [← Except.ok.inj hm, min_eq_left (not_lt.1 hc)]

/-- **C93** is false: whatever (non-negative) number of features is asked for, the model has one or two more. -/
theorem c93_false {x : RgpcmArgs} {g : RgpcmModel} (h : RgpcmModel.new x = .ok g) (hms : x.ms = none)
    (hm : x.mMax = none) {n : ℤ} (hn : x.nZ = some n) (h0 : 0 ≤ n) :
    (g.nZ : ℤ) = n + (if n % 2 = 0 then 1 else 2) ∧ (g.nZ : ℤ) ≠ n := by
  obtain ⟨-, -, h3, -, h5, -⟩ := c76_features h
  have hM := h5 n hm hn
  have hc : ⌈(n : ℝ) / 2⌉ = (n + 1) / 2 := by
    rw [Int.ceil_eq_iff]
    have hdiv : (n + 1) / 2 * 2 = n + 1 ∨ (n + 1) / 2 * 2 = n := by omega
    have hdiv' : (((n + 1) / 2 : ℤ) : ℝ) * 2 = n + 1 ∨ (((n + 1) / 2 : ℤ) : ℝ) * 2 = n := by exact_mod_cast hdiv
    constructor <;> rcases hdiv' with h | h <;> linarith
  have hz := (h3 hms).2 (by rw [hM, hc]; omega)
  rw [hM, hc] at hz
  constructor
  · split <;> omega
  · omega

/-- Arguments for witnesses. -/
noncomputable def exArgs : RgpcmArgs where
  window := some 1
  scale := some 3
  tU := some [0, 1 / 10]
  t := some [0, 1]
  nZ := some 4

theorem exArgs_new : ∃ g, RgpcmModel.new exArgs = .ok g ∧ g.alpha = 1 ∧ g.lam = 1 / 3 ∧ g.gamma = 1 / 1.5 ∧
    g.tU = [0, 1 / 10] ∧ g.a = -(1 / 10) ∧ g.b = 1 ∧ g.nZ = 5 := by
  have h1 : orElse exArgs.alpha (bind1 (need exArgs.window) (divE 1)) = .ok 1 := by
    simp [exArgs, orElse, need, bind1, divE]
  have h2 : orElse exArgs.lam (bind1 (need exArgs.scale) (divE 1)) = .ok (1 / 3) := by
    simp [exArgs, orElse, need, bind1, divE]
  have h3 : divE 4 1 = .ok 4 := by simp [divE]
  have h4 : Rgpcm.initTU exArgs 1 = .ok (2, [0, 1 / 10]) := by simp [Rgpcm.initTU, exArgs]
  have h5 : initA exArgs [0, 1 / 10] = .ok (-(1 / 10)) := by
    simp [initA, exArgs, orElse, need, bind1, pyMin, pyMax]
  have h6 : initB exArgs = .ok 1 := by simp [initB, exArgs, orElse, need, bind1, pyMax]
  have h7 : initMMax exArgs (-(1 / 10)) 1 = .ok 2 := by
    simp only [initMMax, exArgs]
    norm_num
  have h8 : Rgpcm.initGamma exArgs [0, 1 / 10] = .ok 5 := by
    simp only [Rgpcm.initGamma, exArgs, orElse, divE]
    norm_num
  have h9 : initMs exArgs 2 = [0, 1, 2, 3, 4] := by
    simp only [initMs, exArgs]
    decide
  have hb : ∀ {α β : Type} (a : α) (f : α → Except PyErr β), bind1 (.ok a) f = f a := fun a f => rfl
  unfold RgpcmModel.new
  simp only [h1, h2, h3, h4, h5, h6, h7, h8, h9, hb]
  refine ⟨_, rfl, rfl, rfl, ?_, rfl, rfl, rfl, rfl⟩
  exact min_eq_right (by norm_num)

example : ∃ g, RgpcmModel.new exArgs = .ok g ∧ exArgs.ms = none ∧ exArgs.mMax = none ∧ exArgs.nZ = some 4 ∧
    (g.nZ : ℤ) = 5 := by
  obtain ⟨g, hg, h⟩ := exArgs_new
  exact ⟨g, hg, rfl, rfl, rfl, by rw [h.2.2.2.2.2.2]; norm_num⟩

example : ∃ g θ, RgpcmModel.new exArgs = .ok g ∧ RgpcmLearned.Valid θ g := by
  obtain ⟨g, hg, h⟩ := exArgs_new
  refine ⟨g, ⟨1, 1, 1, 1, 2, [0, 1 / 10]⟩, hg, ⟨by norm_num, by norm_num, by norm_num, by norm_num, by norm_num,
    by norm_num, by rw [h.2.2.2.1], ?_, ?_⟩⟩
  · intro x hx
    simp only [List.mem_cons, List.not_mem_nil, or_false] at hx
    rcases hx with rfl | rfl <;> norm_num
  · intro hi hh x hx
    rw [h.2.2.2.1] at hh
    have : hi = 1 / 10 := by
      have := (Except.ok.inj hh).symm
      simpa using this
    simp only [List.mem_cons, List.not_mem_nil, or_false] at hx
    rw [this]
    rcases hx with rfl | rfl <;> norm_num

/-! ## C77 -/

/-- **C77, partial.** At construction, the default interval contains `t - u` for all data points and inducing
points. -/
theorem c77_constructed_partial {x : RgpcmArgs} {g : RgpcmModel} (h : RgpcmModel.new x = .ok g) (ha : x.a = none)
    (hb : x.b = none) : ∃ t, x.t = some t ∧ ∀ s ∈ t, (∀ u ∈ g.tU, g.a ≤ s - u) ∧ s ≤ g.b := by
  obtain ⟨-, -, -, h5, h6, -⟩ := new_ok h
  unfold initA at h5
  unfold initB at h6
  rw [ha] at h5
  rw [hb] at h6
  cases ht : x.t with
  | none =>
    rw [ht] at h5
    cases h5
  | some t =>
    rw [ht] at h5 h6
    refine ⟨t, rfl, fun s hs => ?_⟩
    have h6 : pyMax t = .ok g.b := h6
    have h5 : (bind1 (pyMin t) fun lo => bind1 (pyMax g.tU) fun u => .ok (lo - u)) = .ok g.a := h5
    obtain ⟨lo, hlo, h5⟩ := bind1_ok h5
    obtain ⟨hi, hhi, h5⟩ := bind1_ok h5
    refine ⟨fun u hu => ?_, pyMax_ge h6 s hs⟩
    have := pyMin_le hlo s hs
    have := pyMax_ge hhi u hu
    rw [← Except.ok.inj h5]
    linarith

/-- **C77** is false after learning: the inducing points may move beyond the interval. -/
theorem c77_learned_false : ∃ (g : RgpcmModel) (θ : RgpcmLearned), RgpcmModel.new exArgs = .ok g ∧ θ.Valid g ∧
    ∃ t, exArgs.t = some t ∧ ∃ s ∈ t, ∃ u ∈ (g.prior false false false θ).tU,
      s - u < (g.prior false false false θ).a := by
  obtain ⟨g, hg, h⟩ := exArgs_new
  refine ⟨g, ⟨1, 1, 1, 1, 2, [0, 1 / 8]⟩, hg, ⟨by norm_num, by norm_num, by norm_num, by norm_num, by norm_num,
    by norm_num, by rw [h.2.2.2.1]; rfl, ?_, ?_⟩, [0, 1], rfl, 0, by simp, 1 / 8,
      by simp [RgpcmModel.prior], ?_⟩
  · intro x hx
    simp only [List.mem_cons, List.not_mem_nil, or_false] at hx
    rcases hx with rfl | rfl <;> norm_num
  · intro hi hh x hx
    rw [h.2.2.2.1] at hh
    have : hi = 1 / 10 := by
      have := (Except.ok.inj hh).symm
      simpa using this
    simp only [List.mem_cons, List.not_mem_nil, or_false] at hx
    rw [this]
    rcases hx with rfl | rfl <;> norm_num
  · show (0 : ℝ) - 1 / 8 < g.a
    rw [h.2.2.2.2.1]
    norm_num

/-! ## C60 -/

/-- **C60** (RGPCM) The caps hold exactly. -/
theorem c60_caps_rgpcm {x : RgpcmArgs} {g : RgpcmModel} (h : RgpcmModel.new x = .ok g) :
    (x.nU = none → x.tU = none → g.nU ≤ x.nUCap ∧ (g.tU.length : ℤ) = g.nU) ∧
    (x.mMax = none → x.nZ = none → g.mMax ≤ x.mMaxCap) := by
  obtain ⟨-, -, hu, -, -, hm, -⟩ := new_ok h
  constructor
  · intro h1 h2
    unfold Rgpcm.initTU at hu
    rw [h2] at hu
    obtain ⟨m, -, hu⟩ := bind1_ok hu
    obtain ⟨n, hn, hu⟩ := bind1_ok hu
    obtain ⟨l, hl, hu⟩ := bind1_ok hu
    have hu := Except.ok.inj hu
    obtain ⟨rfl, rfl⟩ := Prod.mk.inj hu
    refine ⟨?_, (linspace_ok hl).2.1⟩
    unfold Rgpcm.autoNU at hn
    rw [h1] at hn
    obtain ⟨w, -, hn⟩ := bind1_ok (show bind1 (need x.window) _ = _ from hn)
    obtain ⟨s, -, hn⟩ := bind1_ok hn
    obtain ⟨q, -, hn⟩ := bind1_ok hn
    simp only at hn
    split at hn
    · exact (Except.ok.inj hn).ge
    · rename_i hc
      rw [← Except.ok.inj hn]
      exact not_lt.1 hc
  · intro h1 h2
    unfold initMMax at hm
    rw [h1, h2] at hm
    obtain ⟨s, -, hm⟩ := bind1_ok (show bind1 (need x.scale) _ = _ from hm)
    obtain ⟨f, -, hm⟩ := bind1_ok hm
    simp only at hm
    split at hm
    · exact (Except.ok.inj hm).ge
    · rename_i hc
      rw [← Except.ok.inj hm]
      exact not_lt.1 hc

/-! ## C63 -/

/-- **C63** (RGPCM) With the default `alpha_t` the prior variance of the signal is one. -/
theorem c63_unit_power_rgpcm {x : RgpcmArgs} {g : RgpcmModel} (h : RgpcmModel.new x = .ok g) (hx : x.alphaT = none)
    (hα : 0 < g.alpha) (t : ℝ) : g.ihx t t = 1 := by
  obtain ⟨-, -, -, -, -, -, -, -, ha, -⟩ := new_ok h
  rw [hx] at ha
  have ha : g.alphaT = √(2 * g.alpha) := ha
  unfold RgpcmModel.ihx
  rw [ha, sq_sqrt (by linarith)]
  simp only [sub_self, abs_zero, mul_zero, exp_zero, mul_one]
  field_simp

/-- `compute_i_hx` is the prior covariance of the signal. -/
theorem c63_covariance_rgpcm {g : RgpcmModel} (hα : 0 < g.alpha) (t1 t2 : ℝ) :
    g.ihx t1 t2 = Spec.R.ihx (specOf g) t1 t2 := by
  unfold Spec.R.ihx
  have e : ∀ s, Spec.R.win (specOf g) s * Spec.R.win (specOf g) s * Spec.R.kx (specOf g) (t1 - s) (t2 - s) =
      (Ici (0 : ℝ)).indicator (fun s => g.alphaT ^ 2 * exp (-(g.lam * |t1 - t2|)) * exp (-(2 * g.alpha) * s)) s := by
    intro s
    unfold Spec.R.win Spec.R.kx
    by_cases h : 0 ≤ s
    · rw [indicator_of_mem (mem_Ici.2 h), if_pos h, sub_sub_sub_cancel_right]
      have : exp (-(2 * g.alpha) * s) = exp (-(g.alpha * s)) * exp (-(g.alpha * s)) := by
        rw [← exp_add]
        congr 1
        ring
      rw [this]
      simp only [specOf]
      ring
    · rw [indicator_of_notMem (fun h' => h (mem_Ici.1 h')), if_neg h]
      ring
  simp_rw [e]
  rw [integral_indicator measurableSet_Ici, integral_const_mul, integral_Ici_eq_integral_Ioi,
    integral_exp_mul_Ioi (by linarith)]
  unfold RgpcmModel.ihx
  simp only [mul_zero, exp_zero]
  rw [neg_mul]
  field_simp

/-! ## C64 -/

/-- The variance of the inducing variables. -/
theorem ku_diag (g : RgpcmModel) (i : Fin g.tU.length) : g.computeKu i i = g.gammaT ^ 2 / (2 * g.gamma) := by
  unfold RgpcmModel.computeKu RgpcmModel.kuEntry
  simp

/-- **C64** is false for the RGPCM: with defaults, the inducing variables have unit variance exactly if there are
at most five of them, because `gamma` is clipped after `gamma_t` was computed. -/
theorem c64_rgpcm_false {x : RgpcmArgs} {g : RgpcmModel} (h : RgpcmModel.new x = .ok g) (hα : 0 < g.alpha)
    (h1 : x.gamma = none) (h2 : x.gammaT = none) (h3 : x.tU = none) (i : Fin g.tU.length) :
    (g.computeKu i i = 1 ↔ g.nU ≤ 5) ∧ 1 ≤ g.computeKu i i := by
  obtain ⟨-, -, hu, -, -, -, -, -, -, gamma, hg, hg1, hg2⟩ := new_ok h
  unfold Rgpcm.initTU at hu
  rw [h3] at hu
  obtain ⟨m, hm, hu⟩ := bind1_ok hu
  obtain ⟨n, hn, hu⟩ := bind1_ok hu
  obtain ⟨l, hl, hu⟩ := bind1_ok hu
  obtain ⟨e1, e2⟩ := Prod.mk.inj (Except.ok.inj hu)
  rw [← e1]
  obtain ⟨hn0, hlen, hget⟩ := linspace_ok hl
  have hm : m = π / g.alpha := by
    unfold divE at hm
    rw [if_neg hα.ne'] at hm
    exact (Except.ok.inj hm).symm
  unfold Rgpcm.initGamma at hg
  rw [h1, ← e2] at hg
  have hg : (match l with
    | u0 :: u1 :: _ => divE 1 (2 * (u1 - u0))
    | _ => Except.error PyErr.indexError) = .ok gamma := hg
  match l, hlen, hget, hg with
  | [], _, _, hg => cases hg
  | [_], _, _, hg => cases hg
  | u0 :: u1 :: rest, hlen, hget, hg =>
    have hn2 : 2 ≤ n := by
      rw [← hlen]
      simp
      omega
    have hnR : (2 : ℝ) ≤ n := by exact_mod_cast hn2
    have g0 : u0 = 0 := by simpa using hget 0 (by omega)
    have g1 : u1 = m / ((n : ℝ) - 1) := by simpa using hget 1 (by omega)
    have hπ := pi_pos
    have hne : (n : ℝ) - 1 ≠ 0 := by linarith
    have hgam : gamma = g.alpha * (n - 1) / (2 * π) := by
      have hg : divE 1 (2 * (u1 - u0)) = .ok gamma := hg
      unfold divE at hg
      rw [if_neg, g0, g1, hm] at hg
      · rw [← Except.ok.inj hg]
        field_simp
        ring
      · rw [g0, g1, hm]
        have : 0 < π / g.alpha / ((n : ℝ) - 1) := div_pos (div_pos hπ hα) (by linarith)
        intro h
        linarith
    have hgpos : 0 < gamma := by
      rw [hgam]
      exact div_pos (mul_pos hα (by linarith)) (by linarith)
    have hT : g.gammaT ^ 2 = 2 * gamma := by
      rw [hg2, h2]
      exact sq_sqrt (by linarith)
    rw [ku_diag, hT, hg1]
    have hπ3 := pi_gt_three
    have hπ4 : π < 3.15 := pi_lt_d2
    by_cases h5 : n ≤ 5
    · have h5R : (n : ℝ) ≤ 5 := by exact_mod_cast h5
      have hle : gamma ≤ g.alpha / 1.5 := by
        rw [hgam, div_le_div_iff₀ (by linarith) (by norm_num)]
        have : ((n : ℝ) - 1) * 1.5 ≤ 2 * π := by linarith
        calc g.alpha * (n - 1) * 1.5 = g.alpha * ((n - 1) * 1.5) := by ring
          _ ≤ g.alpha * (2 * π) := mul_le_mul_of_nonneg_left this hα.le
      rw [min_eq_left hle, div_self (by linarith)]
      simp [h5]
    · have h6 : (6 : ℝ) ≤ n := by
        have : 6 ≤ n := by omega
        exact_mod_cast this
      have hlt : g.alpha / 1.5 < gamma := by
        rw [hgam, div_lt_div_iff₀ (by norm_num) (by linarith)]
        have : 2 * π < ((n : ℝ) - 1) * 1.5 := by linarith
        calc g.alpha * (2 * π) < g.alpha * ((n - 1) * 1.5) := mul_lt_mul_of_pos_left this hα
          _ = g.alpha * (n - 1) * 1.5 := by ring
      rw [min_eq_right hlt.le]
      have h0 : 0 < g.alpha / 1.5 := by positivity
      have : 1 < 2 * gamma / (2 * (g.alpha / 1.5)) := by
        rw [lt_div_iff₀ (by linarith)]
        linarith
      exact ⟨⟨fun h => absurd h this.ne', fun h => absurd h h5⟩, this.le⟩

/-! ## C94 -/

/-- **C94** is false: for a constructed model the closed form of `I_ux` divides by zero, although the integral
is finite. -/
theorem c94_false : ∃ g, RgpcmModel.new exArgs = .ok g ∧ 0 < g.gamma ∧ g.gamma < g.alpha ∧ 0 < g.lam ∧
    ∀ t1 t2 u1 u2, g.iuxEntry t1 t2 u1 u2 = .error .zeroDivision := by
  obtain ⟨g, hg, h1, h2, h3, -⟩ := exArgs_new
  refine ⟨g, hg, by rw [h3]; norm_num, by rw [h3, h1]; norm_num, by rw [h2]; norm_num, fun t1 t2 u1 u2 => ?_⟩
  unfold RgpcmModel.iuxEntry
  simp only
  rw [if_pos]
  right
  rw [h1, h2, h3]
  norm_num

/-- **C94, partial.** It is defined at all other parameters with `gamma < alpha`. -/
theorem c94_defined_partial {g : RgpcmModel} (h : g.gamma < g.alpha) (hl : 0 < g.lam)
    (hne : g.alpha - g.gamma ≠ g.lam) (t1 t2 u1 u2 : ℝ) : ∃ v, g.iuxEntry t1 t2 u1 u2 = .ok v := by
  unfold RgpcmModel.iuxEntry
  simp only
  rw [if_neg]
  · exact ⟨_, rfl⟩
  · rintro (h' | h')
    · linarith
    · have : (g.gamma - g.alpha - g.lam) * (g.gamma - g.alpha + g.lam) = 0 := by linarith
      rcases mul_eq_zero.1 this with h'' | h''
      · linarith
      · exact hne (by linarith)

/-! ## C95 -/

/-- **C95** is false: at a prediction time whose filter support lies after `b`, `compute_I_uz` is not the
integral that defines it. -/
theorem c95_false {g : RgpcmModel} (hαγ : g.alpha ≠ g.gamma) (hM : 0 ≤ g.mMax) (hl : 0 < g.lam)
    (hab : g.a < g.b) (hT : 0 < g.alphaT) (hgT : 0 < g.gammaT) {t u : ℝ} (hu : 0 < u) (ht : g.b ≤ t - u) :
    Spec.R.iuz (specOf g) t u 0 < g.alphaT * g.gammaT * exp (-g.gamma * u) * uzEntry g u 0 t := by
  obtain ⟨g', hg'⟩ : ∃ g' : RgpcmModel, g' = { g with b := t } := ⟨_, rfl⟩
  have e1 : g.alphaT * g.gammaT * exp (-g.gamma * u) * uzEntry g u 0 t = Spec.R.iuz (specOf g') t u 0 := by
    rw [← c71_entry (g := g') (by rw [hg']; exact hαγ) hu.le (by rw [hg']; show g.a ≤ t - u; linarith)
      (by rw [hg'])]
    rw [hg']
    unfold uzEntry
    have h0 : ((0 : ℕ) : ℤ) ≤ g.mMax := by simpa using hM
    simp only [h0, if_true]
    rfl
  rw [e1]
  have hM' : ((0 : ℕ) : ℤ) ≤ (specOf g).M := by simpa [specOf] using hM
  have hM'' : ((0 : ℕ) : ℤ) ≤ (specOf g').M := by rw [hg']; exact hM'
  have hf0 : ∀ p : Spec.R.Params, ((0 : ℕ) : ℤ) ≤ p.M → Spec.R.freq p 0 = 0 := fun p h => by
    rw [Spec.R.freq, if_pos h]
    simp
  have hphi : ∀ s ∈ Icc 0 u, Spec.R.phi (specOf g) 0 (t - s) = exp (-(g.lam * (t - s - g.b))) := by
    intro s hs
    have hge : g.b ≤ t - s := by linarith [hs.2]
    rcases hge.eq_or_lt with h | h
    · rw [phi_inside _ _ (show g.a ≤ t - s by linarith) (show t - s ≤ g.b from h.ge), Spec.R.wave, if_pos hM',
        hf0 _ hM', ← h]
      simp
    · have h1 : ¬ t - s < (specOf g).a := not_lt.2 (show g.a ≤ t - s by linarith)
      have h2 : ¬ t - s ≤ (specOf g).b := not_le.2 h
      rw [Spec.R.phi, if_neg h1, if_neg h2, if_pos hM']
      rfl
  have hphi' : ∀ s ∈ Icc 0 u, Spec.R.phi (specOf g') 0 (t - s) = 1 := by
    intro s hs
    rw [phi_inside _ _ (show g'.a ≤ t - s by rw [hg']; show g.a ≤ t - s; linarith [hs.2])
      (show t - s ≤ g'.b by rw [hg']; show t - s ≤ t; linarith [hs.1]), Spec.R.wave, if_pos hM'', hf0 _ hM'']
    simp
  have hsub : ∀ p : Spec.R.Params, Spec.R.iuz p t u 0 = ∫ s in (0 : ℝ)..u, p.alphaT * p.gammaT *
      exp (-(p.alpha * s)) * exp (-(p.gamma * (u - s))) * Spec.R.phi p 0 (t - s) := fun p => by
    unfold Spec.R.iuz
    have e := integral_sub_left_eq_self (fun s => Spec.R.khu p s u * Spec.R.phi p 0 (t - s)) volume t
    simp only [sub_sub_cancel] at e
    rw [e, integral_khu p hu.le]
  rw [hsub, hsub]
  have c1 : ∫ s in (0 : ℝ)..u, (specOf g).alphaT * (specOf g).gammaT * exp (-((specOf g).alpha * s)) *
      exp (-((specOf g).gamma * (u - s))) * Spec.R.phi (specOf g) 0 (t - s) =
      ∫ s in (0 : ℝ)..u, g.alphaT * g.gammaT * exp (-(g.alpha * s)) * exp (-(g.gamma * (u - s))) *
        exp (-(g.lam * (t - s - g.b))) := by
    refine intervalIntegral.integral_congr fun s hs => ?_
    rw [uIcc_of_le hu.le] at hs
    simp only [hphi s hs]
    rfl
  have c2 : ∫ s in (0 : ℝ)..u, (specOf g').alphaT * (specOf g').gammaT * exp (-((specOf g').alpha * s)) *
      exp (-((specOf g').gamma * (u - s))) * Spec.R.phi (specOf g') 0 (t - s) =
      ∫ s in (0 : ℝ)..u, g.alphaT * g.gammaT * exp (-(g.alpha * s)) * exp (-(g.gamma * (u - s))) * 1 := by
    refine intervalIntegral.integral_congr fun s hs => ?_
    rw [uIcc_of_le hu.le] at hs
    simp only [hphi' s hs]
    rw [hg']
    rfl
  rw [c1, c2]
  refine intervalIntegral.integral_lt_integral_of_continuousOn_of_le_of_exists_lt hu
    (Continuous.continuousOn (by fun_prop)) (Continuous.continuousOn (by fun_prop)) (fun s hs => ?_)
    ⟨0, ⟨le_rfl, hu.le⟩, ?_⟩
  · refine mul_le_mul_of_nonneg_left ?_ (by positivity)
    rw [exp_le_one_iff]
    have : 0 ≤ g.lam * (t - s - g.b) := mul_nonneg hl.le (by linarith [hs.2])
    linarith
  · refine mul_lt_mul_of_pos_left ?_ (by positivity)
    rw [exp_lt_one_iff]
    have : 0 < g.lam * (t - 0 - g.b) := mul_pos hl (by linarith)
    linarith

/-- The hypotheses can be met. -/
example : exRgpcm.alpha ≠ exRgpcm.gamma ∧ 0 ≤ exRgpcm.mMax ∧ 0 < exRgpcm.lam ∧ exRgpcm.a < exRgpcm.b ∧
    0 < exRgpcm.alphaT ∧ 0 < exRgpcm.gammaT ∧ exRgpcm.b ≤ 5 - 1 := by
  norm_num [exRgpcm]

end Gpcm.Rgpcm
