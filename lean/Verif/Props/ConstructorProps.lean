import Verif.Props.GPCMGridProps
import Verif.Props.RGPCMParamProps
import Verif.Lemmas.PriorLemmas

/-! # Property C207: when models can be built from a window, a scale and times -/

open Real

namespace Gpcm

/-- The arguments that the documentation asks for: a window, a scale, and the times of the data. -/
def Spec.gpcmArgs (causal : Bool) (window scale : Option ℝ) (t : Option (List ℝ)) : GpcmArgs :=
  { causal := causal, window := window, scale := scale, t := t }

/-- The same for the RGPCM. -/
def Spec.rgpcmArgs (window scale : Option ℝ) (t : Option (List ℝ)) : RgpcmArgs := { window := window, scale := scale, t := t }

/-! ## The acausal and causal model -/

theorem initTU_default {causal : Bool} {w s : ℝ} (hw : 0 < w) (hs : 0 < s) (hc : causal = true → s < 4 * w) (t : Option (List ℝ)) (al : ℝ) :
    ∃ u, initTU (Spec.gpcmArgs causal (some w) (some s) t) al = .ok u := by
  have h0 : 0 < 2 * 2 * w / s := by positivity
  have h1 : 1 ≤ ⌈2 * 2 * w / s⌉ := Int.one_le_ceil_iff.2 h0
  obtain ⟨n, hn, hn1, hn2⟩ : ∃ n, autoNU (Spec.gpcmArgs causal (some w) (some s) t) = .ok n ∧ 1 ≤ n ∧ (causal = true → n ≠ 1) := by
    simp only [autoNU, Spec.gpcmArgs, need, bind1]
    by_cases h : ⌈2 * 2 * w / s⌉ > 300
    · exact ⟨300, if_pos h, by norm_num, by norm_num⟩
    · refine ⟨_, if_neg h, h1, fun hca he => ?_⟩
      have h2 : 2 * 2 * w / s ≤ 1 := by
        have := Int.ceil_le.1 he.le
        exact_mod_cast this
      rw [div_le_one hs] at h2
      have := hc hca
      linarith
  unfold initTU
  simp only [hn, bind1_val]
  simp only [Spec.gpcmArgs]
  cases causal
  · simp only [Bool.false_eq_true, if_false]
    rw [linspace_of_nonneg (by split_ifs <;> omega)]
    exact ⟨_, rfl⟩
  · have := hn2 rfl
    simp only [if_true]
    rw [if_neg (by omega), linspace_of_nonneg (by omega)]
    exact ⟨_, rfl⟩

/-- A grid has two points exactly if two were asked for. -/
theorem linspace_two {lo hi : ℝ} {n : ℤ} (h : 0 ≤ n) : ∃ l, linspace lo hi n = .ok l ∧
    (2 ≤ n → ∃ z0 z1 r, l = z0 :: z1 :: r ∧ z1 - z0 = (hi - lo) / ((n : ℝ) - 1)) ∧ (n < 2 → l = [] ∨ ∃ z0, l = [z0]) := by
  refine ⟨_, linspace_of_nonneg h, fun h2 => ?_, fun h2 => ?_⟩
  · obtain ⟨k, rfl⟩ : ∃ k : ℕ, n = k + 2 := ⟨(n - 2).toNat, by omega⟩
    have : ((k : ℤ) + 2).toNat = k + 2 := by omega
    rw [this, List.range_succ_eq_map, List.range_succ_eq_map]
    refine ⟨_, _, _, rfl, ?_⟩
    simp
  · have : n.toNat = 0 ∨ n.toNat = 1 := by omega
    rcases this with h | h <;> rw [h]
    · exact Or.inl rfl
    · exact Or.inr ⟨_, rfl⟩

theorem pyMin_exists {t : List ℝ} (h : t ≠ []) : ∃ lo, pyMin t = .ok lo := by
  cases t with
  | nil => exact absurd rfl h
  | cons c t => exact ⟨_, rfl⟩

theorem pyMax_exists {t : List ℝ} (h : t ≠ []) : ∃ hi, pyMax t = .ok hi := by
  cases t with
  | nil => exact absurd rfl h
  | cons c t => exact ⟨_, rfl⟩

/-- **C207** From a positive window, a positive scale (below four windows for the causal model) and at least one time an acausal or
causal model can be built exactly if two of the times are more than half the scale apart; otherwise there are fewer than two inducing points
of the excitation, and the constructor raises an `IndexError`. Without times it raises a `ValueError`. Missing for the full claim: times that
are closer together. -/
theorem c207_gpcm_partial (causal : Bool) {w s : ℝ} (hw : 0 < w) (hs : 0 < s) (hc : causal = true → s < 4 * w) (t : List ℝ) :
    (t = [] → GpcmModel.new (Spec.gpcmArgs causal (some w) (some s) (some t)) = .error .valueError) ∧
    ((∃ x ∈ t, ∃ y ∈ t, s / 2 < y - x) → ∃ g, GpcmModel.new (Spec.gpcmArgs causal (some w) (some s) (some t)) = .ok g) ∧
    (t ≠ [] → (∀ x ∈ t, ∀ y ∈ t, y - x ≤ s / 2) →
      GpcmModel.new (Spec.gpcmArgs causal (some w) (some s) (some t)) = .error .indexError) := by
  obtain ⟨u, hu⟩ := initTU_default hw hs hc (some t) (scaleToFactor w)
  have e1 : initAlpha (Spec.gpcmArgs causal (some w) (some s) (some t)) = .ok (scaleToFactor w) := rfl
  have e2 : initGamma (Spec.gpcmArgs causal (some w) (some s) (some t)) (scaleToFactor w) =
    .ok (scaleToFactor s - 0.5 * scaleToFactor w) := rfl
  have hnew : GpcmModel.new (Spec.gpcmArgs causal (some w) (some s) (some t)) =
      bind1 (bind1 (initTZ (Spec.gpcmArgs causal (some w) (some s) (some t)))
        (extendTZ (Spec.gpcmArgs causal (some w) (some s) (some t)) (scaleToFactor w))) fun z =>
      bind1 (initOmega (Spec.gpcmArgs causal (some w) (some s) (some t)) z.2) fun omega =>
      .ok ⟨causal, 0.05, scaleToFactor w, initAlphaT (Spec.gpcmArgs causal (some w) (some s) (some t)) (scaleToFactor w),
        scaleToFactor s - 0.5 * scaleToFactor w, 4 * factorToScale (scaleToFactor w), u.1, u.2, z.1, z.2, omega,
        (2 * omega / π) ^ (0.25 : ℝ)⟩ := by
    unfold GpcmModel.new
    rw [e1, bind1_val, e2, bind1_val, hu, bind1_val]
    rfl
  have grid : ∀ lo hi, pyMin t = .ok lo → pyMax t = .ok hi →
      ∃ n : ℤ, 0 ≤ n ∧ (2 ≤ n ↔ s / 2 < hi - lo) ∧ initTZ (Spec.gpcmArgs causal (some w) (some s) (some t)) =
        bind1 (linspace lo hi n) fun tZ => .ok (n, tZ) := fun lo hi hlo hhi => by
    have hle : lo ≤ hi := Rgpcm.pyMin_le hlo hi (pyMax_mem hhi)
    have h0 : 0 ≤ 2 * (hi - lo) / s := div_nonneg (by linarith) hs.le
    have hc0 : (0 : ℤ) ≤ ⌈2 * (hi - lo) / s⌉ := Int.ceil_nonneg h0
    have hc2 : 2 ≤ ⌈2 * (hi - lo) / s⌉ ↔ s / 2 < hi - lo := by
      rw [show (2 : ℤ) ≤ ⌈2 * (hi - lo) / s⌉ ↔ 1 < ⌈2 * (hi - lo) / s⌉ by omega, Int.lt_ceil, Int.cast_one, lt_div_iff₀ hs]
      constructor <;> intro h <;> linarith
    by_cases hcap : ⌈2 * (hi - lo) / s⌉ > 300
    · refine ⟨300, by norm_num, ⟨fun _ => hc2.1 (by omega), fun _ => by norm_num⟩, ?_⟩
      simp only [initTZ, autoNZ, Spec.gpcmArgs, need, bind1, hlo, hhi, hcap, if_true]
    · refine ⟨_, hc0, hc2, ?_⟩
      simp only [initTZ, autoNZ, Spec.gpcmArgs, need, bind1, hlo, hhi, hcap, if_false]
  refine ⟨fun h => ?_, fun ⟨x, hx, y, hy, hxy⟩ => ?_, fun h hall => ?_⟩
  · subst h
    rw [hnew]
    rfl
  · have hne : t ≠ [] := List.ne_nil_of_mem hx
    obtain ⟨lo, hlo⟩ := pyMin_exists hne
    obtain ⟨hi, hhi⟩ := pyMax_exists hne
    obtain ⟨n, hn0, hn2, hz⟩ := grid lo hi hlo hhi
    have a1 := Rgpcm.pyMin_le hlo x hx
    have a2 := Rgpcm.pyMax_ge hhi y hy
    obtain ⟨l, hl, hl2, -⟩ := linspace_two (lo := lo) (hi := hi) hn0
    obtain ⟨z0, z1, r, rfl, -⟩ := hl2 (hn2.2 (by linarith))
    rw [hnew, hz, hl]
    exact ⟨_, rfl⟩
  · obtain ⟨lo, hlo⟩ := pyMin_exists h
    obtain ⟨hi, hhi⟩ := pyMax_exists h
    obtain ⟨n, hn0, hn2, hz⟩ := grid lo hi hlo hhi
    obtain ⟨l, hl, -, hl2⟩ := linspace_two (lo := lo) (hi := hi) hn0
    have hlt : n < 2 := by
      by_contra hge
      have := hn2.1 (by omega)
      linarith [hall lo (pyMin_mem hlo) hi (pyMax_mem hhi)]
    rw [hnew, hz, hl]
    rcases hl2 hlt with rfl | ⟨z0, rfl⟩ <;> rfl

/-- **C207** Whatever else is wrong, a missing argument is a `TypeError`: a window, a scale, or the times (if the scale is below four windows
for the causal model). -/
theorem c207_missing (causal : Bool) (window scale : Option ℝ) (t : Option (List ℝ)) :
    GpcmModel.new (Spec.gpcmArgs causal none scale t) = .error .typeError ∧
    GpcmModel.new (Spec.gpcmArgs causal window none t) = .error .typeError ∧
    (∀ w s : ℝ, 0 < w → 0 < s → (causal = true → s < 4 * w) →
      GpcmModel.new (Spec.gpcmArgs causal (some w) (some s) none) = .error .typeError) ∧
    RgpcmModel.new (Spec.rgpcmArgs none scale t) = .error .typeError ∧
    (∀ w : ℝ, 0 < w → RgpcmModel.new (Spec.rgpcmArgs (some w) none t) = .error .typeError) ∧
    (∀ w s : ℝ, 0 < w → 0 < s → RgpcmModel.new (Spec.rgpcmArgs (some w) (some s) none) = .error .typeError) := by
  refine ⟨rfl, ?_, fun w s hw hs hc => ?_, rfl, fun w hw => ?_, fun w s hw hs => ?_⟩
  · cases window <;> rfl
  · obtain ⟨u, hu⟩ := initTU_default hw hs hc none (scaleToFactor w)
    unfold GpcmModel.new
    have e1 : initAlpha (Spec.gpcmArgs causal (some w) (some s) none) = .ok (scaleToFactor w) := rfl
    have e2 : initGamma (Spec.gpcmArgs causal (some w) (some s) none) (scaleToFactor w) =
      .ok (scaleToFactor s - 0.5 * scaleToFactor w) := rfl
    rw [e1, bind1_val, e2, bind1_val, hu, bind1_val]
    rfl
  · simp [RgpcmModel.new, Spec.rgpcmArgs, orElse, need, bind1, divE, hw.ne']
  · have h1 : (0 : ℤ) ≤ ⌈2 * 2 * w / s⌉ := Int.ceil_nonneg (by positivity)
    obtain ⟨n, hn0, hn⟩ : ∃ n : ℤ, 0 ≤ n ∧ Rgpcm.autoNU (Spec.rgpcmArgs (some w) (some s) none) = .ok n := by
      simp only [Rgpcm.autoNU, Spec.rgpcmArgs, orElse, need, bind1, divE, hs.ne', if_false]
      by_cases h : ⌈2 * 2 * w / s⌉ > 300
      · exact ⟨300, by norm_num, if_pos h⟩
      · exact ⟨_, h1, if_neg h⟩
    have hw' : (1 / w : ℝ) ≠ 0 := by positivity
    have hu : Rgpcm.initTU (Spec.rgpcmArgs (some w) (some s) none) (1 / w) =
        .ok (n, (List.range n.toNat).map fun i : ℕ => 0 + (π / (1 / w) - 0) / ((n : ℝ) - 1) * (i : ℝ)) := by
      simp only [Rgpcm.initTU, Spec.rgpcmArgs, divE, hw', if_false, bind1_val]
      have := hn
      simp only [Spec.rgpcmArgs] at this
      rw [this, bind1_val, linspace_of_nonneg hn0, bind1_val]
    have ea : orElse (Spec.rgpcmArgs (some w) (some s) none).alpha
        (bind1 (need (Spec.rgpcmArgs (some w) (some s) none).window) (divE 1)) = .ok (1 / w) := by
      simp [Spec.rgpcmArgs, orElse, need, bind1, divE, hw.ne']
    have el : orElse (Spec.rgpcmArgs (some w) (some s) none).lam
        (bind1 (need (Spec.rgpcmArgs (some w) (some s) none).scale) (divE 1)) = .ok (1 / s) := by
      simp [Spec.rgpcmArgs, orElse, need, bind1, divE, hs.ne']
    have ee : divE 4 (1 / w) = .ok (4 / (1 / w)) := if_neg hw'
    unfold RgpcmModel.new
    rw [ea, bind1_val, el, bind1_val, ee, bind1_val, hu, bind1_val]
    rfl

/-! ## The RGPCM -/

/-- **C207** From a positive window, a positive scale and at least one time an RGPCM can be built exactly if the scale is below four windows;
otherwise there is only one inducing point of the filter, and the constructor raises an `IndexError`. Without times it raises a `ValueError`.
Missing for the full claim: larger scales. -/
theorem c207_rgpcm_partial {w s : ℝ} (hw : 0 < w) (hs : 0 < s) (t : List ℝ) :
    (t = [] → RgpcmModel.new (Spec.rgpcmArgs (some w) (some s) (some t)) = .error .valueError) ∧
    (t ≠ [] → s < 4 * w → ∃ g, RgpcmModel.new (Spec.rgpcmArgs (some w) (some s) (some t)) = .ok g) ∧
    (t ≠ [] → 4 * w ≤ s → RgpcmModel.new (Spec.rgpcmArgs (some w) (some s) (some t)) = .error .indexError) := by
  have hw' : (1 / w : ℝ) ≠ 0 := by positivity
  have h1 : (1 : ℤ) ≤ ⌈2 * 2 * w / s⌉ := Int.one_le_ceil_iff.2 (by positivity)
  have h2 : 2 ≤ ⌈2 * 2 * w / s⌉ ↔ s < 4 * w := by
    rw [show (2 : ℤ) ≤ ⌈2 * 2 * w / s⌉ ↔ 1 < ⌈2 * 2 * w / s⌉ by omega, Int.lt_ceil, Int.cast_one, lt_div_iff₀ hs]
    constructor <;> intro h <;> linarith
  obtain ⟨n, hn0, hn2, hn⟩ : ∃ n : ℤ, 1 ≤ n ∧ (2 ≤ n ↔ s < 4 * w) ∧
      Rgpcm.autoNU (Spec.rgpcmArgs (some w) (some s) (some t)) = .ok n := by
    simp only [Rgpcm.autoNU, Spec.rgpcmArgs, orElse, need, bind1, divE, hs.ne', if_false]
    by_cases h : ⌈2 * 2 * w / s⌉ > 300
    · exact ⟨300, by norm_num, ⟨fun _ => h2.1 (by omega), fun _ => by norm_num⟩, if_pos h⟩
    · exact ⟨_, h1, h2, if_neg h⟩
  obtain ⟨l, hl, hl2, hl1⟩ := linspace_two (lo := 0) (hi := π / (1 / w)) (n := n) (by omega)
  have hlne : l ≠ [] := by
    rcases lt_or_ge n 2 with h | h
    · have hlen := (linspace_ok hl).2.1
      intro h0
      rw [h0] at hlen
      simp at hlen
      omega
    · obtain ⟨z0, z1, r, rfl, -⟩ := hl2 h
      simp
  have hu : Rgpcm.initTU (Spec.rgpcmArgs (some w) (some s) (some t)) (1 / w) = .ok (n, l) := by
    simp only [Rgpcm.initTU, Spec.rgpcmArgs, divE, hw', if_false, bind1_val]
    have := hn
    simp only [Spec.rgpcmArgs] at this
    rw [this, bind1_val, hl, bind1_val]
  have ea : orElse (Spec.rgpcmArgs (some w) (some s) (some t)).alpha
      (bind1 (need (Spec.rgpcmArgs (some w) (some s) (some t)).window) (divE 1)) = .ok (1 / w) := by
    simp [Spec.rgpcmArgs, orElse, need, bind1, divE, hw.ne']
  have el : orElse (Spec.rgpcmArgs (some w) (some s) (some t)).lam
      (bind1 (need (Spec.rgpcmArgs (some w) (some s) (some t)).scale) (divE 1)) = .ok (1 / s) := by
    simp [Spec.rgpcmArgs, orElse, need, bind1, divE, hs.ne']
  have ee : divE 4 (1 / w) = .ok (4 / (1 / w)) := if_neg hw'
  unfold RgpcmModel.new
  rw [ea, bind1_val, el, bind1_val, ee, bind1_val, hu, bind1_val]
  refine ⟨fun h => ?_, fun h hsw => ?_, fun h hsw => ?_⟩
  · subst h
    rfl
  · obtain ⟨lo, hlo⟩ := pyMin_exists h
    obtain ⟨hi, hhi⟩ := pyMax_exists h
    obtain ⟨um, hum⟩ := pyMax_exists hlne
    obtain ⟨z0, z1, r, rfl, hd⟩ := hl2 (hn2.2 hsw)
    have hgap : 2 * (z1 - z0) ≠ 0 := by
      have : (2 : ℝ) ≤ n := by exact_mod_cast hn2.2 hsw
      have h3 : 0 < z1 - z0 := by
        rw [hd]
        have : (0 : ℝ) < n - 1 := by linarith
        have := pi_pos
        rw [sub_zero]
        positivity
      positivity
    have hmm : ∃ k, Rgpcm.initMMax (Spec.rgpcmArgs (some w) (some s) (some t)) (lo - um) hi = .ok k := by
      simp only [Rgpcm.initMMax, Spec.rgpcmArgs, need, bind1, divE, hs.ne', if_false]
      by_cases h : ⌈1 / s * (hi - (lo - um))⌉ > 150
      · exact ⟨_, if_pos h⟩
      · exact ⟨_, if_neg h⟩
    obtain ⟨k, hk⟩ := hmm
    have hA : Rgpcm.initA (Spec.rgpcmArgs (some w) (some s) (some t)) (z0 :: z1 :: r) = .ok (lo - um) := by
      simp only [Rgpcm.initA, Spec.rgpcmArgs, orElse, need, bind1, hlo, hum]
    have hB : Rgpcm.initB (Spec.rgpcmArgs (some w) (some s) (some t)) = .ok hi := by
      simp only [Rgpcm.initB, Spec.rgpcmArgs, orElse, need, bind1, hhi]
    have hG : Rgpcm.initGamma (Spec.rgpcmArgs (some w) (some s) (some t)) (z0 :: z1 :: r) = .ok (1 / (2 * (z1 - z0))) := by
      simp only [Rgpcm.initGamma, Spec.rgpcmArgs, orElse, divE, hgap, if_false]
    simp only [hA, hB, hk, hG, bind1_val]
    exact ⟨_, rfl⟩
  · obtain ⟨lo, hlo⟩ := pyMin_exists h
    obtain ⟨hi, hhi⟩ := pyMax_exists h
    obtain ⟨um, hum⟩ := pyMax_exists hlne
    have hlt : n < 2 := by
      by_contra hge
      linarith [hn2.1 (by omega)]
    have hmm : ∃ k, Rgpcm.initMMax (Spec.rgpcmArgs (some w) (some s) (some t)) (lo - um) hi = .ok k := by
      simp only [Rgpcm.initMMax, Spec.rgpcmArgs, need, bind1, divE, hs.ne', if_false]
      by_cases h : ⌈1 / s * (hi - (lo - um))⌉ > 150
      · exact ⟨_, if_pos h⟩
      · exact ⟨_, if_neg h⟩
    obtain ⟨k, hk⟩ := hmm
    have hA : Rgpcm.initA (Spec.rgpcmArgs (some w) (some s) (some t)) l = .ok (lo - um) := by
      simp only [Rgpcm.initA, Spec.rgpcmArgs, orElse, need, bind1, hlo, hum]
    have hB : Rgpcm.initB (Spec.rgpcmArgs (some w) (some s) (some t)) = .ok hi := by
      simp only [Rgpcm.initB, Spec.rgpcmArgs, orElse, need, bind1, hhi]
    simp only [hA, hB, hk, bind1_val]
    rcases hl1 hlt with rfl | ⟨z0, rfl⟩ <;> rfl

/-! ## Sizes -/

/-- **C207** A model that is built this way has, whatever the data, at most 302 inducing points of the filter and 300 of the excitation; an
RGPCM at most 300 and 301 features. Its noise is 0.05. -/
theorem c207_sizes :
    (∀ (causal : Bool) (w s : Option ℝ) (t : Option (List ℝ)) (g : GpcmModel), GpcmModel.new (Spec.gpcmArgs causal w s t) = .ok g →
      g.tU.length ≤ (if causal then 302 else 301) ∧ g.tZ.length ≤ 300 ∧ g.noise = 0.05) ∧
    ∀ (w s : Option ℝ) (t : Option (List ℝ)) (g : RgpcmModel), RgpcmModel.new (Spec.rgpcmArgs w s t) = .ok g →
      g.tU.length ≤ 300 ∧ g.ms.length ≤ 301 ∧ g.noise = 0.05 := by
  constructor
  · intro causal w s t g h
    obtain ⟨h1, h2⟩ := c60_caps_partial h
    obtain ⟨a1, a2⟩ := h1 rfl rfl
    obtain ⟨b1, b2⟩ := h2 rfl rfl rfl
    simp only [Spec.gpcmArgs] at a1 b1
    refine ⟨?_, by omega, (GpcmModel.new_ok h).2.2.2.2.2.2.2.2.1⟩
    cases causal
    · simp only [Bool.false_eq_true, if_false] at a1 ⊢
      omega
    · simp only [if_true] at a1 ⊢
      omega
  · intro w s t g h
    obtain ⟨h1, h2⟩ := Rgpcm.c60_caps_rgpcm h
    obtain ⟨a1, a2⟩ := h1 rfl rfl
    have b := h2 rfl rfl
    have c := ((Rgpcm.c76_features h).2.2.1 rfl).1
    simp only [Spec.rgpcmArgs] at a1 b
    refine ⟨by omega, ?_, ?_⟩
    · rw [c, List.length_range]
      omega
    · unfold RgpcmModel.new at h
      obtain ⟨_, -, h⟩ := bind1_ok h
      obtain ⟨_, -, h⟩ := bind1_ok h
      obtain ⟨_, -, h⟩ := bind1_ok h
      obtain ⟨_, -, h⟩ := bind1_ok h
      obtain ⟨_, -, h⟩ := bind1_ok h
      obtain ⟨_, -, h⟩ := bind1_ok h
      obtain ⟨_, -, h⟩ := bind1_ok h
      obtain ⟨_, -, h⟩ := bind1_ok h
      obtain rfl := Except.ok.inj h
      rfl

/-! ## Where it fails -/

/-- **C207** A positive window, a positive scale and two different times are not enough for any of the models. -/
theorem c207_false :
    GpcmModel.new (Spec.gpcmArgs false (some 2) (some 2) (some [0, 1])) = .error .indexError ∧
    GpcmModel.new (Spec.gpcmArgs true (some 2) (some 2) (some [0, 1])) = .error .indexError ∧
    RgpcmModel.new (Spec.rgpcmArgs (some 1) (some 4) (some [0, 100])) = .error .indexError := by
  refine ⟨(c207_gpcm_partial false (by norm_num) (by norm_num) (by norm_num) _).2.2 (by simp) ?_,
    (c207_gpcm_partial true (by norm_num) (by norm_num) (by norm_num) _).2.2 (by simp) ?_,
    (c207_rgpcm_partial (by norm_num) (by norm_num) _).2.2 (by simp) (by norm_num)⟩
  all_goals
    intro x hx y hy
    simp only [List.mem_cons, List.not_mem_nil, or_false] at hx hy
    rcases hx with rfl | rfl <;> rcases hy with rfl | rfl <;> norm_num

/-! ## Cases -/

example (causal : Bool) : ∃ g, GpcmModel.new (Spec.gpcmArgs causal (some 2) (some 1) (some [0, 1, 10])) = .ok g :=
  (c207_gpcm_partial causal (by norm_num) (by norm_num) (fun _ => by norm_num) _).2.1 ⟨0, by simp, 10, by simp, by norm_num⟩

example : ∃ g, RgpcmModel.new (Spec.rgpcmArgs (some 2) (some 1) (some [0])) = .ok g :=
  (c207_rgpcm_partial (by norm_num) (by norm_num) _).2.1 (by simp) (by norm_num)

end Gpcm
