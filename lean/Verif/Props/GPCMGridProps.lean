import Verif.Lemmas.GpcmGrid

/-! # Properties C58-C62: length scales and inducing points of the GPCM -/

open Real

namespace Gpcm

/-! ## C58 -/

/-- **C58.** The conversions between a length scale and a factor are inverse bijections of the
positive reals. -/
theorem c58_inverse :
    Set.BijOn scaleToFactor (Set.Ioi 0) (Set.Ioi 0) ∧
    Set.BijOn factorToScale (Set.Ioi 0) (Set.Ioi 0) ∧
    (∀ s > 0, factorToScale (scaleToFactor s) = s) ∧
    ∀ f > 0, scaleToFactor (factorToScale f) = f := by
  have h1 : ∀ s > 0, factorToScale (scaleToFactor s) = s := fun s hs => by
    have h : 4 * scaleToFactor s / π = (1 / s) ^ 2 := by
      unfold scaleToFactor
      field_simp
      norm_num
    unfold factorToScale
    rw [h, sqrt_sq (by positivity), one_div_one_div]
  have h2 : ∀ f > 0, scaleToFactor (factorToScale f) = f := fun f hf => by
    unfold scaleToFactor
    rw [factorToScale_sq hf]
    field_simp
    norm_num
  refine ⟨?_, ?_, h1, h2⟩
  · exact Set.BijOn.mk (fun s hs => scaleToFactor_pos hs)
      (fun s hs s' hs' h => by rw [← h1 s hs, ← h1 s' hs', h])
      fun f hf => ⟨_, factorToScale_pos hf, h2 f hf⟩
  · exact Set.BijOn.mk (fun s hs => factorToScale_pos hs)
      (fun s hs s' hs' h => by rw [← h2 s hs, ← h2 s' hs', h])
      fun f hf => ⟨_, scaleToFactor_pos hf, h1 f hf⟩

/-- **C58.** Both conversions are strictly decreasing. -/
theorem c58_decreasing :
    StrictAntiOn scaleToFactor (Set.Ioi 0) ∧ StrictAntiOn factorToScale (Set.Ioi 0) := by
  constructor
  · intro s hs s' hs' h
    have hs : (0 : ℝ) < s := hs
    unfold scaleToFactor
    gcongr
  · intro s hs s' hs' h
    have hs : (0 : ℝ) < s := hs
    unfold factorToScale
    gcongr

/-- **C58.** At twice the length scale a window with that factor has decayed to `exp(-π)`. -/
theorem c58_decay {s : ℝ} (hs : 0 < s) : exp (-scaleToFactor s * (2 * s) ^ 2) = exp (-π) := by
  congr 1
  unfold scaleToFactor
  field_simp

example : scaleToFactor 1 = π / 4 := by unfold scaleToFactor; ring

/-! ## C59 -/

/-- **C59.** The default inducing points of the acausal filter are equally spaced and symmetric, their
number is odd, zero is the middle one, and the window has decayed to `exp(-π)` at the last one. Partial:
there must be more than one inducing point. -/
theorem c59_acausal_partial {a : GpcmArgs} {g : GpcmModel} (h : GpcmModel.new a = .ok g)
    (hc : a.causal = false) (ht : a.tU = none) (hα : 0 < g.alpha) (hn : 1 < g.nU) :
    ∃ (k : ℕ) (d : ℝ), 0 < k ∧ 0 < d ∧ g.nU = 2 * k + 1 ∧ g.tU.length = 2 * k + 1 ∧
      (∀ i : ℕ, i < 2 * k + 1 → g.tU[i]? = some (((i : ℝ) - k) * d)) ∧
      g.tU[k]? = some 0 ∧ g.tU.reverse = g.tU.map (fun x => -x) ∧
      (∀ x, g.tU.getLast? = some x → exp (-g.alpha * x ^ 2) = exp (-π)) ∧
      (∀ n, a.nU = some n → g.nU = n ∨ g.nU = n + 1) := by
  obtain ⟨-, -, hu, -⟩ := GpcmModel.new_ok h
  unfold initTU at hu
  rw [ht] at hu
  simp only [hc, Bool.false_eq_true, if_false] at hu
  obtain ⟨n, hn', hu⟩ := bind1_ok hu
  obtain ⟨l, hl, hu⟩ := bind1_ok hu
  obtain ⟨hN, rfl⟩ : (if n % 2 = 0 then n + 1 else n) = g.nU ∧ l = g.tU := by
    have := Except.ok.inj hu
    exact ⟨congrArg Prod.fst this, congrArg Prod.snd this⟩
  rw [hN] at hl
  obtain ⟨-, hlen, hget⟩ := linspace_ok hl
  have hodd : g.nU % 2 = 1 := by rw [← hN]; split_ifs <;> omega
  obtain ⟨k, hk⟩ : ∃ k : ℕ, g.nU = 2 * k + 1 := ⟨(g.nU / 2).toNat, by omega⟩
  have hk0 : 0 < k := by omega
  have hlen' : g.tU.length = 2 * k + 1 := by omega
  have hm := factorToScale_pos hα
  have hkr : (0 : ℝ) < k := by exact_mod_cast hk0
  have hall : ∀ i : ℕ, i < 2 * k + 1 →
      g.tU[i]? = some (((i : ℝ) - k) * (2 * factorToScale g.alpha / k)) := fun i hi => by
    rw [hget i (by omega), hk]
    congr 1
    push_cast
    field_simp
    ring
  refine ⟨k, 2 * factorToScale g.alpha / k, hk0, by positivity, hk, hlen', hall, ?_, ?_, ?_, ?_⟩
  · rw [hall k (by omega)]
    simp
  · refine List.ext_getElem? fun i => ?_
    rcases lt_or_ge i (2 * k + 1) with hi | hi
    · rw [List.getElem?_reverse (by omega), List.getElem?_map, hall _ (by omega), hall _ hi]
      simp only [Option.map_some, Option.some.injEq]
      rw [hlen', show 2 * k + 1 - 1 - i = 2 * k - i by omega, Nat.cast_sub (by omega)]
      push_cast
      ring
    · rw [List.getElem?_eq_none (by simp; omega), List.getElem?_eq_none (by simp; omega)]
  · intro x hx
    rw [List.getLast?_eq_getElem?, hlen', hall _ (by omega)] at hx
    obtain rfl := Option.some.inj hx
    congr 1
    rw [show 2 * k + 1 - 1 = 2 * k by omega]
    have : (((2 * k : ℕ) : ℝ) - k) * (2 * factorToScale g.alpha / k) = 2 * factorToScale g.alpha := by
      push_cast
      field_simp
      ring
    rw [this, mul_pow, factorToScale_sq hα]
    field_simp
    norm_num
  · intro n' h'
    unfold autoNU at hn'
    rw [h'] at hn'
    obtain rfl := Except.ok.inj hn'
    rw [← hN]
    split_ifs <;> simp

/-- **C59.** The default inducing points of the causal filter are equally spaced, the third one is
zero, and the window has decayed to `exp(-π)` at the last one. Partial: at least two inducing points
must be asked for. -/
theorem c59_causal_partial {a : GpcmArgs} {g : GpcmModel} (h : GpcmModel.new a = .ok g)
    (hc : a.causal = true) (ht : a.tU = none) (hα : 0 < g.alpha) (hn : 3 < g.nU) :
    ∃ d : ℝ, 0 < d ∧ (g.tU.length : ℤ) = g.nU ∧
      (∀ i : ℕ, (i : ℤ) < g.nU → g.tU[i]? = some (((i : ℝ) - 2) * d)) ∧
      g.tU[2]? = some 0 ∧
      (∀ x, g.tU.getLast? = some x → exp (-g.alpha * x ^ 2) = exp (-π)) ∧
      (∀ n, a.nU = some n → g.nU = n + 2) := by
  obtain ⟨-, -, hu, -⟩ := GpcmModel.new_ok h
  unfold initTU at hu
  rw [ht] at hu
  simp only [hc, if_true] at hu
  obtain ⟨n, hn', hu⟩ := bind1_ok hu
  split_ifs at hu with h1
  obtain ⟨l, hl, hu⟩ := bind1_ok hu
  obtain ⟨hN, rfl⟩ : n + 2 = g.nU ∧ l = g.tU := by
    have := Except.ok.inj hu
    exact ⟨congrArg Prod.fst this, congrArg Prod.snd this⟩
  rw [hN] at hl
  obtain ⟨-, hlen, hget⟩ := linspace_ok hl
  have hm := factorToScale_pos hα
  have hnr : (0 : ℝ) < ((n - 1 : ℤ) : ℝ) := by exact_mod_cast (by omega : (0 : ℤ) < n - 1)
  have hall : ∀ i : ℕ, (i : ℤ) < g.nU →
      g.tU[i]? = some (((i : ℝ) - 2) * (2 * factorToScale g.alpha / ((n - 1 : ℤ) : ℝ))) := fun i hi => by
    rw [hget i hi, ← hN]
    congr 1
    have : (((n + 2 : ℤ) : ℝ) - 1) = ((n - 1 : ℤ) : ℝ) + 2 := by push_cast; ring
    rw [this]
    field_simp
    ring
  refine ⟨2 * factorToScale g.alpha / ((n - 1 : ℤ) : ℝ), by positivity, hlen, hall, ?_, ?_, ?_⟩
  · rw [hall 2 (by omega)]
    simp
  · intro x hx
    rw [List.getLast?_eq_getElem?, hall _ (by omega)] at hx
    obtain rfl := Option.some.inj hx
    congr 1
    have hcast : ((g.tU.length - 1 : ℕ) : ℝ) - 2 = ((n - 1 : ℤ) : ℝ) := by
      have : ((g.tU.length - 1 : ℕ) : ℤ) - 2 = n - 1 := by omega
      exact_mod_cast congrArg (fun z : ℤ => (z : ℝ)) this
    rw [hcast, mul_div_cancel₀ _ hnr.ne', mul_pow, factorToScale_sq hα]
    field_simp
    norm_num
  · intro n' h'
    unfold autoNU at hn'
    rw [h'] at hn'
    obtain rfl := Except.ok.inj hn'
    exact hN.symm

/-- Arguments used for witnesses: a window, a length scale and data on `[0, 1]` with two inducing
points for the noise. -/
noncomputable def witnessArgs (causal : Bool) (w s : ℝ) : GpcmArgs :=
  { causal := causal, window := some w, scale := some s, t := some [0, 1], nZ := some 2 }

theorem toNat4 : Int.toNat 4 = 4 := rfl
theorem toNat5 : Int.toNat 5 = 5 := rfl
theorem toNat11 : Int.toNat 11 = 11 := rfl

theorem witness_tz (causal : Bool) (w s : ℝ) : initTZ (witnessArgs causal w s) = .ok (2, [0, 1]) := by
  simp [initTZ, witnessArgs, autoNZ, need, pyMin, pyMax, bind1, linspace, List.range_succ]
  norm_num

theorem witness_new (causal : Bool) {w s : ℝ} {u : ℤ × List ℝ}
    (hu : initTU (witnessArgs causal w s) (scaleToFactor w) = .ok u) :
    ∃ g, GpcmModel.new (witnessArgs causal w s) = .ok g ∧ g.nU = u.1 ∧ g.tU = u.2 ∧ g.nZ = 2 ∧
      g.tZ = [0, 1] ∧ g.alpha = scaleToFactor w ∧
      g.gamma = scaleToFactor s - 0.5 * scaleToFactor w ∧ g.omega = scaleToFactor 0.5 :=
  ⟨_, GpcmModel.new_of (al := scaleToFactor w) (ga := scaleToFactor s - 0.5 * scaleToFactor w)
    (om := scaleToFactor 0.5) (z := (2, [0, 1])) rfl rfl hu (witness_tz causal w s) rfl (by
      simp [initOmega, witnessArgs]), rfl, rfl, rfl, rfl, rfl, rfl, rfl⟩

/-- **C59 is false** for a single inducing point, which is the default when the length scale is at least
four windows: the only inducing point is then at the left end, not at zero. -/
theorem c59_single_false : ∃ (a : GpcmArgs) (g : GpcmModel), GpcmModel.new a = .ok g ∧
    a.causal = false ∧ a.window = some 1 ∧ a.scale = some 4 ∧ a.tU = none ∧ a.nU = none ∧
    g.tU = [-2] := by
  obtain ⟨g, hg, h1, h2, -⟩ := witness_new false (w := 1) (s := 4) (u := (1, [-2])) (by
    have h : (⌈(2 * 2 * 1 / 4 : ℝ)⌉) = 1 := by norm_num
    simp [initTU, witnessArgs, autoNU, need, bind1]
    norm_num [linspace, List.range_succ, c58_inverse.2.2.1])
  exact ⟨_, g, hg, rfl, rfl, rfl, rfl, rfl, h2⟩

/-- **C59 is false** for the causal model under the same condition: the spacing is a division by
zero. -/
theorem c59_causal_false : ∃ a : GpcmArgs, a.causal = true ∧ a.window = some 1 ∧ a.scale = some 4 ∧
    a.tU = none ∧ a.nU = none ∧ GpcmModel.new a = .error .zeroDivision := by
  refine ⟨witnessArgs true 1 4, rfl, rfl, rfl, rfl, rfl, ?_⟩
  have h : (⌈(2 * 2 * 1 / 4 : ℝ)⌉) = 1 := by norm_num
  simp only [GpcmModel.new, initAlpha, initGamma, witnessArgs, need, bind1, initTU, autoNU, h]
  norm_num

example : ∃ (a : GpcmArgs) (g : GpcmModel), GpcmModel.new a = .ok g ∧ a.causal = false ∧
    a.tU = none ∧ 0 < g.alpha ∧ 1 < g.nU ∧ g.tU = [-2, -1, 0, 1, 2] := by
  obtain ⟨g, hg, h1, h2, -, -, h3, -⟩ := witness_new false (w := 1) (s := 1) (u := (5, [-2, -1, 0, 1, 2])) (by
    simp [initTU, witnessArgs, autoNU, need, bind1]
    norm_num [linspace, List.range_succ, c58_inverse.2.2.1, toNat4, toNat5])
  exact ⟨_, g, hg, rfl, rfl, by rw [h3]; exact scaleToFactor_pos one_pos, by rw [h1]; norm_num, h2⟩

example : ∃ (a : GpcmArgs) (g : GpcmModel), GpcmModel.new a = .ok g ∧ a.causal = true ∧
    a.tU = none ∧ 0 < g.alpha ∧ 3 < g.nU ∧ g.tU = [-4, -2, 0, 2] := by
  obtain ⟨g, hg, h1, h2, -, -, h3, -⟩ := witness_new true (w := 1) (s := 2) (u := (4, [-4, -2, 0, 2])) (by
    simp [initTU, witnessArgs, autoNU, need, bind1]
    norm_num [linspace, List.range_succ, c58_inverse.2.2.1, toNat4, toNat5])
  exact ⟨_, g, hg, rfl, rfl, by rw [h3]; exact scaleToFactor_pos one_pos, by rw [h1]; norm_num, h2⟩

/-! ## C60 -/

/-- **C60 is false**: capped to 300, the model uses 301 or 302 inducing points for the filter. -/
theorem c60_filter_false (causal : Bool) : ∃ (a : GpcmArgs) (g : GpcmModel),
    GpcmModel.new a = .ok g ∧ a.causal = causal ∧ a.nU = none ∧ a.tU = none ∧ a.nUCap = 300 ∧
    a.window = some 100 ∧ a.scale = some 1 ∧ g.nU = if causal then 302 else 301 := by
  have h : (⌈(2 * 2 * 100 / 1 : ℝ)⌉) = 400 := by norm_num
  obtain ⟨u, hu, hu'⟩ : ∃ u, initTU (witnessArgs causal 100 1) (scaleToFactor 100) = .ok u ∧
      u.1 = if causal then 302 else 301 := by
    cases causal
    · refine ⟨⟨301, ?_⟩, ?_, by simp⟩
      swap
      · simp only [initTU, witnessArgs, autoNU, need, bind1, h]
        norm_num
        rw [linspace_of_nonneg (by norm_num)]
    · refine ⟨⟨302, ?_⟩, ?_, by simp⟩
      swap
      · simp only [initTU, witnessArgs, autoNU, need, bind1, h]
        norm_num
        rw [linspace_of_nonneg (by norm_num)]
  obtain ⟨g, hg, h1, -⟩ := witness_new causal hu
  exact ⟨_, g, hg, rfl, rfl, rfl, rfl, rfl, rfl, h1.trans hu'⟩

/-- **C60.** Automatically determined numbers of inducing points exceed the cap by at most one (acausal
filter), two (causal filter) and zero (noise, without the extension). -/
theorem c60_caps_partial {a : GpcmArgs} {g : GpcmModel} (h : GpcmModel.new a = .ok g) :
    (a.nU = none → a.tU = none → g.nU ≤ a.nUCap + (if a.causal then 2 else 1) ∧
      (g.tU.length : ℤ) = g.nU) ∧
    (a.nZ = none → a.tZ = none → a.extendTZ = false → g.nZ ≤ a.nZCap ∧
      (g.tZ.length : ℤ) = g.nZ) := by
  obtain ⟨-, -, hu, ⟨z, hz, hz'⟩, -⟩ := GpcmModel.new_ok h
  constructor
  · intro h1 h2
    unfold initTU at hu
    rw [h2] at hu
    obtain ⟨n, hn, hu⟩ := bind1_ok hu
    have hcap : n ≤ a.nUCap := by
      unfold autoNU at hn
      rw [h1] at hn
      obtain ⟨w, -, hn⟩ := bind1_ok hn
      obtain ⟨s, -, hn⟩ := bind1_ok hn
      dsimp only at hn
      split_ifs at hn with hgt
      · exact (Except.ok.inj hn).symm.le
      · exact (Except.ok.inj hn) ▸ not_lt.1 hgt
    cases hc : a.causal
    · simp only [hc, Bool.false_eq_true, if_false] at hu ⊢
      obtain ⟨l, hl, hu⟩ := bind1_ok hu
      have e1 := congrArg Prod.fst (Except.ok.inj hu)
      have e2 := congrArg Prod.snd (Except.ok.inj hu)
      dsimp only at e1 e2
      subst e2
      rw [e1] at hl
      refine ⟨?_, (linspace_ok hl).2.1⟩
      rw [← e1]
      split_ifs <;> omega
    · simp only [hc, if_true] at hu ⊢
      split_ifs at hu with h3
      obtain ⟨l, hl, hu⟩ := bind1_ok hu
      have e1 := congrArg Prod.fst (Except.ok.inj hu)
      have e2 := congrArg Prod.snd (Except.ok.inj hu)
      dsimp only at e1 e2
      subst e2
      rw [e1] at hl
      exact ⟨by omega, (linspace_ok hl).2.1⟩
  · intro h1 h2 h3
    unfold extendTZ at hz'
    rw [if_pos h3] at hz'
    obtain rfl := Except.ok.inj hz'
    unfold initTZ at hz
    rw [h2] at hz
    obtain ⟨n, hn, hz⟩ := bind1_ok hz
    have hcap : n ≤ a.nZCap := by
      unfold autoNZ at hn
      rw [h1] at hn
      obtain ⟨w, -, hn⟩ := bind1_ok hn
      obtain ⟨s, -, hn⟩ := bind1_ok hn
      obtain ⟨s, -, hn⟩ := bind1_ok hn
      obtain ⟨s, -, hn⟩ := bind1_ok hn
      dsimp only at hn
      split_ifs at hn with hgt
      · exact (Except.ok.inj hn).symm.le
      · exact (Except.ok.inj hn) ▸ not_lt.1 hgt
    obtain ⟨t, -, hz⟩ := bind1_ok hz
    obtain ⟨lo, -, hz⟩ := bind1_ok hz
    obtain ⟨hi, -, hz⟩ := bind1_ok hz
    obtain ⟨l, hl, hz⟩ := bind1_ok hz
    have e1 := congrArg Prod.fst (Except.ok.inj hz)
    have e2 := congrArg Prod.snd (Except.ok.inj hz)
    dsimp only at e1 e2
    subst e2
    rw [e1] at hl
    exact ⟨by omega, (linspace_ok hl).2.1⟩

/-- The number of points that are used: the least number that is at least `x`, but no more than the cap. -/
def Spec.Points (x : ℝ) (cap n : ℤ) : Prop := ∃ k : ℤ, IsLeast {k : ℤ | x ≤ k} k ∧ n = min k cap

theorem points_ceil {x : ℝ} {cap n : ℤ}
    (h : (if ⌈x⌉ > cap then (.ok cap : Except PyErr ℤ) else .ok ⌈x⌉) = .ok n) : Spec.Points x cap n := by
  refine ⟨⌈x⌉, ⟨Int.le_ceil x, fun k hk => Int.ceil_le.2 hk⟩, ?_⟩
  split_ifs at h with hgt
  · rw [min_eq_right (le_of_lt hgt)]
    exact (Except.ok.inj h).symm
  · rw [min_eq_left (not_lt.1 hgt)]
    exact (Except.ok.inj h).symm

/-- **C60.** By default there are two inducing points per length scale: over the span of the data for the noise, and over twice the window for
the filter, up to the cap and before the points that make the grid symmetric or that lie before time zero. -/
theorem c60_density {a : GpcmArgs} {g : GpcmModel} (h : GpcmModel.new a = .ok g) {s : ℝ} (hs : a.scale = some s) :
    (a.nZ = none → a.tZ = none → a.extendTZ = false → ∀ {t : List ℝ} {lo hi : ℝ}, a.t = some t → pyMin t = .ok lo →
      pyMax t = .ok hi → Spec.Points (2 * (hi - lo) / s) a.nZCap g.nZ) ∧
    (a.nU = none → a.tU = none → ∀ {w : ℝ}, a.window = some w → ∃ n, Spec.Points (2 * (2 * w) / s) a.nUCap n ∧
      g.nU = if a.causal then n + 2 else if n % 2 = 0 then n + 1 else n) := by
  obtain ⟨-, -, hu, ⟨z, hz, hz'⟩, -⟩ := GpcmModel.new_ok h
  constructor
  · intro h1 h2 h3 t lo hi ht hlo hhi
    unfold extendTZ at hz'
    rw [if_pos h3] at hz'
    obtain rfl := Except.ok.inj hz'
    unfold initTZ at hz
    rw [h2] at hz
    obtain ⟨n, hn, hz⟩ := bind1_ok hz
    obtain ⟨t', -, hz⟩ := bind1_ok hz
    obtain ⟨lo', -, hz⟩ := bind1_ok hz
    obtain ⟨hi', -, hz⟩ := bind1_ok hz
    obtain ⟨l, hl, hz⟩ := bind1_ok hz
    have e1 : n = g.nZ := congrArg Prod.fst (Except.ok.inj hz)
    rw [← e1]
    unfold autoNZ at hn
    rw [h1, ht, hs] at hn
    simp only [need, bind1, hlo, hhi] at hn
    exact points_ceil hn
  · intro h1 h2 w hw
    unfold initTU at hu
    rw [h2] at hu
    obtain ⟨n, hn, hu⟩ := bind1_ok hu
    refine ⟨n, ?_, ?_⟩
    · unfold autoNU at hn
      rw [h1, hw, hs] at hn
      simp only [need, bind1] at hn
      rw [← mul_assoc]
      exact points_ceil hn
    · cases hc : a.causal
      · simp only [hc, Bool.false_eq_true, if_false] at hu ⊢
        obtain ⟨l, hl, hu⟩ := bind1_ok hu
        exact (congrArg Prod.fst (Except.ok.inj hu)).symm
      · simp only [hc, if_true] at hu ⊢
        split_ifs at hu with h3
        obtain ⟨l, hl, hu⟩ := bind1_ok hu
        exact (congrArg Prod.fst (Except.ok.inj hu)).symm

/-! ## C61 -/

/-- **C61.** With `extend_t_z` the grid keeps its spacing, contains the grid `g0` that is used without
the option, starts at least two window lengths before the data, and ends at least two window lengths
after it (acausal) or with it (causal). -/
theorem c61_extension {a : GpcmArgs} {g g0 : GpcmModel} (h : GpcmModel.new a = .ok g)
    (hext : a.extendTZ = true) (h0 : GpcmModel.new { a with extendTZ := false } = .ok g0)
    (htz : a.tZ = none) (hα : 0 < g.alpha) (hn : 2 ≤ g0.nZ) {t : List ℝ} (ht : a.t = some t)
    {lo hi : ℝ} (hlo : pyMin t = .ok lo) (hhi : pyMax t = .ok hi) (hlt : lo < hi) :
    ∃ (k : ℕ) (d : ℝ), 0 < k ∧ 0 < d ∧ (g.tZ.length : ℤ) = g.nZ ∧ (g0.tZ.length : ℤ) = g0.nZ ∧
      g.nZ = g0.nZ + (if a.causal then (k : ℤ) else 2 * k) ∧
      (∀ i : ℕ, (i : ℤ) < g0.nZ → g0.tZ[i]? = some (lo + d * i)) ∧
      (∀ i : ℕ, (i : ℤ) < g.nZ → g.tZ[i]? = some (lo - d * k + d * i)) ∧
      (∀ i : ℕ, (i : ℤ) < g0.nZ → g.tZ[i + k]? = g0.tZ[i]?) ∧
      (∀ x, g.tZ.head? = some x → x ≤ lo - 2 * factorToScale g.alpha) ∧
      (∀ x, g.tZ.getLast? = some x →
        if a.causal then x = hi else hi + 2 * factorToScale g.alpha ≤ x) := by
  obtain ⟨ha, -, -, ⟨z, hz, hz'⟩, -⟩ := GpcmModel.new_ok h
  obtain ⟨ha0, -, -, ⟨z0, hz0, hz0'⟩, -⟩ := GpcmModel.new_ok h0
  have hz0' : z0 = (g0.nZ, g0.tZ) := Except.ok.inj hz0'
  have hzz : z = z0 := by
    have : initTZ { a with extendTZ := false } = initTZ a := rfl
    rw [this, hz] at hz0
    exact Except.ok.inj hz0
  subst hzz
  subst hz0'
  unfold initTZ at hz
  rw [htz] at hz
  obtain ⟨n, -, hz⟩ := bind1_ok hz
  obtain ⟨t', ht', hz⟩ := bind1_ok hz
  obtain rfl : t = t' := by rw [ht] at ht'; exact Except.ok.inj ht'
  obtain ⟨lo', hlo', hz⟩ := bind1_ok hz
  obtain rfl : lo = lo' := by rw [hlo] at hlo'; exact Except.ok.inj hlo'
  obtain ⟨hi', hhi', hz⟩ := bind1_ok hz
  obtain rfl : hi = hi' := by rw [hhi] at hhi'; exact Except.ok.inj hhi'
  obtain ⟨l, hl, hz⟩ := bind1_ok hz
  have e1 : n = g0.nZ := congrArg Prod.fst (Except.ok.inj hz)
  have e2 : l = g0.tZ := congrArg Prod.snd (Except.ok.inj hz)
  rw [e1, e2] at hl
  obtain ⟨-, hlen0, hget0⟩ := linspace_ok hl
  -- the extension
  unfold extendTZ at hz'
  rw [if_neg (by simp [hext]), ht] at hz'
  simp only [need, bind1_val, hhi, hlo] at hz'
  rw [if_neg (by omega)] at hz'
  have hnr : (0 : ℝ) < ((g0.nZ - 1 : ℤ) : ℝ) := by exact_mod_cast (by omega : (0 : ℤ) < g0.nZ - 1)
  obtain ⟨d, hd⟩ : ∃ d, d = (hi - lo) / ((g0.nZ - 1 : ℤ) : ℝ) := ⟨_, rfl⟩
  rw [← hd] at hz'
  have hd0 : 0 < d := by rw [hd]; exact div_pos (by linarith) hnr
  rw [if_neg hd0.ne'] at hz'
  have hm := factorToScale_pos hα
  obtain ⟨k, hk⟩ : ∃ k : ℕ, ⌈2 * factorToScale g.alpha / d⌉ = (k : ℤ) :=
    ⟨_, (Int.toNat_of_nonneg (Int.ceil_nonneg (by positivity))).symm⟩
  rw [hk] at hz'
  have hk0 : 0 < k := by
    have : (0 : ℤ) < k := by rw [← hk]; exact Int.ceil_pos.2 (by positivity)
    exact_mod_cast this
  have hkd : 2 * factorToScale g.alpha ≤ k * d := by
    have := Int.le_ceil (2 * factorToScale g.alpha / d)
    rw [hk, div_le_iff₀ hd0] at this
    exact_mod_cast this
  have hhi_eq : hi = lo + d * ((g0.nZ : ℝ) - 1) := by
    rw [hd]
    push_cast at hnr ⊢
    field_simp
    ring
  have hg0 : ∀ i : ℕ, (i : ℤ) < g0.nZ → g0.tZ[i]? = some (lo + d * i) := fun i hi' => by
    rw [hget0 i hi', hd]
    push_cast
    rfl
  have key : (g.tZ.length : ℤ) = g.nZ ∧ g.nZ = g0.nZ + (if a.causal then (k : ℤ) else 2 * k) ∧
      (∀ i : ℕ, (i : ℤ) < g.nZ → g.tZ[i]? = some (lo - d * k + d * i)) := by
    have hn1 : (0 : ℝ) < (g0.nZ : ℝ) - 1 := by exact_mod_cast hnr
    have hkr : (0 : ℝ) < k := by exact_mod_cast hk0
    cases hc : a.causal
    · simp only [hc, Bool.false_eq_true, if_false] at hz' ⊢
      obtain ⟨l', hl', hz'⟩ := bind1_ok hz'
      have e1 := congrArg Prod.fst (Except.ok.inj hz')
      have e2 := congrArg Prod.snd (Except.ok.inj hz')
      dsimp only at e1 e2
      subst e2
      rw [e1] at hl'
      obtain ⟨-, q1, q2⟩ := linspace_ok hl'
      refine ⟨q1, e1.symm, fun i hi' => ?_⟩
      rw [q2 i hi', ← e1, hhi_eq]
      congr 1
      push_cast
      have : (g0.nZ : ℝ) + 2 * k - 1 ≠ 0 := by linarith
      rw [show lo + d * ((g0.nZ : ℝ) - 1) + k * d - (lo - k * d) = d * ((g0.nZ : ℝ) + 2 * k - 1) by
        ring, mul_div_cancel_right₀ _ this]
      ring
    · simp only [hc, if_true] at hz' ⊢
      obtain ⟨l', hl', hz'⟩ := bind1_ok hz'
      have e1 := congrArg Prod.fst (Except.ok.inj hz')
      have e2 := congrArg Prod.snd (Except.ok.inj hz')
      dsimp only at e1 e2
      subst e2
      rw [e1] at hl'
      obtain ⟨-, q1, q2⟩ := linspace_ok hl'
      refine ⟨q1, e1.symm, fun i hi' => ?_⟩
      rw [q2 i hi', ← e1, hhi_eq]
      congr 1
      push_cast
      have : (g0.nZ : ℝ) + k - 1 ≠ 0 := by linarith
      rw [show lo + d * ((g0.nZ : ℝ) - 1) - (lo - k * d) = d * ((g0.nZ : ℝ) + k - 1) by
        ring, mul_div_cancel_right₀ _ this]
      ring
  obtain ⟨q1, q2, q3⟩ := key
  have hle : g0.nZ + k ≤ g.nZ := by rw [q2]; split_ifs <;> omega
  refine ⟨k, d, hk0, hd0, q1, hlen0, q2, hg0, q3, ?_, ?_, ?_⟩
  · intro i hi'
    rw [q3 _ (by push_cast; omega), hg0 i hi']
    congr 1
    push_cast
    ring
  · intro x hx
    rw [List.head?_eq_getElem?, q3 0 (by push_cast; omega)] at hx
    obtain rfl := Option.some.inj hx
    push_cast
    linarith
  · intro x hx
    rw [List.getLast?_eq_getElem?, q3 _ (by omega)] at hx
    obtain rfl := Option.some.inj hx
    have hcast : ((g.tZ.length - 1 : ℕ) : ℝ) = (g.nZ : ℝ) - 1 := by
      have : ((g.tZ.length - 1 : ℕ) : ℤ) = g.nZ - 1 := by omega
      exact_mod_cast congrArg (fun z : ℤ => (z : ℝ)) this
    rw [hcast, q2]
    split_ifs
    · push_cast
      rw [hhi_eq]
      ring
    · push_cast
      rw [hhi_eq]
      linarith

/-- The constructor succeeds with `extend_t_z` on data at `0` and `1`, and one inducing point per half
unit gives four more on each side. -/
example : ∃ (a : GpcmArgs) (g g0 : GpcmModel), GpcmModel.new a = .ok g ∧ a.extendTZ = true ∧
    GpcmModel.new { a with extendTZ := false } = .ok g0 ∧ a.tZ = none ∧ 0 < g.alpha ∧ 2 ≤ g0.nZ ∧
    a.t = some [0, 1] ∧ g0.nZ = 3 ∧ g.nZ = 11 := by
  have h1 : (1 : ℝ) > 0 := one_pos
  refine ⟨{ window := some 1, scale := some 1, t := some [0, 1], nZ := some 3, extendTZ := true }, _, _,
    GpcmModel.new_of (al := scaleToFactor 1) (ga := scaleToFactor 1 - 0.5 * scaleToFactor 1)
      (om := scaleToFactor 0.25) (u := (5, [-2, -1, 0, 1, 2])) (z0 := (3, [0, 1 / 2, 1]))
      (z := (11, [-2, -3 / 2, -1, -1 / 2, 0, 1 / 2, 1, 3 / 2, 2, 5 / 2, 3])) rfl rfl ?_ ?_ ?_ ?_, rfl,
    GpcmModel.new_of (al := scaleToFactor 1) (ga := scaleToFactor 1 - 0.5 * scaleToFactor 1)
      (om := scaleToFactor 0.25) (u := (5, [-2, -1, 0, 1, 2])) (z0 := (3, [0, 1 / 2, 1]))
      (z := (3, [0, 1 / 2, 1])) rfl rfl ?_ ?_ rfl ?_, rfl, scaleToFactor_pos h1, ?_, rfl, rfl, rfl⟩
  · simp [initTU, autoNU, need, bind1]
    norm_num [linspace, List.range_succ, c58_inverse.2.2.1, toNat5]
  · simp [initTZ, autoNZ, need, pyMin, pyMax, bind1, linspace, List.range_succ]
    norm_num
  · simp [extendTZ, need, pyMin, pyMax, bind1, c58_inverse.2.2.1 1 h1]
    norm_num [linspace, List.range_succ, toNat11]
  · simp [initOmega]; norm_num
  · simp [initTU, autoNU, need, bind1]
    norm_num [linspace, List.range_succ, c58_inverse.2.2.1, toNat5]
  · simp [initTZ, autoNZ, need, pyMin, pyMax, bind1, linspace, List.range_succ]
    norm_num
  · simp [initOmega]; norm_num
  · norm_num

/-! ## C62 -/

/-- **C62 is false**: with a window of one and a length scale of two the default `gamma` is negative. -/
theorem c62_false : ∃ (a : GpcmArgs) (g : GpcmModel), GpcmModel.new a = .ok g ∧
    a.window = some 1 ∧ a.scale = some 2 ∧ a.gamma = none ∧ g.gamma < 0 := by
  obtain ⟨g, hg, -, -, -, -, -, h, -⟩ := witness_new true (w := 1) (s := 2) (u := (4, [-4, -2, 0, 2])) (by
    simp [initTU, witnessArgs, autoNU, need, bind1]
    norm_num [linspace, List.range_succ, c58_inverse.2.2.1, toNat4])
  refine ⟨_, g, hg, rfl, rfl, rfl, ?_⟩
  rw [h]
  unfold scaleToFactor
  linarith [Real.pi_pos]

/-- **C62.** The default `gamma` is positive exactly when the length scale is less than the square root
of two times the window. -/
theorem c62_positive_iff_partial {a : GpcmArgs} {g : GpcmModel} (h : GpcmModel.new a = .ok g)
    {w s : ℝ} (h1 : a.alpha = none) (h2 : a.window = some w) (h3 : a.gamma = none)
    (h4 : a.scale = some s) (hw : 0 < w) (hs : 0 < s) : 0 < g.gamma ↔ s < √2 * w := by
  obtain ⟨ha, hg, -⟩ := GpcmModel.new_ok h
  unfold initAlpha at ha
  rw [h1, h2] at ha
  unfold initGamma at hg
  rw [h3, h4] at hg
  have ha : scaleToFactor w = g.alpha := Except.ok.inj ha
  have hg : scaleToFactor s - 0.5 * g.alpha = g.gamma := Except.ok.inj hg
  rw [← hg, ← ha, ← sq_lt_sq₀ hs.le (by positivity), mul_pow, sq_sqrt zero_le_two]
  unfold scaleToFactor
  have : π / 2 / (2 * s ^ 2) - 0.5 * (π / 2 / (2 * w ^ 2)) = π / 8 / (s ^ 2 * w ^ 2) * (2 * w ^ 2 - s ^ 2) := by
    field_simp
    ring
  rw [this]
  rw [mul_pos_iff_of_pos_left (by positivity)]
  exact sub_pos

end Gpcm
