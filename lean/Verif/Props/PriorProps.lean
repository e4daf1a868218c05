import Verif.Lemmas.PriorLemmas
import Verif.Props.GPCMIntProps
import Verif.Props.RGPCMParamProps

/-! # Properties C104 to C107: fixed parameters, initial parameters and the length scale of the signal -/

open Real MeasureTheory Set

namespace Gpcm

/-! ## C104 -/

/-- The variables of a GPCM, in the order in which they are created. -/
def GpcmModel.variables (f : Flags) : List String :=
  learnedName f.noise "noise" ++ learnedName f.window "alpha" ++ ["alpha_t"] ++ learnedName f.scale "gamma" ++
    ["omega"] ++ ["t_u"] ++ ["t_z"]

/-- The variables of an RGPCM, in the order in which they are created. -/
def RgpcmModel.variables (f : Flags) : List String :=
  learnedName f.noise "noise" ++ learnedName f.window "alpha" ++ ["alpha_t"] ++ learnedName f.scale "lambda" ++
    ["gamma_factor"] ++ ["t_u"]

theorem askBounded_spec {n : String} {lo hi : ℝ} {init v : List ℝ} {vs vs' : Store}
    (h : askBounded n lo hi init vs = some (v, vs')) : ∃ hb, Asked n (Constraint.bounded lo hi hb) init vs v vs' := by
  unfold askBounded at h
  split_ifs at h with hb
  exact ⟨hb, askVec_spec h⟩

/-- **C104** An instantiation of a GPCM uses the value of the constructor for every parameter that is fixed and the
value of the variable for every other one. It creates no variables but those of parameters that are learned, and
changes no existing variable. -/
theorem c104_gpcm (g : GpcmModel) (f : Flags) {vs vs' : Store} {g' : GpcmModel}
    (h : g.instantiate f vs = some (g', vs')) :
    (∃ ext, vs' = vs ++ ext ∧ ext.names.Sublist (GpcmModel.variables f)) ∧
    (if f.noise then g'.noise = g.noise else vs'.value "noise" = some [g'.noise]) ∧
    (if f.window then g'.alpha = g.alpha else vs'.value "alpha" = some [g'.alpha]) ∧
    (if f.scale then g'.gamma = g.gamma else vs'.value "gamma" = some [g'.gamma]) ∧
    vs'.value "alpha_t" = some [g'.alphaT] ∧ vs'.value "omega" = some [g'.omega] ∧ vs'.value "t_u" = some g'.tU ∧
    vs'.value "t_z" = some g'.tZ ∧ g'.omegaT = g.omegaT ∧ g'.causal = g.causal ∧ g'.extent = g.extent ∧
    g'.nU = g.nU ∧ g'.nZ = g.nZ := by
  unfold GpcmModel.instantiate at h
  split at h
  · rename_i lo hi hlo hhi
    simp only [Option.bind_eq_some_iff] at h
    obtain ⟨⟨x1, v1⟩, h1, ⟨x2, v2⟩, h2, ⟨x3, v3⟩, h3, ⟨x4, v4⟩, h4, ⟨x5, v5⟩, h5, ⟨x6, v6⟩, h6, ⟨x7, v7⟩, h7, h⟩ := h
    cases h
    have h1 := askUnless_spec h1
    have h2 := askUnless_spec h2
    have h3 := ask_spec h3
    have h4 := askUnless_spec h4
    have h5 := ask_spec h5
    obtain ⟨hb, h6⟩ := askBounded_spec h6
    have h7 := askVec_spec h7
    have g6 := h7.grew
    have g5 := h6.grew.trans g6
    have g4 := h5.grew.trans g5
    have g3 := h4.grew.trans g4
    have g2 := h3.grew.trans g3
    have g1 := h2.grew.trans g2
    refine ⟨?_, ?_, ?_, ?_, g3.value h3.value, g5.value h5.value, g6.value h6.value, h7.value, rfl, rfl, rfl, rfl, rfl⟩
    · obtain ⟨ext, h, hs⟩ := h1.grew.trans g1
      exact ⟨ext, h, by simpa [GpcmModel.variables, List.append_assoc] using hs⟩
    · split_ifs with hf
      · exact h1.const hf
      · exact g1.value (h1.value (by simpa using hf)).1
    · split_ifs with hf
      · exact h2.const hf
      · exact g2.value (h2.value (by simpa using hf)).1
    · split_ifs with hf
      · exact h4.const hf
      · exact g4.value (h4.value (by simpa using hf)).1
  · cases h

/-- **C104** The model of `__prior__` that C63 to C66 use is that: it takes the values of the variables that are learned
and ignores those of the fixed parameters. -/
theorem c104_prior (g : GpcmModel) (f : Flags) {vs vs' : Store} {g' : GpcmModel}
    (h : g.instantiate f vs = some (g', vs')) (θ : GpcmLearned)
    (hn : f.noise = false → vs'.value "noise" = some [θ.noise])
    (ha : f.window = false → vs'.value "alpha" = some [θ.alpha])
    (hγ : f.scale = false → vs'.value "gamma" = some [θ.gamma]) (hk : vs'.value "alpha_t" = some [θ.alphaT])
    (ho : vs'.value "omega" = some [θ.omega]) (hu : vs'.value "t_u" = some θ.tU) (hz : vs'.value "t_z" = some θ.tZ) :
    g.prior f.noise f.window f.scale θ = g' := by
  obtain ⟨-, e1, e2, e3, e4, e5, e6, e7, e8, e9, e10, e11, e12⟩ := c104_gpcm g f h
  unfold GpcmModel.prior
  rw [hk] at e4
  rw [ho] at e5
  rw [hu] at e6
  rw [hz] at e7
  cases g'
  simp only [Option.some.injEq, List.cons.injEq, and_true] at e4 e5 e6 e7
  congr 1
  all_goals try first
    | exact e4 | exact e5 | exact e6 | exact e7 | exact e8.symm
    | exact e9.symm | exact e10.symm | exact e11.symm | exact e12.symm
  · cases hf : f.noise
    · rw [hf, if_neg (by simp), hn hf] at e1
      simpa using e1
    · rw [hf, if_pos rfl] at e1
      simpa using e1.symm
  · cases hf : f.window
    · rw [hf, if_neg (by simp), ha hf] at e2
      simpa using e2
    · rw [hf, if_pos rfl] at e2
      simpa using e2.symm
  · cases hf : f.scale
    · rw [hf, if_neg (by simp), hγ hf] at e3
      simpa using e3
    · rw [hf, if_pos rfl] at e3
      simpa using e3.symm

/-- **C104** The same for the RGPCM. -/
theorem c104_rgpcm (g : RgpcmModel) (f : Flags) {vs vs' : Store} {g' : RgpcmModel}
    (h : g.instantiate f vs = some (g', vs')) :
    (∃ ext, vs' = vs ++ ext ∧ ext.names.Sublist (RgpcmModel.variables f)) ∧
    (if f.noise then g'.noise = g.noise else vs'.value "noise" = some [g'.noise]) ∧
    (if f.window then g'.alpha = g.alpha else vs'.value "alpha" = some [g'.alpha]) ∧
    (if f.scale then g'.lam = g.lam else vs'.value "lambda" = some [g'.lam]) ∧
    vs'.value "alpha_t" = some [g'.alphaT] ∧
    (∃ r, vs'.value "gamma_factor" = some [r] ∧ g'.gamma = g'.alpha / r) ∧ vs'.value "t_u" = some g'.tU ∧
    g'.gammaT = g.gammaT ∧ g'.extent = g.extent ∧ g'.a = g.a ∧ g'.b = g.b ∧ g'.mMax = g.mMax ∧ g'.ms = g.ms ∧
    g'.nU = g.nU ∧ g'.nZ = g.nZ := by
  unfold RgpcmModel.instantiate at h
  split at h
  · rename_i hi hhi
    simp only [Option.bind_eq_some_iff] at h
    obtain ⟨⟨x1, v1⟩, h1, ⟨x2, v2⟩, h2, ⟨x3, v3⟩, h3, ⟨x4, v4⟩, h4, ⟨x5, v5⟩, h5, ⟨x6, v6⟩, h6, h⟩ := h
    cases h
    have h1 := askUnless_spec h1
    have h2 := askUnless_spec h2
    have h3 := ask_spec h3
    have h4 := askUnless_spec h4
    have h5 := ask_spec h5
    obtain ⟨hb, h6⟩ := askBounded_spec h6
    have g5 := h6.grew
    have g4 := h5.grew.trans g5
    have g3 := h4.grew.trans g4
    have g2 := h3.grew.trans g3
    have g1 := h2.grew.trans g2
    refine ⟨?_, ?_, ?_, ?_, g3.value h3.value, ⟨_, g5.value h5.value, rfl⟩, h6.value, rfl, rfl, rfl, rfl, rfl, rfl, rfl,
      rfl⟩
    · obtain ⟨ext, h, hs⟩ := h1.grew.trans g1
      exact ⟨ext, h, by simpa [RgpcmModel.variables, List.append_assoc] using hs⟩
    · split_ifs with hf
      · exact h1.const hf
      · exact g1.value (h1.value (by simpa using hf)).1
    · split_ifs with hf
      · exact h2.const hf
      · exact g2.value (h2.value (by simpa using hf)).1
    · split_ifs with hf
      · exact h4.const hf
      · exact g4.value (h4.value (by simpa using hf)).1
  · cases h

/-- **C104** The same for the model of `__prior__` of the RGPCM. -/
theorem c104_prior_rgpcm (g : RgpcmModel) (f : Flags) {vs vs' : Store} {g' : RgpcmModel}
    (h : g.instantiate f vs = some (g', vs')) (θ : RgpcmLearned)
    (hn : f.noise = false → vs'.value "noise" = some [θ.noise])
    (ha : f.window = false → vs'.value "alpha" = some [θ.alpha])
    (hl : f.scale = false → vs'.value "lambda" = some [θ.lam]) (hk : vs'.value "alpha_t" = some [θ.alphaT])
    (hr : vs'.value "gamma_factor" = some [θ.gammaFactor]) (hu : vs'.value "t_u" = some θ.tU) :
    g.prior f.noise f.window f.scale θ = g' := by
  obtain ⟨-, e1, e2, e3, e4, ⟨r, e5, e5'⟩, e6, e7, e8, e9, e10, e11, e12, e13, e14⟩ := c104_rgpcm g f h
  have h2 : (if f.window then g.alpha else θ.alpha) = g'.alpha := by
    cases hf : f.window
    · rw [hf, if_neg (by simp), ha hf] at e2
      simpa using e2
    · rw [hf, if_pos rfl] at e2
      simpa using e2.symm
  rw [hk] at e4
  rw [hr] at e5
  rw [hu] at e6
  simp only [Option.some.injEq, List.cons.injEq, and_true] at e4 e5 e6
  unfold RgpcmModel.prior
  simp only [h2, e5, ← e5']
  cases g'
  simp only at e1 e3 e4 e6 e7 e8 e9 e10 e11 e12 e13 e14
  congr 1
  all_goals try first
    | exact e4 | exact e6 | exact e7.symm | exact e8.symm | exact e9.symm
    | exact e10.symm | exact e11.symm | exact e12.symm | exact e13.symm | exact e14.symm
  · cases hf : f.noise
    · rw [hf, if_neg (by simp), hn hf] at e1
      simpa using e1
    · rw [hf, if_pos rfl] at e1
      simpa using e1.symm
  · cases hf : f.scale
    · rw [hf, if_neg (by simp), hl hf] at e3
      simpa using e3
    · rw [hf, if_pos rfl] at e3
      simpa using e3.symm

/-! ## C105 -/

/-- The initial values that the constraints of a GPCM's variables allow. -/
structure GpcmModel.Startable (g : GpcmModel) (f : Flags) : Prop where
  noise : f.noise = false → 0 < g.noise
  alpha : f.window = false → 0 < g.alpha
  alphaT : 0 < g.alphaT
  gamma : f.scale = false → 0 < g.gamma
  omega : 0 < g.omega
  neg : ∃ x ∈ g.tU, x < 0
  pos : ∃ x ∈ g.tU, 0 < x

theorem GpcmModel.instantiate_new (g : GpcmModel) (f : Flags) {vs' : Store} {g' : GpcmModel}
    (h : g.instantiate f [] = some (g', vs')) : g' = g ∧ vs'.names = GpcmModel.variables f ∧ g.Startable f := by
  unfold GpcmModel.instantiate at h
  split at h
  · rename_i lo hi hlo hhi
    simp only [Option.bind_eq_some_iff] at h
    obtain ⟨⟨x1, v1⟩, h1, ⟨x2, v2⟩, h2, ⟨x3, v3⟩, h3, ⟨x4, v4⟩, h4, ⟨x5, v5⟩, h5, ⟨x6, v6⟩, h6, ⟨x7, v7⟩, h7, h⟩ := h
    cases h
    obtain ⟨rfl, d1, n1⟩ := askUnless_new h1 (by simp [names_nil])
    obtain ⟨rfl, d2, n2⟩ := askUnless_new h2 (by
      show _ ∉ v1.names
      simp [n1, names_nil, mem_learnedName])
    obtain ⟨rfl, d3, n3⟩ := ask_new h3 (by
      show _ ∉ v2.names
      simp [n2, n1, names_nil, mem_learnedName])
    obtain ⟨rfl, d4, n4⟩ := askUnless_new h4 (by
      show _ ∉ v3.names
      simp [n3, n2, n1, names_nil, mem_learnedName])
    obtain ⟨rfl, d5, n5⟩ := ask_new h5 (by
      show _ ∉ v4.names
      simp [n4, n3, n2, n1, names_nil, mem_learnedName])
    obtain ⟨rfl, -, d6, n6⟩ := askBounded_new h6 (by
      show _ ∉ v5.names
      simp [n5, n4, n3, n2, n1, names_nil, mem_learnedName])
    obtain ⟨rfl, -, n7⟩ := (askVec_spec h7).fresh (by
      show _ ∉ v6.names
      simp [n6, n5, n4, n3, n2, n1, names_nil, mem_learnedName])
    refine ⟨rfl, ?_, d1, d2, d3, d4, d5, ⟨lo, pyMin_mem hlo, ?_⟩, ⟨hi, pyMax_mem hhi, ?_⟩⟩
    · simp only [n7, n6, n5, n4, n3, n2, n1, names_nil]
      simp [GpcmModel.variables]
    · have := (d6 lo (pyMin_mem hlo)).1
      linarith
    · have := (d6 hi (pyMax_mem hhi)).2
      linarith
  · cases h

/-- **C105** A GPCM that is instantiated for the first time has the parameters of the constructor, and its container
then has exactly the variables of the parameters that are learned. -/
theorem c105_fresh (g : GpcmModel) (f : Flags) {vs' : Store} {g' : GpcmModel}
    (h : g.instantiate f [] = some (g', vs')) : g' = g ∧ vs'.names = GpcmModel.variables f :=
  ⟨(g.instantiate_new f h).1, (g.instantiate_new f h).2.1⟩

/-- **C105** (partial) The first instantiation of a GPCM works exactly when all parameters that are learned are positive
and there are inducing points on both sides of the origin. The constructor does not ensure that (`c105_false`). -/
theorem c105_start_partial (g : GpcmModel) (f : Flags) : (∃ r, g.instantiate f [] = some r) ↔ g.Startable f := by
  refine ⟨fun ⟨⟨g', vs'⟩, h⟩ => (g.instantiate_new f h).2.2, fun h => ?_⟩
  obtain ⟨x, hx, hx0⟩ := h.neg
  obtain ⟨y, hy, hy0⟩ := h.pos
  obtain ⟨lo, hlo⟩ : ∃ lo, pyMin g.tU = .ok lo := by
    cases e : g.tU with
    | nil => rw [e] at hx; cases hx
    | cons a l => exact ⟨_, rfl⟩
  obtain ⟨hi, hhi⟩ : ∃ hi, pyMax g.tU = .ok hi := by
    cases e : g.tU with
    | nil => rw [e] at hx; cases hx
    | cons a l => exact ⟨_, rfl⟩
  have hlo0 : lo < 0 := (Rgpcm.pyMin_le hlo x hx).trans_lt hx0
  have hhi0 : 0 < hi := hy0.trans_le (Rgpcm.pyMax_ge hhi y hy)
  obtain ⟨v1, h1, n1⟩ := askUnless_fresh (fixed := f.noise) (n := "noise") (c := .positive) (vs := [])
    (by simp [names_nil]) h.noise
  obtain ⟨v2, h2, n2⟩ := askUnless_fresh (fixed := f.window) (n := "alpha") (c := .positive) (vs := v1)
    (by simp [n1, names_nil, mem_learnedName]) h.alpha
  obtain ⟨v3, h3⟩ := ask_fresh (n := "alpha_t") (c := .positive) (vs := v2)
    (by simp [n2, n1, names_nil, mem_learnedName]) h.alphaT
  have n3 := (ask_new h3 (by simp [n2, n1, names_nil, mem_learnedName])).2.2
  obtain ⟨v4, h4, n4⟩ := askUnless_fresh (fixed := f.scale) (n := "gamma") (c := .positive) (vs := v3)
    (by simp [n3, n2, n1, names_nil, mem_learnedName]) h.gamma
  obtain ⟨v5, h5⟩ := ask_fresh (n := "omega") (c := .positive) (vs := v4)
    (by simp [n4, n3, n2, n1, names_nil, mem_learnedName]) h.omega
  have n5 := (ask_new h5 (by simp [n4, n3, n2, n1, names_nil, mem_learnedName])).2.2
  obtain ⟨v6, h6⟩ := askBounded_fresh (n := "t_u") (lo := lo * 1.5) (hi := hi * 1.5) (init := g.tU) (vs := v5)
    (by simp [n5, n4, n3, n2, n1, names_nil, mem_learnedName]) (by linarith) fun t ht => by
      have h1 := Rgpcm.pyMin_le hlo t ht
      have h2 := Rgpcm.pyMax_ge hhi t ht
      constructor <;> linarith
  have n6 := (askBounded_new h6 (by simp [n5, n4, n3, n2, n1, names_nil, mem_learnedName])).2.2.2
  obtain ⟨v7, h7⟩ := askVec_fresh (n := "t_z") (c := .unbounded) (init := g.tZ) (vs := v6)
    (by simp [n6, n5, n4, n3, n2, n1, names_nil, mem_learnedName]) fun _ _ => trivial
  refine ⟨(g, v7), ?_⟩
  unfold GpcmModel.instantiate
  rw [hlo, hhi]
  simp only [h1, h2, h3, h4, h5, h6, h7, Option.bind_some]

/-- **C105** Instantiating again gives the same model and leaves the container as it is. -/
theorem c105_again (g : GpcmModel) (f : Flags) {vs vs' : Store} {g' : GpcmModel}
    (h : g.instantiate f vs = some (g', vs')) : g.instantiate f vs' = some (g', vs') := by
  unfold GpcmModel.instantiate at h ⊢
  split at h
  · rename_i lo hi hlo hhi
    simp only [Option.bind_eq_some_iff] at h
    obtain ⟨⟨x1, v1⟩, h1, ⟨x2, v2⟩, h2, ⟨x3, v3⟩, h3, ⟨x4, v4⟩, h4, ⟨x5, v5⟩, h5, ⟨x6, v6⟩, h6, ⟨x7, v7⟩, h7, h⟩ := h
    cases h
    have h1 := askUnless_spec h1
    have h2 := askUnless_spec h2
    have h3 := ask_spec h3
    have h4 := askUnless_spec h4
    have h5 := ask_spec h5
    obtain ⟨hb, h6⟩ := askBounded_spec h6
    have h7 := askVec_spec h7
    have g6 := h7.grew
    have g5 := h6.grew.trans g6
    have g4 := h5.grew.trans g5
    have g3 := h4.grew.trans g4
    have g2 := h3.grew.trans g3
    have g1 := h2.grew.trans g2
    have a1 : askUnless f.noise "noise" .positive g.noise v7 = some (x1, v7) :=
      askUnless_again h1.const fun hf => ⟨g1.value (h1.value hf).1, g1.mem (h1.value hf).2⟩
    have a2 : askUnless f.window "alpha" .positive g.alpha v7 = some (x2, v7) :=
      askUnless_again h2.const fun hf => ⟨g2.value (h2.value hf).1, g2.mem (h2.value hf).2⟩
    have a3 : ask "alpha_t" .positive g.alphaT v7 = some (x3, v7) := ask_again (g3.mem h3.mem) (g3.value h3.value)
    have a4 : askUnless f.scale "gamma" .positive g.gamma v7 = some (x4, v7) :=
      askUnless_again h4.const fun hf => ⟨g4.value (h4.value hf).1, g4.mem (h4.value hf).2⟩
    have a5 : ask "omega" .positive g.omega v7 = some (x5, v7) := ask_again (g5.mem h5.mem) (g5.value h5.value)
    have a6 : askBounded "t_u" (lo * 1.5) (hi * 1.5) g.tU v7 = some (x6, v7) := by
      unfold askBounded
      rw [dif_pos hb]
      exact askVec_again (g6.mem h6.mem) (g6.value h6.value)
    have a7 : askVec "t_z" .unbounded g.tZ v7 = some (x7, v7) := askVec_again h7.mem h7.value
    simp only [a1, a2, a3, a4, a5, a6, a7, Option.bind_some]
  · cases h

/-- **C105 is false**: a GPCM with valid parameters that is constructed with inducing points at positive times only
cannot be instantiated, whatever is fixed, because the initial values lie outside the bounds. -/
theorem c105_false : ∃ (a : GpcmArgs) (g : GpcmModel), GpcmModel.new a = .ok g ∧ a.causal = true ∧
    g.tU = [1, 2] ∧ g.Moderate ∧ 0 < g.noise ∧ 0 < g.alphaT ∧ 0 < g.gamma ∧ ∀ f, g.instantiate f [] = none := by
  have hg := GpcmModel.new_of (a := { witnessArgs true 1 1 with tU := some [1, 2] }) (al := scaleToFactor 1)
    (ga := scaleToFactor 1 - 0.5 * scaleToFactor 1) (om := scaleToFactor 0.5) (u := (2, [1, 2])) (z := (2, [0, 1]))
    (z0 := (2, [0, 1])) rfl rfl (by simp [initTU, witnessArgs]) (witness_tz true 1 1) rfl
    (by simp [initOmega, witnessArgs])
  have hpos := scaleToFactor_pos one_pos
  have hm := c65_default_moderate hg rfl rfl rfl rfl rfl rfl (by norm_num) (by norm_num)
    (by norm_num) (by norm_num) (by rintro z0 z1 ⟨⟩ ⟨⟩; norm_num)
  refine ⟨_, _, hg, rfl, rfl, hm, ?_, ?_, ?_, fun f => ?_⟩
  · show (0 : ℝ) < _
    norm_num [witnessArgs]
  · show 0 < (8 * scaleToFactor 1 / π) ^ (0.25 : ℝ)
    positivity
  · show 0 < scaleToFactor 1 - 0.5 * scaleToFactor 1
    linarith
  · rw [Option.eq_none_iff_forall_ne_some]
    intro r hr
    obtain ⟨x, hx, hx0⟩ := ((c105_start_partial _ f).1 ⟨r, hr⟩).neg
    have : x = 1 ∨ x = 2 := by simpa using hx
    rcases this with rfl | rfl <;> norm_num at hx0

theorem startable_witness (causal : Bool) : ∃ (a : GpcmArgs) (g : GpcmModel), GpcmModel.new a = .ok g ∧ a.causal = causal ∧
    ∀ f, g.Startable f := by
  obtain ⟨g, hg, hm, -, ho, hc, hγ, ht⟩ := witness_moderate causal
  obtain ⟨ha, -, -, -, -, hat, -, -, hn, -⟩ := GpcmModel.new_ok hg
  have ha0 : 0 < g.alpha := by linarith [hm.alpha_lo]
  refine ⟨_, g, hg, rfl, fun f => ⟨fun _ => ?_, fun _ => ha0, ?_, fun _ => hγ, ?_, ⟨-2, ?_, by norm_num⟩,
    ⟨2, ?_, by norm_num⟩⟩⟩
  · rw [hn]
    norm_num [witnessArgs]
  · rw [hat]
    cases causal
    · show 0 < (2 * g.alpha / π) ^ (0.25 : ℝ)
      positivity
    · show 0 < (8 * g.alpha / π) ^ (0.25 : ℝ)
      positivity
  · rw [ho]
    exact scaleToFactor_pos (by norm_num)
  · rw [ht]
    cases causal <;> simp
  · rw [ht]
    cases causal <;> simp

/-- The initial values that the constraints of an RGPCM's variables allow. -/
structure RgpcmModel.Startable (g : RgpcmModel) (f : Flags) : Prop where
  noise : f.noise = false → 0 < g.noise
  alpha : f.window = false → 0 < g.alpha
  alphaT : 0 < g.alphaT
  lam : f.scale = false → 0 < g.lam
  factor : 1 < g.alpha / g.gamma ∧ g.alpha / g.gamma < 1e4
  lower : ∀ x ∈ g.tU, -1e-4 < x
  pos : ∃ x ∈ g.tU, 0 < x

theorem RgpcmModel.instantiate_new (g : RgpcmModel) (f : Flags) {vs' : Store} {g' : RgpcmModel}
    (h : g.instantiate f [] = some (g', vs')) : g' = g ∧ vs'.names = RgpcmModel.variables f ∧ g.Startable f := by
  unfold RgpcmModel.instantiate at h
  split at h
  · rename_i hi hhi
    simp only [Option.bind_eq_some_iff] at h
    obtain ⟨⟨x1, v1⟩, h1, ⟨x2, v2⟩, h2, ⟨x3, v3⟩, h3, ⟨x4, v4⟩, h4, ⟨x5, v5⟩, h5, ⟨x6, v6⟩, h6, h⟩ := h
    cases h
    obtain ⟨rfl, d1, n1⟩ := askUnless_new h1 (by simp [names_nil])
    obtain ⟨rfl, d2, n2⟩ := askUnless_new h2 (by
      show _ ∉ v1.names
      simp [n1, names_nil, mem_learnedName])
    obtain ⟨rfl, d3, n3⟩ := ask_new h3 (by
      show _ ∉ v2.names
      simp [n2, n1, names_nil, mem_learnedName])
    obtain ⟨rfl, d4, n4⟩ := askUnless_new h4 (by
      show _ ∉ v3.names
      simp [n3, n2, n1, names_nil, mem_learnedName])
    obtain ⟨rfl, d5, n5⟩ := ask_new h5 (by
      show _ ∉ v4.names
      simp [n4, n3, n2, n1, names_nil, mem_learnedName])
    obtain ⟨rfl, -, d6, n6⟩ := askBounded_new h6 (by
      show _ ∉ v5.names
      simp [n5, n4, n3, n2, n1, names_nil, mem_learnedName])
    have d5 : 1 < g.alpha / g.gamma ∧ g.alpha / g.gamma < 1e4 := d5
    have e : g.alpha / (g.alpha / g.gamma) = g.gamma := by
      have ha : g.alpha ≠ 0 := by
        intro h0
        rw [h0, zero_div] at d5
        linarith [d5.1]
      rw [div_div_cancel₀ ha]
    refine ⟨?_, ?_, d1, d2, d3, d4, d5, fun x hx => (d6 x hx).1, ⟨hi, pyMax_mem hhi, ?_⟩⟩
    · simp only [e]
    · simp only [n6, n5, n4, n3, n2, n1, names_nil]
      simp [RgpcmModel.variables]
    · have := (d6 hi (pyMax_mem hhi)).2
      linarith
  · cases h

/-- **C105** The same for the RGPCM. -/
theorem c105_fresh_rgpcm (g : RgpcmModel) (f : Flags) {vs' : Store} {g' : RgpcmModel}
    (h : g.instantiate f [] = some (g', vs')) : g' = g ∧ vs'.names = RgpcmModel.variables f :=
  ⟨(g.instantiate_new f h).1, (g.instantiate_new f h).2.1⟩

/-- **C105** (partial) When the first instantiation of an RGPCM works. -/
theorem c105_start_rgpcm_partial (g : RgpcmModel) (f : Flags) :
    (∃ r, g.instantiate f [] = some r) ↔ g.Startable f := by
  refine ⟨fun ⟨⟨g', vs'⟩, h⟩ => (g.instantiate_new f h).2.2, fun h => ?_⟩
  obtain ⟨y, hy, hy0⟩ := h.pos
  obtain ⟨hi, hhi⟩ : ∃ hi, pyMax g.tU = .ok hi := by
    cases e : g.tU with
    | nil => rw [e] at hy; cases hy
    | cons a l => exact ⟨_, rfl⟩
  have hhi0 : 0 < hi := hy0.trans_le (Rgpcm.pyMax_ge hhi y hy)
  obtain ⟨v1, h1, n1⟩ := askUnless_fresh (fixed := f.noise) (n := "noise") (c := .positive) (vs := [])
    (by simp [names_nil]) h.noise
  obtain ⟨v2, h2, n2⟩ := askUnless_fresh (fixed := f.window) (n := "alpha") (c := .positive) (vs := v1)
    (by simp [n1, names_nil, mem_learnedName]) h.alpha
  obtain ⟨v3, h3⟩ := ask_fresh (n := "alpha_t") (c := .positive) (vs := v2)
    (by simp [n2, n1, names_nil, mem_learnedName]) h.alphaT
  have n3 := (ask_new h3 (by simp [n2, n1, names_nil, mem_learnedName])).2.2
  obtain ⟨v4, h4, n4⟩ := askUnless_fresh (fixed := f.scale) (n := "lambda") (c := .positive) (vs := v3)
    (by simp [n3, n2, n1, names_nil, mem_learnedName]) h.lam
  obtain ⟨v5, h5⟩ := ask_fresh (n := "gamma_factor") (c := .bounded 1 1e4 (by norm_num)) (vs := v4)
    (by simp [n4, n3, n2, n1, names_nil, mem_learnedName]) h.factor
  have n5 := (ask_new h5 (by simp [n4, n3, n2, n1, names_nil, mem_learnedName])).2.2
  obtain ⟨v6, h6⟩ := askBounded_fresh (n := "t_u") (lo := -1e-4) (hi := hi * 1.5) (init := g.tU) (vs := v5)
    (by simp [n5, n4, n3, n2, n1, names_nil, mem_learnedName]) (by linarith) fun t ht => by
      have h2 := Rgpcm.pyMax_ge hhi t ht
      exact ⟨h.lower t ht, by linarith⟩
  refine ⟨({ g with gamma := g.alpha / (g.alpha / g.gamma) }, v6), ?_⟩
  unfold RgpcmModel.instantiate
  rw [hhi]
  simp only [h1, h2, h3, h4, h5, h6, Option.bind_some]

/-- **C105** The same for the RGPCM. -/
theorem c105_again_rgpcm (g : RgpcmModel) (f : Flags) {vs vs' : Store} {g' : RgpcmModel}
    (h : g.instantiate f vs = some (g', vs')) : g.instantiate f vs' = some (g', vs') := by
  unfold RgpcmModel.instantiate at h ⊢
  split at h
  · rename_i hi hhi
    simp only [Option.bind_eq_some_iff] at h
    obtain ⟨⟨x1, v1⟩, h1, ⟨x2, v2⟩, h2, ⟨x3, v3⟩, h3, ⟨x4, v4⟩, h4, ⟨x5, v5⟩, h5, ⟨x6, v6⟩, h6, h⟩ := h
    cases h
    have h1 := askUnless_spec h1
    have h2 := askUnless_spec h2
    have h3 := ask_spec h3
    have h4 := askUnless_spec h4
    have h5 := ask_spec h5
    obtain ⟨hb, h6⟩ := askBounded_spec h6
    have g5 := h6.grew
    have g4 := h5.grew.trans g5
    have g3 := h4.grew.trans g4
    have g2 := h3.grew.trans g3
    have g1 := h2.grew.trans g2
    have a1 : askUnless f.noise "noise" .positive g.noise v6 = some (x1, v6) :=
      askUnless_again h1.const fun hf => ⟨g1.value (h1.value hf).1, g1.mem (h1.value hf).2⟩
    have a2 : askUnless f.window "alpha" .positive g.alpha v6 = some (x2, v6) :=
      askUnless_again h2.const fun hf => ⟨g2.value (h2.value hf).1, g2.mem (h2.value hf).2⟩
    have a3 : ask "alpha_t" .positive g.alphaT v6 = some (x3, v6) := ask_again (g3.mem h3.mem) (g3.value h3.value)
    have a4 : askUnless f.scale "lambda" .positive g.lam v6 = some (x4, v6) :=
      askUnless_again h4.const fun hf => ⟨g4.value (h4.value hf).1, g4.mem (h4.value hf).2⟩
    have a5 : ask "gamma_factor" (.bounded 1 1e4 (by norm_num)) (g.alpha / g.gamma) v6 = some (x5, v6) :=
      ask_again (g5.mem h5.mem) (g5.value h5.value)
    have a6 : askBounded "t_u" (-1e-4) (hi * 1.5) g.tU v6 = some (x6, v6) := by
      unfold askBounded
      rw [dif_pos hb]
      exact askVec_again h6.mem h6.value
    simp only [a1, a2, a3, a4, a5, a6, Option.bind_some]
  · cases h

example : ∃ g, RgpcmModel.new Rgpcm.exArgs = .ok g ∧ g.alpha / g.gamma = 1.5 ∧ (∀ x ∈ g.tU, -1e-4 < x) ∧
    ∃ x ∈ g.tU, 0 < x := by
  obtain ⟨g, hg, ha, -, hγ, ht, -⟩ := Rgpcm.exArgs_new
  refine ⟨g, hg, by rw [ha, hγ]; norm_num, ?_, 1 / 10, by simp [ht], by norm_num⟩
  rw [ht]
  simp
  norm_num

/-! ## C106 -/

theorem kH_lag (p : Spec.Params) (t1 t2 τ : ℝ) : Spec.kH p (t1 - τ) (t2 - τ) =
    p.alphaT ^ 2 * exp (-(p.gamma + p.alpha / 2) * (t1 - t2) ^ 2) * exp (-(2 * p.alpha) * (τ - (t1 + t2) / 2) ^ 2) := by
  unfold Spec.kH
  rw [mul_assoc, mul_assoc, mul_assoc, ← exp_add, ← exp_add, ← exp_add]
  congr 2
  ring

theorem gauss_full {a : ℝ} (m : ℝ) : ∫ τ, exp (-a * (τ - m) ^ 2) = √(π / a) := by
  have := integral_sub_right_eq_self (μ := volume) (fun τ : ℝ => exp (-a * τ ^ 2)) m
  rw [this, integral_gaussian]

/-- The prior covariance of the signal, without the causality constraint. -/
theorem ihx_full (p : Spec.Params) (hc : p.causal = false) (t1 t2 : ℝ) : Spec.ihx p t1 t2 =
    p.alphaT ^ 2 * √(π / (2 * p.alpha)) * exp (-(p.gamma + p.alpha / 2) * (t1 - t2) ^ 2) := by
  unfold Spec.ihx
  simp only [gate_acausal hc, one_mul, kH_lag]
  rw [integral_const_mul, gauss_full]
  ring

/-- The causality constraint makes the prior covariance of the signal smaller. -/
theorem ihx_causal_lt (p : Spec.Params) (hc : p.causal = true) (ha : 0 < p.alpha) (hk : p.alphaT ≠ 0) {t1 t2 : ℝ}
    (h : t1 ≠ t2) : Spec.ihx p t1 t2 < exp (-(p.gamma + p.alpha / 2) * (t1 - t2) ^ 2) * Spec.ihx p t1 t1 := by
  have e : ∀ s t, Spec.ihx p s t = p.alphaT ^ 2 * exp (-(p.gamma + p.alpha / 2) * (s - t) ^ 2) *
      ∫ τ in Iic (min s t), exp (-(2 * p.alpha) * (τ - (s + t) / 2) ^ 2) := fun s t => by
    unfold Spec.ihx
    rw [integral_gate2 hc]
    simp only [kH_lag]
    rw [integral_const_mul]
  have hshift : Spec.ihx p t1 t1 = Spec.ihx p ((t1 + t2) / 2) ((t1 + t2) / 2) := by
    rw [ihx_diag p ha, ihx_diag p ha]
  rw [hshift, e t1 t2, e, min_self, sub_self]
  have hint : Integrable fun τ => exp (-(2 * p.alpha) * (τ - (t1 + t2) / 2) ^ 2) :=
    (integrable_exp_neg_mul_sq (by positivity : 0 < 2 * p.alpha)).comp_sub_right _
  have hlt : min t1 t2 < (t1 + t2) / 2 := by
    rcases lt_or_gt_of_ne h with h | h
    · rw [min_eq_left h.le]
      linarith
    · rw [min_eq_right h.le]
      linarith
  have hd := intervalIntegral.integral_Iic_sub_Iic (hint.integrableOn (s := Iic (min t1 t2)))
    (hint.integrableOn (s := Iic ((t1 + t2) / 2)))
  have hpos : 0 < ∫ τ in (min t1 t2)..((t1 + t2) / 2), exp (-(2 * p.alpha) * (τ - (t1 + t2) / 2) ^ 2) :=
    intervalIntegral.intervalIntegral_pos_of_pos (Continuous.intervalIntegrable (by fun_prop) _ _)
      (fun τ => exp_pos _) hlt
  have h2 : ((t1 + t2) / 2 + (t1 + t2) / 2) / 2 = (t1 + t2) / 2 := by ring
  rw [h2]
  have hE := exp_pos (-(p.gamma + p.alpha / 2) * (t1 - t2) ^ 2)
  have hA : 0 < p.alphaT ^ 2 := by positivity
  simp only [ne_eq, OfNat.ofNat_ne_zero, not_false_eq_true, zero_pow, mul_zero, exp_zero, mul_one]
  have : 0 < p.alphaT ^ 2 * exp (-(p.gamma + p.alpha / 2) * (t1 - t2) ^ 2) *
      ∫ τ in (min t1 t2)..((t1 + t2) / 2), exp (-(2 * p.alpha) * (τ - (t1 + t2) / 2) ^ 2) := by positivity
  rw [← hd] at this
  linarith

variable (R : Runtime ℝ)

/-- **C106** (GPCM, not causal) With the default `alpha_t` and `gamma`, the prior covariance of the signal is an
exponentiated quadratic with the requested length scale and unit variance. -/
theorem c106_gpcm_partial {a : GpcmArgs} {g : GpcmModel} (h : GpcmModel.new a = .ok g) (hc : a.causal = false)
    (ha : a.alphaT = none) (hγ : a.gamma = none) {s : ℝ} (hs : a.scale = some s) (hm : g.Moderate) (t1 t2 : ℝ) :
    g.ihx R t1 t2 = .ok (exp (-(π / 4) * ((t1 - t2) / s) ^ 2)) := by
  have h1 := c63_unit_power R h ha hm t1
  rw [c65_i_hx R g hm] at h1 ⊢
  obtain ⟨-, hg, -, -, -, -, -, hcg, -⟩ := GpcmModel.new_ok h
  have hcg : g.params.causal = false := hcg.trans hc
  unfold initGamma at hg
  rw [hγ, hs] at hg
  have hg : scaleToFactor s - 0.5 * g.alpha = g.gamma := Except.ok.inj hg
  rw [ihx_full _ hcg] at h1 ⊢
  have h1 := Except.ok.inj h1
  simp only [sub_self, ne_eq, OfNat.ofNat_ne_zero, not_false_eq_true, zero_pow, mul_zero, exp_zero, mul_one] at h1
  rw [h1, one_mul]
  congr 2
  show -(g.gamma + g.alpha / 2) * (t1 - t2) ^ 2 = _
  rw [← hg, scaleToFactor, div_pow]
  ring

/-- **C106 is false** for the CGPCM: with the default parameters the prior covariance is smaller than that at every
non-zero lag. -/
theorem c106_causal_false {a : GpcmArgs} {g : GpcmModel} (h : GpcmModel.new a = .ok g) (hc : a.causal = true)
    (ha : a.alphaT = none) (hγ : a.gamma = none) {s : ℝ} (hs : a.scale = some s) (hm : g.Moderate) {t1 t2 : ℝ}
    (ht : t1 ≠ t2) : ∃ c, g.ihx R t1 t2 = .ok c ∧ c < exp (-(π / 4) * ((t1 - t2) / s) ^ 2) := by
  have h1 := c63_unit_power R h ha hm t1
  rw [c65_i_hx R g hm] at h1 ⊢
  have h1 := Except.ok.inj h1
  obtain ⟨-, hg, -, -, -, -, -, hcg, -⟩ := GpcmModel.new_ok h
  have hcg : g.params.causal = true := hcg.trans hc
  unfold initGamma at hg
  rw [hγ, hs] at hg
  have hg : scaleToFactor s - 0.5 * g.alpha = g.gamma := Except.ok.inj hg
  refine ⟨_, rfl, ?_⟩
  have ha0 : 0 < g.params.alpha := by
    show 0 < g.alpha
    linarith [hm.alpha_lo]
  have := ihx_causal_lt g.params hcg ha0 hm.alphaT ht
  rw [h1, mul_one] at this
  refine this.trans_eq (congrArg exp ?_)
  show -(g.gamma + g.alpha / 2) * (t1 - t2) ^ 2 = _
  rw [← hg, scaleToFactor, div_pow]
  ring

/-- **C106** (RGPCM) With the default `alpha_t` and `lam`, the prior covariance of the signal is an exponential with the
requested length scale and unit variance. -/
theorem c106_rgpcm {x : RgpcmArgs} {g : RgpcmModel} (h : RgpcmModel.new x = .ok g) (hx : x.alphaT = none)
    (hl : x.lam = none) {s : ℝ} (hs : x.scale = some s) (hα : 0 < g.alpha) (t1 t2 : ℝ) :
    g.ihx t1 t2 = exp (-(|t1 - t2| / s)) := by
  have h1 := Rgpcm.c63_unit_power_rgpcm h hx hα t1
  obtain ⟨-, hlam, -⟩ := Rgpcm.new_ok h
  rw [hl, hs] at hlam
  have hlam : divE 1 s = .ok g.lam := hlam
  have hlam : g.lam = 1 / s := by
    unfold divE at hlam
    split_ifs at hlam
    exact (Except.ok.inj hlam).symm
  unfold RgpcmModel.ihx at h1 ⊢
  simp only [sub_self, abs_zero, mul_zero, exp_zero, mul_one] at h1
  rw [h1, one_mul, hlam]
  congr 1
  ring

example : ∃ (a : GpcmArgs) (g : GpcmModel), GpcmModel.new a = .ok g ∧ a.causal = true ∧ a.alphaT = none ∧ a.gamma = none ∧
    a.scale = some 1 ∧ g.Moderate := by
  obtain ⟨g, hg, hm, -⟩ := witness_moderate true
  exact ⟨_, g, hg, rfl, rfl, rfl, rfl, hm⟩

example : ∃ (a : GpcmArgs) (g : GpcmModel), GpcmModel.new a = .ok g ∧ a.causal = false ∧ a.alphaT = none ∧
    a.gamma = none ∧ a.scale = some 1 ∧ g.Moderate := by
  obtain ⟨g, hg, hm, -⟩ := witness_moderate false
  exact ⟨_, g, hg, rfl, rfl, rfl, rfl, hm⟩

example : ∃ g, RgpcmModel.new Rgpcm.exArgs = .ok g ∧ Rgpcm.exArgs.alphaT = none ∧ Rgpcm.exArgs.lam = none ∧
    Rgpcm.exArgs.scale = some 3 ∧ 0 < g.alpha := by
  obtain ⟨g, hg, ha, -⟩ := Rgpcm.exArgs_new
  exact ⟨g, hg, rfl, rfl, rfl, by rw [ha]; norm_num⟩

/-! ## C107 -/

/-- **C107** (RGPCM) With `fix_scale` the correlations of the signal are the same for all values of the variables. -/
theorem c107_rgpcm (g : RgpcmModel) (f : Flags) (hf : f.scale = true) {vs vs' : Store} {g' : RgpcmModel}
    (h : g.instantiate f vs = some (g', vs')) (t1 t2 t : ℝ) :
    g'.ihx t1 t2 * g.ihx t t = g.ihx t1 t2 * g'.ihx t t := by
  obtain ⟨-, -, -, hl, -⟩ := c104_rgpcm g f h
  rw [if_pos hf] at hl
  unfold RgpcmModel.ihx
  rw [hl]
  simp only [sub_self, abs_zero, mul_zero, exp_zero, mul_one]
  ring

/-- **C107** (GPCM and CGPCM, partial) With both `fix_scale` and `fix_window` the correlations of the signal are the same
for all values of the variables. With `fix_scale` alone they are not (`c107_false`). -/
theorem c107_gpcm_partial (g : GpcmModel) (f : Flags) (hf : f.scale = true) (hw : f.window = true) {vs vs' : Store}
    {g' : GpcmModel} (h : g.instantiate f vs = some (g', vs')) (t1 t2 t : ℝ) :
    Spec.ihx g'.params t1 t2 * Spec.ihx g.params t t = Spec.ihx g.params t1 t2 * Spec.ihx g'.params t t := by
  obtain ⟨-, -, ha, hg, -, -, -, -, -, hc, -⟩ := c104_gpcm g f h
  rw [if_pos hf] at hg
  rw [if_pos hw] at ha
  have e : ∀ (p q : Spec.Params) s t, p.causal = q.causal → p.alpha = q.alpha → p.gamma = q.gamma →
      ∃ c, Spec.ihx p s t = p.alphaT ^ 2 * c ∧ Spec.ihx q s t = q.alphaT ^ 2 * c := by
    rintro ⟨pc, pa, pk, pg, po, pt⟩ ⟨qc, qa, qk, qg, qo, qt⟩ s t h1 h2 h3
    simp only at h1 h2 h3
    subst h1 h2 h3
    refine ⟨Spec.ihx ⟨pc, pa, 1, pg, po, pt⟩ s t, ?_, ?_⟩ <;>
    · unfold Spec.ihx
      rw [← integral_const_mul]
      refine integral_congr_ae (ae_of_all _ fun τ => ?_)
      simp only [Spec.gate, Spec.kH]
      ring
  obtain ⟨c, h1, h2⟩ := e g'.params g.params t1 t2 hc ha hg
  obtain ⟨d, h3, h4⟩ := e g'.params g.params t t hc ha hg
  rw [h1, h2, h3, h4]
  ring

/-- **C107 is false** for the GPCM: with `fix_scale` alone, the correlation of the signal changes at every non-zero lag
whenever the window does. -/
theorem c107_window_false (g : GpcmModel) (hc : g.causal = false) (ha : 0 < g.alpha) (hk : g.alphaT ≠ 0) (f : Flags)
    (hf : f.scale = true) {vs vs' : Store} {g' : GpcmModel} (h : g.instantiate f vs = some (g', vs'))
    (ha' : 0 < g'.alpha) (hk' : g'.alphaT ≠ 0) (hne : g'.alpha ≠ g.alpha) {t1 t2 : ℝ} (ht : t1 ≠ t2) (t : ℝ) :
    Spec.ihx g'.params t1 t2 * Spec.ihx g.params t t ≠ Spec.ihx g.params t1 t2 * Spec.ihx g'.params t t := by
  obtain ⟨-, -, -, hg, -, -, -, -, -, hc', -⟩ := c104_gpcm g f h
  rw [if_pos hf] at hg
  rw [ihx_full g.params hc, ihx_full g'.params (hc'.trans hc), ihx_full g.params hc, ihx_full g'.params (hc'.trans hc)]
  simp only [sub_self, ne_eq, OfNat.ofNat_ne_zero, not_false_eq_true, zero_pow, mul_zero, exp_zero, mul_one]
  intro e
  have p1 : g'.params.alphaT ^ 2 * √(π / (2 * g'.params.alpha)) ≠ 0 :=
    mul_ne_zero (pow_ne_zero 2 hk') (sqrt_ne_zero'.2 (div_pos pi_pos (mul_pos two_pos ha')))
  have p2 : g.params.alphaT ^ 2 * √(π / (2 * g.params.alpha)) ≠ 0 :=
    mul_ne_zero (pow_ne_zero 2 hk) (sqrt_ne_zero'.2 (div_pos pi_pos (mul_pos two_pos ha)))
  have e2 : exp (-(g'.params.gamma + g'.params.alpha / 2) * (t1 - t2) ^ 2) =
      exp (-(g.params.gamma + g.params.alpha / 2) * (t1 - t2) ^ 2) := by
    refine mul_left_cancel₀ (mul_ne_zero p1 p2) ?_
    linear_combination e
  have e3 := exp_injective e2
  have e4 := mul_right_cancel₀ (pow_ne_zero 2 (sub_ne_zero.2 ht)) e3
  have e4 : -(g'.gamma + g'.alpha / 2) = -(g.gamma + g.alpha / 2) := e4
  rw [hg] at e4
  exact hne (by linarith)

/-- **C107 is false**: a freshly constructed GPCM with `fix_scale` and values of the variables for which the correlation
of the signal is not that of the constructed model. -/
theorem c107_false : ∃ (a : GpcmArgs) (g g' : GpcmModel) (vs : Store), GpcmModel.new a = .ok g ∧
    g.instantiate { scale := true } vs = some (g', vs) ∧
    Spec.ihx g'.params 0 1 * Spec.ihx g.params 0 0 ≠ Spec.ihx g.params 0 1 * Spec.ihx g'.params 0 0 := by
  obtain ⟨g, hg, hm, -, -, hc, hγ, ht⟩ := witness_moderate false
  have ht : g.tU = [-2, 0, 2] := by simpa using ht
  have ha0 : 0 < g.alpha := by linarith [hm.alpha_lo]
  obtain ⟨vs, hvs⟩ : ∃ vs : Store, vs = [("noise", ⟨.unbounded, [1], true⟩), ("alpha", ⟨.unbounded, [2 * g.alpha], true⟩),
    ("alpha_t", ⟨.unbounded, [1], true⟩), ("omega", ⟨.unbounded, [1], true⟩), ("t_u", ⟨.unbounded, g.tU, true⟩),
    ("t_z", ⟨.unbounded, g.tZ, true⟩)] := ⟨_, rfl⟩
  have a1 : ask "noise" .positive g.noise vs = some (1, vs) :=
    ask_again (by simp [hvs, Vars.names]) (by simp [hvs, Vars.value, Vars.get, Var.value, Constraint.unbounded])
  have a2 : ask "alpha" .positive g.alpha vs = some (2 * g.alpha, vs) :=
    ask_again (by simp [hvs, Vars.names]) (by simp [hvs, Vars.value, Vars.get, Var.value, Constraint.unbounded])
  have a3 : ask "alpha_t" .positive g.alphaT vs = some (1, vs) :=
    ask_again (by simp [hvs, Vars.names]) (by simp [hvs, Vars.value, Vars.get, Var.value, Constraint.unbounded])
  have a5 : ask "omega" .positive g.omega vs = some (1, vs) :=
    ask_again (by simp [hvs, Vars.names]) (by simp [hvs, Vars.value, Vars.get, Var.value, Constraint.unbounded])
  have a6 : askBounded "t_u" (-2 * 1.5) (2 * 1.5) g.tU vs = some (g.tU, vs) := by
    unfold askBounded
    rw [dif_pos (by norm_num)]
    exact askVec_again (by simp [hvs, Vars.names])
      (by simp [hvs, Vars.value, Vars.get, Var.value, Constraint.unbounded])
  have a7 : askVec "t_z" .unbounded g.tZ vs = some (g.tZ, vs) :=
    askVec_again (by simp [hvs, Vars.names]) (by simp [hvs, Vars.value, Vars.get, Var.value, Constraint.unbounded])
  have hlo : pyMin g.tU = .ok (-2) := by rw [ht]; simp [pyMin]
  have hhi : pyMax g.tU = .ok 2 := by rw [ht]; simp [pyMax]
  have h : g.instantiate { scale := true } vs =
      some ({ g with noise := 1, alpha := 2 * g.alpha, alphaT := 1, omega := 1 }, vs) := by
    unfold GpcmModel.instantiate
    rw [hlo, hhi]
    simp only [askUnless, Bool.false_eq_true, if_false, if_true, a1, a2, a3, a5, a6, a7, Option.bind_some]
  refine ⟨_, g, _, vs, hg, h, ?_⟩
  exact c107_window_false g hc ha0 hm.alphaT _ rfl h (by positivity) one_ne_zero
    (by show 2 * g.alpha ≠ g.alpha; linarith) zero_ne_one 0

end Gpcm
