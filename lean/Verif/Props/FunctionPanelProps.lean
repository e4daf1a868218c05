import Verif.Model.FunctionPanel
import Verif.Props.PaperProps
import Verif.Props.PriorProps
import Verif.Props.StoreProps

/-! # Property C173: the figure of predicted functions shows every model with its noise -/

namespace Gpcm.Plots

/-! ## What the noise is -/

/-- **C173** (partial) For a GPCM that learns its noise, the dashed lines are drawn with the noise the model predicts with.
Missing: a fixed noise, for which this is false (`c173_false`, `c173_loaded_false`). -/
theorem c173_gpcm_partial (g : GpcmModel) (f : Flags) {vs vs' : Store} {g' : GpcmModel}
    (h : g.instantiate f vs = some (g', vs')) (hf : f.noise = false) : readNoise vs' = .ok g'.noise := by
  have h1 := (c104_gpcm g f h).2.1
  rw [if_neg (by simp [hf])] at h1
  rw [readNoise, h1]

/-- **C173** (partial) The same for the RGPCM. -/
theorem c173_rgpcm_partial (g : RgpcmModel) (f : Flags) {vs vs' : Store} {g' : RgpcmModel}
    (h : g.instantiate f vs = some (g', vs')) (hf : f.noise = false) : readNoise vs' = .ok g'.noise := by
  have h1 := (c104_rgpcm g f h).2.1
  rw [if_neg (by simp [hf])] at h1
  rw [readNoise, h1]

theorem readNoise_absent {vs : Store} (h : "noise" ∉ vs.names) : readNoise vs = .error .keyError := by
  have h1 : vs.get "noise" = none := by
    by_contra hne
    exact h ((Vars.mem_names_iff vs "noise").2 hne)
  rw [readNoise, Vars.value, h1]
  rfl

/-- **C173 is false**: for a GPCM with fixed noise, whatever its parameters, drawing raises a `KeyError`, because no variable holds
the noise. -/
theorem c173_false (g : GpcmModel) (f : Flags) {vs' : Store} {g' : GpcmModel} (h : g.instantiate f [] = some (g', vs'))
    (hf : f.noise = true) : readNoise vs' = .error .keyError := by
  refine readNoise_absent ?_
  rw [(c105_fresh g f h).2]
  simp [GpcmModel.variables, mem_learnedName, hf]

/-- **C173 is false** for the RGPCM too. -/
theorem c173_rgpcm_false (g : RgpcmModel) (f : Flags) {vs' : Store} {g' : RgpcmModel}
    (h : g.instantiate f [] = some (g', vs')) (hf : f.noise = true) : readNoise vs' = .error .keyError := by
  refine readNoise_absent ?_
  rw [(g.instantiate_new f h).2.1]
  simp [RgpcmModel.variables, mem_learnedName, hf]

/-- **C173 is false**: a GPCM with fixed noise that loads the file of one that learned its noise predicts with the noise of the
constructor, but is drawn with the noise in the file. `x` is the noise that was learned. -/
theorem c173_loaded_false {β : Type} (F : Codec String (List ℝ) β) (g : GpcmModel) (f : Flags) (hf : f.noise = true)
    {saved vs' : Store} {g' : GpcmModel} {x : ℝ} (hn : saved.names.Nodup) (hx : saved.value "noise" = some [x])
    (h : g.instantiate f (load F (save F saved) []).1 = some (g', vs')) :
    g'.noise = g.noise ∧ readNoise vs' = .ok x := by
  obtain ⟨⟨ext, rfl, -⟩, h1, -⟩ := c104_gpcm g f h
  rw [if_pos hf] at h1
  refine ⟨h1, ?_⟩
  have hm : "noise" ∈ saved.names := by
    rw [Vars.mem_names_iff]
    intro hne
    rw [Vars.value, hne] at hx
    cases hx
  have hv := (c38_round_trip F saved [] hn (by simp [Vars.get])).2.1 "noise" hm
  rw [hx, Vars.value] at hv
  rw [readNoise, Vars.value, Vars.get_append]
  cases hg : Vars.get (load F (save F saved) []).1 "noise" with
  | none => rw [hg] at hv; cases hv
  | some w =>
    rw [hg] at hv
    rw [show (some w).or (Vars.get ext "noise") = some w from rfl, hv]

/-! ## The figure -/

theorem functionPanels_ok {i : ℕ} {ms : List Plotted} {l : List (List (ℝ × ℝ))} : functionPanels i ms = .ok l ↔
    (ms = [] ∨ i + ms.length ≤ 3) ∧ List.Forall₂ (fun (m : Plotted) lines => ∃ x, readNoise m.vs = .ok x ∧
      lines = m.pred.map (Paper.errorLines x)) ms l := by
  induction ms generalizing i l with
  | nil =>
    rw [functionPanels, List.forall₂_nil_left_iff]
    constructor
    · rintro ⟨⟩
      exact ⟨.inl rfl, rfl⟩
    · rintro ⟨-, rfl⟩
      rfl
  | cons m ms ih =>
    rw [functionPanels]
    by_cases hi : 3 < 1 + i
    · rw [if_pos hi]
      constructor
      · rintro ⟨⟩
      · rintro ⟨h | h, -⟩
        · cases h
        · simp only [List.length_cons] at h
          omega
    · rw [if_neg hi]
      constructor
      · intro h
        split at h
        · cases h
        · rename_i x hx
          split at h
          · cases h
          · rename_i l' hl'
            cases h
            obtain ⟨h1, h2⟩ := ih.1 hl'
            refine ⟨.inr ?_, .cons ⟨x, hx, rfl⟩ h2⟩
            rcases h1 with rfl | h1
            · simp only [List.length_cons, List.length_nil]
              omega
            · simp only [List.length_cons]
              omega
      · rintro ⟨h, hl⟩
        cases hl with
        | cons hm hl' =>
          obtain ⟨x, hx, rfl⟩ := hm
          have : functionPanels (i + 1) ms = .ok _ := ih.2 ⟨by
            rcases h with h | h
            · cases h
            · simp only [List.length_cons] at h
              exact .inr (by omega), hl'⟩
          rw [hx, this]

/-- **C173** (partial) Exactly when the figure is drawn and what it shows: there have to be at least three observations, at most
three models, and for every model a variable that holds the noise. Then every panel shows the lines for that noise. Missing: models
with fixed noise (`c173_false`), four models (`c173_four`) and two observations (`c173_two`). -/
theorem c173_figure_partial (t : List ℝ) (ms : List Plotted) (l : List (List (ℝ × ℝ))) : functionFigure t ms = .ok l ↔
    3 ≤ t.length ∧ ms.length ≤ 3 ∧ List.Forall₂ (fun (m : Plotted) lines => ∃ x, readNoise m.vs = .ok x ∧
      lines = m.pred.map (Paper.errorLines x)) ms l := by
  unfold functionFigure
  cases h : Paper.equallySpaced t with
  | error e =>
    have := (c120_error_partial.1 h).2
    simp only [reduceCtorEq, false_iff]
    omega
  | ok b =>
    have h3 : 3 ≤ t.length := by
      by_contra hlt
      rw [c120_error_partial.2 ⟨rfl, not_le.1 hlt⟩] at h
      cases h
    show functionPanels 0 ms = .ok l ↔ _
    rw [functionPanels_ok, zero_add]
    constructor
    · rintro ⟨h1, h2⟩
      refine ⟨h3, ?_, h2⟩
      rcases h1 with rfl | h1
      · simp
      · exact h1
    · rintro ⟨-, h1, h2⟩
      exact ⟨.inr h1, h2⟩

/-- **C173 is false** for four models: there are three panels. -/
theorem c173_four (t : List ℝ) (ms : List Plotted) (h : 3 < ms.length) : ∀ l, functionFigure t ms ≠ .ok l := fun l hl => by
  have := ((c173_figure_partial t ms l).1 hl).2.1
  omega

/-- **C173 is false** for two observations. -/
theorem c173_two (t : List ℝ) (ms : List Plotted) (h : t.length < 3) : functionFigure t ms = .error .valueError := by
  unfold functionFigure
  rw [c120_error_partial.2 ⟨rfl, h⟩]

/-- **C173** (partial) Up to three GPCMs that learn their noise are all drawn, each with its own noise. -/
theorem c173_learned_partial (t : List ℝ) (ht : 3 ≤ t.length) (ms : List ((GpcmModel × Store) × List (ℝ × ℝ)))
    (hms : ms.length ≤ 3)
    (h : ∀ m ∈ ms, ∃ (g : GpcmModel) (f : Flags) (vs : Store), f.noise = false ∧ g.instantiate f vs = some m.1) :
    functionFigure t (ms.map fun m => ⟨m.1.2, m.2⟩) =
      .ok (ms.map fun m => m.2.map (Paper.errorLines m.1.1.noise)) := by
  rw [c173_figure_partial]
  refine ⟨ht, by simpa using hms, ?_⟩
  rw [List.forall₂_map_left_iff, List.forall₂_map_right_iff, List.forall₂_same]
  intro m hm
  obtain ⟨g, f, vs, hf, hg⟩ := h m hm
  exact ⟨_, c173_gpcm_partial g f hg hf, rfl⟩

/-! ## Examples -/

/-- A GPCM that the constructor builds: with learned noise it is drawn with its noise, with fixed noise it cannot be drawn. -/
example (causal : Bool) : ∃ (a : GpcmArgs) (g : GpcmModel), GpcmModel.new a = .ok g ∧ a.causal = causal ∧
    (∃ vs, g.instantiate {} [] = some (g, vs) ∧ functionFigure [0, 1, 2] [⟨vs, [(0, 1)]⟩] =
      .ok [[Paper.errorLines g.noise (0, 1)]]) ∧
    ∃ vs, g.instantiate { noise := true } [] = some (g, vs) ∧ readNoise vs = .error .keyError := by
  obtain ⟨a, g, hg, hc, hs⟩ : ∃ (a : GpcmArgs) (g : GpcmModel), GpcmModel.new a = .ok g ∧ a.causal = causal ∧
      ∀ f, g.Startable f := startable_witness causal
  refine ⟨a, g, hg, hc, ?_, ?_⟩
  · obtain ⟨⟨g', vs⟩, h⟩ := (c105_start_partial g {}).2 (hs {})
    obtain ⟨rfl, -⟩ := c105_fresh g _ h
    refine ⟨vs, h, ?_⟩
    have := c173_learned_partial [0, 1, 2] (by simp) [((g', vs), [(0, 1)])] (by simp)
      (by
        intro m hm
        rw [List.mem_singleton.1 hm]
        exact ⟨g', {}, [], rfl, h⟩)
    simpa using this
  · obtain ⟨⟨g', vs⟩, h⟩ := (c105_start_partial g { noise := true }).2 (hs { noise := true })
    obtain ⟨rfl, -⟩ := c105_fresh g _ h
    exact ⟨vs, h, c173_false g' _ h rfl⟩

/-- A model to which `c173_loaded_false` applies: one that the constructor builds, but with its noise fixed to another value, loads
what it saved. -/
example {β : Type} (F : Codec String (List ℝ) β) (causal : Bool) : ∃ (g : GpcmModel) (saved vs' : Store) (g' : GpcmModel) (x : ℝ),
    g.instantiate { noise := true } (load F (save F saved) []).1 = some (g', vs') ∧ g'.noise = x + 1 ∧
    readNoise vs' = .ok x := by
  obtain ⟨a, g, -, -, hs⟩ := startable_witness causal
  obtain ⟨⟨g0, saved⟩, h⟩ := (c105_start_partial g {}).2 (hs {})
  obtain ⟨rfl, hn⟩ := c105_fresh g _ h
  have hnd : saved.names.Nodup := by
    rw [hn]
    decide
  obtain ⟨-, h1, h2, h3, h4, h5, h6, h7, -⟩ := c104_gpcm g0 {} h
  simp only [Bool.false_eq_true, if_false] at h1 h2 h3
  have hr := (c38_round_trip F saved [] hnd (by simp [Vars.get])).2.1
  have hm : ∀ n ∈ saved.names, n ∈ (load F (save F saved) []).1.names := fun n hn' => by
    rw [Vars.mem_names_iff]
    intro hne
    have h8 := hr n hn'
    rw [Vars.value, hne, Vars.value] at h8
    have h9 := (Vars.mem_names_iff saved n).1 hn'
    cases hg : saved.get n with
    | none => exact h9 hg
    | some w => rw [hg] at h8; cases h8
  set vs := (load F (save F saved) []).1 with hvs
  have m2 : "alpha" ∈ saved.names := by rw [hn]; decide
  have m3 : "gamma" ∈ saved.names := by rw [hn]; decide
  have m4 : "alpha_t" ∈ saved.names := by rw [hn]; decide
  have m5 : "omega" ∈ saved.names := by rw [hn]; decide
  have m6 : "t_u" ∈ saved.names := by rw [hn]; decide
  have m7 : "t_z" ∈ saved.names := by rw [hn]; decide
  obtain ⟨lo, hlo, hlo0⟩ := (hs {}).neg
  obtain ⟨hi, hhi, hhi0⟩ := (hs {}).pos
  have key : ∃ g', { g0 with noise := g0.noise + 1 }.instantiate { noise := true } vs = some (g', vs) := by
    have hex : g0.tU ≠ [] := List.ne_nil_of_mem hlo
    obtain ⟨a, l, hal⟩ := List.exists_cons_of_ne_nil hex
    have e1 : pyMin g0.tU = .ok (l.foldl min a) := by rw [hal]; rfl
    have e2 : pyMax g0.tU = .ok (l.foldl max a) := by rw [hal]; rfl
    have b1 := Rgpcm.pyMin_le e1 lo hlo
    have b2 := Rgpcm.pyMax_ge e2 hi hhi
    have a2 : askUnless false "alpha" .positive g0.alpha vs = some (g0.alpha, vs) :=
      askUnless_again (by simp) fun _ => ⟨(hr _ m2).trans h2, hm _ m2⟩
    have a3 : askUnless false "gamma" .positive g0.gamma vs = some (g0.gamma, vs) :=
      askUnless_again (by simp) fun _ => ⟨(hr _ m3).trans h3, hm _ m3⟩
    have a4 : ask "alpha_t" .positive g0.alphaT vs = some (g0.alphaT, vs) := ask_again (hm _ m4) ((hr _ m4).trans h4)
    have a5 : ask "omega" .positive g0.omega vs = some (g0.omega, vs) := ask_again (hm _ m5) ((hr _ m5).trans h5)
    have a6 : askBounded "t_u" (l.foldl min a * 1.5) (l.foldl max a * 1.5) g0.tU vs = some (g0.tU, vs) := by
      unfold askBounded
      rw [dif_pos (by linarith)]
      exact askVec_again (hm _ m6) ((hr _ m6).trans h6)
    have a7 : askVec "t_z" .unbounded g0.tZ vs = some (g0.tZ, vs) := askVec_again (hm _ m7) ((hr _ m7).trans h7)
    unfold GpcmModel.instantiate
    simp only [e1, e2, askUnless, if_true] at a2 a3 ⊢
    simp only [a2, a3, a4, a5, a6, a7, Option.bind_some]
    exact ⟨_, rfl⟩
  obtain ⟨g', hg'⟩ := key
  obtain ⟨r1, r2⟩ := c173_loaded_false F _ _ rfl hnd h1 hg'
  exact ⟨_, saved, _, g', g0.noise, hg', r1, r2⟩

end Gpcm.Plots
