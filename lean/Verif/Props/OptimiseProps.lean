import Verif.Model.Optimise
import Verif.Props.PriorProps

/-! # Property C210: training reaches exactly the parameters that the constraints allow -/

open Real

namespace Gpcm

theorem names_optimise (vs : Store) (s : String → Bool) (x : String → List ℝ) : (vs.optimise s x).names = vs.names := by
  unfold Vars.optimise Vars.names
  rw [List.map_map]
  refine List.map_congr_left fun p _ => ?_
  simp only [Function.comp]
  split_ifs <;> rfl

theorem get_optimise (vs : Store) (s : String → Bool) (x : String → List ℝ) (n : String) :
    (vs.optimise s x).get n = (vs.get n).map fun v => if v.visible && s n then { v with latent := x n } else v := by
  induction vs with
  | nil => rfl
  | cons p vs ih =>
    by_cases hp : p.1 = n
    · subst hp
      by_cases hv : (p.2.visible && s p.1) = true
      · unfold Vars.optimise
        rw [List.map_cons, if_pos hv]
        simp only [Vars.get, if_true, Option.map_some, if_pos hv]
      · unfold Vars.optimise
        rw [List.map_cons, if_neg hv]
        simp only [Vars.get, if_true, Option.map_some, if_neg hv]
    · have e : Vars.get (p :: vs) n = Vars.get vs n := by
        show (if p.1 = n then _ else _) = _
        rw [if_neg hp]
      have e' : (Vars.optimise (p :: vs) s x).get n = (Vars.optimise vs s x).get n := by
        unfold Vars.optimise
        rw [List.map_cons]
        by_cases hv : (p.2.visible && s p.1) = true
        · rw [if_pos hv]
          show (if p.1 = n then _ else _) = _
          rw [if_neg hp]
        · rw [if_neg hv]
          show (if p.1 = n then _ else _) = _
          rw [if_neg hp]
      rw [e, e', ih]

theorem names_train (vs : Store) (steps : List ((String → Bool) × (String → List ℝ))) :
    (vs.train steps).names = vs.names := by
  unfold Vars.train
  induction steps generalizing vs with
  | nil => rfl
  | cons s l ih => rw [List.foldl_cons, ih, names_optimise]

/-- Training changes nothing but latent values, and these keep their lengths. -/
theorem get_train {vs : Store} {steps : List ((String → Bool) × (String → List ℝ))} (h : Shaped vs steps) {n : String}
    {v : Var (List ℝ)} (hv : vs.get n = some v) :
    ∃ y : List ℝ, y.length = v.latent.length ∧ (vs.train steps).get n = some { v with latent := y } := by
  unfold Vars.train
  have key : ∀ (l : List ((String → Bool) × (String → List ℝ))) (ws : Store), (∀ s ∈ l, (s.2 n).length = v.latent.length) →
      (∃ y : List ℝ, y.length = v.latent.length ∧ ws.get n = some { v with latent := y }) →
      ∃ y : List ℝ, y.length = v.latent.length ∧
        (l.foldl (fun vs s => Vars.optimise vs s.1 s.2) ws).get n = some { v with latent := y } := by
    intro l
    induction l with
    | nil => exact fun ws _ h => h
    | cons s l ih =>
      intro ws hl ⟨y, hy, e⟩
      rw [List.foldl_cons]
      refine ih _ (fun s' hs' => hl s' (List.mem_cons_of_mem _ hs')) ?_
      rw [get_optimise, e]
      by_cases hs : (v.visible && s.1 n) = true
      · exact ⟨s.2 n, hl s List.mem_cons_self, by rw [Option.map_some, if_pos hs]⟩
      · exact ⟨y, hy, by rw [Option.map_some, if_neg hs]⟩
  exact key steps vs (fun s hs => h s hs n v hv) ⟨v.latent, rfl, hv⟩

theorem Asked.get_new {n : String} {c : Constraint ℝ} {init v : List ℝ} {vs vs' : Store}
    (h : askVec n c init vs = some (v, vs')) (hn : n ∉ vs.names) :
    vs'.get n = some ⟨c.vector, c.vector.inv init, true⟩ := by
  unfold askVec at h
  split_ifs at h with hc
  unfold Vars.getOrInit Vars.declare at h
  simp only [if_neg hn] at h
  obtain ⟨w, -, he⟩ := Option.map_eq_some_iff.1 h
  cases he
  exact store_get_new vs hn _

theorem ask_get_new {n : String} {c : Constraint ℝ} {init x : ℝ} {vs vs' : Store}
    (h : ask n c init vs = some (x, vs')) (hn : n ∉ vs.names) :
    vs'.get n = some ⟨c.vector, c.vector.inv [init], true⟩ := by
  obtain ⟨⟨v, ws⟩, hr, hm⟩ := Option.bind_eq_some_iff.1 h
  match v, hr, hm with
  | [y], hr, hm =>
    cases hm
    exact Asked.get_new hr hn
  | [], hr, hm => cases hm
  | _ :: _ :: _, hr, hm => cases hm

theorem askUnless_get_new {fixed : Bool} {n : String} {c : Constraint ℝ} {init x : ℝ} {vs vs' : Store}
    (h : askUnless fixed n c init vs = some (x, vs')) (hn : n ∉ vs.names) (hf : fixed = false) :
    vs'.get n = some ⟨c.vector, c.vector.inv [init], true⟩ := by
  subst hf
  exact ask_get_new (by simpa [askUnless] using h) hn

theorem Grew.get {a b : Store} {ns : List String} (h : Grew a b ns) {n : String} {v : Var (List ℝ)}
    (hv : a.get n = some v) : b.get n = some v := by
  obtain ⟨x, rfl, -⟩ := h
  have hn : n ∈ a.names := by
    by_contra hn
    have : a.get n = none := by
      clear hv
      induction a with
      | nil => rfl
      | cons p a ih =>
        have h1 : n ∉ p.1 :: Vars.names a := hn
        rw [List.mem_cons, not_or] at h1
        unfold Vars.get
        rw [if_neg (Ne.symm h1.1)]
        exact ih h1.2
    rw [this] at hv
    cases hv
  rw [store_get_append a x hn]
  exact hv

theorem get_mem {vs : Store} {n : String} {v : Var (List ℝ)} (hv : vs.get n = some v) : n ∈ vs.names := by
  induction vs with
  | nil => cases hv
  | cons p vs ih =>
    unfold Vars.get at hv
    split_ifs at hv with hp
    · exact List.mem_cons.2 (Or.inl hp.symm)
    · exact List.mem_cons_of_mem _ (ih hv)

/-- A trained variable with a scalar value. -/
theorem value_train {vs : Store} {steps : List ((String → Bool) × (String → List ℝ))} (h : Shaped vs steps) {n : String}
    {c : Constraint ℝ} {init : ℝ} (hv : vs.get n = some ⟨c.vector, c.vector.inv [init], true⟩) :
    ∃ x, c.dom x ∧ (vs.train steps).value n = some [x] ∧ n ∈ (vs.train steps).names := by
  obtain ⟨y, hy, e⟩ := get_train h hv
  have hl : y.length = 1 := by simpa [Constraint.vector] using hy
  obtain ⟨a, rfl⟩ := List.length_eq_one_iff.1 hl
  exact ⟨c.fwd a, c.maps a, by rw [Vars.value, e]; rfl, get_mem e⟩

/-- A trained variable with a vector as value. -/
theorem value_train_vec {vs : Store} {steps : List ((String → Bool) × (String → List ℝ))} (h : Shaped vs steps) {n : String}
    {c : Constraint ℝ} {init : List ℝ} (hv : vs.get n = some ⟨c.vector, c.vector.inv init, true⟩) :
    ∃ x : List ℝ, x.length = init.length ∧ (∀ a ∈ x, c.dom a) ∧ (vs.train steps).value n = some x ∧
      n ∈ (vs.train steps).names := by
  obtain ⟨y, hy, e⟩ := get_train h hv
  exact ⟨c.vector.fwd y, by simpa [Constraint.vector] using hy, c.vector.maps y, by rw [Vars.value, e]; rfl, get_mem e⟩

/-- What the container of a GPCM has after the first instantiation. -/
theorem gpcm_store (g : GpcmModel) (f : Flags) {vs : Store} {g' : GpcmModel} (h : g.instantiate f [] = some (g', vs)) :
    ∃ lo hi hb, pyMin g.tU = .ok lo ∧ pyMax g.tU = .ok hi ∧
    (f.noise = false → vs.get "noise" = some ⟨Constraint.positive.vector, Constraint.positive.vector.inv [g.noise], true⟩) ∧
    (f.window = false → vs.get "alpha" = some ⟨Constraint.positive.vector, Constraint.positive.vector.inv [g.alpha], true⟩) ∧
    vs.get "alpha_t" = some ⟨Constraint.positive.vector, Constraint.positive.vector.inv [g.alphaT], true⟩ ∧
    (f.scale = false → vs.get "gamma" = some ⟨Constraint.positive.vector, Constraint.positive.vector.inv [g.gamma], true⟩) ∧
    vs.get "omega" = some ⟨Constraint.positive.vector, Constraint.positive.vector.inv [g.omega], true⟩ ∧
    vs.get "t_u" = some ⟨(Constraint.bounded (lo * 1.5) (hi * 1.5) hb).vector,
      (Constraint.bounded (lo * 1.5) (hi * 1.5) hb).vector.inv g.tU, true⟩ ∧
    vs.get "t_z" = some ⟨Constraint.unbounded.vector, Constraint.unbounded.vector.inv g.tZ, true⟩ := by
  unfold GpcmModel.instantiate at h
  split at h
  · rename_i lo hi hlo hhi
    simp only [Option.bind_eq_some_iff] at h
    obtain ⟨⟨x1, v1⟩, h1, ⟨x2, v2⟩, h2, ⟨x3, v3⟩, h3, ⟨x4, v4⟩, h4, ⟨x5, v5⟩, h5, ⟨x6, v6⟩, h6, ⟨x7, v7⟩, h7, h⟩ := h
    cases h
    have f1 : "noise" ∉ Vars.names ([] : Store) := by simp [names_nil]
    have n1 := (askUnless_new h1 f1).2.2
    have f2 : "alpha" ∉ v1.names := by simp [n1, names_nil, mem_learnedName]
    have n2 := (askUnless_new h2 f2).2.2
    have f3 : "alpha_t" ∉ v2.names := by simp [n2, n1, names_nil, mem_learnedName]
    have n3 := (ask_new h3 f3).2.2
    have f4 : "gamma" ∉ v3.names := by simp [n3, n2, n1, names_nil, mem_learnedName]
    have n4 := (askUnless_new h4 f4).2.2
    have f5 : "omega" ∉ v4.names := by simp [n4, n3, n2, n1, names_nil, mem_learnedName]
    have n5 := (ask_new h5 f5).2.2
    have f6 : "t_u" ∉ v5.names := by simp [n5, n4, n3, n2, n1, names_nil, mem_learnedName]
    have n6 := (askBounded_new h6 f6).2.2.2
    have f7 : "t_z" ∉ v6.names := by simp [n6, n5, n4, n3, n2, n1, names_nil, mem_learnedName]
    obtain ⟨hb, h6'⟩ := askBounded_spec h6
    have g6 := (askVec_spec h7).grew
    have g5 := h6'.grew.trans g6
    have g4 := (ask_spec h5).grew.trans g5
    have g3 := (askUnless_spec h4).grew.trans g4
    have g2 := (ask_spec h3).grew.trans g3
    have g1 := (askUnless_spec h2).grew.trans g2
    refine ⟨lo, hi, hb, hlo, hhi, fun hf => g1.get (askUnless_get_new h1 f1 hf), fun hf => g2.get (askUnless_get_new h2 f2 hf),
      g3.get (ask_get_new h3 f3), fun hf => g4.get (askUnless_get_new h4 f4 hf), g5.get (ask_get_new h5 f5), g6.get ?_,
      Asked.get_new h7 f7⟩
    unfold askBounded at h6
    rw [dif_pos hb] at h6
    exact Asked.get_new h6 f6
  · cases h

/-- What the container of an RGPCM has after the first instantiation. -/
theorem rgpcm_store (g : RgpcmModel) (f : Flags) {vs : Store} {g' : RgpcmModel} (h : g.instantiate f [] = some (g', vs)) :
    ∃ hi hb hf, pyMax g.tU = .ok hi ∧
    (f.noise = false → vs.get "noise" = some ⟨Constraint.positive.vector, Constraint.positive.vector.inv [g.noise], true⟩) ∧
    (f.window = false → vs.get "alpha" = some ⟨Constraint.positive.vector, Constraint.positive.vector.inv [g.alpha], true⟩) ∧
    vs.get "alpha_t" = some ⟨Constraint.positive.vector, Constraint.positive.vector.inv [g.alphaT], true⟩ ∧
    (f.scale = false → vs.get "lambda" = some ⟨Constraint.positive.vector, Constraint.positive.vector.inv [g.lam], true⟩) ∧
    vs.get "gamma_factor" = some ⟨(Constraint.bounded 1 1e4 hf).vector,
      (Constraint.bounded 1 1e4 hf).vector.inv [g.alpha / g.gamma], true⟩ ∧
    vs.get "t_u" = some ⟨(Constraint.bounded (-1e-4) (hi * 1.5) hb).vector,
      (Constraint.bounded (-1e-4) (hi * 1.5) hb).vector.inv g.tU, true⟩ := by
  unfold RgpcmModel.instantiate at h
  split at h
  · rename_i hi hhi
    simp only [Option.bind_eq_some_iff] at h
    obtain ⟨⟨x1, v1⟩, h1, ⟨x2, v2⟩, h2, ⟨x3, v3⟩, h3, ⟨x4, v4⟩, h4, ⟨x5, v5⟩, h5, ⟨x6, v6⟩, h6, h⟩ := h
    cases h
    have f1 : "noise" ∉ Vars.names ([] : Store) := by simp [names_nil]
    have n1 := (askUnless_new h1 f1).2.2
    have f2 : "alpha" ∉ v1.names := by simp [n1, names_nil, mem_learnedName]
    have n2 := (askUnless_new h2 f2).2.2
    have f3 : "alpha_t" ∉ v2.names := by simp [n2, n1, names_nil, mem_learnedName]
    have n3 := (ask_new h3 f3).2.2
    have f4 : "lambda" ∉ v3.names := by simp [n3, n2, n1, names_nil, mem_learnedName]
    have n4 := (askUnless_new h4 f4).2.2
    have f5 : "gamma_factor" ∉ v4.names := by simp [n4, n3, n2, n1, names_nil, mem_learnedName]
    have n5 := (ask_new h5 f5).2.2
    have f6 : "t_u" ∉ v5.names := by simp [n5, n4, n3, n2, n1, names_nil, mem_learnedName]
    obtain ⟨hb, h6'⟩ := askBounded_spec h6
    have g5 := h6'.grew
    have g4 := (ask_spec h5).grew.trans g5
    have g3 := (askUnless_spec h4).grew.trans g4
    have g2 := (ask_spec h3).grew.trans g3
    have g1 := (askUnless_spec h2).grew.trans g2
    refine ⟨hi, hb, by norm_num, hhi, fun hf => g1.get (askUnless_get_new h1 f1 hf),
      fun hf => g2.get (askUnless_get_new h2 f2 hf), g3.get (ask_get_new h3 f3), fun hf => g4.get (askUnless_get_new h4 f4 hf),
      g5.get (ask_get_new h5 f5), ?_⟩
    unfold askBounded at h6
    rw [dif_pos hb] at h6
    exact Asked.get_new h6 f6
  · cases h

/-- Instantiation with a container that has all variables. -/
theorem gpcm_instantiate_of (g : GpcmModel) (f : Flags) (θ : GpcmLearned) {vs : Store} {lo hi : ℝ}
    (hlo : pyMin g.tU = .ok lo) (hhi : pyMax g.tU = .ok hi) (hb : lo * 1.5 < hi * 1.5)
    (h1 : f.noise = false → vs.value "noise" = some [θ.noise] ∧ "noise" ∈ vs.names)
    (h2 : f.window = false → vs.value "alpha" = some [θ.alpha] ∧ "alpha" ∈ vs.names)
    (h3 : vs.value "alpha_t" = some [θ.alphaT] ∧ "alpha_t" ∈ vs.names)
    (h4 : f.scale = false → vs.value "gamma" = some [θ.gamma] ∧ "gamma" ∈ vs.names)
    (h5 : vs.value "omega" = some [θ.omega] ∧ "omega" ∈ vs.names)
    (h6 : vs.value "t_u" = some θ.tU ∧ "t_u" ∈ vs.names) (h7 : vs.value "t_z" = some θ.tZ ∧ "t_z" ∈ vs.names) :
    g.instantiate f vs = some (g.prior f.noise f.window f.scale θ, vs) := by
  have a1 : askUnless f.noise "noise" .positive g.noise vs = some (if f.noise then g.noise else θ.noise, vs) :=
    askUnless_again (fun hf => by rw [if_pos hf]) fun hf => by rw [hf]; exact h1 hf
  have a2 : askUnless f.window "alpha" .positive g.alpha vs = some (if f.window then g.alpha else θ.alpha, vs) :=
    askUnless_again (fun hf => by rw [if_pos hf]) fun hf => by rw [hf]; exact h2 hf
  have a3 : ask "alpha_t" .positive g.alphaT vs = some (θ.alphaT, vs) := ask_again h3.2 h3.1
  have a4 : askUnless f.scale "gamma" .positive g.gamma vs = some (if f.scale then g.gamma else θ.gamma, vs) :=
    askUnless_again (fun hf => by rw [if_pos hf]) fun hf => by rw [hf]; exact h4 hf
  have a5 : ask "omega" .positive g.omega vs = some (θ.omega, vs) := ask_again h5.2 h5.1
  have a6 : askBounded "t_u" (lo * 1.5) (hi * 1.5) g.tU vs = some (θ.tU, vs) := by
    unfold askBounded
    rw [dif_pos hb]
    exact askVec_again h6.2 h6.1
  have a7 : askVec "t_z" .unbounded g.tZ vs = some (θ.tZ, vs) := askVec_again h7.2 h7.1
  unfold GpcmModel.instantiate
  rw [hlo, hhi]
  simp only [a1, a2, a3, a4, a5, a6, a7, Option.bind_some]
  rfl

theorem rgpcm_instantiate_of (g : RgpcmModel) (f : Flags) (θ : RgpcmLearned) {vs : Store} {hi : ℝ}
    (hhi : pyMax g.tU = .ok hi) (hb : -1e-4 < hi * 1.5)
    (h1 : f.noise = false → vs.value "noise" = some [θ.noise] ∧ "noise" ∈ vs.names)
    (h2 : f.window = false → vs.value "alpha" = some [θ.alpha] ∧ "alpha" ∈ vs.names)
    (h3 : vs.value "alpha_t" = some [θ.alphaT] ∧ "alpha_t" ∈ vs.names)
    (h4 : f.scale = false → vs.value "lambda" = some [θ.lam] ∧ "lambda" ∈ vs.names)
    (h5 : vs.value "gamma_factor" = some [θ.gammaFactor] ∧ "gamma_factor" ∈ vs.names)
    (h6 : vs.value "t_u" = some θ.tU ∧ "t_u" ∈ vs.names) :
    g.instantiate f vs = some (g.prior f.noise f.window f.scale θ, vs) := by
  have a1 : askUnless f.noise "noise" .positive g.noise vs = some (if f.noise then g.noise else θ.noise, vs) :=
    askUnless_again (fun hf => by rw [if_pos hf]) fun hf => by rw [hf]; exact h1 hf
  have a2 : askUnless f.window "alpha" .positive g.alpha vs = some (if f.window then g.alpha else θ.alpha, vs) :=
    askUnless_again (fun hf => by rw [if_pos hf]) fun hf => by rw [hf]; exact h2 hf
  have a3 : ask "alpha_t" .positive g.alphaT vs = some (θ.alphaT, vs) := ask_again h3.2 h3.1
  have a4 : askUnless f.scale "lambda" .positive g.lam vs = some (if f.scale then g.lam else θ.lam, vs) :=
    askUnless_again (fun hf => by rw [if_pos hf]) fun hf => by rw [hf]; exact h4 hf
  have a5 : ask "gamma_factor" (.bounded 1 1e4 (by norm_num)) (g.alpha / g.gamma) vs = some (θ.gammaFactor, vs) :=
    ask_again h5.2 h5.1
  have a6 : askBounded "t_u" (-1e-4) (hi * 1.5) g.tU vs = some (θ.tU, vs) := by
    unfold askBounded
    rw [dif_pos hb]
    exact askVec_again h6.2 h6.1
  unfold RgpcmModel.instantiate
  rw [hhi]
  simp only [a1, a2, a3, a4, a5, a6, Option.bind_some]
  rfl

/-- A parameter that is learned or fixed, after training. -/
theorem value_train_unless {vs : Store} {steps : List ((String → Bool) × (String → List ℝ))} (h : Shaped vs steps) {n : String}
    {fixed : Bool} {init : ℝ}
    (hv : fixed = false → vs.get n = some ⟨Constraint.positive.vector, Constraint.positive.vector.inv [init], true⟩) :
    ∃ x : ℝ, 0 < x ∧ (fixed = false → (vs.train steps).value n = some [x] ∧ n ∈ (vs.train steps).names) := by
  cases fixed
  · obtain ⟨x, h1, h2⟩ := value_train h (hv rfl)
    exact ⟨x, h1, fun _ => h2⟩
  · exact ⟨1, one_pos, nofun⟩

/-- **C210** After any number of trainings of a GPCM, whatever the minimisers found, the model can be instantiated, and its
parameters are ones that the constraints allow. -/
theorem c210_gpcm (g : GpcmModel) (f : Flags) {g1 : GpcmModel} {vs : Store} (h : g.instantiate f [] = some (g1, vs))
    {steps : List ((String → Bool) × (String → List ℝ))} (hs : Shaped vs steps) :
    ∃ θ : GpcmLearned, θ.Valid g ∧
      g.instantiate f (vs.train steps) = some (g.prior f.noise f.window f.scale θ, vs.train steps) := by
  obtain ⟨lo, hi, hb, hlo, hhi, h1, h2, h3, h4, h5, h6, h7⟩ := gpcm_store g f h
  obtain ⟨x1, p1, e1⟩ := value_train_unless hs h1
  obtain ⟨x2, p2, e2⟩ := value_train_unless hs h2
  obtain ⟨x3, p3, e3⟩ := value_train hs h3
  obtain ⟨x4, p4, e4⟩ := value_train_unless hs h4
  obtain ⟨x5, p5, e5⟩ := value_train hs h5
  obtain ⟨x6, l6, p6, e6⟩ := value_train_vec hs h6
  obtain ⟨x7, l7, p7, e7⟩ := value_train_vec hs h7
  refine ⟨⟨x1, x2, x3, x4, x5, x6, x7⟩, ⟨p1, p2, p3, p4, p5, l6, l7, fun lo' hl x hx => ?_, fun hi' hl x hx => ?_⟩,
    gpcm_instantiate_of g f ⟨x1, x2, x3, x4, x5, x6, x7⟩ hlo hhi hb e1 e2 e3 e4 e5 e6 e7⟩
  · rw [hlo] at hl
    cases hl
    exact (p6 x hx).1
  · rw [hhi] at hl
    cases hl
    exact (p6 x hx).2

/-- **C210** The same for the RGPCM. -/
theorem c210_rgpcm (g : RgpcmModel) (f : Flags) {g1 : RgpcmModel} {vs : Store} (h : g.instantiate f [] = some (g1, vs))
    {steps : List ((String → Bool) × (String → List ℝ))} (hs : Shaped vs steps) :
    ∃ θ : RgpcmLearned, θ.Valid g ∧
      g.instantiate f (vs.train steps) = some (g.prior f.noise f.window f.scale θ, vs.train steps) := by
  obtain ⟨hi, hb, hf, hhi, h1, h2, h3, h4, h5, h6⟩ := rgpcm_store g f h
  obtain ⟨x1, p1, e1⟩ := value_train_unless hs h1
  obtain ⟨x2, p2, e2⟩ := value_train_unless hs h2
  obtain ⟨x3, p3, e3⟩ := value_train hs h3
  obtain ⟨x4, p4, e4⟩ := value_train_unless hs h4
  obtain ⟨x5, p5, e5⟩ := value_train hs h5
  obtain ⟨x6, l6, p6, e6⟩ := value_train_vec hs h6
  refine ⟨⟨x1, x2, x3, x4, x5, x6⟩, ⟨p1, p2, p3, p4, p5.1, p5.2, l6, fun x hx => (p6 x hx).1, fun hi' hl x hx => ?_⟩,
    rgpcm_instantiate_of g f ⟨x1, x2, x3, x4, x5, x6⟩ hhi hb e1 e2 e3 e4 e5 e6⟩
  rw [hhi] at hl
  cases hl
  exact (p6 x hx).2

/-! ## Everything that the constraints allow can be reached -/

/-- The latent values at which a variable has the value `value n`, if that has the right length. -/
noncomputable def latentOf (vs : Store) (value : String → List ℝ) (n : String) : List ℝ :=
  match vs.get n with
  | some v => if (v.constraint.inv (value n)).length = v.latent.length then v.constraint.inv (value n) else v.latent
  | none => []

theorem length_latentOf {vs : Store} {value : String → List ℝ} {n : String} {v : Var (List ℝ)} (hv : vs.get n = some v) :
    (latentOf vs value n).length = v.latent.length := by
  unfold latentOf
  rw [hv]
  dsimp only
  split_ifs with h
  · exact h
  · rfl

theorem value_latentOf {vs : Store} {value : String → List ℝ} {n : String} {c : Constraint ℝ} {l x : List ℝ}
    (hv : vs.get n = some ⟨c.vector, c.vector.inv l, true⟩) (hx : value n = x) (hl : x.length = l.length)
    (hd : ∀ a ∈ x, c.dom a) :
    (vs.optimise (fun _ => true) (latentOf vs value)).value n = some x ∧
      n ∈ (vs.optimise (fun _ => true) (latentOf vs value)).names := by
  rw [names_optimise]
  refine ⟨?_, get_mem hv⟩
  have e : latentOf vs value n = c.vector.inv x := by
    unfold latentOf
    rw [hv, hx]
    exact if_pos (by simpa [Constraint.vector] using hl)
  rw [Vars.value, get_optimise, hv]
  simp only [Option.map_some, Bool.and_self, if_true, Var.value, e]
  rw [c.vector.right _ hd]

/-- **C210** Training can give a GPCM all parameters that the constraints allow. -/
theorem c210_gpcm_all (g : GpcmModel) (f : Flags) {g1 : GpcmModel} {vs : Store} (h : g.instantiate f [] = some (g1, vs))
    {θ : GpcmLearned} (hθ : θ.Valid g) :
    ∃ x, (∀ n v, vs.get n = some v → (x n).length = v.latent.length) ∧
      g.instantiate f (vs.optimise (fun _ => true) x) =
        some (g.prior f.noise f.window f.scale θ, vs.optimise (fun _ => true) x) := by
  obtain ⟨lo, hi, hb, hlo, hhi, h1, h2, h3, h4, h5, h6, h7⟩ := gpcm_store g f h
  let value : String → List ℝ := fun n => if n = "noise" then [θ.noise] else if n = "alpha" then [θ.alpha] else
    if n = "alpha_t" then [θ.alphaT] else if n = "gamma" then [θ.gamma] else if n = "omega" then [θ.omega] else
    if n = "t_u" then θ.tU else θ.tZ
  refine ⟨latentOf vs value, fun n v hv => length_latentOf hv, ?_⟩
  refine gpcm_instantiate_of g f θ hlo hhi hb (fun hf => value_latentOf (h1 hf) rfl rfl ?_)
    (fun hf => value_latentOf (h2 hf) rfl rfl ?_) (value_latentOf h3 rfl rfl ?_)
    (fun hf => value_latentOf (h4 hf) rfl rfl ?_) (value_latentOf h5 rfl rfl ?_)
    (value_latentOf h6 rfl hθ.lenU fun x hx => ⟨hθ.lower lo hlo x hx, hθ.upper hi hhi x hx⟩)
    (value_latentOf h7 rfl hθ.lenZ fun _ _ => trivial)
  · simpa [Constraint.positive] using hθ.noise
  · simpa [Constraint.positive] using hθ.alpha
  · simpa [Constraint.positive] using hθ.alphaT
  · simpa [Constraint.positive] using hθ.gamma
  · simpa [Constraint.positive] using hθ.omega

/-- **C210** Training can give an RGPCM all parameters that the constraints allow. -/
theorem c210_rgpcm_all (g : RgpcmModel) (f : Flags) {g1 : RgpcmModel} {vs : Store} (h : g.instantiate f [] = some (g1, vs))
    {θ : RgpcmLearned} (hθ : θ.Valid g) :
    ∃ x, (∀ n v, vs.get n = some v → (x n).length = v.latent.length) ∧
      g.instantiate f (vs.optimise (fun _ => true) x) =
        some (g.prior f.noise f.window f.scale θ, vs.optimise (fun _ => true) x) := by
  obtain ⟨hi, hb, hf, hhi, h1, h2, h3, h4, h5, h6⟩ := rgpcm_store g f h
  let value : String → List ℝ := fun n => if n = "noise" then [θ.noise] else if n = "alpha" then [θ.alpha] else
    if n = "alpha_t" then [θ.alphaT] else if n = "lambda" then [θ.lam] else if n = "gamma_factor" then [θ.gammaFactor] else
    θ.tU
  refine ⟨latentOf vs value, fun n v hv => length_latentOf hv, ?_⟩
  refine rgpcm_instantiate_of g f θ hhi hb (fun hf => value_latentOf (h1 hf) rfl rfl ?_)
    (fun hf => value_latentOf (h2 hf) rfl rfl ?_) (value_latentOf h3 rfl rfl ?_)
    (fun hf => value_latentOf (h4 hf) rfl rfl ?_) (value_latentOf h5 rfl rfl ?_)
    (value_latentOf h6 rfl hθ.lenU fun x hx => ⟨hθ.lower x hx, hθ.upper hi hhi x hx⟩)
  · simpa [Constraint.positive] using hθ.noise
  · simpa [Constraint.positive] using hθ.alpha
  · simpa [Constraint.positive] using hθ.alphaT
  · simpa [Constraint.positive] using hθ.lam
  · simpa [Constraint.bounded] using ⟨hθ.factor_lo, hθ.factor_hi⟩

/-- **C210** What the parameters are after training: everything is positive, the filter of an RGPCM decays faster than its
inducing variables (at most ten thousand times), and the inducing points stay within 1.5 times the range of the initial ones,
for an RGPCM up to 0.0001 before the present. -/
theorem c210_values (g : GpcmModel) (f : Flags) {g1 : GpcmModel} {vs : Store} (h : g.instantiate f [] = some (g1, vs))
    (r : RgpcmModel) (f' : Flags) {r1 : RgpcmModel} {ws : Store} (h' : r.instantiate f' [] = some (r1, ws))
    {steps steps' : List ((String → Bool) × (String → List ℝ))} (hs : Shaped vs steps) (hs' : Shaped ws steps') :
    (∃ m, g.instantiate f (vs.train steps) = some (m, vs.train steps) ∧ (f.noise = false → 0 < m.noise) ∧
      (f.window = false → 0 < m.alpha) ∧ (f.scale = false → 0 < m.gamma) ∧ 0 < m.alphaT ∧ 0 < m.omega ∧
      m.tU.length = g.tU.length ∧ m.tZ.length = g.tZ.length ∧
      (∀ x ∈ m.tU, (∃ a ∈ g.tU, 3 / 2 * a < x) ∧ ∃ b ∈ g.tU, x < 3 / 2 * b)) ∧
    ∃ m, r.instantiate f' (ws.train steps') = some (m, ws.train steps') ∧ (f'.noise = false → 0 < m.noise) ∧
      (f'.window = false → 0 < m.alpha) ∧ (f'.scale = false → 0 < m.lam) ∧ 0 < m.alphaT ∧
      (0 < m.alpha → m.alpha / 10000 < m.gamma ∧ m.gamma < m.alpha) ∧ m.tU.length = r.tU.length ∧
      ∀ x ∈ m.tU, -(1 / 10000) < x ∧ ∃ b ∈ r.tU, x < 3 / 2 * b := by
  obtain ⟨lo, hi, hb, hlo, hhi, -⟩ := gpcm_store g f h
  obtain ⟨hi', hb', -, hhi', -⟩ := rgpcm_store r f' h'
  obtain ⟨θ, v, e⟩ := c210_gpcm g f h hs
  obtain ⟨θ', v', e'⟩ := c210_rgpcm r f' h' hs'
  refine ⟨⟨_, e, fun hf => ?_, fun hf => ?_, fun hf => ?_, v.alphaT, v.omega, v.lenU, v.lenZ, fun x hx =>
    ⟨⟨lo, pyMin_mem hlo, ?_⟩, hi, pyMax_mem hhi, ?_⟩⟩, _, e', fun hf => ?_, fun hf => ?_, fun hf => ?_, v'.alphaT,
    fun ha => ?_, v'.lenU, fun x hx => ⟨?_, hi', pyMax_mem hhi', ?_⟩⟩
  · simpa [GpcmModel.prior, hf] using v.noise
  · simpa [GpcmModel.prior, hf] using v.alpha
  · simpa [GpcmModel.prior, hf] using v.gamma
  · have := v.lower lo hlo x hx
    linarith
  · have := v.upper hi hhi x hx
    linarith
  · simpa [RgpcmModel.prior, hf] using v'.noise
  · simpa [RgpcmModel.prior, hf] using v'.alpha
  · simpa [RgpcmModel.prior, hf] using v'.lam
  · have h1 := v'.factor_lo
    have h2 := v'.factor_hi
    have h0 : 0 < θ'.gammaFactor := by linarith
    have e : (r.prior f'.noise f'.window f'.scale θ').gamma =
        (r.prior f'.noise f'.window f'.scale θ').alpha / θ'.gammaFactor := rfl
    rw [e]
    refine ⟨?_, div_lt_self ha h1⟩
    rw [div_lt_div_iff_of_pos_left ha (by norm_num) h0]
    norm_num at h2 ⊢
    exact h2
  · have := v'.lower x hx
    norm_num at this ⊢
    linarith
  · have := v'.upper hi' hhi' x hx
    linarith

example : ∃ (g g1 : GpcmModel) (vs : Store), g.instantiate {} [] = some (g1, vs) ∧ Shaped vs [] ∧
    ∃ θ : GpcmLearned, θ.Valid g := by
  obtain ⟨a, g, hg, -, hs⟩ := startable_witness true
  obtain ⟨⟨g1, vs⟩, h⟩ := (c105_start_partial g {}).2 (hs {})
  have h0 : Shaped vs [] := fun s hs => absurd hs List.not_mem_nil
  obtain ⟨θ, hθ, -⟩ := c210_gpcm g {} h h0
  exact ⟨g, g1, vs, h, h0, θ, hθ⟩

/-- **C210** (limit of the claim) The constraints do not keep inducing points apart: training may move all inducing points of
an RGPCM to one place, where the covariance of the inducing variables is not positive definite. -/
theorem c210_coincide (g : RgpcmModel) (f : Flags) {g1 : RgpcmModel} {vs : Store} (h : g.instantiate f [] = some (g1, vs))
    (hn : 2 ≤ g.tU.length) :
    ∃ x m, (∀ n v, vs.get n = some v → (x n).length = v.latent.length) ∧
      g.instantiate f (vs.optimise (fun _ => true) x) = some (m, vs.optimise (fun _ => true) x) ∧
      m.tU.length = g.tU.length ∧ ¬m.computeKu.PosDef := by
  obtain ⟨hi, hb, -, hhi, -⟩ := rgpcm_store g f h
  obtain ⟨θ, v, -⟩ := c210_rgpcm g f h (steps := []) fun s hs => absurd hs List.not_mem_nil
  obtain ⟨c, hc1, hc2⟩ := exists_between hb
  have hv : ({ θ with tU := List.replicate g.tU.length c } : RgpcmLearned).Valid g :=
    ⟨v.noise, v.alpha, v.alphaT, v.lam, v.factor_lo, v.factor_hi, List.length_replicate,
      fun x hx => by rw [List.eq_of_mem_replicate hx]; exact hc1,
      fun hi' hl x hx => by
        rw [hhi] at hl
        cases hl
        rw [List.eq_of_mem_replicate hx]
        exact hc2⟩
  obtain ⟨x, hx, e⟩ := c210_rgpcm_all g f h hv
  refine ⟨x, _, hx, e, hv.lenU, fun hp => ?_⟩
  set m := g.prior f.noise f.window f.scale { θ with tU := List.replicate g.tU.length c } with hm
  have hl : m.tU.length = g.tU.length := hv.lenU
  have hall : ∀ i : Fin m.tU.length, m.tU.get i = c := fun i => List.eq_of_mem_replicate (List.get_mem m.tU i)
  have h0 : m.computeKu.det = 0 := by
    refine Matrix.det_zero_of_row_eq (i := ⟨0, by omega⟩) (j := ⟨1, by omega⟩)
      (fun h => absurd (congrArg Fin.val h) (by norm_num)) ?_
    funext k
    show m.kuEntry _ _ = m.kuEntry _ _
    rw [hall, hall, hall]
  exact hp.det_pos.ne' h0

end Gpcm
