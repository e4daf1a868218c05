import Verif.Model.RunExp
import Verif.Props.ExperimentProps
import Verif.Props.SaveSessionProps

/-!
# C156: an experiment can be repeated from its files
-/

open Matrix Real

namespace Gpcm.Experiments

variable {σ φ num vec α : Type} [Nonempty σ] (M : Methods σ φ)

theorem fileOf_inj {a b : String} (h : fileOf a = fileOf b) : a = b := by
  have := congrArg String.toList h
  simp only [fileOf, String.toList_append] at this
  exact String.toList_inj.1 (List.append_cancel_right this)

/-- What training leaves in the directory. -/
theorem fitAll_files (ms : List (Trainee σ)) (hn : (ms.map Trainee.name).Nodup) (f : Files φ) {l : List (Trainee σ)}
    (h : (fitAll M (some f) ms).1 = .ok l) : ∃ (st : String → σ) (f' : Files φ), l = ms.map (fun m => ⟨m.name, st m.name⟩) ∧
      (fitAll M (some f) ms).2 = some f' ∧
      (∀ m ∈ ms, M.fit m.name m.state = .ok (st m.name) ∧ f' (fileOf m.name) = some (M.save (st m.name))) ∧
      ∀ n, n ∉ (ms.map fun m => fileOf m.name) → f' n = f n := by
  induction ms generalizing f l with
  | nil =>
    simp only [fitAll, Except.ok.injEq] at h
    subst h
    exact ⟨fun _ => Classical.arbitrary σ, f, rfl, rfl, by simp, fun _ _ => rfl⟩
  | cons m ms ih =>
    simp only [List.map_cons, List.nodup_cons] at hn
    simp only [fitAll] at h ⊢
    rcases hs : M.fit m.name m.state with e | s
    · simp [hs] at h
    · simp only [hs, Option.map_some] at h ⊢
      rcases hr : (fitAll M (some fun n => if n = fileOf m.name then some (M.save s) else f n) ms).1 with e | l'
      · simp [hr] at h
      · simp only [hr, Except.ok.injEq] at h ⊢
        obtain ⟨st, f', h1, h2, h3, h4⟩ := ih hn.2 _ hr
        have hne : ∀ k ∈ ms, k.name ≠ m.name := fun k hk e => hn.1 (e ▸ List.mem_map_of_mem hk)
        subst h
        refine ⟨fun n => if n = m.name then s else st n, f', ?_, h2, ?_, fun n hn' => ?_⟩
        · simp only [h1, List.map_cons, if_true]
          refine congrArg _ (List.map_congr_left fun k hk => ?_)
          rw [if_neg (hne k hk)]
        · intro k hk
          rcases List.mem_cons.1 hk with rfl | hk
          · refine ⟨by simp only [if_true, hs], (h4 _ fun hm => ?_).trans (by simp)⟩
            obtain ⟨k', hk', e⟩ := List.mem_map.1 hm
            exact hne k' hk' (fileOf_inj e)
          · simp only [if_neg (hne k hk)]
            exact h3 k hk
        · simp only [List.map_cons, List.mem_cons, not_or] at hn'
          rw [h4 n hn'.2, if_neg hn'.1]

theorem loadAll_ok (f : Files φ) (ms : List (Trainee σ)) (v : String → φ) (h : ∀ m ∈ ms, f (fileOf m.name) = some (v m.name)) :
    loadAll M (some f) ms = .ok (ms.map fun m => ⟨m.name, M.load (v m.name) m.state⟩) := by
  induction ms with
  | nil => rfl
  | cons m ms ih =>
    simp only [loadAll, h m (by simp), ih fun k hk => h k (by simp [hk]), List.map_cons]

variable (S : SetOrder) (new new' : Call num vec → σ) (analyse : Trainee σ → α)

/-- **C156** If running an experiment succeeds, then running it again with `--load`, for any of its models and with any other
training options and initial values, succeeds, writes nothing, and analyses every model as before: given that what is analysed is restored by
saving and loading. -/
theorem c156_repeat {names names' : List String} (hs : names' ⊆ names) (c : Common num vec) (nZ : Option ℕ) (ext : Bool) (wd : Files φ)
    (M' : Methods σ φ) (hM : M'.load = M.load)
    (ha : ∀ (k : Kind) (s : σ), M.fit k.title (M.init k.title (new (callOf c nZ ext k))) = .ok s →
      analyse ⟨k.title, M.load (M.save s) (new' (callOf c nZ ext k))⟩ = analyse ⟨k.title, s⟩)
    {r : List α} {wd' : Files φ} (h : runExperiment S M new analyse names c nZ ext false wd = (.ok r, wd')) :
    ∃ r', runExperiment S M' new' analyse names' c nZ ext true wd' = (.ok r', wd') ∧ r'.Sublist r ∧
      (names ⊆ names' → r' = r) := by
  have hk : ∀ n ∈ names, n ∈ ["gpcm", "cgpcm", "gprv"] := by
    intro n hn
    by_contra hc
    simp [runExperiment, c78_rejects S names c nZ ext hn hc] at h
  have b := c78_builds S names c nZ ext hk
  have b' := c78_builds S names' c nZ ext fun n hn => hk n (hs hn)
  have hkind : ∀ k, (callOf c nZ ext k).kind = k := fun k => by cases k <;> rfl
  obtain ⟨L, hL⟩ : ∃ L, L = [Kind.gpcm, .cgpcm, .rgpcm].filter (fun k => k.name ∈ names) := ⟨_, rfl⟩
  obtain ⟨L', hL'⟩ : ∃ L, L = [Kind.gpcm, .cgpcm, .rgpcm].filter (fun k => k.name ∈ names') := ⟨_, rfl⟩
  have hsub : L' = L.filter (fun k => k.name ∈ names') := by
    rw [hL, hL', List.filter_filter]
    refine List.filter_congr fun k _ => ?_
    by_cases hk : k.name ∈ names'
    · simp [hk, hs hk]
    · simp [hk]
  have hnd : (L.map Kind.title).Nodup := by
    have : ([Kind.gpcm, .cgpcm, .rgpcm].map Kind.title).Nodup := by decide
    exact this.sublist (hL ▸ List.filter_sublist.map _)
  rw [← hL] at b
  rw [← hL'] at b'
  simp only [runExperiment, b, b', trainModels, List.map_map, Function.comp_def, if_true, hkind, Bool.false_eq_true, if_false,
    Prod.mk.injEq] at h ⊢
  obtain ⟨h1, h2⟩ := h
  rcases hl : (fitAll M (some wd) (L.map fun k => ⟨k.title, M.init k.title (new (callOf c nZ ext k))⟩)).1 with e | l
  · simp [hl] at h1
  · obtain ⟨st, f', e1, e2, e3, -⟩ := fitAll_files M _ (by simpa [Function.comp_def] using hnd) wd hl
    simp only [hl, Except.ok.injEq] at h1
    rw [e2, Option.getD_some] at h2
    subst h2
    rw [loadAll_ok M' f' _ (fun n => M.save (st n)) fun m hm => ?_]
    · have hr : ∀ k ∈ L, analyse ⟨k.title, M.load (M.save (st k.title)) (new' (callOf c nZ ext k))⟩ = analyse ⟨k.title, st k.title⟩ :=
        fun k hk => ha k _ (e3 ⟨k.title, M.init k.title (new (callOf c nZ ext k))⟩ (List.mem_map_of_mem hk)).1
      have h1' : r = L.map fun k => analyse ⟨k.title, st k.title⟩ := by
        rw [← h1, e1, List.map_map, List.map_map]
        rfl
      have h2' : (L'.map fun k => analyse ⟨k.title, M.load (M.save (st k.title)) (new' (callOf c nZ ext k))⟩) =
          L'.map fun k => analyse ⟨k.title, st k.title⟩ :=
        List.map_congr_left fun k hk => hr k (List.mem_of_mem_filter (hsub ▸ hk))
      refine ⟨_, ⟨rfl, rfl⟩, ?_, fun hn => ?_⟩
      · simp only [List.map_map, Function.comp_def, hM]
        rw [h2', h1', hsub]
        exact List.filter_sublist.map _
      · have : L' = L := by
          rw [hL, hL']
          refine List.filter_congr fun k _ => ?_
          simp only [decide_eq_decide]
          exact ⟨fun h => hs h, fun h => hn h⟩
        simp only [List.map_map, Function.comp_def, hM]
        rw [h2', h1', this]
    · obtain ⟨k, hk, rfl⟩ := List.mem_map.1 hm
      exact (e3 ⟨k.title, M.init k.title (new (callOf c nZ ext k))⟩ (List.mem_map_of_mem (List.mem_of_mem_filter (hsub ▸ hk)))).2

/-- **C156** Loading before the model has been trained in the working directory raises, and writes nothing. -/
theorem c156_missing (names : List String) (c : Common num vec) (nZ : Option ℕ) (ext : Bool) (wd : Files φ) {k : Kind}
    (hk : k.name ∈ names) (hw : wd (fileOf k.title) = none) :
    ∃ e, runExperiment S M new analyse names c nZ ext true wd = (.error e, wd) := by
  simp only [runExperiment]
  rcases hb : buildModels S names c nZ ext with e | calls
  · exact ⟨e, rfl⟩
  · simp only [trainModels, if_true, Option.getD_some]
    have hk' : ∀ n ∈ names, n ∈ ["gpcm", "cgpcm", "gprv"] := by
      intro n hn
      by_contra hc
      rw [c78_rejects S names c nZ ext hn hc] at hb
      cases hb
    have b := c78_builds S names c nZ ext hk'
    rw [hb] at b
    have hkind : ∀ k, (callOf c nZ ext k).kind = k := fun k => by cases k <;> rfl
    have hm : (⟨k.title, new (callOf c nZ ext k)⟩ : Trainee σ) ∈ calls.map fun k => (⟨k.kind.title, new k⟩ : Trainee σ) := by
      rw [Except.ok.inj b]
      refine List.mem_map.2 ⟨callOf c nZ ext k, List.mem_map_of_mem (List.mem_filter.2 ⟨by cases k <;> simp, by simpa using hk⟩), ?_⟩
      rw [hkind]
    have key : ∀ (ms : List (Trainee σ)) (m : Trainee σ), m ∈ ms → wd (fileOf m.name) = none → ∃ e, loadAll M (some wd) ms = .error e := by
      intro ms m hm hw
      induction ms with
      | nil => cases hm
      | cons a ms ih =>
        simp only [loadAll]
        rcases ha : wd (fileOf a.name) with _ | v
        · exact ⟨_, rfl⟩
        · rcases List.mem_cons.1 hm with rfl | hm
          · simp [hw] at ha
          · obtain ⟨e, he⟩ := ih hm
            exact ⟨e, by simp [he]⟩
    obtain ⟨e, he⟩ := key _ _ hm hw
    exact ⟨e, by rw [he]⟩

/-- **C156** An unknown model raises before anything is trained or written. -/
theorem c156_unknown {names : List String} {n : String} (hn : n ∈ names) (hc : n ∉ ["gpcm", "cgpcm", "gprv"])
    (c : Common num vec) (nZ : Option ℕ) (ext load : Bool) (wd : Files φ) :
    runExperiment S M new analyse names c nZ ext load wd = (.error .valueError, wd) := by
  simp [runExperiment, c78_rejects S names c nZ ext hn hc]

/-- **C156** Whatever happens, running an experiment changes no other files than those of the models it is run for. -/
theorem c156_others (names : List String) (c : Common num vec) (nZ : Option ℕ) (ext load : Bool) (wd : Files φ) (n : String)
    (hn : ∀ k : Kind, k.name ∈ names → n ≠ fileOf k.title) :
    (runExperiment S M new analyse names c nZ ext load wd).2 n = wd n := by
  have key : ∀ (ms : List (Trainee σ)) (f : Files φ), n ∉ (ms.map fun m => fileOf m.name) →
      ∃ f', (fitAll M (some f) ms).2 = some f' ∧ f' n = f n := by
    intro ms
    induction ms with
    | nil => exact fun f _ => ⟨f, rfl, rfl⟩
    | cons m ms ih =>
      intro f hm
      simp only [List.map_cons, List.mem_cons, not_or] at hm
      simp only [fitAll]
      rcases hs : M.fit m.name m.state with e | s
      · exact ⟨f, rfl, rfl⟩
      · obtain ⟨f', h1, h2⟩ := ih (fun k => if k = fileOf m.name then some (M.save s) else f k) hm.2
        refine ⟨f', ?_, by rw [h2, if_neg hm.1]⟩
        simp only [Option.map_some]
        rcases hr : (fitAll M (some fun k => if k = fileOf m.name then some (M.save s) else f k) ms).1 with e | l
        · exact h1
        · exact h1
  simp only [runExperiment]
  rcases hb : buildModels S names c nZ ext with e | calls
  · rfl
  · cases load with
    | true => rfl
    | false =>
      have hk' : ∀ n ∈ names, n ∈ ["gpcm", "cgpcm", "gprv"] := by
        intro n hn
        by_contra hc
        rw [c78_rejects S names c nZ ext hn hc] at hb
        cases hb
      have b := c78_builds S names c nZ ext hk'
      rw [hb] at b
      have hkind : ∀ k, (callOf c nZ ext k).kind = k := fun k => by cases k <;> rfl
      simp only [trainModels, Bool.false_eq_true, if_false, Except.ok.inj b, List.map_map, Function.comp_def, hkind]
      obtain ⟨f', h1, h2⟩ := key (([Kind.gpcm, .cgpcm, .rgpcm].filter (fun k => k.name ∈ names)).map
          fun k => ⟨k.title, M.init k.title (new (callOf c nZ ext k))⟩) wd (by
        simp only [List.map_map, Function.comp_def, List.mem_map, List.mem_filter, decide_eq_true_eq, not_exists, not_and]
        exact fun k hk e => hn k hk.2 e.symm)
      rw [h1, Option.getD_some, h2]

/-- **C156** An experiment with known models succeeds if all of them can be trained, and then has one result per model. -/
theorem c156_succeeds {names : List String} (hk : ∀ n ∈ names, n ∈ ["gpcm", "cgpcm", "gprv"]) (c : Common num vec) (nZ : Option ℕ)
    (ext : Bool) (wd : Files φ) (hf : ∀ n s, ∃ s', M.fit n s = .ok s') :
    ∃ r wd', runExperiment S M new analyse names c nZ ext false wd = (.ok r, wd') ∧
      r.length = ([Kind.gpcm, .cgpcm, .rgpcm].filter (fun k => k.name ∈ names)).length ∧
      ∀ k : Kind, k.name ∈ names → wd' (fileOf k.title) ≠ none := by
  have b := c78_builds S names c nZ ext hk
  obtain ⟨L, hL⟩ : ∃ L, L = [Kind.gpcm, .cgpcm, .rgpcm].filter (fun k => k.name ∈ names) := ⟨_, rfl⟩
  have hnd : (L.map Kind.title).Nodup := by
    have : ([Kind.gpcm, .cgpcm, .rgpcm].map Kind.title).Nodup := by decide
    exact this.sublist (hL ▸ List.filter_sublist.map _)
  rw [← hL] at b ⊢
  have hkind : ∀ k, (callOf c nZ ext k).kind = k := fun k => by cases k <;> rfl
  have key : ∀ (ms : List (Trainee σ)) (f : Files φ), ∃ l, (fitAll M (some f) ms).1 = .ok l := by
    intro ms
    induction ms with
    | nil => exact fun f => ⟨[], rfl⟩
    | cons m ms ih =>
      intro f
      obtain ⟨s, hs⟩ := hf m.name m.state
      obtain ⟨l, hl⟩ := ih fun k => if k = fileOf m.name then some (M.save s) else f k
      exact ⟨⟨m.name, s⟩ :: l, by simp only [fitAll, hs, Option.map_some, hl]⟩
  obtain ⟨l, hl⟩ := key (L.map fun k => ⟨k.title, M.init k.title (new (callOf c nZ ext k))⟩) wd
  obtain ⟨st, f', e1, e2, e3, -⟩ := fitAll_files M _ (by simpa [Function.comp_def] using hnd) wd hl
  simp only [runExperiment, b, trainModels, List.map_map, Function.comp_def, Bool.false_eq_true, if_false, hkind, hl, e2,
    Option.getD_some]
  refine ⟨_, _, rfl, by simp [e1], fun k hk => ?_⟩
  have hkL : k ∈ L := hL ▸ List.mem_filter.2 ⟨by cases k <;> simp, by simpa using hk⟩
  have := (e3 ⟨k.title, M.init k.title (new (callOf c nZ ext k))⟩ (List.mem_map_of_mem hkL)).2
  simp only at this
  rw [this]
  simp

end Gpcm.Experiments

namespace Gpcm.Session

open Experiments

variable {ι κ : Type} [Fintype ι] [DecidableEq ι] [Fintype κ] [DecidableEq κ]

/-- The methods of models with the scheme `structured` (model.py:249-279, approx.py:687-783): `I n` is the model called `n`. -/
noncomputable def structuredMethods (C : Chols ι κ) (I : String → Inst ι κ) (W : ℕ → (ι → ℝ) × (κ → ℝ)) (d : List (ℝ × ℝ))
    (iters : ℤ) (E : ℕ → Bool) : Methods (Session ι κ) (Saved ι κ) where
  init _ s := s
  fit n s := (s.fitStructured C (I n) W d iters).2.map fun _ => (s.fitStructured C (I n) W d iters).1
  save := Session.save E
  load v s := s.load v

/-- The methods of models with the scheme `mean-field-ca` (model.py:249-279, approx.py:801-802). -/
noncomputable def caMethods (C : Chols ι κ) (I : String → Inst ι κ) (d : List (ℝ × ℝ)) (iters : ℤ) (E : ℕ → Bool) :
    Methods (Session ι κ) (Saved ι κ) where
  init _ s := s
  fit n s := .ok (s.fitCA C (I n) d iters)
  save := Session.save E
  load v s := s.load v

variable (C : Chols ι κ) (I : String → Inst ι κ) (d : List (ℝ × ℝ)) (E : ℕ → Bool)
  {num vec : Type} (S : SetOrder) (new new' : Call num vec → Session ι κ)

/-- **C156** Scheme `structured`: the experiment predicts the same from its files, with other initial values, a different number
of iterations and another seed for training. -/
theorem c156_structured (W W' : ℕ → (ι → ℝ) × (κ → ℝ)) {names names' : List String} (hs : names' ⊆ names) (c : Common num vec)
    (nZ : Option ℕ) (ext : Bool) (wd : Files (Saved ι κ)) (iters iters' : ℤ) (t : List ℝ) (ws : List (ι → ℝ))
    (hn : ∀ k, ∃ qu qz, new k = fresh qu qz) (hn' : ∀ k, ∃ qu qz, new' k = fresh qu qz)
    {r : List (Except PyErr (List (ℝ × ℝ)))} {wd' : Files (Saved ι κ)}
    (h : runExperiment S (structuredMethods C I W d iters E) new
      (fun m => (m.state.condition C (I m.name) d).predictStructured C (I m.name) t ws) names c nZ ext false wd = (.ok r, wd')) :
    ∃ r', runExperiment S (structuredMethods C I W' d iters' E) new'
      (fun m => (m.state.condition C (I m.name) d).predictStructured C (I m.name) t ws) names' c nZ ext true wd' = (.ok r', wd') ∧
      r'.Sublist r ∧ (names ⊆ names' → r' = r) := by
  have : Nonempty (Session ι κ) := ⟨fresh (fun _ => ⟨0, 0⟩) fun _ => ⟨0, 0⟩⟩
  refine c156_repeat (structuredMethods C I W d iters E) S new new' _ hs c nZ ext wd (structuredMethods C I W' d iters' E) rfl (fun k s hf => ?_) h
  obtain ⟨qu, qz, e⟩ := hn (callOf c nZ ext k)
  obtain ⟨qu', qz', e'⟩ := hn' (callOf c nZ ext k)
  rw [e']
  simp only [structuredMethods, e] at hf ⊢
  rcases h2 : ((fresh qu qz).fitStructured C (I k.title) W d iters).2 with e | u
  · rw [h2] at hf
    simp [Except.map] at hf
  · rw [h2] at hf
    simp only [Except.map, Except.ok.injEq] at hf
    have h0 := (fitStructured_posts C (I k.title) W (fresh qu qz) d iters).1
    rw [hf] at h0
    simp only [predictStructured, Session.samplePU, condition, Posts.condition, load, save, fresh, Option.or_none, h0]

/-- **C156** Scheme `mean-field-ca`: likewise. -/
theorem c156_ca {names names' : List String} (hs : names' ⊆ names) (c : Common num vec)
    (nZ : Option ℕ) (ext : Bool) (wd : Files (Saved ι κ)) (iters iters' : ℤ) (hE : E 0 = true) (t : List ℝ)
    (hn : ∀ k, ∃ qu qz, new k = fresh qu qz) (hn' : ∀ k, ∃ qu qz, new' k = fresh qu qz)
    {r : List (List (ℝ × ℝ))} {wd' : Files (Saved ι κ)}
    (h : runExperiment S (caMethods C I d iters E) new
      (fun m => (m.state.condition C (I m.name) d).predictMeanField C (I m.name) t) names c nZ ext false wd = (.ok r, wd')) :
    ∃ r', runExperiment S (caMethods C I d iters' E) new'
      (fun m => (m.state.condition C (I m.name) d).predictMeanField C (I m.name) t) names' c nZ ext true wd' = (.ok r', wd') ∧
      r'.Sublist r ∧ (names ⊆ names' → r' = r) := by
  have : Nonempty (Session ι κ) := ⟨fresh (fun _ => ⟨0, 0⟩) fun _ => ⟨0, 0⟩⟩
  refine c156_repeat (caMethods C I d iters E) S new new' _ hs c nZ ext wd (caMethods C I d iters' E) rfl (fun k s hf => ?_) h
  obtain ⟨qu, qz, e⟩ := hn (callOf c nZ ext k)
  obtain ⟨qu', qz', e'⟩ := hn' (callOf c nZ ext k)
  rw [e']
  simp only [caMethods, e, Except.ok.injEq] at hf ⊢
  have h0 : s.posts.qi = 0 := by
    rw [← hf]
    rfl
  simp only [predictMeanField, MeanField.predict, Posts.pU, Posts.pZ, condition, Posts.condition, load, save, fresh, h0, zero_add,
    one_ne_zero, if_false, Nat.sub_self, hE, if_true, Option.getD_some, Nat.add_sub_cancel]

/-- An experiment with two models that succeeds, and its files. -/
example (C : Chols (Fin 1) (Fin 1)) (S : SetOrder) (c : Common ℝ (List ℝ)) :
    ∃ r wd', runExperiment S (structuredMethods C (fun _ => exInst) (fun _ => 0) [(0, 3)] 4 fun _ => false) (fun _ => exSession)
      (fun m => (m.state.condition C exInst [(0, 3)]).predictStructured C exInst [1] [0]) ["gprv", "gpcm"] c none false false
      (fun _ => none) = (.ok r, wd') ∧ r.length = 2 ∧ wd' "GPCM.pickle" ≠ none ∧ wd' "CGPCM.pickle" = none := by
  have : Nonempty (Session (Fin 1) (Fin 1)) := ⟨exSession⟩
  obtain ⟨r, wd', h1, h2, h3⟩ := c156_succeeds (structuredMethods C (fun _ => exInst) (fun _ => 0) [(0, 3)] 4 fun _ => false) S
    (fun _ => exSession) (fun m => (m.state.condition C exInst [(0, 3)]).predictStructured C exInst [1] [0])
    (names := ["gprv", "gpcm"]) (by decide) c none false (fun _ => none) fun n s =>
      ⟨_, by simp only [structuredMethods]; rw [fitStructured_eq C exInst (fun _ => 0) _ 4 (by norm_num)]; rfl⟩
  refine ⟨r, wd', h1, h2, h3 .gpcm (by decide), ?_⟩
  have := c156_others (structuredMethods C (fun _ => exInst) (fun _ => 0) [(0, 3)] 4 fun _ => false) S
    (fun _ => exSession) (fun m => (m.state.condition C exInst [(0, 3)]).predictStructured C exInst [1] [0])
    ["gprv", "gpcm"] c none false false (fun _ => none) "CGPCM.pickle" (fun k hk => by cases k <;> revert hk <;> decide)
  rw [h1] at this
  exact this

end Gpcm.Session
