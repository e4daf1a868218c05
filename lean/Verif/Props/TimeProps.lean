import Verif.Props.ValidProps
import Verif.Props.SessionProps
import Verif.Props.RgpcmValidProps

/-!
# Property C136: the origin of time

The times of the observations and of the predictions, the inducing points of the noise and the interval of the harmonics
are given relative to some origin. The inducing points of the filter are lags.
-/

open Matrix Real MeasureTheory

namespace Gpcm

/-! ## What is done with a model -/

section
variable {ι κ : Type} [Fintype ι] [DecidableEq ι] [Fintype κ] [DecidableEq κ]
variable (C : Chols ι κ) (m : Inst ι κ)

/-- What the approximation works with if times are given on another clock; `φ` converts its readings. -/
def Spec.reclock (φ : ℝ → ℝ) (m : Inst ι κ) : Inst ι κ :=
  { m with
    iHx := fun a b => m.iHx (φ a) (φ b)
    iHz := fun t => m.iHz (φ t)
    iUz := fun t => m.iUz (φ t) }

/-- The observations with their times on another clock. -/
def Spec.reclockData (ψ : ℝ → ℝ) (d : List (ℝ × ℝ)) : List (ℝ × ℝ) := d.map fun p => (ψ p.1, p.2)

/-- The operation with times on another clock. -/
def Spec.reclockOp (ψ : ℝ → ℝ) : Session.Op → Session.Op
  | .fit d iters => .fit (Spec.reclockData ψ d) iters
  | .condition d => .condition (Spec.reclockData ψ d)
  | .elbo d => .elbo (Spec.reclockData ψ d)

variable {φ ψ : ℝ → ℝ} (h : ∀ t, φ (ψ t) = t)
include h

theorem constructTerms_reclock (t : List ℝ) : constructTerms C (Spec.reclock φ m) (t.map ψ) = constructTerms C m t := by
  have e1 : (t.map ψ).map (fun s => m.iHx (φ s) (φ s)) = t.map fun s => m.iHx s s := by simp [Function.comp_def, h]
  have e2 : (t.map ψ).map (fun s => m.iHz (φ s)) = t.map m.iHz := by
    rw [List.map_map]; exact List.map_congr_left fun s _ => by rw [Function.comp_apply, h]
  have e3 : (t.map ψ).map (fun s => m.iUz (φ s)) = t.map m.iUz := by
    rw [List.map_map]; exact List.map_congr_left fun s _ => by rw [Function.comp_apply, h]
  simp only [constructTerms, Spec.reclock, e1, e2, e3, List.length_map]
  rfl

theorem constructDataTerms_reclock (d : List (ℝ × ℝ)) :
    constructDataTerms C (Spec.reclock φ m) (Spec.reclockData ψ d) = constructDataTerms C m d := by
  have e1 : (Spec.reclockData ψ d).map Prod.fst = (d.map Prod.fst).map ψ := by
    simp [Spec.reclockData, Function.comp_def]
  have e2 : (Spec.reclockData ψ d).map Prod.snd = d.map Prod.snd := by simp [Spec.reclockData, Function.comp_def]
  have e3 : (Spec.reclockData ψ d).map (fun p => p.2 • m.iUz (φ p.1)) = d.map fun p => p.2 • m.iUz p.1 := by
    rw [Spec.reclockData, List.map_map]
    exact List.map_congr_left fun p _ => by rw [Function.comp_apply, h]
  simp only [constructDataTerms, e1, e2, constructTerms_reclock C m h]
  rw [show (fun p : ℝ × ℝ => p.2 • (Spec.reclock φ m).iUz p.1) = fun p => p.2 • m.iUz (φ p.1) from rfl, e3]

omit h in
theorem caStep_reclock (ts : DataTerms ι κ) : caStep C (Spec.reclock φ m) ts = caStep C m ts := rfl

omit h in
theorem gibbs_reclock (ts : DataTerms ι κ) (W : ℕ → (ι → ℝ) × (κ → ℝ)) :
    gibbsU C (Spec.reclock φ m) ts W = gibbsU C m ts W ∧ gibbsZ C (Spec.reclock φ m) ts W = gibbsZ C m ts W := ⟨rfl, rfl⟩

/-- Whatever is done with a model has the same effect on another clock. -/
theorem Session.run_reclock (W : ℕ → (ι → ℝ) × (κ → ℝ)) (s : Session ι κ) (o : Session.Op) :
    s.run C (Spec.reclock φ m) W (Spec.reclockOp ψ o) = s.run C m W o := by
  cases o with
  | fit d iters =>
    simp only [Session.run, Spec.reclockOp, Session.fitStructured, constructDataTerms_reclock C m h, gibbs_reclock]
  | condition d => simp only [Session.run, Spec.reclockOp, Session.condition, constructDataTerms_reclock C m h]
  | elbo d =>
    simp only [Session.run, Spec.reclockOp, Session.elboStructured, Session.fitCA, fitMeanFieldCA,
      constructDataTerms_reclock C m h, caStep_reclock]

theorem Session.ops_reclock (W : ℕ → (ι → ℝ) × (κ → ℝ)) (s : Session ι κ) (ops : List Session.Op) :
    (ops.map (Spec.reclockOp ψ)).foldl (Session.run C (Spec.reclock φ m) W) s = ops.foldl (Session.run C m W) s := by
  induction ops generalizing s with
  | nil => rw [List.map_nil, List.foldl_nil, List.foldl_nil]
  | cons o ops ih => rw [List.map_cons, List.foldl_cons, List.foldl_cons, Session.run_reclock C m h, ih]

theorem Session.predict_reclock (s : Session ι κ) (t : List ℝ) (ws : List (ι → ℝ)) :
    s.predictStructured C (Spec.reclock φ m) (t.map ψ) ws = s.predictStructured C m t ws := by
  have e : s.samplePU C (Spec.reclock φ m) ws = s.samplePU C m ws := rfl
  simp only [Session.predictStructured, e, Structured.predict, constructTerms_reclock C m h]
  rfl

theorem meanField_predict_reclock (s : Posts ι κ) (t : List ℝ) :
    MeanField.predict C (Spec.reclock φ m) s (t.map ψ) = MeanField.predict C m s t := by
  simp only [MeanField.predict, constructTerms_reclock C m h]
  rfl

theorem fitMeanFieldCA_reclock (s : Posts ι κ) (d : List (ℝ × ℝ)) (iters : ℤ) :
    fitMeanFieldCA C (Spec.reclock φ m) s (Spec.reclockData ψ d) iters = fitMeanFieldCA C m s d iters := by
  simp only [fitMeanFieldCA, constructDataTerms_reclock C m h, caStep_reclock]

theorem bounds_reclock (s : Posts ι κ) (d : List (ℝ × ℝ)) :
    (∀ c, MeanField.elbo C (Spec.reclock φ m) s (Spec.reclockData ψ d) c = MeanField.elbo C m s d c) ∧
      ∀ us, elboCollapsedZ C (Spec.reclock φ m) s (Spec.reclockData ψ d) us = elboCollapsedZ C m s d us := by
  refine ⟨fun c => ?_, fun us => ?_⟩
  · simp only [MeanField.elbo, constructDataTerms_reclock C m h]
    rfl
  · simp only [elboCollapsedZ, constructDataTerms_reclock C m h]
    rfl

omit h in
variable (W : ℕ → (ι → ℝ) × (κ → ℝ)) (ψ) in
/-- The same observations on another clock give the same bounds, the same fits and the same predictions. -/
structure Spec.SameOnClock (m' : Inst ι κ) : Prop where
  /-- Predictions of the structured scheme after anything that was done. -/
  structured : ∀ (s : Session ι κ) (ops : List Session.Op) (t : List ℝ) (ws : List (ι → ℝ)),
    ((ops.map (Spec.reclockOp ψ)).foldl (Session.run C m' W) s).predictStructured C m' (t.map ψ) ws =
      (ops.foldl (Session.run C m W) s).predictStructured C m t ws
  /-- Predictions of the mean-field scheme after coordinate ascent. -/
  ca : ∀ (s : Posts ι κ) (d : List (ℝ × ℝ)) (iters : ℤ) (t : List ℝ),
    MeanField.predict C m' (fitMeanFieldCA C m' s (Spec.reclockData ψ d) iters).1.condition (t.map ψ) =
      MeanField.predict C m (fitMeanFieldCA C m s d iters).1.condition t
  /-- The bound of the mean-field scheme. -/
  bound : ∀ (s : Posts ι κ) (d : List (ℝ × ℝ)) (c : Option String),
    MeanField.elbo C m' s (Spec.reclockData ψ d) c = MeanField.elbo C m s d c
  /-- The bound of the structured scheme. -/
  collapsed : ∀ (s : Posts ι κ) (d : List (ℝ × ℝ)) (us : List (ι → ℝ)),
    elboCollapsedZ C m' s (Spec.reclockData ψ d) us = elboCollapsedZ C m s d us

theorem sameOnClock (W : ℕ → (ι → ℝ) × (κ → ℝ)) : Spec.SameOnClock C m ψ W (Spec.reclock φ m) :=
  ⟨fun s ops t ws => by rw [Session.ops_reclock C m h, Session.predict_reclock C m h],
    fun s d iters t => by rw [fitMeanFieldCA_reclock C m h, meanField_predict_reclock C m h],
    fun s d => (bounds_reclock C m h s d).1, fun s d => (bounds_reclock C m h s d).2⟩

end

/-! ## The GPCM -/

variable (R : Runtime ℝ)

/-- `GpcmModel.IsInst` for any sizes. -/
structure GpcmModel.Returns (g : GpcmModel) {nu nz : ℕ} (m : Inst (Fin nu) (Fin nz)) : Prop where
  Ku : g.computeKu R = .ok (rows m.Ku)
  Kz : g.computeKz R = .ok (rows m.Kz)
  noise : m.noise = g.noise
  iHx : ∀ a b, g.ihx R a b = .ok (m.iHx a b)
  iUx : g.computeIux0 R = .ok (rows m.iUx)
  iHz : ∀ t : List ℝ, g.computeIhz R t = .ok (t.map fun a => rows (m.iHz a))
  iUz : ∀ t : List ℝ, g.computeIuz R t = .ok (t.map fun a => rows (m.iUz a))

theorem GpcmModel.isInst_iff_returns (g : GpcmModel) (m : Inst (Fin g.tU.length) (Fin g.tZ.length)) :
    g.IsInst R m ↔ g.Returns R m :=
  ⟨fun ⟨h1, h2, h3, h4, h5, h6, h7⟩ => ⟨h1, h2, h3, h4, h5, h6, h7⟩,
    fun ⟨h1, h2, h3, h4, h5, h6, h7⟩ => ⟨h1, h2, h3, h4, h5, h6, h7⟩⟩

/-- The arguments with times relative to an origin that is `c` earlier. -/
def GpcmArgs.shift (c : ℝ) (a : GpcmArgs) : GpcmArgs :=
  { a with t := a.t.map fun t => t.map (· + c), tZ := a.tZ.map fun t => t.map (· + c) }

/-- The model with times relative to an origin that is `c` earlier. -/
def GpcmModel.shift (c : ℝ) (g : GpcmModel) : GpcmModel := { g with tZ := g.tZ.map (· + c) }

theorem foldl_max_shift (c : ℝ) (l : List ℝ) (a : ℝ) : (l.map (· + c)).foldl max (a + c) = l.foldl max a + c := by
  induction l generalizing a with
  | nil => rfl
  | cons b l ih => rw [List.map_cons, List.foldl_cons, List.foldl_cons, max_add_add_right, ih]

theorem foldl_min_shift (c : ℝ) (l : List ℝ) (a : ℝ) : (l.map (· + c)).foldl min (a + c) = l.foldl min a + c := by
  induction l generalizing a with
  | nil => rfl
  | cons b l ih => rw [List.map_cons, List.foldl_cons, List.foldl_cons, min_add_add_right, ih]

theorem pyMax_shift (c : ℝ) (l : List ℝ) : pyMax (l.map (· + c)) = (pyMax l).map (· + c) := by
  cases l with
  | nil => rfl
  | cons a l => rw [List.map_cons, pyMax, foldl_max_shift]; rfl

theorem pyMin_shift (c : ℝ) (l : List ℝ) : pyMin (l.map (· + c)) = (pyMin l).map (· + c) := by
  cases l with
  | nil => rfl
  | cons a l => rw [List.map_cons, pyMin, foldl_min_shift]; rfl

theorem linspace_shift (c a b : ℝ) (n : ℤ) : linspace (a + c) (b + c) n = (linspace a b n).map fun l => l.map (· + c) := by
  unfold linspace
  split
  · rfl
  · simp only [Except.map, List.map_map]
    congr 1
    refine List.map_congr_left fun i _ => ?_
    simp only [Function.comp_apply, add_sub_add_right_eq_sub]
    ring

theorem need_map {α β : Type} (f : α → β) (x : Option α) : need (x.map f) = (need x).map f := by
  cases x <;> rfl

theorem bind1_map {α β γ : Type} (f : α → β) (x : Except PyErr α) (k : β → Except PyErr γ) :
    bind1 (x.map f) k = bind1 x fun a => k (f a) := by
  cases x <;> rfl

theorem map_bind1 {α β γ : Type} (f : β → γ) (x : Except PyErr α) (k : α → Except PyErr β) :
    (bind1 x k).map f = bind1 x fun a => (k a).map f := by
  cases x <;> rfl

theorem autoNZ_shift (c : ℝ) (a : GpcmArgs) : autoNZ (a.shift c) = autoNZ a := by
  unfold autoNZ GpcmArgs.shift
  simp only [need_map, bind1_map, pyMax_shift, pyMin_shift, add_sub_add_right_eq_sub]

theorem initTZ_shift (c : ℝ) (a : GpcmArgs) :
    initTZ (a.shift c) = (initTZ a).map fun z => (z.1, z.2.map (· + c)) := by
  unfold initTZ
  rw [autoNZ_shift]
  unfold GpcmArgs.shift
  cases a.tZ with
  | some tZ => simp [Except.map]
  | none =>
    simp only [Option.map_none, need_map, bind1_map, pyMax_shift, pyMin_shift, linspace_shift, map_bind1]
    rfl

theorem extendTZ_shift (c : ℝ) (a : GpcmArgs) (alpha : ℝ) (s : ℤ × List ℝ) :
    extendTZ (a.shift c) alpha (s.1, s.2.map (· + c)) =
      (extendTZ a alpha s).map fun z => (z.1, z.2.map (· + c)) := by
  unfold extendTZ GpcmArgs.shift
  by_cases h : a.extendTZ = false
  · simp only [h, if_true]
    rfl
  · rw [if_neg h, if_neg h]
    have e : ∀ x y : ℝ, x + c - y = x - y + c := fun x y => by ring
    have e' : ∀ x y : ℝ, x + c + y = x + y + c := fun x y => by ring
    simp only [need_map, bind1_map, pyMax_shift, pyMin_shift, add_sub_add_right_eq_sub, map_bind1]
    congr 1
    funext t
    congr 1
    funext hi
    congr 1
    funext lo
    simp only [e, e', linspace_shift, bind1_map]
    split
    · rfl
    · split
      · rfl
      · split <;> simp only [map_bind1] <;> rfl

/-- **C136** Constructing a GPCM from shifted times gives the model with the shifted inducing points of the noise. -/
theorem c136_gpcm_new (c : ℝ) (a : GpcmArgs) : GpcmModel.new (a.shift c) = (GpcmModel.new a).map (GpcmModel.shift c) := by
  have e1 : initAlpha (a.shift c) = initAlpha a := rfl
  have e2 : initGamma (a.shift c) = initGamma a := rfl
  have e3 : initTU (a.shift c) = initTU a := rfl
  have e4 : initAlphaT (a.shift c) = initAlphaT a := rfl
  have e5 : ∀ l : List ℝ, initOmega (a.shift c) (l.map (· + c)) = initOmega a l := fun l => by
    unfold initOmega GpcmArgs.shift
    cases a.omega with
    | some x => rfl
    | none =>
      match l with
      | [] => rfl
      | [_] => rfl
      | z0 :: z1 :: _ => simp only [List.map_cons, add_sub_add_right_eq_sub]
  unfold GpcmModel.new
  simp only [e1, e2, e3, e4, initTZ_shift, bind1_map, extendTZ_shift, map_bind1]
  congr 1
  funext alpha
  congr 1
  funext gamma
  congr 1
  funext u
  have e6 : (bind1 (initTZ a) fun s => (extendTZ a alpha s).map fun z => (z.1, z.2.map (· + c))) =
      (bind1 (initTZ a) (extendTZ a alpha)).map fun z => (z.1, z.2.map (· + c)) := (map_bind1 _ _ _).symm
  rw [e6, bind1_map]
  simp only [e5]
  rfl

section spec
variable (p : Spec.Params) (c : ℝ)

theorem Spec.ihx_shift (t1 t2 : ℝ) : Spec.ihx p (t1 + c) (t2 + c) = Spec.ihx p t1 t2 := by
  unfold Spec.ihx
  rw [← integral_add_right_eq_self _ c]
  simp only [add_sub_add_right_eq_sub]

theorem Spec.kXS_shift (x y : ℝ) : Spec.kXS p (x + c) (y + c) = Spec.kXS p x y := by
  simp only [Spec.kXS, add_sub_add_right_eq_sub]

theorem Spec.kz_shift (z1 z2 : ℝ) : Spec.kz p (z1 + c) (z2 + c) = Spec.kz p z1 z2 := by
  unfold Spec.kz
  rw [← integral_add_right_eq_self _ c]
  simp only [Spec.kXS_shift]

theorem Spec.ihz_shift (t z1 z2 : ℝ) : Spec.ihz p (t + c) (z1 + c) (z2 + c) = Spec.ihz p t z1 z2 := by
  unfold Spec.ihz
  rw [← integral_add_right_eq_self _ c]
  congr 1
  funext τ₁
  rw [← integral_add_right_eq_self _ c]
  simp only [Spec.kXS_shift, add_sub_add_right_eq_sub]

theorem Spec.iuz_shift (t u z : ℝ) : Spec.iuz p (t + c) u (z + c) = Spec.iuz p t u z := by
  unfold Spec.iuz
  rw [← integral_add_right_eq_self _ c]
  simp only [Spec.kXS_shift, add_sub_add_right_eq_sub]

end spec

/-- **C136** What the approximation works with is the same, apart from the origin. -/
theorem c136_gpcm_integrals (c : ℝ) (g : GpcmModel) (hm : g.Moderate) {nu nz : ℕ} {m : Inst (Fin nu) (Fin nz)}
    (h : g.Returns R m) : (g.shift c).Returns R (Spec.reclock (· - c) m) := by
  have hm' : (g.shift c).Moderate := ⟨hm.1, hm.2, hm.3, hm.4, hm.5, hm.6, hm.7, hm.8⟩
  have hp : (g.shift c).params = g.params := rfl
  refine ⟨?_, ?_, h.noise, fun a b => ?_, ?_, fun t => ?_, fun t => ?_⟩
  · rw [c65_K_u, hp]
    have := h.Ku
    rwa [c65_K_u] at this
  · rw [c65_K_z R _ hm', hp]
    have := h.Kz
    rw [c65_K_z R _ hm] at this
    show Except.ok ((g.tZ.map (· + c)).map fun a => (g.tZ.map (· + c)).map fun b => _) = Except.ok (rows m.Kz)
    simp only [List.map_map, Function.comp_def, Spec.kz_shift]
    exact this
  · rw [c65_i_hx R _ hm', hp]
    have := h.iHx (a - c) (b - c)
    rw [c65_i_hx R _ hm, ← Spec.ihx_shift g.params c, sub_add_cancel, sub_add_cancel] at this
    exact this
  · rw [c65_I_ux_default R _ hm', hp]
    have := h.iUx
    rwa [c65_I_ux_default R _ hm] at this
  · rw [c65_I_hz R _ hm', hp]
    have := h.iHz (t.map (· - c))
    rw [c65_I_hz R _ hm, List.map_map, List.map_map] at this
    show Except.ok (t.map fun a => (g.tZ.map (· + c)).map fun b => (g.tZ.map (· + c)).map fun d => _) =
      Except.ok (t.map fun a => rows (m.iHz (a - c)))
    rw [show (fun a => rows (m.iHz (a - c))) = (fun a => rows (m.iHz a)) ∘ (· - c) from rfl, ← Except.ok.inj this]
    congr 1
    refine List.map_congr_left fun a _ => ?_
    simp only [List.map_map, Function.comp_def]
    refine List.map_congr_left fun z1 _ => List.map_congr_left fun z2 _ => ?_
    rw [← Spec.ihz_shift g.params c (a - c), sub_add_cancel]
  · rw [c65_I_uz R _ hm', hp]
    have := h.iUz (t.map (· - c))
    rw [c65_I_uz R _ hm, List.map_map, List.map_map] at this
    show Except.ok (t.map fun a => g.tU.map fun b => (g.tZ.map (· + c)).map fun d => _) =
      Except.ok (t.map fun a => rows (m.iUz (a - c)))
    rw [show (fun a => rows (m.iUz (a - c))) = (fun a => rows (m.iUz a)) ∘ (· - c) from rfl, ← Except.ok.inj this]
    congr 1
    refine List.map_congr_left fun a _ => ?_
    simp only [List.map_map, Function.comp_def]
    refine List.map_congr_left fun z1 _ => List.map_congr_left fun z2 _ => ?_
    rw [← Spec.iuz_shift g.params c (a - c), sub_add_cancel]

theorem GpcmModel.Returns.unique {g : GpcmModel} {nu nz : ℕ} {m m' : Inst (Fin nu) (Fin nz)} (h : g.Returns R m)
    (h' : g.Returns R m') : m = m' := by
  have e1 := rows_injective (Except.ok.inj (h.Ku.symm.trans h'.Ku))
  have e2 := rows_injective (Except.ok.inj (h.Kz.symm.trans h'.Kz))
  have e3 := h.noise.trans h'.noise.symm
  have e4 : m.iHx = m'.iHx := by
    funext a b
    exact Except.ok.inj ((h.iHx a b).symm.trans (h'.iHx a b))
  have e5 := rows_injective (Except.ok.inj (h.iUx.symm.trans h'.iUx))
  have e6 : m.iHz = m'.iHz := funext fun a =>
    rows_injective (List.cons.inj (Except.ok.inj ((h.iHz [a]).symm.trans (h'.iHz [a])))).1
  have e7 : m.iUz = m'.iUz := funext fun a =>
    rows_injective (List.cons.inj (Except.ok.inj ((h.iUz [a]).symm.trans (h'.iUz [a])))).1
  obtain ⟨⟩ := m
  obtain ⟨⟩ := m'
  simp only at e1 e2 e3 e4 e5 e6 e7
  rw [e1, e2, e3, e4, e5, e6, e7]

/-- **C136** A GPCM or CGPCM gives the same bounds, fits and predictions if all times are shifted. -/
theorem c136_gpcm (c : ℝ) (g : GpcmModel) (hm : g.Moderate) {nu nz : ℕ} {m m' : Inst (Fin nu) (Fin nz)}
    (h : g.Returns R m) (h' : (g.shift c).Returns R m') (C : Chols (Fin nu) (Fin nz))
    (W : ℕ → (Fin nu → ℝ) × (Fin nz → ℝ)) : Spec.SameOnClock C m (· + c) W m' := by
  rw [h'.unique R (c136_gpcm_integrals R c g hm h)]
  exact sameOnClock C m (fun t => add_sub_cancel_right t c) W

/-- Every model with moderate parameters has such integrals, and so does the shifted one. -/
example (c : ℝ) (g : GpcmModel) (hm : g.Moderate) : ∃ m m' : Inst (Fin g.tU.length) (Fin g.tZ.length),
    g.Returns R m ∧ (g.shift c).Returns R m' :=
  ⟨g.specInst, _, (g.isInst_iff_returns R _).1 (g.specInst_isInst R hm),
    c136_gpcm_integrals R c g hm ((g.isInst_iff_returns R _).1 (g.specInst_isInst R hm))⟩

/-! ## The RGPCM -/

/-- `RgpcmModel.IsInst` for any sizes. -/
structure RgpcmModel.Returns (g : RgpcmModel) (perm : List ℕ) {nu nz : ℕ} (m : Inst (Fin nu) (Fin nz)) : Prop where
  Ku : rows m.Ku = g.tU.map fun x => g.tU.map fun y => g.kuEntry x y
  Kz : rows m.Kz = rows g.computeKz
  noise : m.noise = g.noise
  iHx : ∀ a b, m.iHx a b = g.ihx a b
  iUx : mapE (fun x => mapE (fun y => g.iuxEntry 0 0 x y) g.tU) g.tU = .ok (rows m.iUx)
  iHz : ∀ t, g.computeIhz perm t = .ok (rows (m.iHz t))
  iUz : ∀ t, g.computeIuz perm t = .ok (rows (m.iUz t))

/-- The arguments with times relative to an origin that is `c` earlier. -/
def RgpcmArgs.shift (c : ℝ) (x : RgpcmArgs) : RgpcmArgs :=
  { x with t := x.t.map fun t => t.map (· + c), a := x.a.map (· + c), b := x.b.map (· + c) }

/-- The model with times relative to an origin that is `c` earlier. -/
def RgpcmModel.shift (c : ℝ) (g : RgpcmModel) : RgpcmModel := { g with a := g.a + c, b := g.b + c }

theorem orElse_map {α : Type} (f : α → α) (x : Option α) (d : Except PyErr α) :
    orElse (x.map f) (d.map f) = (orElse x d).map f := by
  cases x <;> rfl

/-- **C136** Constructing an RGPCM from shifted times gives the model with the shifted interval. -/
theorem c136_rgpcm_new (c : ℝ) (x : RgpcmArgs) :
    RgpcmModel.new (x.shift c) = (RgpcmModel.new x).map (RgpcmModel.shift c) := by
  have e1 : Rgpcm.initTU (x.shift c) = Rgpcm.initTU x := rfl
  have e2 : ∀ l, Rgpcm.initA (x.shift c) l = (Rgpcm.initA x l).map (· + c) := fun l => by
    unfold Rgpcm.initA
    rw [← orElse_map]
    unfold RgpcmArgs.shift
    simp only [need_map, bind1_map, pyMin_shift, map_bind1]
    congr 1
    congr 1
    funext t
    congr 1
    funext lo
    congr 1
    funext u
    simp only [Except.map]
    congr 1
    ring
  have e3 : Rgpcm.initB (x.shift c) = (Rgpcm.initB x).map (· + c) := by
    unfold Rgpcm.initB
    rw [← orElse_map]
    unfold RgpcmArgs.shift
    simp only [need_map, bind1_map, pyMax_shift, map_bind1]
  have e4 : ∀ a b, Rgpcm.initMMax (x.shift c) (a + c) (b + c) = Rgpcm.initMMax x a b := fun a b => by
    unfold Rgpcm.initMMax RgpcmArgs.shift
    simp only [add_sub_add_right_eq_sub]
  have e5 : Rgpcm.initGamma (x.shift c) = Rgpcm.initGamma x := rfl
  unfold RgpcmModel.new
  simp only [e1, e2, e3, bind1_map, e4, e5, map_bind1]
  rfl

section
variable (c : ℝ) (g : RgpcmModel)

theorem RgpcmModel.hxCos_shift (n t : ℝ) : (g.shift c).hxCos n (t + c) = g.hxCos n t := by
  simp only [RgpcmModel.hxCos, RgpcmModel.shift, add_sub_add_right_eq_sub]

theorem RgpcmModel.hxSin_shift (n t : ℝ) : (g.shift c).hxSin n (t + c) = g.hxSin n t := by
  simp only [RgpcmModel.hxSin, RgpcmModel.shift, add_sub_add_right_eq_sub]

theorem RgpcmModel.computeIhz_shift (perm : List ℕ) (t : ℝ) :
    (g.shift c).computeIhz perm (t + c) = g.computeIhz perm t := by
  have e : ∀ ms, (g.shift c).ihzSorted ms (t + c) = g.ihzSorted ms t := fun ms => by
    unfold RgpcmModel.ihzSorted
    simp only [RgpcmModel.hxCos_shift, RgpcmModel.hxSin_shift]
    rfl
  simp only [RgpcmModel.computeIhz, e]
  rfl

theorem RgpcmModel.computeIuz_shift (perm : List ℕ) (t : ℝ) :
    (g.shift c).computeIuz perm (t + c) = g.computeIuz perm t := by
  have e0 : ∀ x : ℝ, t + c - x = t - x + c := fun x => by ring
  have e1 : ∀ l u, (g.shift c).integralLu0 (l + c) (u + c) = g.integralLu0 l u := fun l u => by
    simp only [RgpcmModel.integralLu0, RgpcmModel.shift, add_sub_add_right_eq_sub]
  have e2 : ∀ l u k, (g.shift c).integralLukLeqM (l + c) (u + c) k = g.integralLukLeqM l u k := fun l u k => by
    simp only [RgpcmModel.integralLukLeqM, RgpcmModel.shift, add_sub_add_right_eq_sub]
  have e3 : ∀ l u k, (g.shift c).integralLukGM (l + c) (u + c) k = g.integralLukGM l u k := fun l u k => by
    simp only [RgpcmModel.integralLukGM, RgpcmModel.shift, add_sub_add_right_eq_sub]
  unfold RgpcmModel.computeIuz
  simp only [e0, e1, e2, e3]
  rfl

theorem RgpcmModel.computeKz_shift : (g.shift c).computeKz = g.computeKz := by
  have e : ∀ k, (g.shift c).kzAlpha k = g.kzAlpha k := fun k => by
    simp only [RgpcmModel.kzAlpha, RgpcmModel.kzOmega, RgpcmModel.shift, add_sub_add_right_eq_sub]
    rfl
  have e' : ∀ k, (g.shift c).kzBeta k = g.kzBeta k := fun k => rfl
  unfold RgpcmModel.computeKz
  simp only [e, e']
  rfl

end

/-- **C136** What the approximation works with is the same, apart from the origin. -/
theorem c136_rgpcm_integrals (c : ℝ) (g : RgpcmModel) {perm : List ℕ} {nu nz : ℕ} {m : Inst (Fin nu) (Fin nz)}
    (h : g.Returns perm m) : (g.shift c).Returns perm (Spec.reclock (· - c) m) := by
  refine ⟨h.Ku, ?_, h.noise, fun a b => ?_, h.iUx, fun t => ?_, fun t => ?_⟩
  · rw [RgpcmModel.computeKz_shift]
    exact h.Kz
  · show m.iHx (a - c) (b - c) = _
    rw [h.iHx]
    simp only [RgpcmModel.ihx, RgpcmModel.shift, sub_sub_sub_cancel_right]
  · have := g.computeIhz_shift c perm (t - c)
    rw [sub_add_cancel] at this
    rw [this]
    exact h.iHz _
  · have := g.computeIuz_shift c perm (t - c)
    rw [sub_add_cancel] at this
    rw [this]
    exact h.iUz _

theorem RgpcmModel.Returns.unique {g : RgpcmModel} {perm : List ℕ} {nu nz : ℕ} {m m' : Inst (Fin nu) (Fin nz)}
    (h : g.Returns perm m) (h' : g.Returns perm m') : m = m' := by
  have e1 := rows_injective (h.Ku.trans h'.Ku.symm)
  have e2 := rows_injective (h.Kz.trans h'.Kz.symm)
  have e3 := h.noise.trans h'.noise.symm
  have e4 : m.iHx = m'.iHx := by
    funext a b
    exact (h.iHx a b).trans (h'.iHx a b).symm
  have e5 := rows_injective (Except.ok.inj (h.iUx.symm.trans h'.iUx))
  have e6 : m.iHz = m'.iHz := funext fun a => rows_injective (Except.ok.inj ((h.iHz a).symm.trans (h'.iHz a)))
  have e7 : m.iUz = m'.iUz := funext fun a => rows_injective (Except.ok.inj ((h.iUz a).symm.trans (h'.iUz a)))
  obtain ⟨⟩ := m
  obtain ⟨⟩ := m'
  simp only at e1 e2 e3 e4 e5 e6 e7
  rw [e1, e2, e3, e4, e5, e6, e7]

/-- **C136** An RGPCM gives the same bounds, fits and predictions if all times are shifted. -/
theorem c136_rgpcm (c : ℝ) (g : RgpcmModel) {perm : List ℕ} {nu nz : ℕ} {m m' : Inst (Fin nu) (Fin nz)}
    (h : g.Returns perm m) (h' : (g.shift c).Returns perm m') (C : Chols (Fin nu) (Fin nz))
    (W : ℕ → (Fin nu → ℝ) × (Fin nz → ℝ)) : Spec.SameOnClock C m (· + c) W m' := by
  rw [h'.unique (c136_rgpcm_integrals c g h)]
  exact sameOnClock C m (fun t => add_sub_cancel_right t c) W

/-- The integrals of the RGPCM where they are defined. -/
noncomputable def RgpcmModel.listInst (g : RgpcmModel) : Inst (Fin g.tU.length) (Fin g.ms.length) where
  Ku := .of fun i j => g.kuEntry (g.tU.get i) (g.tU.get j)
  Kz := g.computeKz
  noise := g.noise
  iHx := g.ihx
  iUx := .of fun i j => g.alphaT ^ 2 * g.gammaT ^ 2 *
    exp (-g.gamma * (g.tU.get i + g.tU.get j) + (g.gamma - g.alpha) * (0 + 0)) *
    RgpcmModel.integralAbcdLu (-0) (g.tU.get j - 0) (-0) (g.tU.get i - 0) (g.gamma - g.alpha) g.lam
  iHz := fun t => .of fun i j => Rgpcm.hzEntry g (g.ms.get i) (g.ms.get j) t
  iUz := fun t => .of fun i j => g.alphaT * g.gammaT * exp (-g.gamma * g.tU.get i) *
    Rgpcm.uzEntry g (g.tU.get i) (g.ms.get j) t

theorem RgpcmModel.listInst_returns (g : RgpcmModel) (hM : 0 ≤ g.mMax) {perm : List ℕ} (hp : IsArgsort perm g.ms)
    (h1 : g.gamma ≠ g.alpha) (h2 : (g.gamma - g.alpha) ^ 2 ≠ g.lam ^ 2) : g.Returns perm g.listInst := by
  have e : ∀ x y, g.iuxEntry 0 0 x y = .ok (g.alphaT ^ 2 * g.gammaT ^ 2 *
      exp (-g.gamma * (x + y) + (g.gamma - g.alpha) * (0 + 0)) *
      RgpcmModel.integralAbcdLu (-0) (y - 0) (-0) (x - 0) (g.gamma - g.alpha) g.lam) := fun x y => by
    unfold RgpcmModel.iuxEntry
    rw [if_neg]
    rintro (h | h)
    · exact h1 (sub_eq_zero.1 h)
    · exact h2 (sub_eq_zero.1 h)
  unfold RgpcmModel.listInst
  refine ⟨?_, rfl, rfl, fun a b => rfl, ?_, fun t => ?_, fun t => ?_⟩
  · rw [map_rows]
  · rw [mapE_eq_map fun x _ => mapE_eq_map fun y _ => e x y, map_rows]
  · rw [Rgpcm.computeIhz_eq g hp hM, map_rows]
  · rw [Rgpcm.computeIuz_eq g hp hM, map_rows]

/-- Every RGPCM has such integrals unless they are undefined. -/
theorem RgpcmModel.exists_returns (g : RgpcmModel) (hM : 0 ≤ g.mMax) {perm : List ℕ} (hp : IsArgsort perm g.ms)
    (h1 : g.gamma ≠ g.alpha) (h2 : (g.gamma - g.alpha) ^ 2 ≠ g.lam ^ 2) :
    ∃ m : Inst (Fin g.tU.length) (Fin g.ms.length), g.Returns perm m :=
  ⟨_, g.listInst_returns hM hp h1 h2⟩

end Gpcm
