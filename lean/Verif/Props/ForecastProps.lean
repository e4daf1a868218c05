import Verif.Model.Forecast
import Verif.Props.PaperProps
import Mathlib.Probability.Moments.Variance

/-! # Property C211: comparisons of forecasts do not depend on the unit of the prices -/

open Real MeasureTheory ProbabilityTheory

namespace Gpcm.Paper

/-! ## Specification -/

/-- A data set in another unit and with another origin. -/
def Spec.convert {τ : Type} (a b : ℝ) (d : List (τ × ℝ)) : List (τ × ℝ) := d.map fun r => (r.1, a * r.2 + b)

/-- Test sets in another unit and with another origin. -/
def Spec.convertTests {τ : Type} (a b : ℝ) (l : List (List (τ × ℝ) × List (τ × ℝ))) : List (List (τ × ℝ) × List (τ × ℝ)) :=
  l.map fun p => (Spec.convert a b p.1, Spec.convert a b p.2)

/-- Saved predictions in another unit and with another origin: observations, means and variances. -/
def Spec.convertPreds (a b : ℝ) (l : List (List (ℝ × ℝ × ℝ))) : List (List (ℝ × ℝ × ℝ)) :=
  l.map fun p => p.map fun q => (a * q.1 + b, a * q.2.1 + b, a ^ 2 * q.2.2)

/-! ## Proofs -/

theorem snd_convert {τ : Type} (a b : ℝ) (d : List (τ × ℝ)) :
    (Spec.convert a b d).map Prod.snd = (d.map Prod.snd).map fun x => a * x + b := by
  simp [Spec.convert, Function.comp_def]

theorem fst_convert {τ : Type} (a b : ℝ) (d : List (τ × ℝ)) : (Spec.convert a b d).map Prod.fst = d.map Prod.fst := by
  simp [Spec.convert, Function.comp_def]

theorem std_map_affine {a : ℝ} (ha : 0 < a) (b : ℝ) {s : List ℝ} (hs : s ≠ []) : std (s.map fun x => a * x + b) = a * std s := by
  rw [← abs_of_pos ha, ← std_map_mul, abs_of_pos ha]
  unfold std
  rw [mean_map_affine hs, mean_map_mul, List.map_map, List.map_map]
  congr 3
  funext x
  simp only [Function.comp_apply]
  ring

theorem fit_affine {a : ℝ} (ha : 0 < a) (b : ℝ) {s : List ℝ} (hs : s ≠ []) :
    Normaliser.fit (s.map fun x => a * x + b) = ⟨a * (Normaliser.fit s).loc + b, a * (Normaliser.fit s).scale⟩ := by
  unfold Normaliser.fit
  rw [mean_map_affine hs, std_map_affine ha b hs]

theorem data_convert {τ : Type} {a : ℝ} (ha : 0 < a) (b : ℝ) (n : Normaliser) (d : List (τ × ℝ)) :
    (⟨a * n.loc + b, a * n.scale⟩ : Normaliser).data (Spec.convert a b d) = n.data d := by
  unfold Normaliser.data Normaliser.transform
  rw [fst_convert, snd_convert, List.map_map]
  congr 1
  refine List.map_congr_left fun x _ => ?_
  simp only [Function.comp_apply]
  rw [show a * x + b - (a * n.loc + b) = a * (x - n.loc) by ring, mul_div_mul_left _ _ ha.ne']

theorem forecast_convert {τ : Type} (M : Predictor τ) {a : ℝ} (ha : 0 < a) (b : ℝ) (n : Normaliser) (train : List (τ × ℝ))
    (test : List (τ × ℝ) × List (τ × ℝ)) :
    forecast M ⟨a * n.loc + b, a * n.scale⟩ (Spec.convert a b train) (Spec.convert a b test.1, Spec.convert a b test.2) =
      bind1 (forecast M n train test) fun p => .ok (p.map fun q => (a * q.1 + b, a * q.2.1 + b, a ^ 2 * q.2.2)) := by
  unfold forecast
  rw [data_convert ha, data_convert ha, fst_convert, snd_convert]
  cases M (n.data train) (n.data test.1) (test.2.map Prod.fst) with
  | error e => rfl
  | ok p =>
    show Except.ok _ = Except.ok _
    congr 1
    simp only [List.zip, List.zipWith_map_left, List.zipWith_map_right, List.map_zipWith]
    congr 1
    funext x q
    simp only [Normaliser.untransform, Prod.mk.injEq, true_and]
    constructor <;> ring

theorem mapE_map_ok {α β γ δ : Type} (f : α → Except PyErr β) (g : γ → Except PyErr δ) (h : α → γ) (k : β → δ)
    (hk : ∀ a, g (h a) = bind1 (f a) fun b => .ok (k b)) (l : List α) :
    mapE g (l.map h) = bind1 (mapE f l) fun b => .ok (b.map k) := by
  induction l with
  | nil => rfl
  | cons a l ih =>
    rw [List.map_cons]
    unfold mapE
    rw [hk, ih]
    cases f a with
    | error e => rfl
    | ok b =>
      cases mapE f l with
      | error e => rfl
      | ok bs => rfl

/-- **C211** Whatever the model, forecasts of data in another unit and with another origin are the forecasts of the data, converted. -/
theorem c211_forecasts {τ : Type} (M : Predictor τ) {a : ℝ} (ha : 0 < a) (b : ℝ) {train : List (τ × ℝ)} (hn : train ≠ [])
    (tests : List (List (τ × ℝ) × List (τ × ℝ))) :
    forecasts M (Spec.convert a b train) (Spec.convertTests a b tests) =
      bind1 (forecasts M train tests) fun p => .ok (Spec.convertPreds a b p) := by
  unfold forecasts
  rw [snd_convert, fit_affine ha b (by simpa using hn)]
  have e : (a * (Normaliser.fit (train.map Prod.snd)).scale = 0) ↔ (Normaliser.fit (train.map Prod.snd)).scale = 0 := by
    simp [ha.ne']
  simp only [e]
  split_ifs with h
  · rfl
  · exact mapE_map_ok _ _ _ _ (fun test => forecast_convert M ha b _ train test) tests

theorem rmse_convert {a : ℝ} (ha : 0 < a) (b : ℝ) (p : List (ℝ × ℝ × ℝ)) :
    rmse (p.map fun q => (a * q.1 + b, a * q.2.1 + b, a ^ 2 * q.2.2)) = (rmse p).map (a * ·) := by
  unfold rmse
  by_cases h : p = []
  · simp [h]
  · rw [if_neg h, if_neg (by simpa using h), Option.map_some, List.map_map]
    have e : ((fun q : ℝ × ℝ × ℝ => (q.2.1 - q.1) ^ 2) ∘ fun q : ℝ × ℝ × ℝ => (a * q.1 + b, a * q.2.1 + b, a ^ 2 * q.2.2)) =
        (fun x => a ^ 2 * x) ∘ fun q : ℝ × ℝ × ℝ => (q.2.1 - q.1) ^ 2 := by
      funext q
      simp only [Function.comp_apply]
      ring
    rw [e, ← List.map_map, mean_map_mul, sqrt_mul (sq_nonneg a), sqrt_sq ha.le]

theorem mll_convert {a : ℝ} (ha : 0 < a) (b : ℝ) (p : List (ℝ × ℝ × ℝ)) :
    mll (p.map fun q => (a * q.1 + b, a * q.2.1 + b, a ^ 2 * q.2.2)) = (mll p).map (· - log a) := by
  classical
  unfold mll
  have h2 : 0 < a ^ 2 := by positivity
  have hiff : (p.map (fun q : ℝ × ℝ × ℝ => (a * q.1 + b, a * q.2.1 + b, a ^ 2 * q.2.2)) = [] ∨
      ∃ q ∈ p.map fun q : ℝ × ℝ × ℝ => (a * q.1 + b, a * q.2.1 + b, a ^ 2 * q.2.2), q.2.2 ≤ 0) ↔
      (p = [] ∨ ∃ q ∈ p, q.2.2 ≤ 0) := by
    simp only [List.map_eq_nil_iff, List.mem_map, exists_exists_and_eq_and]
    have : ∀ x : ℝ, a ^ 2 * x ≤ 0 ↔ x ≤ 0 := fun x => by
      rw [mul_nonpos_iff_pos_imp_nonpos]
      simp [h2, h2.le]
    simp only [this]
  by_cases h : p = [] ∨ ∃ q ∈ p, q.2.2 ≤ 0
  · rw [if_pos h, if_pos (hiff.2 h)]
    rfl
  · rw [if_neg h, if_neg fun h' => h (hiff.1 h'), Option.map_some]
    push Not at h
    congr 1
    have hp : (p.map fun q : ℝ × ℝ × ℝ => -(log (2 * π * q.2.2) + (q.1 - q.2.1) ^ 2 / q.2.2) / 2) ≠ [] := by simpa using h.1
    have := mean_map_affine (c := 1) (d := -log a) hp
    rw [one_mul] at this
    rw [sub_eq_add_neg, ← this, List.map_map, List.map_map]
    congr 1
    refine List.map_congr_left fun q hq => ?_
    have hv := h.2 q hq
    simp only [Function.comp_apply]
    rw [show 2 * π * (a ^ 2 * q.2.2) = a ^ 2 * (2 * π * q.2.2) by ring, log_mul h2.ne' (by positivity), log_pow,
      show a * q.1 + b - (a * q.2.1 + b) = a * (q.1 - q.2.1) by ring, mul_pow, mul_div_mul_left _ _ h2.ne']
    push_cast
    ring

/-- **C211** Converted predictions have the root-mean-square errors times the unit, and the log-likelihoods minus its logarithm. -/
theorem c211_metrics {a : ℝ} (ha : 0 < a) (b : ℝ) (preds : List (List (ℝ × ℝ × ℝ))) :
    computeMetrics (Spec.convertPreds a b preds) =
      ((computeMetrics preds).1.map (Option.map (· - log a)), (computeMetrics preds).2.map (Option.map (a * ·))) := by
  unfold computeMetrics Spec.convertPreds
  simp only [List.map_map, Prod.mk.injEq]
  exact ⟨List.map_congr_left fun p _ => mll_convert ha b p, List.map_congr_left fun p _ => rmse_convert ha b p⟩

theorem mapM_map (f : ℝ → ℝ) (l : List (Option ℝ)) : (l.map (Option.map f)).mapM id = (l.mapM id).map (List.map f) := by
  induction l with
  | nil => rfl
  | cons x l ih =>
    rw [List.map_cons, List.mapM_cons, List.mapM_cons, ih]
    cases x with
    | none => rfl
    | some x =>
      cases l.mapM id with
      | none => rfl
      | some l => rfl

theorem zipWith_sub_shift (c : ℝ) (v1 v2 : List ℝ) :
    List.zipWith (fun x y => x - y) (v1.map (· - c)) (v2.map (· - c)) = List.zipWith (fun x y => x - y) v1 v2 := by
  rw [List.zipWith_map]
  congr 1
  funext x y
  ring

theorem zipWith_sub_mul (c : ℝ) (v1 v2 : List ℝ) :
    List.zipWith (fun x y => x - y) (v1.map (c * ·)) (v2.map (c * ·)) = (List.zipWith (fun x y => x - y) v1 v2).map (c * ·) := by
  rw [List.zipWith_map, List.map_zipWith]
  congr 1
  funext x y
  ring

theorem compareModels_mul {a : ℝ} (ha : 0 < a) (v1 v2 : List ℝ) : compareModels (v1.map (a * ·)) (v2.map (a * ·)) =
    (a * (compareModels v1 v2).1, a * (compareModels v1 v2).2.1, (compareModels v1 v2).2.2) := by
  unfold compareModels
  dsimp only
  rw [zipWith_sub_mul, mean_map_mul, std_map_mul, abs_of_pos ha, List.length_map]
  simp only [mul_div_assoc, mul_eq_zero, ha.ne', false_or, Prod.mk.injEq, true_and]
  split_ifs with h
  · rfl
  · rw [abs_mul, abs_of_pos ha, neg_mul_eq_mul_neg, mul_div_mul_left _ _ ha.ne']

/-- **C211** The comparison of two models by log-likelihood is the same in every unit, and the one by root-mean-square error has the same
p-value. -/
theorem c211_compare {a : ℝ} (ha : 0 < a) (b : ℝ) (preds1 preds2 : List (List (ℝ × ℝ × ℝ))) :
    compareForecasts (Spec.convertPreds a b preds1) (Spec.convertPreds a b preds2) =
      ((compareForecasts preds1 preds2).1,
        (compareForecasts preds1 preds2).2.map fun r => (a * r.1, a * r.2.1, r.2.2)) := by
  unfold compareForecasts
  rw [c211_metrics ha, c211_metrics ha]
  unfold compareMetric
  simp only [mapM_map, Prod.mk.injEq]
  constructor
  · cases (computeMetrics preds1).1.mapM id <;> cases (computeMetrics preds2).1.mapM id <;> try rfl
    simp only [Option.map_some, compareModels, zipWith_sub_shift]
  · cases (computeMetrics preds1).2.mapM id <;> cases (computeMetrics preds2).2.mapM id <;> try rfl
    simp only [Option.map_some, Option.some.injEq]
    exact compareModels_mul ha _ _

/-! ## The volatility index -/

theorem getData_mul {c : ℝ} (hc : 0 < c) (ref : ℤ) {data : List (ℤ × ℝ)} (hp : ∀ r ∈ data, 0 < r.2) (lo hi : ℤ) :
    getData ref (data.map fun r => (r.1, c * r.2)) lo hi =
      (getData ref data lo hi).map fun r => (r.1, r.2 + log c) := by
  unfold getData
  rw [List.filter_map, List.map_map, List.map_map]
  refine List.map_congr_left fun r hr => ?_
  have h0 := hp r (List.mem_of_mem_filter hr)
  simp only [Function.comp_apply]
  rw [log_mul hc.ne' h0.ne', add_comm]

theorem vixTrain_mul {c : ℝ} (hc : 0 < c) (ref : ℤ) {data : List (ℤ × ℝ)} (hp : ∀ r ∈ data, 0 < r.2) (m1 m2 : ℤ) :
    vixTrain ref (data.map fun r => (r.1, c * r.2)) m1 m2 =
      bind1 (vixTrain ref data m1 m2) fun d => .ok (Spec.convert 1 (log c) d) := by
  unfold vixTrain
  rw [getData_mul hc ref hp]
  dsimp only
  cases h : getData ref data m1 m2 with
  | nil => rfl
  | cons r l =>
    simp only [List.map_cons]
    show Except.ok _ = Except.ok _
    simp [Spec.convert, Function.comp_def]

theorem vixTests_mul {c : ℝ} (hc : 0 < c) (ref : ℤ) {data : List (ℤ × ℝ)} (hp : ∀ r ∈ data, 0 < r.2) (m : ℤ) :
    vixTests ref (data.map fun r => (r.1, c * r.2)) m =
      bind1 (vixTests ref data m) fun d => .ok (Spec.convertTests 1 (log c) d) := by
  unfold vixTests
  have := mapE_map_ok (vixTest ref data m) (vixTest ref (data.map fun r => (r.1, c * r.2)) m) id
    (fun p => (Spec.convert 1 (log c) p.1, Spec.convert 1 (log c) p.2)) (fun i => ?_) (List.range 100)
  · rwa [List.map_id] at this
  · unfold vixTest
    rw [id, getData_mul hc ref hp, getData_mul hc ref hp]
    dsimp only
    cases h : getData ref data (m + i * Experiments.weekLen) (m + (i + 4 : ℕ) * Experiments.weekLen) with
    | nil => rfl
    | cons r l =>
      simp only [List.map_cons]
      show Except.ok _ = Except.ok _
      simp [Spec.convert, Function.comp_def]

theorem vixTrain_ne {ref : ℤ} {data : List (ℤ × ℝ)} {m1 m2 : ℤ} {d : List (ℤ × ℝ)} (h : vixTrain ref data m1 m2 = .ok d) : d ≠ [] := by
  unfold vixTrain at h
  dsimp only at h
  split at h
  · cases h
  · rename_i r l e
    cases h
    rw [e]
    simp

/-- **C211** The unit of the index does not matter at all: with all prices multiplied by a constant, forecasts of the logarithms move by its
logarithm, and all metrics and comparisons stay the same. -/
theorem c211_vix (M : Predictor ℤ) {c : ℝ} (hc : 0 < c) (ref : ℤ) {data : List (ℤ × ℝ)} (hp : ∀ r ∈ data, 0 < r.2) (m1 m2 : ℤ) :
    vixForecast M ref (data.map fun r => (r.1, c * r.2)) m1 m2 =
      bind1 (vixForecast M ref data m1 m2) fun p => .ok (Spec.convertPreds 1 (log c) p) := by
  unfold vixForecast
  rw [vixTrain_mul hc ref hp, vixTests_mul hc ref hp]
  cases h1 : vixTrain ref data m1 m2 with
  | error e => rfl
  | ok train =>
    cases h2 : vixTests ref data m2 with
    | error e => rfl
    | ok tests => exact c211_forecasts M one_pos (log c) (vixTrain_ne h1) tests

/-- **C211** Metrics and comparisons for forecasts that all move by a constant together with the data. -/
theorem c211_vix_metrics (c : ℝ) (preds preds' : List (List (ℝ × ℝ × ℝ))) :
    computeMetrics (Spec.convertPreds 1 c preds) = computeMetrics preds ∧
    compareForecasts (Spec.convertPreds 1 c preds) (Spec.convertPreds 1 c preds') = compareForecasts preds preds' := by
  have e : ∀ l, computeMetrics (Spec.convertPreds 1 c l) = computeMetrics l := fun l => by
    rw [c211_metrics one_pos]
    simp
  refine ⟨e preds, ?_⟩
  unfold compareForecasts
  rw [e, e]

/-! ## Outcomes -/

theorem map_snd_zip_length {α β : Type} {x y : List α} {q : List β} (h : x.length = y.length) :
    (x.zip q).map Prod.snd = (y.zip q).map Prod.snd := by
  induction x generalizing y q with
  | nil =>
    rw [List.length_eq_zero_iff.1 h.symm]
  | cons a x ih =>
    cases y with
    | nil => cases h
    | cons b y =>
      cases q with
      | nil => rfl
      | cons c q =>
        simp only [List.zip_cons_cons, List.map_cons]
        rw [ih (by simpa using h)]

theorem mapE_rel {α β γ δ ε : Type} (f : α → Except PyErr β) (g : γ → Except PyErr δ) (h : α → γ) (k : β → ε) (k' : δ → ε)
    (hk : ∀ a, (bind1 (g (h a)) fun b => Except.ok (k' b)) = bind1 (f a) fun b => .ok (k b)) (l : List α) :
    (bind1 (mapE g (l.map h)) fun b => Except.ok (b.map k')) = bind1 (mapE f l) fun b => .ok (b.map k) := by
  induction l with
  | nil => rfl
  | cons a l ih =>
    rw [List.map_cons]
    unfold mapE
    have ha := hk a
    cases e1 : f a <;> cases e2 : g (h a) <;> rw [e1, e2] at ha <;> try (cases ha)
    · rfl
    · rename_i b d
      have hb : k' d = k b := by simpa [bind1] using ha
      cases e3 : mapE f l <;> cases e4 : mapE g (l.map h) <;> rw [e3, e4] at ih <;> try (cases ih)
      · rfl
      · rename_i bs ds
        have hl : ds.map k' = bs.map k := by simpa [bind1] using ih
        show Except.ok _ = Except.ok _
        rw [List.map_cons, List.map_cons, hb, hl]

/-- **C211** What happens in the weeks that are predicted has no influence on the predictions: changing the observations of the test data
changes no mean and no variance. -/
theorem c211_blind {τ : Type} (M : Predictor τ) (train : List (τ × ℝ)) (tests : List (List (τ × ℝ) × List (τ × ℝ))) (f : τ × ℝ → ℝ) :
    bind1 (forecasts M train (tests.map fun p => (p.1, p.2.map fun r => (r.1, f r)))) (fun l => Except.ok (l.map fun p => p.map Prod.snd)) =
      bind1 (forecasts M train tests) fun l => .ok (l.map fun p => p.map Prod.snd) := by
  unfold forecasts
  dsimp only
  split_ifs with h
  · rfl
  · refine mapE_rel _ _ _ _ _ (fun p => ?_) tests
    unfold forecast
    have e1 : (p.2.map fun r => (r.1, f r)).map Prod.fst = p.2.map Prod.fst := by simp [Function.comp_def]
    have e2 : ((p.2.map fun r => (r.1, f r)).map Prod.snd).length = (p.2.map Prod.snd).length := by simp
    rw [e1]
    cases M _ _ _ with
    | error e => rfl
    | ok q =>
      show Except.ok _ = Except.ok _
      rw [map_snd_zip_length e2]

/-! ## What the scores reward -/

/-- The logarithm of the normal density, which `mll` averages. -/
noncomputable def Spec.logScore (m v y : ℝ) : ℝ := log (gaussianPDFReal m v.toNNReal y)

theorem mll_single {m v : ℝ} (hv : 0 < v) (y : ℝ) : mll [(y, m, v)] = some (Spec.logScore m v y) := by
  unfold mll
  rw [if_neg (by simpa using hv)]
  have h0 : 0 < 2 * π * v := by positivity
  simp only [List.map_cons, List.map_nil, Util.mean, List.sum_cons, List.sum_nil, List.length_singleton, Nat.cast_one, div_one, add_zero,
    Spec.logScore, gaussianPDFReal, coe_toNNReal v hv.le, Option.some.injEq]
  rw [log_mul (by positivity) (exp_pos _).ne', log_inv, log_sqrt h0.le, log_exp]
  field_simp
  ring

/-- `mll` is the mean of the logarithms of the predicted densities of the observations. -/
theorem mll_mean {p : List (ℝ × ℝ × ℝ)} (h : p ≠ []) (hv : ∀ q ∈ p, 0 < q.2.2) :
    mll p = some (Util.mean (p.map fun q => Spec.logScore q.2.1 q.2.2 q.1)) := by
  unfold mll
  rw [if_neg (by push Not; exact ⟨h, hv⟩)]
  congr 2
  refine List.map_congr_left fun q hq => ?_
  have := mll_single (m := q.2.1) (hv q hq) q.1
  unfold mll at this
  rw [if_neg (by simpa using hv q hq)] at this
  simpa [Util.mean] using this

theorem mapM_some {α : Type} (l : List α) : (l.map some).mapM id = some l := by
  induction l with
  | nil => rfl
  | cons a l ih => simp [List.mapM_cons, ih]

/-- **C211** The metrics of a test set are the mean logarithm of the predicted densities of the observations and the root of the mean squared error of
the predicted means, and `compare` compares the former with the former and the latter with the latter, in the order of the models. -/
theorem c211_scores {preds preds' : List (List (ℝ × ℝ × ℝ))} (h : ∀ p ∈ preds, p ≠ [] ∧ ∀ q ∈ p, 0 < q.2.2)
    (h' : ∀ p ∈ preds', p ≠ [] ∧ ∀ q ∈ p, 0 < q.2.2) :
    let lls := fun ps : List (List (ℝ × ℝ × ℝ)) => ps.map fun p => Util.mean (p.map fun q => Spec.logScore q.2.1 q.2.2 q.1)
    let errs := fun ps : List (List (ℝ × ℝ × ℝ)) => ps.map fun p => √(Util.mean (p.map fun q => (q.1 - q.2.1) ^ 2))
    computeMetrics preds = ((lls preds).map some, (errs preds).map some) ∧
    compareForecasts preds preds' = (some (compareModels (lls preds) (lls preds')), some (compareModels (errs preds) (errs preds'))) := by
  intro lls errs
  have key : ∀ ps : List (List (ℝ × ℝ × ℝ)), (∀ p ∈ ps, p ≠ [] ∧ ∀ q ∈ p, 0 < q.2.2) →
      computeMetrics ps = ((lls ps).map some, (errs ps).map some) := fun ps hps => by
    simp only [computeMetrics, lls, errs, List.map_map, Prod.mk.injEq]
    refine ⟨List.map_congr_left fun p hp => mll_mean (hps p hp).1 (hps p hp).2, List.map_congr_left fun p hp => ?_⟩
    have e : ∀ q : ℝ × ℝ × ℝ, (q.2.1 - q.1) ^ 2 = (q.1 - q.2.1) ^ 2 := fun q => by ring
    unfold rmse
    rw [if_neg (hps p hp).1]
    simp only [e, Function.comp]
  refine ⟨key preds h, ?_⟩
  unfold compareForecasts compareMetric
  rw [key preds h, key preds' h']
  simp only [mapM_some]

variable {P : Measure ℝ} [IsProbabilityMeasure P]

theorem integral_sq_sub (h : MemLp (fun y : ℝ => y) 2 P) (m : ℝ) :
    ∫ y, (y - m) ^ 2 ∂P = Var[fun y => y; P] + (∫ y, y ∂P - m) ^ 2 := by
  have h1 : Integrable (fun y : ℝ => y) P := h.integrable one_le_two
  have h2 : Integrable (fun y : ℝ => y ^ 2) P := h.integrable_sq
  rw [variance_eq_sub h]
  have e : ∀ y : ℝ, (y - m) ^ 2 = y ^ 2 - (2 * m * y - m ^ 2) := fun y => by ring
  simp only [e]
  have h3 : Integrable (fun y : ℝ => 2 * m * y) P := h1.const_mul _
  have h4 : Integrable (fun y : ℝ => 2 * m * y - m ^ 2) P := h3.sub (integrable_const _)
  rw [integral_sub h2 h4, integral_sub h3 (integrable_const _), integral_const_mul, integral_const]
  simp only [Pi.pow_apply, probReal_univ, one_smul]
  ring

theorem integral_logScore (h : MemLp (fun y : ℝ => y) 2 P) (m : ℝ) {v : ℝ} (hv : 0 < v) :
    ∫ y, Spec.logScore m v y ∂P = -(log (2 * π * v) + (Var[fun y => y; P] + (∫ y, y ∂P - m) ^ 2) / v) / 2 := by
  have e : ∀ y, Spec.logScore m v y = -(log (2 * π * v) / 2) - (y - m) ^ 2 * (1 / (2 * v)) := fun y => by
    have h0 : 0 < 2 * π * v := by positivity
    unfold Spec.logScore gaussianPDFReal
    rw [coe_toNNReal v hv.le, log_mul (by positivity) (exp_pos _).ne', log_inv, log_sqrt h0.le, log_exp]
    ring
  have h2 : Integrable (fun y : ℝ => (y - m) ^ 2) P := (h.sub (memLp_const m)).integrable_sq
  simp only [e]
  rw [integral_sub (integrable_const _) (h2.mul_const _), integral_mul_const, integral_sq_sub h, integral_const]
  simp
  field_simp
  ring

/-- **C211** The metrics reward being right: whatever the distribution of an outcome with finite variance, no forecast has a larger expected
log-likelihood than its mean and its variance, and every other one has a smaller one. The same for the squared error and the mean. -/
theorem c211_proper (h : MemLp (fun y : ℝ => y) 2 P) (h0 : 0 < Var[fun y => y; P]) (m : ℝ) {v : ℝ} (hv : 0 < v) :
    (∫ y, Spec.logScore m v y ∂P ≤ ∫ y, Spec.logScore (∫ y, y ∂P) Var[fun y => y; P] y ∂P ∧
      (∫ y, Spec.logScore m v y ∂P = ∫ y, Spec.logScore (∫ y, y ∂P) Var[fun y => y; P] y ∂P ↔
        m = ∫ y, y ∂P ∧ v = Var[fun y => y; P])) ∧
    (∫ y, (y - ∫ y, y ∂P) ^ 2 ∂P ≤ ∫ y, (y - m) ^ 2 ∂P ∧
      (∫ y, (y - ∫ y, y ∂P) ^ 2 ∂P = ∫ y, (y - m) ^ 2 ∂P ↔ m = ∫ y, y ∂P)) := by
  rw [integral_logScore h m hv, integral_logScore h _ h0, integral_sq_sub h, integral_sq_sub h]
  set s := Var[fun y => y; P]
  set u := ∫ y, y ∂P
  have hq : 0 ≤ (u - m) ^ 2 := sq_nonneg _
  have hsv : 0 < s / v := by positivity
  have h1 : log (2 * π * v) = log (2 * π * s) - log (s / v) := by
    rw [log_div h0.ne' hv.ne', log_mul (by positivity) hv.ne', log_mul (by positivity) h0.ne']
    ring
  have h2 : (s + (u - u) ^ 2) / s = 1 := by
    rw [sub_self, zero_pow two_ne_zero, add_zero, div_self h0.ne']
  have h3 : (s + (u - m) ^ 2) / v = s / v + (u - m) ^ 2 / v := add_div _ _ _
  have h4 : 0 ≤ (u - m) ^ 2 / v := by positivity
  have h5 := log_le_sub_one_of_pos hsv
  rw [h1, h2, h3]
  refine ⟨⟨by linarith, fun he => ?_, ?_⟩, by rw [sub_self]; nlinarith, fun he => ?_, ?_⟩
  · have h6 : (u - m) ^ 2 / v = 0 := by linarith
    have h7 : log (s / v) = s / v - 1 := by linarith
    have h8 : (u - m) ^ 2 = 0 := by
      rcases div_eq_zero_iff.1 h6 with h | h
      · exact h
      · exact absurd h hv.ne'
    have h9 : s / v = 1 := by
      by_contra hne
      exact absurd h7 (log_lt_sub_one_of_pos hsv hne).ne
    refine ⟨(sub_eq_zero.1 (pow_eq_zero_iff two_ne_zero |>.1 h8)).symm, ?_⟩
    rw [div_eq_one_iff_eq hv.ne'] at h9
    exact h9.symm
  · rintro ⟨rfl, rfl⟩
    rw [sub_self, div_self h0.ne']
    simp
  · rw [sub_self] at he
    have h8 : (u - m) ^ 2 = 0 := by linarith
    exact (sub_eq_zero.1 (pow_eq_zero_iff two_ne_zero |>.1 h8)).symm
  · rintro rfl
    rfl

/-! ## An example -/

example : ∃ (M : Predictor ℤ) (p : List (List (ℝ × ℝ × ℝ))),
    forecasts M [(0, 1), (1, 3)] [([(0, 2)], [(1, 4)])] = .ok p ∧ p = [[(4, 3, 4)]] ∧ mll p.head! ≠ none := by
  have hstd : std [1, 3] = 1 := by norm_num [std, Util.mean]
  have hm : Util.mean [1, 3] = (2 : ℝ) := by norm_num [Util.mean]
  refine ⟨fun _ _ ts => .ok (ts.map fun _ => (1, 4)), _, ?_, rfl, ?_⟩
  · simp only [forecasts, Normaliser.fit, List.map_cons, List.map_nil, hstd, hm, mapE, forecast, bind1]
    norm_num [Normaliser.untransform]
  · rw [show ([[(4, 3, 4)]] : List (List (ℝ × ℝ × ℝ))).head! = [(4, 3, 4)] from rfl, mll_single (by norm_num)]
    exact Option.some_ne_none _

/-! ## Which data a forecast uses -/

/-- A predictor that weighs the last value it is fitted to and the last value it is conditioned on, by weights that depend on the time. -/
noncomputable def Spec.weigh {τ : Type} (w u : τ → ℝ) : Predictor τ := fun fit cond ts =>
  match fit.getLast?, cond.getLast? with
  | some r, some s => .ok (ts.map fun t => (w t * r.2 + (1 - w t) * s.2, u t))
  | _, _ => .error .indexError

theorem getLast_data {τ : Type} (n : Normaliser) (d : List (τ × ℝ)) (r : τ × ℝ) :
    (n.data (d ++ [r])).getLast? = some (r.1, (r.2 - n.loc) / n.scale) := by
  unfold Normaliser.data Normaliser.transform
  have e : ∀ l : List (τ × ℝ), (l.map Prod.fst).zip ((l.map Prod.snd).map fun y => (y - n.loc) / n.scale) =
      l.map fun q => (q.1, (q.2 - n.loc) / n.scale) := fun l => by
    induction l with
    | nil => rfl
    | cons a l ih => simp only [List.map_cons, List.zip_cons_cons, ih]
  rw [e]
  simp

theorem mapE_map_eq {α β γ : Type} (g : γ → Except PyErr β) (h : α → γ) (f : α → β) (hk : ∀ a, g (h a) = .ok (f a)) (l : List α) :
    mapE g (l.map h) = .ok (l.map f) := by
  induction l with
  | nil => rfl
  | cons a l ih =>
    rw [List.map_cons, mapE, hk a]
    dsimp only
    rw [ih]
    rfl

/-- **C211** Forecasts are in the units of the data, for the times of the test set, from a model that is fitted to the training data and conditioned on
the data that belong to the test set: what a predictor does with the last values is seen in the forecasts. -/
theorem c211_data {τ : Type} (w u : τ → ℝ) (d : List (τ × ℝ)) (r : τ × ℝ) (hs : (Normaliser.fit ((d ++ [r]).map Prod.snd)).scale ≠ 0)
    (tests : List ((List (τ × ℝ) × (τ × ℝ)) × List (τ × ℝ))) :
    forecasts (Spec.weigh w u) (d ++ [r]) (tests.map fun p => (p.1.1 ++ [p.1.2], p.2)) =
      .ok (tests.map fun p => p.2.map fun q =>
        (q.2, w q.1 * r.2 + (1 - w q.1) * p.1.2.2, (Normaliser.fit ((d ++ [r]).map Prod.snd)).scale ^ 2 * u q.1)) := by
  unfold forecasts
  dsimp only
  rw [if_neg hs]
  refine mapE_map_eq _ _ _ (fun p => ?_) tests
  set n := Normaliser.fit ((d ++ [r]).map Prod.snd)
  unfold forecast Spec.weigh
  simp only [getLast_data, bind1]
  congr 1
  rw [List.map_map, List.map_map]
  generalize p.2 = l
  induction l with
  | nil => rfl
  | cons q l ih =>
    simp only [List.map_cons, List.zip_cons_cons, ih, Function.comp, Normaliser.untransform]
    congr 3
    · field_simp
      ring
    · ring

example : (Normaliser.fit (([((0 : ℤ), (1 : ℝ))] ++ [(1, 3)]).map Prod.snd)).scale ≠ 0 := by
  norm_num [Normaliser.fit, std, Util.mean]

end Gpcm.Paper
