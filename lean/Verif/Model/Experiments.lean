import Verif.Model.Py
import Mathlib.Algebra.Order.Ring.Int
import Mathlib.Data.Real.Basic

/-!
# Model of the experiment scripts

`experiments/experiment.py` (`build_models`), `experiments/paper/compare_inference.py` (`Tracker`),
`experiments/paper/vix_forecast.py` (`first_monday`), `experiments/paper/crude_oil.py` (train/test
split) and `experiments/paper/priors.py` (`_extract_samples`).
-/

namespace Gpcm.Experiments

/-! ## `build_models` -/

/-- The model classes. -/
inductive Kind
  | gpcm
  | cgpcm
  | rgpcm
  deriving DecidableEq, Repr

/-- The arguments `build_models` passes on unchanged. `num` is the type of numbers, `vec` of
vectors. -/
structure Common (num vec : Type) where
  scheme : String
  noise : num
  window : num
  scale : num
  t : vec
  fixWindowScale : Bool
  nU : Option ℕ

/-- Keyword arguments of a constructor call (experiment.py:159-204). -/
structure Call (num vec : Type) where
  kind : Kind
  scheme : String
  noise : num
  window : num
  fixWindow : Bool
  scale : num
  fixScale : Bool
  t : vec
  nU : Option ℕ
  nZ : Option ℕ
  extendTZ : Option Bool
  mMax : Option ℕ

/-- `int(np.ceil(n_z / 2)) if n_z else None` (experiment.py:202); `n_z = 0` is falsy. -/
def mMaxOf : Option ℕ → Option ℕ
  | some 0 => none
  | some n => some ((n + 1) / 2)
  | none => none

variable {num vec : Type}

/-- The constructor call for a model. -/
def callOf (c : Common num vec) (nZ : Option ℕ) (ext : Bool) : Kind → Call num vec
  | .gpcm => ⟨.gpcm, c.scheme, c.noise, c.window, c.fixWindowScale, c.scale, c.fixWindowScale, c.t,
      c.nU, nZ, some ext, none⟩
  | .cgpcm => ⟨.cgpcm, c.scheme, c.noise, c.window, c.fixWindowScale, c.scale, c.fixWindowScale,
      c.t, c.nU, nZ, some ext, none⟩
  | .rgpcm => ⟨.rgpcm, c.scheme, c.noise, c.window, c.fixWindowScale, c.scale, c.fixWindowScale,
      c.t, c.nU, none, none, mMaxOf nZ⟩

/-- One `if name in names: names = set(names) - {name}; models.append(...)`
(experiment.py:157-172, 174-189, 190-204). -/
def buildStep (S : SetOrder) (c : Common num vec) (nZ : Option ℕ) (ext : Bool) (name : String)
    (k : Kind) (s : List String × List (Call num vec)) : List String × List (Call num vec) :=
  if name ∈ s.1 then
    ((S.ord s.1).filter (· ≠ name), s.2 ++ [callOf c nZ ext k])
  else s

/-- `build_models` (experiment.py:127-210). The exceptions a model constructor may raise are not
modelled here. -/
def buildModels (S : SetOrder) (names : List String) (c : Common num vec) (nZ : Option ℕ)
    (ext : Bool) : Except PyErr (List (Call num vec)) :=
  let s := buildStep S c nZ ext "gprv" .rgpcm
    (buildStep S c nZ ext "cgpcm" .cgpcm (buildStep S c nZ ext "gpcm" .gpcm (names, [])))
  if 0 < s.1.length then .error .valueError else .ok s.2

/-! ## `first_monday` -/

/-- Days before January 1 of a year in the proleptic Gregorian calendar, as in CPython's
`datetime._days_before_year`. -/
def daysBeforeYear (year : ℕ) : ℕ :=
  (year - 1) * 365 + (year - 1) / 4 - (year - 1) / 100 + (year - 1) / 400

/-- `datetime(year, 1, 1).toordinal()`. -/
def jan1 (year : ℕ) : ℕ := daysBeforeYear year + 1

/-- `datetime.weekday()` of the day with the given ordinal: Monday is zero. -/
def weekday (ordinal : ℕ) : ℕ := (ordinal + 6) % 7

/-- The loop of `first_monday` (vix_forecast.py:24-25), with a bound on the number of iterations;
`none` means that it is still running. -/
def firstMondayLoop : ℕ → ℕ → Option ℕ
  | 0, _ => none
  | fuel + 1, dt => if weekday dt ≠ 0 then firstMondayLoop fuel (dt + 1) else some dt

/-- `first_monday` (vix_forecast.py:21-26) on ordinals. -/
def firstMonday (fuel year : ℕ) : Option ℕ := firstMondayLoop fuel (jan1 year)

/-! ## `Tracker` -/

/-- What happens to a tracker; every event comes with the reading of the clock. -/
inductive TEvent
  /-- `tracker.track(value)`. -/
  | track (clock value : ℝ)
  /-- A `with tracker.pause():` block that begins and ends at the given readings, with the events
  inside it. -/
  | pause (start : ℝ) (inner : List TEvent) (stop : ℝ)

/-- The attributes of a tracker. -/
structure Tracker where
  ref : ℝ
  times : List ℝ := []
  values : List ℝ := []

mutual
/-- `Tracker.track` and `Tracker.pause` (compare_inference.py:23-38). -/
noncomputable def Tracker.step (t : Tracker) : TEvent → Tracker
  | .track clock value => { t with times := t.times ++ [clock - t.ref], values := t.values ++ [value] }
  | .pause start inner stop =>
    let t' := t.steps inner
    { t' with ref := t'.ref + (stop - start) }
/-- A sequence of events. -/
noncomputable def Tracker.steps (t : Tracker) : List TEvent → Tracker
  | [] => t
  | e :: es => (t.step e).steps es
end

/-- `Tracker.__init__` (compare_inference.py:18-21). -/
def Tracker.new (clock : ℝ) : Tracker := { ref := clock }

/-- `Tracker.get_xy` (compare_inference.py:40-43) for a non-negative `start`. -/
noncomputable def Tracker.getXY (t : Tracker) (start : ℕ) : Except PyErr (List ℝ × List ℝ) :=
  match t.times[start]? with
  | none => .error .indexError
  | some t0 => .ok ((t.times.drop start).map (· - t0), t.values.drop start)

/-! ## Train/test split of `crude_oil.py` -/

/-- A time stamp, in microseconds since January 1 of the year. -/
abbrev Stamp := ℤ

/-- `timedelta(weeks=1)`. -/
def weekLen : ℤ := 7 * 24 * 3600 * 1000000

/-- The comprehension `[... for i in range(26, 53) if i % 2 == 1]` (crude_oil.py:44-51). -/
def testWeeks : List (ℤ × ℤ) :=
  (((List.range 53).drop 26).filter (· % 2 == 1)).map fun i =>
    ((i : ℤ) * weekLen, ((i : ℤ) + 1) * weekLen)

/-- The loop that accumulates `test_inds` (crude_oil.py:41-54). -/
def testInds (index : List Stamp) : List Bool :=
  testWeeks.foldl (fun inds w =>
    List.zipWith (· || ·) inds (index.map fun τ => decide (w.1 ≤ τ) && decide (w.2 > τ)))
    (index.map fun _ => false)

/-- `a[mask]`. -/
def mask {α : Type} (m : List Bool) (a : List α) : List α :=
  ((m.zip a).filter Prod.fst).map Prod.snd

/-- `t_train`, `y_train`, `t_test`, `y_test` together (crude_oil.py:55-58): observations are pairs. -/
def split {α : Type} (index : List Stamp) (obs : List α) : List α × List α :=
  (mask ((testInds index).map not) obs, mask (testInds index) obs)

/-! ## `_extract_samples` of `priors.py` -/

/-- `_extract_samples` (priors.py:31-37): inputs, and the values of one sample (one column). -/
def extractSamples (x samples : List ℝ) : List ℝ × List ℝ :=
  ((x.reverse.dropLast.map fun a => -a) ++ x, samples.reverse.dropLast ++ samples)

end Gpcm.Experiments
