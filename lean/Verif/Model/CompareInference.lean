import Verif.Model.Approx
import Verif.Model.ExprRun

/-!
# Model of `experiments/paper/compare_inference.py`

The tracker of times and values, the callback of coordinate ascent, and what is plotted. The clock is a tape: the readings
of `time.time()` are arguments of the operations.
-/

namespace Gpcm.Compare

variable {ι κ : Type} [Fintype ι] [DecidableEq ι] [Fintype κ] [DecidableEq κ]

/-- `Tracker` (compare_inference.py:15-43). -/
structure Tracker where
  ref : ℝ
  times : List ℝ
  values : List ℝ

/-- `Tracker.__init__` (compare_inference.py:18-21) when the clock reads `now`. -/
def Tracker.new (now : ℝ) : Tracker := ⟨now, [], []⟩

/-- `Tracker.track` (compare_inference.py:23-27). -/
def Tracker.track (tr : Tracker) (now value : ℝ) : Tracker :=
  { tr with times := tr.times ++ [now - tr.ref], values := tr.values ++ [value] }

/-- A block in `with tracker.pause()` (compare_inference.py:29-38) entered at `start` and left at `stop`. -/
def Tracker.pause (tr : Tracker) (start stop : ℝ) : Tracker := { tr with ref := tr.ref + (stop - start) }

/-- `Tracker.get_xy` (compare_inference.py:40-43). Slicing beyond the end gives an empty array, but indexing raises. -/
def Tracker.getXY (tr : Tracker) (start : ℕ) : Except PyErr (List ℝ × List ℝ) :=
  match tr.times[start]? with
  | none => .error .indexError
  | some t0 => .ok ((tr.times.drop start).map fun x => x - t0, tr.values.drop start)

/-- What happens to a tracker, with the readings of the clock. -/
inductive Event where
  | track (now value : ℝ)
  | pause (start stop : ℝ)

/-- One event. -/
def Tracker.step (tr : Tracker) : Event → Tracker
  | .track now value => tr.track now value
  | .pause start stop => tr.pause start stop

/-- A sequence of events. -/
def Tracker.run (tr : Tracker) (es : List Event) : Tracker := es.foldl Tracker.step tr

/-- Whether the callback tracks the bound, when `count` is the counter after it was increased
(compare_inference.py:193, 229). -/
def tracked (count : ℕ) : Bool := decide (count < 20) || count % 5 == 0

/-- The calls of the callback that track the bound (compare_inference.py:187-193): the counter starts at one. -/
def trackedCalls {α : Type} (calls : List α) : List α :=
  ((calls.zipIdx 2).filter fun c => tracked c.2).map Prod.fst

variable (C : Chols ι κ) (m : Inst ι κ)

/-- The loop of coordinate ascent (approx.py:338-352) with a callback that changes the stored posteriors
(compare_inference.py:195-197): the last iterate and the stored posteriors when the loop ends. -/
noncomputable def caLoopStore {σ τ : Type} (step : σ → σ) (diff : σ → σ → ℝ) (callback : σ → τ → τ) :
    ℕ → σ → τ → σ × τ
  | 0, p, s => (p, s)
  | k + 1, p, s =>
    let q := step p
    let s := callback q s
    open Classical in if diff q p < 1e-6 then (q, s) else caLoopStore step diff callback k q s

/-- What the callback stores (compare_inference.py:190-197). The counter is part of the state. -/
def callbackCA (p : Pair ι κ) (s : Posts ι κ × ℕ) : Posts ι κ × ℕ :=
  let count := s.2 + 1
  (if tracked count then (s.1.setU p.u).setZ p.z else s.1, count)

/-- `_fit_mean_field_ca` with this callback (compare_inference.py:205), for the default number of iterations or another:
what is stored at the end. -/
noncomputable def fitWithCallback (s : Posts ι κ) (d : List (ℝ × ℝ)) (iters : ℤ) : Posts ι κ :=
  let r := caLoopStore (caStep C m (constructDataTerms C m d)) Pair.diff callbackCA iters.toNat ⟨s.qU, s.qZ⟩ (s, 1)
  (r.2.1.setU r.1.u).setZ r.1.z

/-- The values of the curve of coordinate ascent (compare_inference.py:190-205). -/
noncomputable def caCurve (s : Posts ι κ) (d : List (ℝ × ℝ)) (iters : ℤ) : List (Except PyErr ℝ) :=
  (trackedCalls (fitMeanFieldCA C m s d iters).2).map fun p =>
    MeanField.elbo C m ((s.setU p.u).setZ p.z) d none

/-- The values tracked while a gradient method runs (compare_inference.py:102-123, 142-168), given the points at which the minimiser
evaluates the objective. `minimise_l_bfgs_b` gets no names, so it may change every variable: the hyper-parameters `θ` as well as the
approximate posteriors. Which points it visits is left open. -/
noncomputable def gradCurve {Θ : Type} (M : Θ → Inst ι κ) (d : List (ℝ × ℝ)) (collapsed : Option String)
    (points : List (Θ × Posts ι κ)) : List (Except PyErr ℝ) :=
  points.map fun p => MeanField.elbo C (M p.1) p.2 d collapsed

/-- `np.maximum.accumulate` (compare_inference.py:271-272), after the first element. -/
noncomputable def runningMaxFrom (a : ℝ) : List ℝ → List ℝ
  | [] => []
  | x :: xs => max a x :: runningMaxFrom (max a x) xs

/-- `np.maximum.accumulate` (compare_inference.py:271-272). -/
noncomputable def runningMax : List ℝ → List ℝ
  | [] => []
  | x :: xs => x :: runningMaxFrom x xs

/-- `max` of a list; Python raises for an empty one. -/
noncomputable def maxE : List ℝ → Except PyErr ℝ
  | [] => .error .valueError
  | x :: xs => .ok (xs.foldl max x)

/-- The right limit of the axis of times (compare_inference.py:277). -/
noncomputable def xLimit (tMf tCmf tS : List ℝ) : Except PyErr ℝ :=
  bind1 (maxE tMf) fun a => bind1 (maxE tCmf) fun b => bind1 (maxE tS) fun c =>
  .ok (5 * ((⌊max (max a b) c / 5⌋ : ℝ) + 1))

/-- The times of the curve of the structured scheme (compare_inference.py:266). A division by zero gives NaN in the
code; here it gives zero, and the theorems exclude it. -/
noncomputable def structuredTimes (tS tCa : List ℝ) : Except PyErr (List ℝ) :=
  bind1 (maxE tS) fun a => bind1 (maxE tCa) fun b => .ok (tS.map fun x => x / a * b)

end Gpcm.Compare
