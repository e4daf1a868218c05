import Verif.Model.Py
import Mathlib.Data.EReal.Operations
import Mathlib.Analysis.SpecialFunctions.Trigonometric.Basic

/-!
# Model of `gpcm/sample.py`: elliptical slice sampling

Random numbers come from an arbitrary tape. A log-likelihood value is an extended real number or
NaN. The state records the trace of external calls (random number generator, prior sampler,
log-likelihood function), which is what an observer of the sampler can see. Arithmetic is exact.
Timing and progress output (sample.py:117-143, 171, 174-175) are not modelled.
-/

open Real

namespace Gpcm.Ess

/-- A floating-point log-likelihood: `none` is NaN. -/
abbrev LL := Option EReal

/-- `a > b` for floating-point numbers: false as soon as one side is NaN. -/
def LL.gt : LL → LL → Prop
  | some a, some b => b < a
  | _, _ => False

/-- `a - e` for a floating-point number `a` and a finite number `e`. -/
noncomputable def LL.sub (a : LL) (e : ℝ) : LL := a.map fun z => z - (e : EReal)

/-- A call of the sampler to the outside. -/
inductive Event (V : Type)
  /-- `rng.exponential(1.0)` returned `e`. -/
  | expo (e : ℝ)
  /-- `sample_prior()` returned `y`. -/
  | prior (y : V)
  /-- `rng.uniform(a, b)` returned `r`. -/
  | uniform (a b r : ℝ)
  /-- `log_lik(x)` returned `l`. -/
  | lik (x : V) (l : LL)

/-- What the random number generator and the prior sampler return. -/
structure Tape (V : Type) where
  unit : ℕ → ℝ
  unit_nonneg : ∀ n, 0 ≤ unit n
  unit_lt_one : ∀ n, unit n < 1
  expo : ℕ → ℝ
  expo_nonneg : ∀ n, 0 ≤ expo n
  prior : ℕ → V

/-- The attributes of an `ESS` object, the positions on the tape, and the trace of external calls.
`y`, `theta`, `xProposed`, `llProposed` do not exist before their first assignment. -/
structure State (V : Type) where
  x : V
  logLikX : LL
  y : Option V := none
  theta : Option ℝ := none
  xProposed : Option V := none
  llProposed : Option LL := none
  iU : ℕ := 0
  iE : ℕ := 0
  iP : ℕ := 0
  trace : List (Event V) := []

variable {V : Type} [AddCommGroup V] [Module ℝ V] (T : Tape V) (L : V → LL)

/-- `rng.uniform(a, b)`: NumPy computes `a + (b - a) * u` with `u` in `[0, 1)`. -/
noncomputable def uniform (a b : ℝ) (s : State V) : ℝ × State V :=
  let r := a + (b - a) * T.unit s.iU
  (r, { s with iU := s.iU + 1, trace := s.trace ++ [.uniform a b r] })

/-- `ESS.move` (sample.py:41-48). -/
def move (x : V) (s : State V) : State V :=
  { s with x := x, logLikX := L x, trace := s.trace ++ [.lik x (L x)] }

/-- `ESS.__init__` (sample.py:28-39). -/
def init (xInit : Option V) : State V :=
  match xInit with
  | some x => { x := x, logLikX := L x, trace := [.lik x (L x)] }
  | none =>
    { x := T.prior 0, logLikX := L (T.prior 0), iP := 1
      trace := [.prior (T.prior 0), .lik (T.prior 0) (L (T.prior 0))] }

/-- `ESS._establish_ellipse` (sample.py:50-52). -/
def establishEllipse (s : State V) : State V :=
  { s with y := some (T.prior s.iP), iP := s.iP + 1, trace := s.trace ++ [.prior (T.prior s.iP)] }

/-- `ESS._draw_proposal` (sample.py:54-64). -/
noncomputable def drawProposal (lower upper : ℝ) (s : State V) :
    State V × Except PyErr (ℝ × V × LL) :=
  let (θ, s1) := uniform T lower upper s
  match s1.y with
  | none => ({ s1 with theta := some θ }, .error .attributeError)
  | some y =>
    let xp := cos θ • s1.x + sin θ • y
    ({ s1 with theta := some θ, xProposed := some xp, llProposed := some (L xp)
               trace := s1.trace ++ [.lik xp (L xp)] }, .ok (θ, xp, L xp))

/-- `ESS._draw_bracket` (sample.py:66-73). -/
noncomputable def drawBracket (s : State V) : (ℝ × ℝ) × State V :=
  let (θ, s1) := uniform T 0 (2 * π) s
  ((θ - 2 * π, θ), s1)

open Classical in
/-- `ESS._draw` (sample.py:75-103). The recursive calls do not pass `max_attempts` on, so they use
the default 100. -/
noncomputable def draw (lower upper : ℝ) (u : LL) (attempts maxAttempts : ℕ) (s : State V) :
    State V × Except PyErr (V × LL × ℕ) :=
  if maxAttempts < attempts then (s, .error .sampleFailed)
  else
    match drawProposal T L lower upper s with
    | (s1, .error e) => (s1, .error e)
    | (s1, .ok (θ, xp, lp)) =>
      if lp.gt u then (s1, .ok (xp, lp, attempts + 1))
      else if 0 < θ then draw lower θ u (attempts + 1) 100 s1
      else draw θ upper u (attempts + 1) 100 s1
  termination_by (if maxAttempts < attempts then 0 else 101 - attempts + 1)
  decreasing_by all_goals (simp_wf; split <;> omega)

/-- Result of one pass through the body of the `while` loop of `_sample`. -/
inductive Pass
  /-- `return attempts, ...` -/
  | done (attempts : ℕ)
  /-- `SampleFailedException` was caught: go on. -/
  | again
  /-- Another exception propagates. -/
  | raise (e : PyErr)

/-- The assignment of the result of `_draw`, and the `except` clause (sample.py:171-182). -/
noncomputable def finishPass (r : State V × Except PyErr (V × LL × ℕ)) : State V × Pass :=
  match r.2 with
  | .ok (x, l, attempts) => ({ r.1 with x := x, logLikX := l }, .done attempts)
  | .error .sampleFailed => (r.1, .again)
  | .error e => (r.1, .raise e)

/-- Drawing a slice height (sample.py:162). -/
noncomputable def drawHeight (s : State V) : LL × State V :=
  (s.logLikX.sub (T.expo s.iE),
    { s with iE := s.iE + 1, trace := s.trace ++ [.expo (T.expo s.iE)] })

/-- Slice height, ellipse and bracket of a pass (sample.py:161-168). -/
noncomputable def prepare (s : State V) : LL × (ℝ × ℝ) × State V :=
  ((drawHeight T s).1, drawBracket T (establishEllipse T (drawHeight T s).2))

/-- Body of the `while` loop of `ESS._sample` (sample.py:160-182). -/
noncomputable def samplePass (s : State V) : State V × Pass :=
  finishPass (draw T L (prepare T s).2.1.1 (prepare T s).2.1.2 (prepare T s).1 1 100
    (prepare T s).2.2)

/-- `ESS._sample` (sample.py:152-182), with at most `fuel` passes; `none` means that it is still
running. -/
noncomputable def sample1 : ℕ → State V → Option (State V × Except PyErr ℕ)
  | 0, _ => none
  | fuel + 1, s =>
    match samplePass T L s with
    | (s', .done n) => some (s', .ok n)
    | (s', .again) => sample1 fuel s'
    | (s', .raise e) => some (s', .error e)

/-- `ESS.sample` (sample.py:105-150) without the progress report. -/
noncomputable def sample (fuel : ℕ) : ℕ → State V → Option (State V × Except PyErr (List V))
  | 0, s => some (s, .ok [])
  | num + 1, s =>
    match sample1 T L fuel s with
    | none => none
    | some (s', .error e) => some (s', .error e)
    | some (s', .ok _) =>
      match sample fuel num s' with
      | none => none
      | some (s'', .error e) => some (s'', .error e)
      | some (s'', .ok xs) => some (s'', .ok (s'.x :: xs))

end Gpcm.Ess
