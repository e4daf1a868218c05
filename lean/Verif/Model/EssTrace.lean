import Verif.Model.ESS
import Verif.Model.Util

/-!
# Model of `ESS.sample(trace=True)` (`gpcm/sample.py`)

What is shown while sampling. The time per attempt and the printing itself are not modelled.
-/

open Real

namespace Gpcm.Ess

/-- What is shown after a sample (sample.py:136-143), except for the time per attempt. `none` in `ess` is a value that is not a finite
number. -/
structure Report where
  logLik : LL
  attempts : ℕ
  ess : Option ℝ

open Classical in
/-- The average effective sample size (sample.py:130-132) for `count` samples, from the first coordinates `chain` of those after the first
20. It is NaN for a chain that did not move, whose autocorrelations are NaN, and infinite if the denominator is zero. -/
noncomputable def effectiveSize (count : ℕ) (chain : List ℝ) : Except PyErr (Option ℝ) :=
  match Util.autocorr chain (some 5) false true with
  | .error e => .error e
  | .ok corrs =>
    if (∀ a ∈ chain, ∀ b ∈ chain, a = b) ∨ 1 + 2 * corrs.sum = 0 then .ok none
    else .ok (some (count / (1 + 2 * corrs.sum)))

variable {V : Type} [AddCommGroup V] [Module ℝ V] (T : Tape V) (L : V → LL) (first : V → Except PyErr ℝ)

/-- What is shown as the effective sample size of a list of samples (sample.py:125-134). `first` is `B.flatten(x)[0]`, which raises for
an empty tensor. It is NaN for at most 20 samples. -/
noncomputable def essOf (xs : List V) : Except PyErr (Option ℝ) :=
  let m := 20
  if m < xs.length then
    match mapE first (xs.drop m) with
    | .error e => .error e
    | .ok chain => effectiveSize xs.length chain
  else .ok none

/-- The loop of `ESS.sample(num, trace=True)` (sample.py:117-143) with the samples and the reports so far. -/
noncomputable def traceLoop (fuel : ℕ) : ℕ → State V → List V → List Report →
    Option (State V × Except PyErr (List V) × List Report)
  | 0, s, xs, rs => some (s, .ok xs, rs)
  | num + 1, s, xs, rs =>
    match sample1 T L fuel s with
    | none => none
    | some (s', .error e) => some (s', .error e, rs)
    | some (s', .ok attempts) =>
      match essOf first (xs ++ [s'.x]) with
      | .error e => some (s', .error e, rs)
      | .ok ess => traceLoop fuel num s' (xs ++ [s'.x]) (rs ++ [⟨s'.logLikX, attempts, ess⟩])

/-- `ESS.sample(num, trace=True)` (sample.py:105-150): the result and what was shown. -/
noncomputable def sampleTrace (fuel num : ℕ) (s : State V) : Option (State V × Except PyErr (List V) × List Report) :=
  traceLoop T L first fuel num s [] []

end Gpcm.Ess
