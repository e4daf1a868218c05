import Mathlib.Probability.Moments.Covariance

/-!
# Noisy observations of a stationary process at equally spaced times
-/

open MeasureTheory

namespace Gpcm.Spec

/-- Observations at the times `0, dt, 2 dt, ...` of a process with mean `m` and stationary covariance `k`, with independent noise of
variance `noise`. Only the first two moments matter. -/
structure Series {Ω : Type} [MeasurableSpace Ω] (P : Measure Ω) (Y : ℕ → Ω → ℝ) (m dt noise : ℝ) (k : ℝ → ℝ) : Prop where
  memLp : ∀ i, MemLp (Y i) 2 P
  mean : ∀ i, ∫ ω, Y i ω ∂P = m
  cov : ∀ i l, ∫ ω, (Y i ω - m) * (Y (i + l) ω - m) ∂P = k (l * dt) + if l = 0 then noise else 0

end Gpcm.Spec
