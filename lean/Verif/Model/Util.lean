import Verif.Model.Py
import Mathlib.Analysis.SpecialFunctions.Log.Base
import Mathlib.Analysis.SpecialFunctions.Complex.Log
import Mathlib.Data.List.Sort
import Mathlib.Algebra.BigOperators.Fin

/-!
# Model of the vector functions of `gpcm/util.py`

`invert_perm`, `autocorr`, `summarise_samples`, `estimate_psd` and `min_phase`. One-dimensional
arrays are lists, or functions on `Fin N`. Arithmetic is exact. The NumPy and SciPy functions they
call (`np.correlate`, `np.quantile`, `np.fft.fft`, `np.fft.ifft`, `np.fft.fftfreq`, `np.trapz`,
`scipy.signal.hilbert`) are modelled by the formulas in their documentation.
-/

open Real

namespace Gpcm.Util

/-! ## `invert_perm` -/

/-- The loop of `invert_perm` (util.py:134-135), from index `i` on. An index beyond the end raises
`IndexError`; negative indices are not modelled. -/
def invertLoop : ℕ → List ℕ → List ℤ → Except PyErr (List ℤ)
  | _, [], inv => .ok inv
  | i, p :: ps, inv =>
    if p < inv.length then invertLoop (i + 1) ps (inv.set p i) else .error .indexError

/-- `invert_perm` (util.py:127-136). -/
def invertPerm (perm : List ℕ) : Except PyErr (List ℤ) :=
  invertLoop 0 perm (List.replicate perm.length (-1))

/-! ## `autocorr` -/

/-- `np.mean` of a non-empty vector. -/
noncomputable def mean (x : List ℝ) : ℝ := x.sum / x.length

/-- `np.correlate(x, x, mode="full")`. -/
noncomputable def correlateFull (x : List ℝ) : List ℝ :=
  (List.range (2 * x.length - 1)).map fun j => ∑ i ∈ Finset.range x.length,
    if x.length - 1 ≤ i + j ∧ i + j - (x.length - 1) < x.length then
      x.getD (i + j - (x.length - 1)) 0 * x.getD i 0
    else 0

/-- The estimate before normalisation (util.py:191-205). -/
noncomputable def autocov (x : List ℝ) (lags : Option ℕ) (window : Bool) : List ℝ :=
  let x := x.map (· - mean x)
  let k := correlateFull x
  let k := k.drop (k.length / 2)
  let k := if window then k.map (fun a => a / (x.length : ℝ))
    else List.zipWith (fun a b : ℝ => a / b) k
      ((List.range x.length).map fun i => ((x.length - i : ℕ) : ℝ))
  match lags with
  | some l => k.take (l + 1)
  | none => k

/-- `autocorr` (util.py:173-211) for a non-negative number of lags. `np.correlate` raises
`ValueError` for an empty vector. For a constant vector the code divides zero by zero and returns
NaN; here that division gives zero, and no theorem is about that case. -/
noncomputable def autocorr (x : List ℝ) (lags : Option ℕ) (cov window : Bool) :
    Except PyErr (List ℝ) :=
  if x = [] then .error .valueError
  else
    let k := autocov x lags window
    .ok (if cov then k else k.map (· / k.headD 0))

/-! ## `summarise_samples` -/

/-- The sorted samples as a sequence, constant after the last one (NumPy clips the index). -/
noncomputable def sortedAt (s : List ℝ) (i : ℕ) : ℝ :=
  (s.mergeSort (fun a b => decide (a ≤ b))).getD (min i (s.length - 1)) 0

/-- Linear interpolation of a sequence. -/
noncomputable def interp (a : ℕ → ℝ) (h : ℝ) : ℝ :=
  a ⌊h⌋₊ + (h - ⌊h⌋₊) * (a (⌊h⌋₊ + 1) - a ⌊h⌋₊)

/-- `np.quantile(s, q)` with the default method "linear", for a non-empty vector. -/
noncomputable def quantile (s : List ℝ) (q : ℝ) : ℝ := interp (sortedAt s) (q * ((s.length - 1 : ℕ) : ℝ))

/-- `transform` (util.py:59-63). -/
noncomputable def transform (db : Bool) (x : ℝ) : ℝ := if db then 10 * Real.logb 10 x else x

/-- The error bands at one input. -/
structure Bands where
  err68Lower : ℝ
  err68Upper : ℝ
  err95Lower : ℝ
  err95Upper : ℝ
  err99Lower : ℝ
  err99Upper : ℝ

/-- The error bands of `summarise_samples` (util.py:70-75) at one input, from the values of all
samples at that input. -/
noncomputable def bands (samples : List ℝ) (db : Bool) : Bands where
  err68Lower := transform db (quantile samples 0.32)
  err68Upper := transform db (quantile samples (1 - 0.32))
  err95Lower := transform db (quantile samples 0.025)
  err95Upper := transform db (quantile samples (1 - 0.025))
  err99Lower := transform db (quantile samples 0.0015)
  err99Upper := transform db (quantile samples (1 - 0.0015))

/-! ## Fourier transforms -/

/-- `np.fft.fft`. -/
noncomputable def fft {N : ℕ} (x : Fin N → ℂ) (f : Fin N) : ℂ :=
  ∑ j, x j * Complex.exp (-2 * π * Complex.I * (j : ℕ) * (f : ℕ) / N)

/-- `np.fft.ifft`. -/
noncomputable def ifft {N : ℕ} (x : Fin N → ℂ) (j : Fin N) : ℂ :=
  (∑ f, x f * Complex.exp (2 * π * Complex.I * (j : ℕ) * (f : ℕ) / N)) / N

/-- `np.fft.fftfreq(N)[i]`. -/
noncomputable def fftfreq (N i : ℕ) : ℝ :=
  if i < (N - 1) / 2 + 1 then (i : ℝ) / N else ((i : ℝ) - N) / N

/-- `np.trapz(y=y, x=x)`. -/
noncomputable def trapz : List ℝ → List ℝ → ℝ
  | y0 :: y1 :: ys, x0 :: x1 :: xs => (x1 - x0) * (y0 + y1) / 2 + trapz (y1 :: ys) (x1 :: xs)
  | _, _ => 0

/-! ## `estimate_psd` -/

/-- Zero padding and symmetrisation (util.py:100-104). -/
def symmetrise (k : List ℝ) (nZero : ℕ) : List ℝ :=
  let k := k ++ List.replicate nZero 0
  k ++ (k.drop 1).dropLast.reverse

/-- The spectrum before taking real part and absolute value (util.py:105). -/
noncomputable def rawPsd (k : List ℝ) (nZero : ℕ) : List ℂ :=
  List.ofFn (fft fun j => (((symmetrise k nZero).get j : ℝ) : ℂ))

/-- `freqs` (util.py:106). -/
noncomputable def freqs (N : ℕ) (dt : ℝ) : List ℝ := (List.range N).map fun i => fftfreq N i / dt

/-- `psd` before normalisation (util.py:109). -/
noncomputable def absPsd (k : List ℝ) (nZero : ℕ) : List ℝ := (rawPsd k nZero).map fun z => |z.re|

/-- `total_power` (util.py:112). -/
noncomputable def totalPower (k : List ℝ) (nZero : ℕ) (dt : ℝ) : ℝ :=
  trapz (absPsd k nZero) (freqs (absPsd k nZero).length dt)

/-- All frequencies and the normalised `psd` (util.py:106-113). -/
noncomputable def scaledPsd (k : List ℝ) (nZero : ℕ) (dt k0 : ℝ) : List (ℝ × ℝ) :=
  (freqs (absPsd k nZero).length dt).zip
    ((absPsd k nZero).map (· / (totalPower k nZero dt / k0)))

/-- `estimate_psd` (util.py:81-124). The result is a list of pairs of frequency and density. A zero
time step or a zero total power gives infinities and NaNs in the code; here division by zero gives
zero, and the theorems exclude these cases. -/
noncomputable def estimatePsd (t k : List ℝ) (nZero : ℕ) (db : Bool) :
    Except PyErr (List (ℝ × ℝ)) :=
  match t, k with
  | [], _ => .error .indexError
  | t0 :: ts, k =>
    if t0 ≠ 0 then .error .valueError
    else
      match k ++ List.replicate nZero 0, ts with
      | [], _ => .error .valueError
      | _ :: _, [] => .error .indexError
      | k0 :: _, t1 :: _ =>
        .ok (((scaledPsd k nZero (t1 - t0) k0).map fun p => (p.1, transform db p.2)).filter
          fun p => decide (0 ≤ p.1))

/-! ## `min_phase` -/

/-- The multiplier in `scipy.signal.hilbert`. -/
noncomputable def hilbertGain (N f : ℕ) : ℂ :=
  if N % 2 = 0 then
    if f = 0 ∨ f = N / 2 then 1 else if f < N / 2 then 2 else 0
  else
    if f = 0 then 1 else if f < (N + 1) / 2 then 2 else 0

/-- `scipy.signal.hilbert`: the analytic signal. -/
noncomputable def hilbert {N : ℕ} (x : Fin N → ℝ) : Fin N → ℂ :=
  ifft fun f => fft (fun j => (x j : ℂ)) f * hilbertGain N f

/-- The spectrum built by `min_phase` (util.py:38-40). -/
noncomputable def minPhaseSpec {N : ℕ} (h : Fin N → ℝ) (f : Fin N) : ℂ :=
  let spec := fft fun j => (h j : ℂ)
  let phase := fun f => (-(hilbert (fun f => Real.log ‖spec f‖) f)).im
  (‖spec f‖ : ℂ) * Complex.exp (Complex.I * (phase f : ℂ))

/-- `min_phase` (util.py:28-40). A zero in the spectrum gives NaNs, represented by `none`. -/
noncomputable def minPhase {N : ℕ} (h : Fin N → ℝ) : Option (Fin N → ℝ) :=
  open Classical in
  if ∃ f, fft (fun j => (h j : ℂ)) f = 0 then none
  else some fun j => (ifft (minPhaseSpec h) j).re

end Gpcm.Util
