import Verif.Model.Kernel
import Verif.Model.RGPCM
import Verif.Model.Util

/-!
# Model of the predictions of the kernel and of the spectral density

`sample_kernel`, `predict_kernel` and `predict_psd` of `gpcm/model.py`, on top of `sample_kernel` of the two
approximations in `gpcm/approx.py`. The random numbers are arguments: one vector per requested sample. `kern` is
`kernel_approx` of the model. `B.jit` is the identity. Printing is not modelled.
-/

open Matrix Real

namespace Gpcm

variable {ι : Type} [Fintype ι] [DecidableEq ι]

/-- `_columns` (approx.py:27-31): the columns of a matrix as a list, at most `num` of them. -/
def columns {α : Type} (xs : List α) (num : Option ℕ) : List α :=
  let num := num.getD xs.length
  xs.take (min xs.length num)

/-- `B.stack` along a new first axis: it needs at least one tensor. -/
def stack {α : Type} (xs : List α) : Except PyErr (List α) := if xs = [] then .error .valueError else .ok xs

/-- The type of `kernel_approx`. -/
abbrev Kern (ι : Type) := List ℝ → List ℝ → (ι → ℝ) → Except PyErr (List (List ℝ))

/-- `Approximation._sample_kernel` (approx.py:286-294). -/
noncomputable def sampleKernelRow (kern : Kern ι) (Ku : Matrix ι ι ℝ) (tK : List ℝ) (u : ι → ℝ) :
    Except PyErr (List ℝ) :=
  bind1 (kern tK [0] (Ku *ᵥ u)) fun K => .ok K.flatten

/-- `MeanField.sample_kernel` (approx.py:662-675) when the current prior of `u` is `pU`, for as many random vectors
as samples are requested. -/
noncomputable def sampleKernelMeanField (C : CholOracle ι) (kern : Kern ι) (Ku : Matrix ι ι ℝ) (pU : NatNormal ι)
    (tK : List ℝ) (ws : List (ι → ℝ)) : Except PyErr (List (List ℝ)) :=
  let us := ws.map (pU.sample C)
  bind1 (mapE (sampleKernelRow kern Ku tK) (columns us none)) stack

/-- `Structured._sample_p_u` (approx.py:505-509). `stored` are the samples of the previous posterior, none before
conditioning; then the prior is sampled with the random vectors `ws`, as many as requested. -/
noncomputable def samplePU (C : CholOracle ι) (Ku : Matrix ι ι ℝ) (stored : Option (List (ι → ℝ)))
    (ws : List (ι → ℝ)) : List (ι → ℝ) :=
  match stored with
  | none => columns (ws.map (NatNormal.sample C ⟨0, Ku⟩)) none
  | some us => columns us (some ws.length)

/-- `Structured.sample_kernel` (approx.py:536-549). -/
noncomputable def sampleKernelStructured (C : CholOracle ι) (kern : Kern ι) (Ku : Matrix ι ι ℝ)
    (stored : Option (List (ι → ℝ))) (tK : List ℝ) (ws : List (ι → ℝ)) : Except PyErr (List (List ℝ)) :=
  bind1 (mapE (sampleKernelRow kern Ku tK) (samplePU C Ku stored ws)) stack

/-- The default inputs and the call of the approximation in `AbstractGPCM.sample_kernel` (model.py:100-121), where
`approx` is `sample_kernel` of the approximation. The mean of the samples at the first input is computed and
printed, which fails when there is no input. -/
noncomputable def modelSampleKernel (extent : ℝ) (approx : List ℝ → Except PyErr (List (List ℝ)))
    (tK : Option (List ℝ)) : Except PyErr (List ℝ × List (List ℝ)) :=
  bind1 (match tK with
    | none => linspace 0 extent 300
    | some t => .ok t) fun tK =>
  bind1 (approx tK) fun ks =>
  if ks.any fun k => k.isEmpty then .error .indexError
  else .ok (tK, ks)

/-- The values of all samples at every input: the columns of the matrix of samples. -/
def atInputs (n : ℕ) (samples : List (List ℝ)) : List (List ℝ) :=
  (List.range n).map fun i => samples.map fun s => s.getD i 0

/-- `np.std` of a non-empty vector. -/
noncomputable def std (s : List ℝ) : ℝ := √(Util.mean (s.map fun x => (x - Util.mean s) ^ 2))

/-- What `summarise_samples` (util.py:43-78) reports at one input. -/
structure Summary where
  mean : ℝ
  var : ℝ
  bands : Util.Bands

/-- `summarise_samples` (util.py:65-78) at one input, from the values of all samples at that input. The three random
samples and the transposed samples are not modelled. -/
noncomputable def summariseAt (db : Bool) (s : List ℝ) : Summary where
  mean := Util.transform db (Util.mean s)
  var := Util.transform db (std s) ^ 2
  bands := Util.bands s db

/-- `summarise_samples` (util.py:43-78). -/
noncomputable def summarise (x : List ℝ) (samples : List (List ℝ)) (db : Bool) : List (ℝ × Summary) :=
  x.zip ((atInputs x.length samples).map (summariseAt db))

/-- `AbstractGPCM.predict_kernel` (model.py:85-97). -/
noncomputable def predictKernel (extent : ℝ) (approx : List ℝ → Except PyErr (List (List ℝ)))
    (tK : Option (List ℝ)) : Except PyErr (List (ℝ × Summary)) :=
  bind1 (modelSampleKernel extent approx tK) fun r => .ok (summarise r.1 r.2 false)

/-- `AbstractGPCM.predict_psd` (model.py:123-144) up to the summary: the frequencies and the densities of all
samples. The padding of `estimate_psd` is 2000. -/
noncomputable def psdSamples (extent : ℝ) (approx : List ℝ → Except PyErr (List (List ℝ)))
    (tK : Option (List ℝ)) : Except PyErr (List ℝ × List (List ℝ)) :=
  bind1 (match tK with
    | none => linspace 0 (2 * extent) 1000
    | some t => .ok t) fun tK =>
  bind1 (modelSampleKernel extent approx (some tK)) fun r =>
  bind1 (mapE (fun k => Util.estimatePsd r.1 k 2000 false) r.2) fun l =>
  match l with
  | [] => .error .valueError
  | p :: ps => .ok (p.map Prod.fst, (p :: ps).map fun q => q.map Prod.snd)

/-- `AbstractGPCM.predict_psd` (model.py:123-144). -/
noncomputable def predictPsd (extent : ℝ) (approx : List ℝ → Except PyErr (List (List ℝ)))
    (tK : Option (List ℝ)) : Except PyErr (List (ℝ × Summary)) :=
  bind1 (psdSamples extent approx tK) fun r => .ok (summarise r.1 r.2 true)

end Gpcm
