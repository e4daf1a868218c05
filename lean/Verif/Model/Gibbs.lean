import Verif.Model.Approx
import Verif.Model.Fit

/-!
# Model of the two conditional samplers of the Gibbs sampler

The loops over abstract samplers are in `Model/Fit.lean`. Here the samplers are the ones of
`gpcm/approx.py`. The random state is the number of completed sweeps; the standard normal noise of sweep `i`
is `W i`, one vector for each of the two variables.
-/

open Matrix Real

namespace Gpcm

variable {ι κ : Type} [Fintype ι] [DecidableEq ι] [Fintype κ] [DecidableEq κ]
variable (C : Chols ι κ) (m : Inst ι κ) (ts : DataTerms ι κ)

/-- `sample_u` (approx.py:718-721, also approx.py:455). -/
noncomputable def gibbsU (W : ℕ → (ι → ℝ) × (κ → ℝ)) (i : ℕ) (z : κ → ℝ) : ℕ × (ι → ℝ) :=
  (i, (quOptimal m ts z).sample C.u (W i).1)

/-- `sample_z` (approx.py:723-726, also approx.py:456). -/
noncomputable def gibbsZ (W : ℕ → (ι → ℝ) × (κ → ℝ)) (i : ℕ) (u : ι → ℝ) : ℕ × (κ → ℝ) :=
  (i + 1, (qzOptimal m ts u).sample C.z (W i).2)

/-- One pass of the loops (approx.py:455-456, 738-739) with noise `w`. -/
noncomputable def gibbsSweep (w : (ι → ℝ) × (κ → ℝ)) (x : (ι → ℝ) × (κ → ℝ)) : (ι → ℝ) × (κ → ℝ) :=
  let u := (quOptimal m ts x.2).sample C.u w.1
  (u, (qzOptimal m ts u).sample C.z w.2)

/-- `Structured.elbo_gibbs` (approx.py:428-458): the value and the updated samples, with `k` sweeps. -/
noncomputable def elboGibbs (s : Posts ι κ) (d : List (ℝ × ℝ)) (W : ℕ → (ι → ℝ) × (κ → ℝ)) (k : ℕ)
    (x : (ι → ℝ) × (κ → ℝ)) : ℝ × (ι → ℝ) × (κ → ℝ) :=
  let ts := constructDataTerms C m d
  let r := Fit.elboGibbsLoop (gibbsU C m ts W) (gibbsZ C m ts W) k (0, x)
  (logZu C m ts r.2.1 + (s.pU m).logpdf C.u r.2.1, r.2)

end Gpcm
