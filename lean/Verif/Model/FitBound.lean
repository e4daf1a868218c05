import Verif.Model.Approx
import Verif.Model.Fit

/-!
# Model of the mean-field `fit` with the numbers it computes

`Model/Fit.lean` models which variables `fit` may change. This file models their values. The minimiser is an argument.
-/

namespace Gpcm

variable {ι κ : Type} [Fintype ι] [DecidableEq ι] [Fintype κ] [DecidableEq κ] (C : Chols ι κ) {Θ : Type} (M : Θ → Inst ι κ)

/-- `minimise_l_bfgs_b` as `fit` calls it (approx.py:834-841): it is given the objective, the number of iterations and the values of the
variables that it may change, and returns the values that it assigns. With `ignore_qs(previous=True, current="z")` those variables are
the hyper-parameters and the current posterior over `u`. -/
abbrev Minimiser (Θ ι : Type) : Type := (Θ × NatNormal ι → Except PyErr ℝ) → ℤ → Θ × NatNormal ι → Θ × NatNormal ι

/-- The objective of the collapsed schemes (approx.py:829-831): minus the bound collapsed over `z`, as a function of the variables that
are trained. -/
noncomputable def collapsedObjective (d : List (ℝ × ℝ)) (s : Posts ι κ) (p : Θ × NatNormal ι) : Except PyErr ℝ :=
  (MeanField.elbo C (M p.1) (s.setU p.2) d (some "z")).map fun v => -v

/-- The gradient phase and the explicit update of `q(z)` (approx.py:829-848). -/
noncomputable def collapsedPhase (min : Minimiser Θ ι) (d : List (ℝ × ℝ)) (iters : ℤ) (θ : Θ) (s : Posts ι κ) : Θ × Posts ι κ :=
  let r := min (collapsedObjective C M d s) (iters / 5) (θ, s.qU)
  let s := s.setU r.2
  (r.1, s.setZ (qzOptimalMF C (M r.1) (constructDataTerms C (M r.1) d) s.qU))

/-- `fit` for mean-field approximations (approx.py:786-855): the hyper-parameters and the posteriors afterwards. `ignore_qs` is called
without its argument `current` in the second branch and raises a `TypeError` there (see `Fit.fitMeanField`). -/
noncomputable def fitMeanField (min : Minimiser Θ ι) (f : Fit.MF) (d : List (ℝ × ℝ)) (iters : ℤ) (θ : Θ) (s : Posts ι κ) :
    Except PyErr (Θ × Posts ι κ) :=
  match f with
  | .ca => .ok (θ, (fitMeanFieldCA C (M θ) s d iters).1)
  | .bfgs => .error .typeError
  | .collapsedBfgs => .ok (collapsedPhase C M min d iters θ s)
  | .caCollapsedBfgs =>
    let r := collapsedPhase C M min d iters θ (fitMeanFieldCA C (M θ) s d iters).1
    .ok (r.1, (fitMeanFieldCA C (M r.1) r.2 d iters).1)
  | .caBfgs => .error .valueError

end Gpcm
