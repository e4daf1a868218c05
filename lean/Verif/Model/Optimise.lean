import Verif.Model.Prior

/-!
# Model of what training does to the variable container

The minimisers of `varz` read the latent values of the variables that they are given and, after every step, write the
ones that they chose. Which ones they choose is left open.
-/

namespace Gpcm

/-- What `minimise_adam` and `minimise_l_bfgs_b` leave in `model.vs` (approx.py:768-776, 813-820, 835-842): the latent values
`x` that the minimiser found for the variables that it sees, `visible`, and that `names` selects. The others keep theirs. -/
def Vars.optimise {N V : Type} (vs : Vars N V) (names : N → Bool) (x : N → V) : Vars N V :=
  vs.map fun p => if p.2.visible && names p.1 then (p.1, { p.2 with latent := x p.1 }) else p

/-- Any number of trainings, one after the other. -/
def Vars.train {N V : Type} (vs : Vars N V) (steps : List ((N → Bool) × (N → V))) : Vars N V :=
  steps.foldl (fun vs s => vs.optimise s.1 s.2) vs

/-- The minimiser works on one vector, which is cut into pieces of the shapes of the variables: shapes do not change. -/
def Shaped (vs : Store) (steps : List ((String → Bool) × (String → List ℝ))) : Prop :=
  ∀ s ∈ steps, ∀ n v, vs.get n = some v → (s.2 n).length = v.latent.length

end Gpcm
