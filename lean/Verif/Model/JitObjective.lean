import Verif.Model.Optimise

/-!
# Model of the compilation of objectives (experiments/paper/compare_inference.py)

`jit` runs an objective once, and compiles a function of one vector that copies the variable container, sets the latent values in the copy
and evaluates the objective. `varz` and the compiler are dependencies: what the script relies on is written down here. The vector
consists of the latent values of the variables that are visible, one after the other. A compiled function is traced when it is called with
a vector of a new length; what it reads besides the vector is that of the time of tracing.
-/

namespace Gpcm.Jit

/-- `vs.get_latent_vector()`, called in compare_inference.py:58. -/
def latentVector (vs : Store) : List ℝ := (vs.map fun p => if p.2.visible then p.2.latent else []).flatten

/-- `vs.set_latent_vector(params)`, called in compare_inference.py:54. Vectors of another length cannot be cut into pieces. -/
def setLatent : Store → List ℝ → Except PyErr Store
  | [], [] => .ok []
  | [], _ :: _ => .error .valueError
  | (n, v) :: vs, x =>
    if v.visible then
      if x.length < v.latent.length then .error .valueError
      else
        match setLatent vs (x.drop v.latent.length) with
        | .error e => .error e
        | .ok l => .ok ((n, { v with latent := x.take v.latent.length }) :: l)
    else
      match setLatent vs x with
      | .error e => .error e
      | .ok l => .ok ((n, v) :: l)

/-- An objective (compare_inference.py:102-104, 142-149): its value, and the container after it created the variables it missed.
The mean-field bounds do not use the random state that they are given, so a function of the container suffices. -/
abbrev Objective := Store → Except PyErr ℝ × Store

/-- The first run of `jit` (compare_inference.py:47-49): what it leaves in the container. -/
def firstRun (f : Objective) (vs : Store) : Store := (f vs).2

/-- `objective_vectorised` (compare_inference.py:51-55) when the copy is one of `vs`. -/
def vectorised (f : Objective) (vs : Store) (params : List ℝ) : Except PyErr ℝ :=
  match setLatent vs params with
  | .error e => .error e
  | .ok c => (f c).1

/-- The containers that were copied when the function was traced, by the length of the vector. -/
abbrev Traces := ℕ → Option Store

/-- `objective_wrapped(vs_)` (compare_inference.py:57-58) when the container of the model is `vs`. A trace that raises is not kept. -/
def wrapped (f : Objective) (vs : Store) (tr : Traces) (vs_ : Store) : Except PyErr ℝ × Traces :=
  let params := latentVector vs_
  let copy := (tr params.length).getD vs
  match vectorised f copy params with
  | .error e => (.error e, tr)
  | .ok x => (.ok x, fun k => if k = params.length then some copy else tr k)

/-- A sequence of calls: the container of the model at the time of the call, and the argument. -/
def calls (f : Objective) : List (Store × Store) → Traces → List (Except PyErr ℝ)
  | [], _ => []
  | c :: cs, tr =>
    let r := wrapped f c.1 tr c.2
    r.1 :: calls f cs r.2

end Gpcm.Jit
