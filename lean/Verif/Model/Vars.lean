import Verif.Model.Py
import Mathlib.Analysis.SpecialFunctions.Log.Basic

/-!
# Model of the variable container, `save` and `load`

The variable container is that of `varz`, a dependency; what `gpcm` relies on is written down here: a variable
has a latent value, a bijection onto the set its constraint allows, and a flag that says whether an optimiser
may see it. Pickling is an arbitrary codec; the file system is the content of one path.
-/

open Real

namespace Gpcm

/-- A constraint on a variable: how the container stores (`inv`) and reads (`fwd`) values. -/
structure Constraint (V : Type) where
  fwd : V → V
  inv : V → V
  /-- The values the constraint allows. -/
  dom : V → Prop
  maps : ∀ x, dom (fwd x)
  right : ∀ v, dom v → fwd (inv v) = v

/-- `vs.unbounded`. -/
def Constraint.unbounded {V : Type} : Constraint V := ⟨id, id, fun _ => True, fun _ => trivial, fun _ _ => rfl⟩

/-- `vs.positive` for scalars. -/
noncomputable def Constraint.positive : Constraint ℝ :=
  ⟨exp, log, fun v => 0 < v, exp_pos, fun _ h => exp_log h⟩

/-- `vs.bounded` for scalars. -/
noncomputable def Constraint.bounded (lo hi : ℝ) (h : lo < hi) : Constraint ℝ where
  fwd x := lo + (hi - lo) / (1 + exp x)
  inv v := log ((hi - v) / (v - lo))
  dom v := lo < v ∧ v < hi
  maps x := by
    have h1 := exp_pos x
    have h2 : 0 < hi - lo := sub_pos.2 h
    constructor
    · have : 0 < (hi - lo) / (1 + exp x) := by positivity
      linarith
    · have : (hi - lo) / (1 + exp x) < hi - lo := by
        rw [div_lt_iff₀ (by positivity)]
        nlinarith
      linarith
  right v hv := by
    have h1 : 0 < hi - v := sub_pos.2 hv.2
    have h2 : 0 < v - lo := sub_pos.2 hv.1
    rw [exp_log (by positivity)]
    have h3 : hi - lo ≠ 0 := by linarith
    have : 1 + (hi - v) / (v - lo) = (hi - lo) / (v - lo) := by field_simp; ring
    rw [this]
    field_simp
    ring

/-- A variable. -/
structure Var (V : Type) where
  constraint : Constraint V
  latent : V
  visible : Bool

/-- The value of a variable, `vs[name]`. -/
def Var.value {V : Type} (v : Var V) : V := v.constraint.fwd v.latent

/-- The variables, in the order in which they were created. -/
abbrev Vars (N V : Type) := List (N × Var V)

section
variable {N V : Type} [DecidableEq N]

/-- The variable of a name. -/
def Vars.get : Vars N V → N → Option (Var V)
  | [], _ => none
  | (n, v) :: vs, m => if n = m then some v else Vars.get vs m

/-- `vs[name]`, if the variable exists. -/
def Vars.value (vs : Vars N V) (n : N) : Option V := (vs.get n).map Var.value

/-- `vs.names`. -/
def Vars.names (vs : Vars N V) : List N := vs.map Prod.fst

/-- `vs.assign(name, value)` for an existing variable. -/
def Vars.assign (vs : Vars N V) (n : N) (x : V) : Vars N V :=
  vs.map fun p => if p.1 = n then (p.1, { p.2 with latent := p.2.constraint.inv x }) else p

/-- `vs.unbounded(init, visible, name)` and its constrained siblings: create a variable, unless it
exists. -/
def Vars.declare (vs : Vars N V) (n : N) (c : Constraint V) (init : V) (visible : Bool) : Vars N V :=
  if n ∈ vs.names then vs else vs ++ [(n, ⟨c, c.inv init, visible⟩)]

/-- What `ps.name.positive(init)` and its siblings return: the current value, after creating the variable if
necessary. -/
def Vars.getOrInit (vs : Vars N V) (n : N) (c : Constraint V) (init : V) : Option V × Vars N V :=
  let vs' := vs.declare n c init true
  (vs'.value n, vs')

/-- The names an optimiser trains when all variables are asked for: the visible ones. -/
def Vars.trainable (vs : Vars N V) : List N := (vs.filter fun p => p.2.visible).map Prod.fst

/-- What unpickling gives: a dictionary of values, or something else. -/
inductive Obj (N V : Type)
  | dict (d : List (N × V))
  | other

/-- A pickling format: bytes, of type `β`. Only that reading inverts writing is assumed, and that
reading a proper prefix of a pickle fails, as pickles end with a stop code. -/
structure Codec (N V β : Type) where
  dumps : List (N × V) → List β
  loads : List β → Except PyErr (Obj N V)
  loads_dumps : ∀ d, loads (dumps d) = .ok (.dict d)
  loads_prefix : ∀ d k, k < (dumps d).length → ∃ e, loads ((dumps d).take k) = .error e

/-- The data that `save` pickles (model.py:255). -/
def saveData (vs : Vars N V) : List (N × V) := vs.map fun p => (p.1, p.2.value)

variable {β : Type}

/-- The content of the file, `none` if it does not exist, after `save` (model.py:249-257) was interrupted:
never opened (`none`), or opened, which truncates the file, and then written up to some byte. A
completed `save` has written everything. -/
def saveInterrupted (F : Codec N V β) (vs : Vars N V) (old : Option (List β)) (at_ : Option ℕ) :
    Option (List β) :=
  match at_ with
  | none => old
  | some k => some ((F.dumps (saveData vs)).take k)

/-- `save` (model.py:249-257). -/
def save (F : Codec N V β) (vs : Vars N V) : Option (List β) := some (F.dumps (saveData vs))

/-- One iteration of the loop in `load` (model.py:267-274). -/
def loadStep (vs : Vars N V) (p : N × V) : Vars N V :=
  if p.1 ∈ vs.names then vs.assign p.1 p.2
  else vs.declare p.1 .unbounded p.2 false

/-- `load` (model.py:259-274): the variables afterwards and whether an exception was raised. -/
def load (F : Codec N V β) (file : Option (List β)) (vs : Vars N V) : Vars N V × Except PyErr Unit :=
  match file with
  | none => (vs, .error .osError)
  | some bytes =>
    match F.loads bytes with
    | .error e => (vs, .error e)
    | .ok .other => (vs, .error .attributeError)
    | .ok (.dict d) => (d.foldl loadStep vs, .ok ())

end

end Gpcm
