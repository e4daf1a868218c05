import Verif.Model.GPCM
import Verif.Model.RGPCM
import Verif.Model.Vars

/-!
# Model of `__prior__` (`gpcm/gpcm.py`, `gpcm/rgpcm.py`) with its variable container

Every instantiation of a model runs `__prior__`, which asks the variable container for the parameters that are not
fixed; a variable that does not exist is created. All variables are vectors; a scalar is a vector of length one. `none`
is a parameter that is NaN: `varz` computes logarithms of negative numbers for an initial value outside the bounds.
-/

open Real

namespace Gpcm

/-- A constraint on all elements of a vector. -/
def Constraint.vector (c : Constraint ℝ) : Constraint (List ℝ) where
  fwd := List.map c.fwd
  inv := List.map c.inv
  dom v := ∀ x ∈ v, c.dom x
  maps v x hx := by
    obtain ⟨y, -, rfl⟩ := List.mem_map.1 hx
    exact c.maps y
  right v hv := by
    rw [List.map_map]
    conv_rhs => rw [← List.map_id v]
    exact List.map_congr_left fun x hx => c.right x (hv x hx)

/-- The variables of a model. -/
abbrev Store := Vars String (List ℝ)

/-- The flags `fix_noise`, `fix_window` and `fix_scale` (gpcm.py:113-115, rgpcm.py:92-94). -/
structure Flags where
  noise : Bool := false
  window : Bool := false
  scale : Bool := false

open Classical in
/-- `self.ps.positive(init, name=...)` and its siblings: the value of the variable, created if it does not exist. -/
noncomputable def askVec (n : String) (c : Constraint ℝ) (init : List ℝ) (vs : Store) : Option (List ℝ × Store) :=
  if n ∈ vs.names ∨ c.vector.dom init then
    let r := vs.getOrInit n c.vector init
    r.1.map fun v => (v, r.2)
  else none

/-- The same for a scalar. -/
noncomputable def ask (n : String) (c : Constraint ℝ) (init : ℝ) (vs : Store) : Option (ℝ × Store) :=
  (askVec n c [init] vs).bind fun r => match r.1 with
    | [x] => some (x, r.2)
    | _ => none

/-- `if not fixed: x = ask(...)`. -/
noncomputable def askUnless (fixed : Bool) (n : String) (c : Constraint ℝ) (init : ℝ) (vs : Store) :
    Option (ℝ × Store) := if fixed then some (init, vs) else ask n c init vs

open Classical in
/-- `self.ps.bounded(init, lower=lo, upper=hi, name=...)` for a vector. -/
noncomputable def askBounded (n : String) (lo hi : ℝ) (init : List ℝ) (vs : Store) : Option (List ℝ × Store) :=
  if h : lo < hi then askVec n (Constraint.bounded lo hi h) init vs else none

/-- `GPCM.__prior__` up to the kernel matrices (gpcm.py:268-286). Simplified: `lower` and `upper` of an existing
variable are not looked at, as in `varz`; they still have to exist. -/
noncomputable def GpcmModel.instantiate (g : GpcmModel) (f : Flags) (vs : Store) : Option (GpcmModel × Store) :=
  match pyMin g.tU, pyMax g.tU with
  | .ok lo, .ok hi =>
    (askUnless f.noise "noise" .positive g.noise vs).bind fun noise =>
    (askUnless f.window "alpha" .positive g.alpha noise.2).bind fun alpha =>
    (ask "alpha_t" .positive g.alphaT alpha.2).bind fun alphaT =>
    (askUnless f.scale "gamma" .positive g.gamma alphaT.2).bind fun gamma =>
    (ask "omega" .positive g.omega gamma.2).bind fun omega =>
    (askBounded "t_u" (lo * 1.5) (hi * 1.5) g.tU omega.2).bind fun tU =>
    (askVec "t_z" .unbounded g.tZ tU.2).bind fun tZ =>
    some ({ g with
      noise := noise.1
      alpha := alpha.1
      alphaT := alphaT.1
      gamma := gamma.1
      omega := omega.1
      tU := tU.1
      tZ := tZ.1 }, tZ.2)
  | _, _ => none

/-- `RGPCM.__prior__` up to the kernel matrices (rgpcm.py:191-217). -/
noncomputable def RgpcmModel.instantiate (g : RgpcmModel) (f : Flags) (vs : Store) : Option (RgpcmModel × Store) :=
  match pyMax g.tU with
  | .ok hi =>
    let gammaFactorInit := g.alpha / g.gamma
    (askUnless f.noise "noise" .positive g.noise vs).bind fun noise =>
    (askUnless f.window "alpha" .positive g.alpha noise.2).bind fun alpha =>
    (ask "alpha_t" .positive g.alphaT alpha.2).bind fun alphaT =>
    (askUnless f.scale "lambda" .positive g.lam alphaT.2).bind fun lam =>
    (ask "gamma_factor" (.bounded 1 1e4 (by norm_num)) gammaFactorInit lam.2).bind fun factor =>
    (askBounded "t_u" (-1e-4) (hi * 1.5) g.tU factor.2).bind fun tU =>
    some ({ g with
      noise := noise.1
      alpha := alpha.1
      alphaT := alphaT.1
      lam := lam.1
      gamma := alpha.1 / factor.1
      tU := tU.1 }, tU.2)
  | .error _ => none

end Gpcm
