import Verif.Model.ExpPolyInt
import Mathlib.Analysis.SpecialFunctions.Pow.Real
import Mathlib.Algebra.Order.Floor.Ring

/-!
# Model of `gpcm/gpcm.py` (lines 18-219, 222-238, 255-286, 305-484)

The constructor of `GPCM`, the exponentiated polynomials `k_h` and `k_xs`, and the six `compute_*`
functions. Numbers are real. Not modelled here: the flags `fix_noise`, `fix_window`, `fix_scale`,
the scheme, the warnings, `k_h()` as an `mlkernels` kernel. A division by an exact zero in the
grids, which NumPy turns into infinite or undefined inducing points, is the exception
`zeroDivision`. A `window`, `scale` or `alpha` that is exactly zero (where the code raises or gives infinite points
too) is given the value of Lean's division instead of an exception: for these inputs the model returns more often than
the code, so what is proved of every returned model still covers the code. Tensors are nested lists; broadcasting is a
nested comprehension.
-/

open Real

namespace Gpcm

/-- `scale_to_factor` (gpcm.py:18-27). -/
noncomputable def scaleToFactor (s : ℝ) : ℝ := π / 2 / (2 * s ^ 2)

/-- `factor_to_scale` (gpcm.py:30-39). -/
noncomputable def factorToScale (f : ℝ) : ℝ := 1 / √(4 * f / π)

/-- `B.linspace(a, b, n)`. -/
noncomputable def linspace (a b : ℝ) (n : ℤ) : Except PyErr (List ℝ) :=
  if n < 0 then .error .valueError
  else .ok ((List.range n.toNat).map fun i : ℕ => a + (b - a) / ((n : ℝ) - 1) * (i : ℝ))

/-- Use of an optional argument that is `None`. -/
def need {α : Type} : Option α → Except PyErr α
  | none => .error .typeError
  | some a => .ok a

/-- `max(t)` of a list (`ValueError` if it is empty). -/
noncomputable def pyMax : List ℝ → Except PyErr ℝ
  | [] => .error .valueError
  | a :: l => .ok (l.foldl max a)

/-- `min(t)` of a list (`ValueError` if it is empty). -/
noncomputable def pyMin : List ℝ → Except PyErr ℝ
  | [] => .error .valueError
  | a :: l => .ok (l.foldl min a)

/-- Arguments of `GPCM.__init__` (gpcm.py:84-106). -/
structure GpcmArgs where
  causal : Bool := false
  noise : ℝ := 0.05
  alpha : Option ℝ := none
  alphaT : Option ℝ := none
  window : Option ℝ := none
  gamma : Option ℝ := none
  scale : Option ℝ := none
  omega : Option ℝ := none
  nU : Option ℤ := none
  nUCap : ℤ := 300
  tU : Option (List ℝ) := none
  nZ : Option ℤ := none
  nZCap : ℤ := 300
  tZ : Option (List ℝ) := none
  extendTZ : Bool := false
  t : Option (List ℝ) := none

/-- Attributes set by `GPCM.__init__` (gpcm.py:134-140, 206-219). -/
structure GpcmModel where
  causal : Bool
  noise : ℝ
  alpha : ℝ
  alphaT : ℝ
  gamma : ℝ
  extent : ℝ
  nU : ℤ
  tU : List ℝ
  nZ : ℤ
  tZ : List ℝ
  omega : ℝ
  omegaT : ℝ

/-- `alpha` (gpcm.py:122-123). -/
noncomputable def initAlpha (a : GpcmArgs) : Except PyErr ℝ :=
  match a.alpha with
  | some x => .ok x
  | none => bind1 (need a.window) fun w => .ok (scaleToFactor w)

/-- `alpha_t` (gpcm.py:125-129). -/
noncomputable def initAlphaT (a : GpcmArgs) (alpha : ℝ) : ℝ :=
  match a.alphaT with
  | some x => x
  | none => if a.causal then (8 * alpha / π) ^ (0.25 : ℝ) else (2 * alpha / π) ^ (0.25 : ℝ)

/-- `gamma` (gpcm.py:131-132). -/
noncomputable def initGamma (a : GpcmArgs) (alpha : ℝ) : Except PyErr ℝ :=
  match a.gamma with
  | some x => .ok x
  | none => bind1 (need a.scale) fun s => .ok (scaleToFactor s - 0.5 * alpha)

/-- The number of inducing points before they are placed (gpcm.py:148-158). -/
noncomputable def autoNU (a : GpcmArgs) : Except PyErr ℤ :=
  match a.nU with
  | some n => .ok n
  | none =>
    bind1 (need a.window) fun w =>
    bind1 (need a.scale) fun s =>
    let n : ℤ := ⌈2 * 2 * w / s⌉
    if n > a.nUCap then .ok a.nUCap else .ok n

/-- `t_u` and `n_u` (gpcm.py:142-171). -/
noncomputable def initTU (a : GpcmArgs) (alpha : ℝ) : Except PyErr (ℤ × List ℝ) :=
  match a.tU with
  | some tU => .ok (a.nU.getD tU.length, tU)
  | none =>
    let m := 2 * factorToScale alpha
    bind1 (autoNU a) fun n =>
    if a.causal then
      if n - 1 = 0 then .error .zeroDivision
      else
        let d := m / (((n - 1 : ℤ)) : ℝ)
        bind1 (linspace (-2 * d) m (n + 2)) fun tU => .ok (n + 2, tU)
    else
      let n := if n % 2 = 0 then n + 1 else n
      bind1 (linspace (-m) m n) fun tU => .ok (n, tU)

/-- The number of inducing points before they are placed (gpcm.py:174-183). -/
noncomputable def autoNZ (a : GpcmArgs) : Except PyErr ℤ :=
  match a.nZ with
  | some n => .ok n
  | none =>
    bind1 (need a.t) fun t =>
    bind1 (pyMax t) fun hi =>
    bind1 (pyMin t) fun lo =>
    bind1 (need a.scale) fun s =>
    let n : ℤ := ⌈2 * (hi - lo) / s⌉
    if n > a.nZCap then .ok a.nZCap else .ok n

/-- `t_z` and `n_z` before the extension (gpcm.py:173-188). -/
noncomputable def initTZ (a : GpcmArgs) : Except PyErr (ℤ × List ℝ) :=
  match a.tZ with
  | some tZ => .ok (a.nZ.getD tZ.length, tZ)
  | none =>
    bind1 (autoNZ a) fun n =>
    bind1 (need a.t) fun t =>
    bind1 (pyMin t) fun lo =>
    bind1 (pyMax t) fun hi =>
    bind1 (linspace lo hi n) fun tZ => .ok (n, tZ)

/-- The extension of `t_z` (gpcm.py:190-204). -/
noncomputable def extendTZ (a : GpcmArgs) (alpha : ℝ) (s : ℤ × List ℝ) :
    Except PyErr (ℤ × List ℝ) :=
  if a.extendTZ = false then .ok s
  else
    bind1 (need a.t) fun t =>
    bind1 (pyMax t) fun hi =>
    bind1 (pyMin t) fun lo =>
    let extra := 2 * factorToScale alpha
    if s.1 - 1 = 0 then .error .zeroDivision
    else
      let d := (hi - lo) / (((s.1 - 1 : ℤ)) : ℝ)
      if d = 0 then .error .zeroDivision
      else
        let n : ℤ := ⌈extra / d⌉
        let extra := (n : ℝ) * d
        if a.causal then
          bind1 (linspace (lo - extra) hi (s.1 + n)) fun tZ => .ok (s.1 + n, tZ)
        else
          bind1 (linspace (lo - extra) (hi + extra) (s.1 + 2 * n)) fun tZ => .ok (s.1 + 2 * n, tZ)

/-- `omega` (gpcm.py:212-213). -/
noncomputable def initOmega (a : GpcmArgs) (tZ : List ℝ) : Except PyErr ℝ :=
  match a.omega with
  | some x => .ok x
  | none =>
    match tZ with
    | z0 :: z1 :: _ => .ok (scaleToFactor (0.5 * (z1 - z0)))
    | _ => .error .indexError

/-- `GPCM.__init__` (gpcm.py:84-219). -/
noncomputable def GpcmModel.new (a : GpcmArgs) : Except PyErr GpcmModel :=
  bind1 (initAlpha a) fun alpha =>
  bind1 (initGamma a alpha) fun gamma =>
  bind1 (initTU a alpha) fun u =>
  bind1 (bind1 (initTZ a) (extendTZ a alpha)) fun z =>
  bind1 (initOmega a z.2) fun omega =>
  .ok
    { causal := a.causal
      noise := a.noise
      alpha := alpha
      alphaT := initAlphaT a alpha
      gamma := gamma
      extent := 4 * factorToScale alpha
      nU := u.1
      tU := u.2
      nZ := z.1
      tZ := z.2
      omega := omega
      omegaT := (2 * omega / π) ^ (0.25 : ℝ) }

/-- Values of the variables that are learned (gpcm.py:268-286). -/
structure GpcmLearned where
  noise : ℝ
  alpha : ℝ
  alphaT : ℝ
  gamma : ℝ
  omega : ℝ
  tU : List ℝ
  tZ : List ℝ

/-- What the constraints on the variables guarantee about their values: `positive` (gpcm.py:271-277),
and `bounded` by 1.5 times the extremes of `t_u` (gpcm.py:280-285). -/
structure GpcmLearned.Valid (θ : GpcmLearned) (g : GpcmModel) : Prop where
  noise : 0 < θ.noise
  alpha : 0 < θ.alpha
  alphaT : 0 < θ.alphaT
  gamma : 0 < θ.gamma
  omega : 0 < θ.omega
  lenU : θ.tU.length = g.tU.length
  lenZ : θ.tZ.length = g.tZ.length
  lower : ∀ lo, pyMin g.tU = .ok lo → ∀ x ∈ θ.tU, lo * 1.5 < x
  upper : ∀ hi, pyMax g.tU = .ok hi → ∀ x ∈ θ.tU, x < hi * 1.5

/-- `GPCM.__prior__` (gpcm.py:268-288), for the values `θ` of the variables: the parameters that are
not fixed are replaced, `omega_t` is kept. The flags are those of the constructor. -/
def GpcmModel.prior (g : GpcmModel) (fixNoise fixWindow fixScale : Bool) (θ : GpcmLearned) :
    GpcmModel :=
  { g with
    noise := if fixNoise then g.noise else θ.noise
    alpha := if fixWindow then g.alpha else θ.alpha
    alphaT := θ.alphaT
    gamma := if fixScale then g.gamma else θ.gamma
    omega := θ.omega
    omegaT := g.omegaT
    tU := θ.tU
    tZ := θ.tZ }

variable (R : Runtime ℝ)

/-- The exponent in `GPCM.k_h` (gpcm.py:234-237). -/
def khExpr (alpha gamma : ℝ) (t1 t2 : Expr ℝ) : Expr ℝ :=
  .neg (.add (.mul (.const alpha) (.add (.pow t1 2) (.pow t2 2)))
    (.mul (.const gamma) (.pow (.sub t1 t2) 2)))

/-- `GPCM.k_h(t1, t2)` (gpcm.py:221-238) for inputs that are polynomial expressions. -/
noncomputable def GpcmModel.kh (g : GpcmModel) (t1 t2 : Expr ℝ) : Except PyErr ExpPoly :=
  bind1 ((khExpr g.alpha g.gamma t1 t2).run R) (ExpPoly.new (g.alphaT ^ 2))

/-- The exponent in `GPCM.k_xs` (gpcm.py:266). -/
def kxsExpr (omega : ℝ) (t1 t2 : Expr ℝ) : Expr ℝ :=
  .mul (.neg (.const omega)) (.pow (.sub t1 t2) 2)

/-- `GPCM.k_xs(t1, t2)` (gpcm.py:255-266). -/
noncomputable def GpcmModel.kxs (g : GpcmModel) (t1 t2 : Expr ℝ) : Except PyErr ExpPoly :=
  bind1 ((kxsExpr g.omega t1 t2).run R) (ExpPoly.new g.omegaT)

/-- Keyword arguments `name=value`. -/
def kwargs (l : List (String × ℝ)) : String → Option ℝ := fun z => l.lookup z

/-- The upper limit of the integrals: a variable for the causal model, else infinity
(gpcm.py:356-359 and likewise in the other functions). -/
def GpcmModel.upper (g : GpcmModel) (x : String) : Except PyErr Lim :=
  if g.causal then bind1 (Poly.var R x) fun p => .ok (.poly p) else .ok .inf

/-- One entry of `compute_K_u` (gpcm.py:305-320). -/
noncomputable def GpcmModel.kuEntry (g : GpcmModel) (a b : ℝ) : Except PyErr ℝ :=
  bind1 (g.kh R (.var "t1") (.var "t2")) fun e => e.eval (kwargs [("t1", a), ("t2", b)])

/-- `compute_K_u` (gpcm.py:305-320). -/
noncomputable def GpcmModel.computeKu (g : GpcmModel) : Except PyErr (List (List ℝ)) :=
  mapE (fun a => mapE (fun b => g.kuEntry R a b) g.tU) g.tU

/-- One entry of `compute_K_z` (gpcm.py:323-334). -/
noncomputable def GpcmModel.kzEntry (g : GpcmModel) (a b : ℝ) : Except PyErr ℝ :=
  bind1 (g.kxs R (.var "t1") (.var "tau")) fun e1 =>
  bind1 (g.kxs R (.var "tau") (.var "t2")) fun e2 =>
  bind1 (e1.mul R e2) fun e => e.integrate R ["tau"] (kwargs [("t1", a), ("t2", b)])

/-- `compute_K_z` (gpcm.py:323-334). -/
noncomputable def GpcmModel.computeKz (g : GpcmModel) : Except PyErr (List (List ℝ)) :=
  mapE (fun a => mapE (fun b => g.kzEntry R a b) g.tZ) g.tZ

/-- `compute_i_hx` (gpcm.py:337-363) for scalar inputs; the default of both inputs is zero. -/
noncomputable def GpcmModel.ihx (g : GpcmModel) (t1 t2 : ℝ) : Except PyErr ℝ :=
  bind1 (g.kh R (.sub (.var "t1") (.var "tau")) (.sub (.var "t2") (.var "tau"))) fun e =>
  bind1 (g.upper R "min_t1_t2") fun u =>
  e.integrateBox R [("tau", .inf, u)] (kwargs [("t1", t1), ("t2", t2), ("min_t1_t2", min t1 t2)])

/-- One entry of `compute_I_ux` (gpcm.py:366-419). -/
noncomputable def GpcmModel.iuxEntry (g : GpcmModel) (t1 t2 u1 u2 : ℝ) : Except PyErr ℝ :=
  bind1 (g.kh R (.sub (.var "t1") (.var "tau")) (.var "t_u_1")) fun e1 =>
  bind1 (g.kh R (.var "t_u_2") (.sub (.var "t2") (.var "tau"))) fun e2 =>
  bind1 (e1.mul R e2) fun e =>
  bind1 (g.upper R "min_t1_t2") fun u =>
  e.integrateBox R [("tau", .inf, u)] (kwargs
    [("t1", t1), ("t2", t2), ("t_u_1", u1), ("t_u_2", u2), ("min_t1_t2", min t1 t2)])

/-- `compute_I_ux` (gpcm.py:366-419) with both inputs given; axes `t1, t2, t_u, t_u`. -/
noncomputable def GpcmModel.computeIux (g : GpcmModel) (t1 t2 : List ℝ) :
    Except PyErr (List (List (List (List ℝ)))) :=
  mapE (fun a => mapE (fun b => mapE (fun u => mapE (fun v => g.iuxEntry R a b u v) g.tU) g.tU) t2) t1

/-- `compute_I_ux(model)` (gpcm.py:366-419) without inputs: both are zero and their axes are
squeezed away. -/
noncomputable def GpcmModel.computeIux0 (g : GpcmModel) : Except PyErr (List (List ℝ)) :=
  mapE (fun u => mapE (fun v => g.iuxEntry R 0 0 u v) g.tU) g.tU

/-- One entry of `compute_I_hz` (gpcm.py:422-457). -/
noncomputable def GpcmModel.ihzEntry (g : GpcmModel) (t z1 z2 : ℝ) : Except PyErr ℝ :=
  bind1 (g.kh R (.sub (.var "t") (.var "tau1")) (.sub (.var "t") (.var "tau2"))) fun e1 =>
  bind1 (g.kxs R (.var "tau1") (.var "t_z_1")) fun e2 =>
  bind1 (e1.mul R e2) fun e12 =>
  bind1 (g.kxs R (.var "t_z_2") (.var "tau2")) fun e3 =>
  bind1 (e12.mul R e3) fun e =>
  bind1 (g.upper R "t") fun u1 =>
  bind1 (g.upper R "t") fun u2 =>
  e.integrateBox R [("tau1", .inf, u1), ("tau2", .inf, u2)]
    (kwargs [("t", t), ("t_z_1", z1), ("t_z_2", z2)])

/-- `compute_I_hz` (gpcm.py:422-457); axes `t, t_z, t_z`. -/
noncomputable def GpcmModel.computeIhz (g : GpcmModel) (t : List ℝ) :
    Except PyErr (List (List (List ℝ))) :=
  mapE (fun a => mapE (fun z1 => mapE (fun z2 => g.ihzEntry R a z1 z2) g.tZ) g.tZ) t

/-- One entry of `compute_I_uz` (gpcm.py:460-484). -/
noncomputable def GpcmModel.iuzEntry (g : GpcmModel) (t u z : ℝ) : Except PyErr ℝ :=
  bind1 (g.kh R (.sub (.var "t") (.var "tau")) (.var "t_u")) fun e1 =>
  bind1 (g.kxs R (.var "tau") (.var "t_z")) fun e2 =>
  bind1 (e1.mul R e2) fun e =>
  bind1 (g.upper R "t") fun up =>
  e.integrateBox R [("tau", .inf, up)] (kwargs [("t", t), ("t_u", u), ("t_z", z)])

/-- `compute_I_uz` (gpcm.py:460-484); axes `t, t_u, t_z`. -/
noncomputable def GpcmModel.computeIuz (g : GpcmModel) (t : List ℝ) :
    Except PyErr (List (List (List ℝ))) :=
  mapE (fun a => mapE (fun u => mapE (fun z => g.iuzEntry R a u z) g.tZ) g.tU) t

end Gpcm
