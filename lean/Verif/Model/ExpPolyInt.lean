import Verif.Model.Built
import Verif.Spec.Integrals

/-!
# Model of `gpcm/exppoly.py`: `ExpPoly` and its integrals (exppoly.py:13-34, 471-733)

Numbers are real. `B.exp`, `B.erf`, `B.bvn_cdf`, `B.pi`, `B.sqrt`, `B.maximum` are the mathematical
functions. Division by an exact zero (which in floating point gives an infinity, not an exception,
for the tensors of the library) is outside the domain of the theorems that mention values.
-/

open Real

namespace Gpcm

/-- `safe_sqrt` (exppoly.py:13-22). -/
noncomputable def safeSqrt (x : ℝ) : ℝ := √(max x 1e-30)

/-- `ExpPoly` (exppoly.py:481-496): a constant times an exponentiated polynomial. -/
structure ExpPoly where
  const : ℝ
  poly : Poly ℝ

variable (R : Runtime ℝ)

/-- `ExpPoly.__init__` (exppoly.py:489-496). The dispatcher rejects an exponent that is not a
`Poly`, e.g. the integer that `Poly.substitute` returns for a polynomial without terms. -/
def ExpPoly.new (c : ℝ) (x : PyVal ℝ) : Except PyErr ExpPoly :=
  match x with
  | .poly p => .ok ⟨c, p⟩
  | _ => .error .notFoundLookup

/-- `ExpPoly.substitute` (exppoly.py:498-509). -/
def ExpPoly.substitute (e : ExpPoly) (x : String) (q : Poly ℝ) : Except PyErr ExpPoly :=
  bind1 (e.poly.substitute R x q) (ExpPoly.new e.const)

/-- `ExpPoly.translate_var` (exppoly.py:606-618). -/
def ExpPoly.translateVar (e : ExpPoly) (x : String) (q : Poly ℝ) : Except PyErr ExpPoly :=
  bind1 (Poly.var R x) fun xv =>
  bind1 (xv.add R q) fun s =>
  bind1 (e.poly.substitute R x s) (ExpPoly.new e.const)

/-- `ExpPoly.eval` (exppoly.py:511-520). -/
noncomputable def ExpPoly.eval (e : ExpPoly) (m : String → Option ℝ) : Except PyErr ℝ :=
  bind1 (e.poly.eval m) fun a => .ok (e.const * exp a)

/-- `ExpPoly.__mul__` with another `ExpPoly` (exppoly.py:721-723). -/
def ExpPoly.mul (e f : ExpPoly) : Except PyErr ExpPoly :=
  bind1 (e.poly.add R f.poly) fun p => .ok ⟨e.const * f.const, p⟩

/-- `ExpPoly.__mul__` with a number (exppoly.py:725-727) and `__rmul__` (exppoly.py:729-730). -/
def ExpPoly.mulNum (e : ExpPoly) (c : ℝ) : ExpPoly := ⟨e.const * c, e.poly⟩

/-- `ExpPoly.__neg__` (exppoly.py:732-733). -/
def ExpPoly.neg (e : ExpPoly) : ExpPoly := ⟨-e.const, e.poly⟩

/-- `ExpPoly._integrate` (exppoly.py:620-635). -/
noncomputable def ExpPoly.integrate1 (e : ExpPoly) (x : String) : Except PyErr ExpPoly :=
  bind1 (e.poly.highestPower x) fun h =>
  if h ≠ 2 then .error .runtimeError
  else
    bind1 (e.poly.collectFor R ⟨x, 2⟩) fun a =>
    bind1 (e.poly.collectFor R ⟨x, 1⟩) fun b =>
    bind1 (e.poly.reject R x) fun c =>
    if a.isConstant = false then .error .runtimeError
    else
      bind1 (a.eval fun _ => none) fun a =>
      bind1 (Term.new R (-0.25 / a) []) fun t =>
      bind1 (Poly.new R [t]) fun p =>
      bind1 (PyVal.powPoly R b 2) fun b2 =>
      bind1 (PyVal.mul R (.poly p) b2) fun pb =>
      bind1 (PyVal.add R pb (.poly c)) fun q =>
      ExpPoly.new (e.const * safeSqrt (-π / a)) q

/-- `ExpPoly.integrate` (exppoly.py:522-536). -/
noncomputable def ExpPoly.integrate (e : ExpPoly) (names : List String) (m : String → Option ℝ) :
    Except PyErr ℝ :=
  bind1 (foldE (fun eq x => eq.integrate1 R x) e names) fun eq => eq.eval m

/-- `ExpPoly._integrate_half1` (exppoly.py:637-655). -/
noncomputable def ExpPoly.integrateHalf1 (e : ExpPoly) (x : String) (m : String → Option ℝ) :
    Except PyErr ℝ :=
  bind1 (e.poly.highestPower x) fun h =>
  if h ≠ 2 then .error .runtimeError
  else
    bind1 (e.poly.collectFor R ⟨x, 2⟩) fun a =>
    bind1 (e.poly.collectFor R ⟨x, 1⟩) fun b =>
    bind1 (e.poly.reject R x) fun c =>
    bind1 (a.eval m) fun a =>
    bind1 (b.eval m) fun b =>
    bind1 (c.eval m) fun c =>
    .ok (0.5 * e.const * safeSqrt (-π / a) * exp (-0.25 * b ^ 2 / a + c) *
      (1 - erf (0.5 * b / safeSqrt (-a))))

/-- The closed form at the end of `ExpPoly._integrate_half2` (exppoly.py:667-709), elementwise. -/
noncomputable def half2Formula (k a11 a22 a12 b1 b2 c : ℝ) : ℝ :=
  let aDet := a11 * a22 - a12 ^ 2
  let ia11 := a22 / aDet
  let ia12 := -a12 / aDet
  let ia22 := a11 / aDet
  let mu1 := ia11 * b1 + ia12 * b2
  let mu2 := ia12 * b1 + ia22 * b2
  let x1 := -mu1 / safeSqrt ia11
  let x2 := -mu2 / safeSqrt ia22
  let rho := ia12 / safeSqrt (ia11 * ia22)
  let cdfPart := bvnCdf x1 x2 rho
  let quadForm := 0.5 * (ia11 * b1 ^ 2 + ia22 * b2 ^ 2 + 2 * ia12 * b1 * b2)
  let detPart := 2 * π / safeSqrt aDet
  let expPart := detPart * exp (quadForm + c)
  k * cdfPart * expPart

/-- `ExpPoly._integrate_half2` (exppoly.py:657-709). The test on the second name is only evaluated
if the first passes. -/
noncomputable def ExpPoly.integrateHalf2 (e : ExpPoly) (x y : String) (m : String → Option ℝ) :
    Except PyErr ℝ :=
  bind1 (e.poly.highestPower x) fun h1 =>
  if h1 ≠ 2 then .error .runtimeError
  else
    bind1 (e.poly.highestPower y) fun h2 =>
    if h2 ≠ 2 then .error .runtimeError
    else
      bind1 (e.poly.collectFor R ⟨x, 2⟩) fun a11 =>
      bind1 (e.poly.collectFor R ⟨y, 2⟩) fun a22 =>
      bind1 (bind1 (e.poly.collectFor R ⟨x, 1⟩) fun q => q.collectFor R ⟨y, 1⟩) fun a12 =>
      bind1 (bind1 (e.poly.collectFor R ⟨x, 1⟩) fun q => q.reject R y) fun b1 =>
      bind1 (bind1 (e.poly.collectFor R ⟨y, 1⟩) fun q => q.reject R x) fun b2 =>
      bind1 (bind1 (e.poly.reject R x) fun q => q.reject R y) fun c =>
      bind1 (a11.eval m) fun a11 =>
      bind1 (a22.eval m) fun a22 =>
      bind1 (a12.eval m) fun a12 =>
      bind1 (b1.eval m) fun b1 =>
      bind1 (b2.eval m) fun b2 =>
      bind1 (c.eval m) fun c =>
      .ok (half2Formula e.const (-2 * a11) (-2 * a22) (-1 * a12) b1 b2 c)

/-- `ExpPoly.integrate_half` (exppoly.py:538-556). -/
noncomputable def ExpPoly.integrateHalf (e : ExpPoly) (names : List String)
    (m : String → Option ℝ) : Except PyErr ℝ :=
  match names with
  | [x] => e.integrateHalf1 R x m
  | [x, y] => e.integrateHalf2 R x y m
  | _ => .error .notImplemented

/-- An integration limit: infinite (`is_inf`, exppoly.py:25-34, which ignores the sign), a finite
number, or a polynomial. -/
inductive Lim
  | inf
  | num (c : ℝ)
  | poly (p : Poly ℝ)

/-- `is_inf` (exppoly.py:25-34). -/
def Lim.isInf : Lim → Bool
  | .inf => true
  | _ => false

/-- `_as_poly` (exppoly.py:471-478). -/
def Lim.asPoly : Lim → Except PyErr (Poly ℝ)
  | .inf => .error .valueError
  | .num c => Poly.const R c
  | .poly p => .ok p

/-- `is_inf(lower) and is_inf(upper)` (exppoly.py:576). -/
def doublyInf (l : String × Lim × Lim) : Bool := l.2.1.isInf && l.2.2.isInf

/-- Body of the first loop of `integrate_box` (exppoly.py:576-579). -/
noncomputable def boxFilterStep (s : ExpPoly × List (String × Lim × Lim))
    (l : String × Lim × Lim) : Except PyErr (ExpPoly × List (String × Lim × Lim)) :=
  if doublyInf l then bind1 (s.1.integrate1 R l.1) fun ep => .ok (ep, s.2)
  else .ok (s.1, s.2 ++ [l])

/-- First loop of `integrate_box` (exppoly.py:573-580): integrate over doubly infinite variables,
keep the others. -/
noncomputable def boxFilter (e : ExpPoly) (lims : List (String × Lim × Lim)) :
    Except PyErr (ExpPoly × List (String × Lim × Lim)) :=
  foldE (boxFilterStep R) (e, []) lims

/-- Inner loop body of the second loop of `integrate_box` (exppoly.py:591-596): the one or two new
parts made from one part. -/
def boxSplit (l : String × Lim × Lim) (part : ExpPoly) : Except PyErr (List ExpPoly) :=
  bind1
    (if l.2.2.isInf then .ok []
     else
      bind1 (l.2.2.asPoly R) fun u =>
      bind1 (part.translateVar R l.1 u) fun ep => .ok [ep]) fun ups =>
  bind1
    (if l.2.1.isInf then .ok []
     else
      bind1 (l.2.1.asPoly R) fun lo =>
      bind1 (part.translateVar R l.1 lo) fun ep => .ok [ep.neg]) fun los =>
  .ok (ups ++ los)

/-- Second loop of `integrate_box` (exppoly.py:587-597). -/
def boxParts (e : ExpPoly) (lims : List (String × Lim × Lim)) : Except PyErr (List ExpPoly) :=
  foldE (fun parts l => bind1 (mapE (boxSplit R l) parts) fun ps => .ok ps.flatten) [e] lims

/-- `ExpPoly.integrate_box` (exppoly.py:558-604). -/
noncomputable def ExpPoly.integrateBox (e : ExpPoly) (lims : List (String × Lim × Lim))
    (m : String → Option ℝ) : Except PyErr ℝ :=
  bind1 (boxFilter R e lims) fun s =>
  if s.2.length = 0 then s.1.eval m
  else
    bind1 (boxParts R s.1 s.2) fun parts =>
    foldE (fun acc part => bind1 (part.integrateHalf R (s.2.map Prod.fst) m) fun r =>
      .ok (acc + r)) 0 parts

end Gpcm
