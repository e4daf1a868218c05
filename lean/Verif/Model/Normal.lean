import Verif.Model.Py
import Mathlib.LinearAlgebra.Matrix.NonsingularInverse
import Mathlib.LinearAlgebra.Matrix.PosDef
import Mathlib.Analysis.SpecialFunctions.Log.Basic
import Mathlib.Analysis.SpecialFunctions.Trigonometric.Basic
import Mathlib.Algebra.Order.Star.Real

/-!
# Model of `gpcm/normal.py`

Vectors and matrices over the reals, indexed by a finite type. `B.chol` is *any* function that returns a
factor of every positive-definite matrix (`CholOracle`); what it does to other matrices is unspecified.
`B.logdet` is the logarithm of the determinant. Random numbers are arguments.
-/

open Matrix Real

namespace Gpcm

variable {n : Type} [Fintype n] [DecidableEq n]

/-- `B.chol`: some factorisation of the positive-definite matrices. -/
structure CholOracle (n : Type) [Fintype n] [DecidableEq n] where
  chol : Matrix n n ℝ → Matrix n n ℝ
  spec : ∀ A, A.PosDef → chol A * (chol A)ᵀ = A

/-- `B.cholsolve(L, b)` for a matrix `b`: two triangular solves. -/
noncomputable def cholsolve {m : Type} (L : Matrix n n ℝ) (b : Matrix n m ℝ) : Matrix n m ℝ :=
  Lᵀ⁻¹ * (L⁻¹ * b)

/-- `B.cholsolve(L, b)` for a column vector `b`. -/
noncomputable def cholsolveVec (L : Matrix n n ℝ) (b : n → ℝ) : n → ℝ :=
  Lᵀ⁻¹ *ᵥ (L⁻¹ *ᵥ b)

/-- `B.pd_inv`. -/
noncomputable def pdInv (C : CholOracle n) (A : Matrix n n ℝ) : Matrix n n ℝ := cholsolve (C.chol A) 1

/-- The constructor arguments of `NaturalNormal` (normal.py:11-26). -/
@[ext] structure NatNormal (n : Type) where
  lam : n → ℝ
  prec : Matrix n n ℝ

/-- `stheno.Normal`: mean and variance. -/
@[ext] structure MeanVar (n : Type) where
  mean : n → ℝ
  var : Matrix n n ℝ

namespace NatNormal

variable (C : CholOracle n) (d : NatNormal n)

/-- What the property `mean` computes (normal.py:60-65). -/
noncomputable def mean : n → ℝ := cholsolveVec (C.chol d.prec) d.lam

/-- What the property `var` computes (normal.py:67-72). -/
noncomputable def var : Matrix n n ℝ := pdInv C d.prec

/-- What the property `m2` computes (normal.py:74-80). -/
noncomputable def m2 : Matrix n n ℝ :=
  cholsolve (C.chol d.prec) (cholsolve (C.chol d.prec) (d.prec + vecMulVec d.lam d.lam))ᵀ

/-- `NaturalNormal.from_normal` (normal.py:28-39). -/
noncomputable def fromNormal (x : MeanVar n) : NatNormal n :=
  ⟨cholsolveVec (C.chol x.var) x.mean, pdInv C x.var⟩

/-- `NaturalNormal.to_normal` (normal.py:41-48). -/
noncomputable def toNormal : MeanVar n := ⟨d.mean C, d.var C⟩

/-- One column of `NaturalNormal.sample` (normal.py:82-99), for standard normal noise `z`: the noise of
`Normal(self.prec)` is `chol(prec) z`. -/
noncomputable def sample (z : n → ℝ) : n → ℝ :=
  cholsolveVec (C.chol d.prec) (C.chol d.prec *ᵥ z + d.lam)

/-- `NaturalNormal.kl` (normal.py:108-126). -/
noncomputable def kl (q p : NatNormal n) : ℝ :=
  let ratio := (C.chol q.prec)⁻¹ * C.chol p.prec
  let diff := q.mean C - p.mean C;
  0.5 * ((∑ i, ∑ j, ratio i j ^ 2) - log (ratioᵀ * ratio).det + (∑ i, (p.prec *ᵥ diff) i * diff i)
    - Fintype.card n)

/-- `NaturalNormal.logpdf` (normal.py:128-142). -/
noncomputable def logpdf (x : n → ℝ) : ℝ :=
  let diff := x - d.mean C;
  (-0.5) * (-log d.prec.det + Fintype.card n * log (2 * π) + ∑ i, (d.prec *ᵥ diff) i * diff i)

end NatNormal

/-- A `NaturalNormal` object with its three caches (normal.py:24-26). -/
structure NatObj (n : Type) where
  lam : n → ℝ
  prec : Matrix n n ℝ
  cmean : Option (n → ℝ)
  cvar : Option (Matrix n n ℝ)
  cm2 : Option (Matrix n n ℝ)

namespace NatObj

variable (C : CholOracle n)

/-- `NaturalNormal.__init__` (normal.py:19-26). -/
def new (lam : n → ℝ) (prec : Matrix n n ℝ) : NatObj n := ⟨lam, prec, none, none, none⟩

/-- Reading `mean` (normal.py:60-65). -/
noncomputable def readMean (o : NatObj n) : (n → ℝ) × NatObj n :=
  match o.cmean with
  | some v => (v, o)
  | none =>
    let v := cholsolveVec (C.chol o.prec) o.lam
    (v, { o with cmean := some v })

/-- Reading `var` (normal.py:67-72). -/
noncomputable def readVar (o : NatObj n) : Matrix n n ℝ × NatObj n :=
  match o.cvar with
  | some v => (v, o)
  | none =>
    let v := pdInv C o.prec
    (v, { o with cvar := some v })

/-- Reading `m2` (normal.py:74-80): the cache is assigned twice. -/
noncomputable def readM2 (o : NatObj n) : Matrix n n ℝ × NatObj n :=
  match o.cm2 with
  | some v => (v, o)
  | none =>
    let v := cholsolve (C.chol o.prec) (o.prec + vecMulVec o.lam o.lam)
    let v := cholsolve (C.chol o.prec) vᵀ
    (v, { o with cm2 := some v })

/-- The three properties. -/
inductive Attr | mean | var | m2

/-- The value of a property. -/
inductive Val (n : Type)
  | vec (v : n → ℝ)
  | mat (v : Matrix n n ℝ)

/-- Reading a property. -/
noncomputable def read (o : NatObj n) : Attr → Val n × NatObj n
  | .mean => let r := o.readMean C; (.vec r.1, r.2)
  | .var => let r := o.readVar C; (.mat r.1, r.2)
  | .m2 => let r := o.readM2 C; (.mat r.1, r.2)

/-- Reading a sequence of properties. -/
noncomputable def reads (o : NatObj n) : List Attr → List (Val n) × NatObj n
  | [] => ([], o)
  | a :: as =>
    let r := o.read C a
    let rs := reads r.2 as
    (r.1 :: rs.1, rs.2)

end NatObj

end Gpcm
