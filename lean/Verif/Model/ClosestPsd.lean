import Verif.Model.Py
import Mathlib.LinearAlgebra.Matrix.PosDef
import Mathlib.Data.Real.Basic

/-!
# Model of the matrix functions of `gpcm/util.py`

`closest_psd`, `hessian` and `laplace_approximation`. The singular value decomposition, automatic
differentiation and the optimiser are arbitrary functions; theorems assume what they need about
their results.
-/

open Matrix

namespace Gpcm.Util

variable {n : ℕ}

/-- The result of `B.svd`: `u`, `s`, `v` with `a = u diag(s) vᵀ`. -/
structure Svd (n : ℕ) where
  u : Matrix (Fin n) (Fin n) ℝ
  s : Fin n → ℝ
  v : Matrix (Fin n) (Fin n) ℝ

/-- What a singular value decomposition of a square matrix is. -/
structure IsSvd (a : Matrix (Fin n) (Fin n) ℝ) (d : Svd n) : Prop where
  u_orth : d.uᵀ * d.u = 1
  v_orth : d.vᵀ * d.v = 1
  nonneg : ∀ i, 0 ≤ d.s i
  eq : a = d.u * diagonal d.s * d.vᵀ

/-- The symmetric part (util.py:150). -/
noncomputable def symPart (a : Matrix (Fin n) (Fin n) ℝ) : Matrix (Fin n) (Fin n) ℝ :=
  (1 / 2 : ℝ) • (a + aᵀ)

/-- The new singular values (util.py:152-155). -/
noncomputable def newS (d : Svd n) (inv : Bool) (i : Fin n) : ℝ :=
  let s := max ((d.uᵀ * d.v) i i * d.s i) 0
  if inv then (if s = 0 then 0 else 1 / s) else s

/-- `closest_psd` (util.py:139-156). -/
noncomputable def closestPsd (svd : Matrix (Fin n) (Fin n) ℝ → Svd n)
    (a : Matrix (Fin n) (Fin n) ℝ) (inv : Bool) : Matrix (Fin n) (Fin n) ℝ :=
  let d := svd (symPart a)
  (d.u * diagonal (newS d inv)) * d.vᵀ

/-- A tensor: a shape, and entries in row-major order. -/
structure Tensor where
  shape : List ℕ
  data : List ℝ

/-- `hessian` (util.py:228-244). `jac2` stands for `jax.jacrev(jax.jacrev(...))` at `x[:, 0]`: the
matrix of second derivatives that automatic differentiation computes for vectors of length `n`. -/
noncomputable def hessian (jac2 : (n : ℕ) → (Fin n → ℝ) → Matrix (Fin n) (Fin n) ℝ) (x : Tensor) :
    Except PyErr (Σ n, Matrix (Fin n) (Fin n) ℝ) :=
  if x.shape.length ≠ 2 ∨ x.shape[1]? ≠ some 1 then .error .valueError
  else
    let n := x.shape.headD 0
    .ok ⟨n, symPart (jac2 n fun i => x.data.getD i 0)⟩

/-- `laplace_approximation` (util.py:268-281) for a vector of length `n`: mean and variance. `opt` is
the result of `maximum_a_posteriori`. -/
noncomputable def laplace (svd : Matrix (Fin n) (Fin n) ℝ → Svd n)
    (jac2 : (Fin n → ℝ) → Matrix (Fin n) (Fin n) ℝ) (opt : (Fin n → ℝ) → Fin n → ℝ)
    (x : Fin n → ℝ) : (Fin n → ℝ) × Matrix (Fin n) (Fin n) ℝ :=
  (opt x, closestPsd svd (-symPart (jac2 (opt x))) true)

end Gpcm.Util
