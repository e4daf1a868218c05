import Verif.Model.Scripts

/-!
# Model of `analyse_elbos` in `experiments/experiment.py`

What is printed beside the bounds of the models: likelihoods of the data under Gaussian processes of the library `stheno`, in exact
arithmetic. The minimiser and the bounds of the models are arguments. `vs.pos` keeps a variable positive and starts at the given value.
-/

open Matrix Real

namespace Gpcm.Elbos

/-- The covariance matrix of `kernel + noise * Delta()` at times (eq.py:34, 48, smk.py:35, 49): `Delta` at one set of inputs is the
identity. -/
def covNoisy (k : ℝ → ℝ → ℝ) (v : ℝ) {n : ℕ} (t : Fin n → ℝ) : Matrix (Fin n) (Fin n) ℝ :=
  Matrix.of (fun i j => k (t i) (t j)) + v • (1 : Matrix (Fin n) (Fin n) ℝ)

/-- `GP(kernel)(t).logpdf(y)` (experiment.py:327, 333-334) for the covariance matrix `K` of the kernel at `t`. -/
noncomputable def gpLogpdf {n : ℕ} (K : Matrix (Fin n) (Fin n) ℝ) (y : Fin n → ℝ) : ℝ :=
  -(log K.det + n * log (2 * π) + y ⬝ᵥ (K⁻¹ *ᵥ y)) / 2

/-- `gp_y(t)` for a sample (eq.py:25, smk.py:26): a factor of the covariance matrix times standard normal noise. -/
noncomputable def gpSample {n : ℕ} (C : CholOracle (Fin n)) (K : Matrix (Fin n) (Fin n) ℝ) (w : Fin n → ℝ) : Fin n → ℝ := C.chol K *ᵥ w

/-- The variables of `comparative_kernel` in their order. -/
structure GpParams where
  var : ℝ
  scale : ℝ
  noise : ℝ

/-- `comparative_kernel` (eq.py:33-34, smk.py:34-35) at times. -/
noncomputable def comparative {n : ℕ} (t : Fin n → ℝ) (p : GpParams) : Matrix (Fin n) (Fin n) ℝ :=
  covNoisy (fun x y => p.var * Scripts.stretch p.scale Scripts.eqKernel x y) p.noise t

/-- The values at which the variables of `comparative_kernel` start (eq.py:34, smk.py:35). -/
def startParams (noise : ℝ) : GpParams := ⟨1, 1.0, noise⟩

/-- The bounds of the models one after another (experiment.py:344-348): every model starts from the random state that the one before
leaves. -/
def printElbos {σ : Type} : List (String × (σ → Except PyErr (σ × ℝ))) → σ → Except PyErr (List (String × ℝ))
  | [], _ => .ok []
  | m :: ms, s => bind1 (m.2 s) fun r => bind1 (printElbos ms r.1) fun l => .ok ((m.1, r.2) :: l)

/-- `analyse_elbos` (experiment.py:310-348): the printed keys and values. `min` is `minimise_l_bfgs_b`: it is given the objective and the
values at which the variables start, and returns the values that it assigns; what it returns in the code is the objective there. -/
noncomputable def analyseElbos {n : ℕ} {Θ σ : Type} (min : (Θ → ℝ) → Θ → Θ) (θ₀ : Θ) (trueK : Option (Matrix (Fin n) (Fin n) ℝ))
    (comp : Option (Θ → Matrix (Fin n) (Fin n) ℝ)) (y : Fin n → ℝ) (models : List (String × (σ → Except PyErr (σ × ℝ)))) (s : σ) :
    Except PyErr (List (String × ℝ)) :=
  let l1 := match trueK with
    | none => []
    | some K => [("LML under true GP", gpLogpdf K y)]
  let l2 := match comp with
    | none => []
    | some K =>
      let objective := fun θ => -gpLogpdf (K θ) y
      [("LML under optimised GP", -objective (min objective θ₀))]
  bind1 (printElbos models s) fun l3 => .ok (l1 ++ l2 ++ l3)

end Gpcm.Elbos
