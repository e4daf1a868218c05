import Verif.Model.GPCM
import Verif.Model.Kernel
import Verif.Model.Util
import Mathlib.Data.Real.Sign

/-!
# Model of `gpcm/rgpcm.py`

The constructor, the learnable parameters and the `compute_*` functions of the `RGPCM`. Numbers are real and
frequencies are natural numbers. `np.argsort` is any permutation that sorts. Divisions by zero in the
constructor and in `integral_abcd`, where NumPy gives infinities and NaNs, are the exception `zeroDivision`.
Optional arguments of `compute_i_hx` and `compute_I_ux` (zeros) are not modelled, nor are the flags that fix
parameters and the warnings. Tensors are nested lists or matrices, computed for one data point at a time.
-/

open Real

namespace Gpcm

/-- Arguments of `RGPCM.__init__` (rgpcm.py:59-84). -/
structure RgpcmArgs where
  noise : ℝ := 0.05
  alpha : Option ℝ := none
  alphaT : Option ℝ := none
  window : Option ℝ := none
  lam : Option ℝ := none
  gamma : Option ℝ := none
  gammaT : Option ℝ := none
  a : Option ℝ := none
  b : Option ℝ := none
  mMax : Option ℤ := none
  mMaxCap : ℤ := 150
  nZ : Option ℤ := none
  scale : Option ℝ := none
  ms : Option (List ℕ) := none
  nU : Option ℤ := none
  nUCap : ℤ := 300
  tU : Option (List ℝ) := none
  t : Option (List ℝ) := none

/-- Attributes set by `RGPCM.__init__` (rgpcm.py:106-112, 161-178). -/
structure RgpcmModel where
  noise : ℝ
  alpha : ℝ
  alphaT : ℝ
  lam : ℝ
  extent : ℝ
  a : ℝ
  b : ℝ
  mMax : ℤ
  ms : List ℕ
  nZ : ℕ
  nU : ℤ
  tU : List ℝ
  gamma : ℝ
  gammaT : ℝ

/-- `x / y`, which raises if `y` is zero. -/
noncomputable def divE (x y : ℝ) : Except PyErr ℝ := if y = 0 then .error .zeroDivision else .ok (x / y)

/-- `given`, or else the result of a computation. -/
def orElse {α : Type} (given : Option α) (dflt : Except PyErr α) : Except PyErr α :=
  match given with
  | some x => .ok x
  | none => dflt

namespace Rgpcm

/-- The number of inducing points (rgpcm.py:120-130). -/
noncomputable def autoNU (x : RgpcmArgs) : Except PyErr ℤ :=
  orElse x.nU <|
    bind1 (need x.window) fun w =>
    bind1 (need x.scale) fun s =>
    bind1 (divE (2 * 2 * w) s) fun q =>
    let n : ℤ := ⌈q⌉
    if n > x.nUCap then .ok x.nUCap else .ok n

/-- `t_u` and `n_u` (rgpcm.py:115-135). -/
noncomputable def initTU (x : RgpcmArgs) (alpha : ℝ) : Except PyErr (ℤ × List ℝ) :=
  match x.tU with
  | some tU => .ok (x.nU.getD tU.length, tU)
  | none =>
    bind1 (divE π alpha) fun m =>
    bind1 (autoNU x) fun n =>
    bind1 (linspace 0 m n) fun tU => .ok (n, tU)

/-- `a` (rgpcm.py:137-138). -/
noncomputable def initA (x : RgpcmArgs) (tU : List ℝ) : Except PyErr ℝ :=
  orElse x.a <| bind1 (need x.t) fun t => bind1 (pyMin t) fun lo => bind1 (pyMax tU) fun u => .ok (lo - u)

/-- `b` (rgpcm.py:140-141). -/
noncomputable def initB (x : RgpcmArgs) : Except PyErr ℝ :=
  orElse x.b <| bind1 (need x.t) pyMax

/-- `m_max` (rgpcm.py:144-156). -/
noncomputable def initMMax (x : RgpcmArgs) (a b : ℝ) : Except PyErr ℤ :=
  match x.mMax, x.nZ with
  | some m, _ => .ok m
  | none, some n => .ok ⌈(n : ℝ) / 2⌉
  | none, none =>
    bind1 (need x.scale) fun s =>
    bind1 (divE 1 s) fun freq =>
    let m : ℤ := ⌈freq * (b - a)⌉
    if m > x.mMaxCap then .ok x.mMaxCap else .ok m

/-- `ms` (rgpcm.py:158-159). -/
def initMs (x : RgpcmArgs) (m : ℤ) : List ℕ := x.ms.getD (List.range (2 * m + 1).toNat)

/-- `gamma` before it is clipped (rgpcm.py:170-171). -/
noncomputable def initGamma (x : RgpcmArgs) (tU : List ℝ) : Except PyErr ℝ :=
  orElse x.gamma <|
    match tU with
    | u0 :: u1 :: _ => divE 1 (2 * (u1 - u0))
    | _ => .error .indexError

end Rgpcm

open Rgpcm in
/-- `RGPCM.__init__` (rgpcm.py:59-178). -/
noncomputable def RgpcmModel.new (x : RgpcmArgs) : Except PyErr RgpcmModel :=
  bind1 (orElse x.alpha (bind1 (need x.window) (divE 1))) fun alpha =>
  bind1 (orElse x.lam (bind1 (need x.scale) (divE 1))) fun lam =>
  bind1 (divE 4 alpha) fun extent =>
  bind1 (Rgpcm.initTU x alpha) fun u =>
  bind1 (initA x u.2) fun a =>
  bind1 (initB x) fun b =>
  bind1 (initMMax x a b) fun m =>
  bind1 (Rgpcm.initGamma x u.2) fun gamma =>
  .ok
    { noise := x.noise
      alpha := alpha
      alphaT := x.alphaT.getD (√(2 * alpha))
      lam := lam
      extent := extent
      a := a
      b := b
      mMax := m
      ms := initMs x m
      nZ := (initMs x m).length
      nU := u.1
      tU := u.2
      gamma := min gamma (alpha / 1.5)
      gammaT := x.gammaT.getD (√(2 * gamma)) }

/-- Values of the variables that are learned (rgpcm.py:191-217). -/
structure RgpcmLearned where
  noise : ℝ
  alpha : ℝ
  alphaT : ℝ
  lam : ℝ
  gammaFactor : ℝ
  tU : List ℝ

/-- What the constraints on the variables guarantee: `positive` (rgpcm.py:195-201), and `bounded`
(rgpcm.py:203-217). -/
structure RgpcmLearned.Valid (θ : RgpcmLearned) (g : RgpcmModel) : Prop where
  noise : 0 < θ.noise
  alpha : 0 < θ.alpha
  alphaT : 0 < θ.alphaT
  lam : 0 < θ.lam
  factor_lo : 1 < θ.gammaFactor
  factor_hi : θ.gammaFactor < 1e4
  lenU : θ.tU.length = g.tU.length
  lower : ∀ x ∈ θ.tU, -1e-4 < x
  upper : ∀ hi, pyMax g.tU = .ok hi → ∀ x ∈ θ.tU, x < hi * 1.5

/-- `RGPCM.__prior__` (rgpcm.py:191-217) for the values `θ` of the variables. -/
noncomputable def RgpcmModel.prior (g : RgpcmModel) (fixNoise fixWindow fixScale : Bool) (θ : RgpcmLearned) :
    RgpcmModel :=
  let alpha := if fixWindow then g.alpha else θ.alpha
  { g with
    noise := if fixNoise then g.noise else θ.noise
    alpha := alpha
    alphaT := θ.alphaT
    lam := if fixScale then g.lam else θ.lam
    gamma := alpha / θ.gammaFactor
    gammaT := g.gammaT
    tU := θ.tU }

namespace RgpcmModel

variable (g : RgpcmModel)

/-- An entry of `compute_K_u` (rgpcm.py:223-236). -/
noncomputable def kuEntry (x y : ℝ) : ℝ := g.gammaT ^ 2 / (2 * g.gamma) * exp (-g.gamma * |x - y|)

/-- `compute_K_u` (rgpcm.py:223-236). -/
noncomputable def computeKu : Matrix (Fin g.tU.length) (Fin g.tU.length) ℝ :=
  .of fun i j => g.kuEntry (g.tU.get i) (g.tU.get j)

/-- `psd_matern_12` (rgpcm.py:239-250). -/
noncomputable def psdMatern12 (omega lam lamT : ℝ) : ℝ := 2 * lamT * lam / (lam ^ 2 + omega ^ 2)

/-- The harmonic frequency of a feature (rgpcm.py:264-265). -/
noncomputable def kzOmega (m : ℕ) : ℝ :=
  2 * π * ((m : ℝ) - (if (m : ℤ) > g.mMax then 1 else 0) * (g.mMax : ℝ)) / (g.b - g.a)

/-- The diagonal part of `compute_K_z` (rgpcm.py:268-270). -/
noncomputable def kzAlpha (m : ℕ) : ℝ :=
  let alpha := 0.5 * (g.b - g.a) / psdMatern12 (g.kzOmega m) g.lam 1
  alpha + alpha * (if m = 0 then 1 else 0)

/-- The low-rank part of `compute_K_z` (rgpcm.py:271). -/
noncomputable def kzBeta (m : ℕ) : ℝ := 1 / (1 : ℝ) ^ (0.5 : ℝ) * (if (m : ℤ) ≤ g.mMax then 1 else 0)

/-- `compute_K_z` (rgpcm.py:253-273). -/
noncomputable def computeKz : Matrix (Fin g.ms.length) (Fin g.ms.length) ℝ :=
  .of fun i j => (if i = j then g.kzAlpha (g.ms.get i) else 0) + g.kzBeta (g.ms.get i) * g.kzBeta (g.ms.get j)

/-- `compute_i_hx` (rgpcm.py:276-292). -/
noncomputable def ihx (t1 t2 : ℝ) : ℝ := g.alphaT ^ 2 / 2 / g.alpha * exp (-g.lam * |t1 - t2|)

/-- `integral_abcd` (rgpcm.py:341-368), where it does not divide by zero. -/
noncomputable def integralAbcd (a b c d : ℝ) : ℝ :=
  let sign := Real.sign a
  let part1 := sign * d / c * (1 - exp (2 * c * sign * min |a| |b|))
  let part2 := 1 - exp (c * a - d * |a|) - exp (c * b - d * |b|) + exp (c * (a + b) - d * |a - b|)
  ((if a * b ≥ 0 then 1 else 0) * part1 + part2) / (c ^ 2 - d ^ 2)

/-- `integral_abcd_lu` (rgpcm.py:371-390). -/
noncomputable def integralAbcdLu (aLb aUb bLb bUb c d : ℝ) : ℝ :=
  integralAbcd aUb bUb c d + integralAbcd aLb bLb c d + -integralAbcd aUb bLb c d + -integralAbcd aLb bUb c d

/-- An entry of `compute_I_ux` (rgpcm.py:295-338): the value for `t1`, `t2` and the inducing points `u1`
(third axis) and `u2` (fourth axis). -/
noncomputable def iuxEntry (t1 t2 u1 u2 : ℝ) : Except PyErr ℝ :=
  let ga := g.gamma - g.alpha
  if ga = 0 ∨ ga ^ 2 - g.lam ^ 2 = 0 then .error .zeroDivision
  else
    .ok (g.alphaT ^ 2 * g.gammaT ^ 2 * exp (-g.gamma * (u1 + u2) + ga * (t1 + t2)) *
      integralAbcdLu (-t1) (u2 - t1) (-t2) (u1 - t2) ga g.lam)

/-- `_I_hx_0_cos` (rgpcm.py:471-490). -/
noncomputable def hxCos (n t : ℝ) : ℝ :=
  let omega := 2 * π * n / (g.b - g.a)
  let tLessA := t - g.a
  g.alphaT ^ 2 / (4 * g.alpha ^ 2 + omega ^ 2) *
      (2 * g.alpha * (cos (omega * tLessA) - exp (-2 * g.alpha * tLessA)) + omega * sin (omega * tLessA)) +
    g.alphaT ^ 2 / (2 * (g.alpha + g.lam)) * exp (-2 * g.alpha * tLessA)

/-- `_I_hx_0_sin` (rgpcm.py:493-504). -/
noncomputable def hxSin (n t : ℝ) : ℝ :=
  let omega := 2 * π * (n - g.mMax) / (g.b - g.a)
  let tLessA := t - g.a
  g.alphaT ^ 2 / (4 * g.alpha ^ 2 + omega ^ 2) *
    (omega * (exp (-2 * g.alpha * tLessA) - cos (omega * tLessA)) + 2 * g.alpha * sin (omega * tLessA))

/-- `ms[ms <= m_max]`. -/
def low (ms : List ℕ) : List ℕ := ms.filter fun m : ℕ => (m : ℤ) ≤ g.mMax

/-- `ms[ms > m_max]`. -/
def high (ms : List ℕ) : List ℕ := ms.filter fun m : ℕ => (m : ℤ) > g.mMax

/-- `ms[(0 < ms) * (ms <= m_max)]`. -/
def mid (ms : List ℕ) : List ℕ := ms.filter fun m : ℕ => 0 < m ∧ (m : ℤ) ≤ g.mMax

/-- `ms[ms == 0]`. -/
def zeros (ms : List ℕ) : List ℕ := ms.filter fun m => m = 0

/-- `B.take(x, indices, axis)` along the first axis of a nested list. -/
def takeE {α : Type} (l : List α) (idx : List ℤ) : Except PyErr (List α) :=
  mapE (fun i : ℤ => match l[i.toNat]? with
    | some x => if 0 ≤ i then .ok x else .error .indexError
    | none => .error .indexError) idx

/-- `compute_I_hz` for sorted frequencies, before the sorting is undone (rgpcm.py:411-461), for one data
point. Concatenation along the columns needs equally many rows. -/
noncomputable def ihzSorted (ms : List ℕ) (t : ℝ) : Except PyErr (List (List ℝ)) :=
  let lo := g.low ms
  let hi := g.high ms
  -- `m,n <= M`.
  let mnleM := lo.map fun m : ℕ => lo.map fun n : ℕ =>
    0.5 * (g.hxCos (-(m : ℝ) + (n : ℝ)) t + g.hxCos ((m : ℝ) + (n : ℝ)) t)
  -- `m,n > M`.
  let hi' : List ℝ := hi.map fun m : ℕ => (m : ℝ) - (g.mMax : ℝ)
  let mngtM := hi'.map fun m => hi'.map fun n => 0.5 * (g.hxCos (-m + n) t - g.hxCos (m + n) t)
  -- `0 < m <= M` and `n > M`.
  let mleM := (g.mid ms).map fun m : ℕ => hi.map fun n : ℕ =>
    0.5 * (g.hxSin ((m : ℝ) + (n : ℝ)) t + g.hxSin (-(m : ℝ) + (n : ℝ)) t)
  -- `m = 0` and `n > M`.
  let zero := (zeros ms).map fun m : ℕ => hi.map fun n : ℕ => g.hxSin ((m : ℝ) + (n : ℝ)) t
  let mleMngtM := zero ++ mleM
  let mgtMnleM := (List.range hi.length).map fun j => mleMngtM.map fun row => row.getD j 0
  if mnleM.length ≠ mleMngtM.length then .error .valueError
  else .ok (List.zipWith (· ++ ·) mnleM mleMngtM ++ List.zipWith (· ++ ·) mgtMnleM mngtM)

/-- `compute_I_hz` (rgpcm.py:393-468) for one data point and the permutation that `np.argsort(model.ms)`
returned. -/
noncomputable def computeIhz (perm : List ℕ) (t : ℝ) : Except PyErr (List (List ℝ)) :=
  bind1 (Util.invertPerm perm) fun inv =>
  bind1 (takeE g.ms (perm.map Int.ofNat)) fun ms =>
  bind1 (g.ihzSorted ms t) fun result =>
  bind1 (takeE result inv) fun result =>
  mapE (fun row => takeE row inv) result

/-- `_integral_lu0` (rgpcm.py:565-568). -/
noncomputable def integralLu0 (l u : ℝ) : ℝ :=
  let ag := g.alpha - g.gamma
  1 / ag * (1 - exp (ag * (l - u)))

/-- `_integral_luk_leq_M` (rgpcm.py:571-581). -/
noncomputable def integralLukLeqM (l u k : ℝ) : ℝ :=
  let ag := g.alpha - g.gamma
  let om := 2 * π * k / (g.b - g.a)
  1 / (ag ^ 2 + om ^ 2) *
    ((ag * cos (om * (u - g.a)) + om * sin (om * (u - g.a))) -
      exp (ag * (l - u)) * (ag * cos (om * (l - g.a)) + om * sin (om * (l - g.a))))

/-- `_integral_luk_g_M` (rgpcm.py:584-598). -/
noncomputable def integralLukGM (l u k : ℝ) : ℝ :=
  let ag := g.alpha - g.gamma
  let om := 2 * π * (k - g.mMax) / (g.b - g.a)
  (-1) / (ag ^ 2 + om ^ 2) *
    ((-ag * sin (om * (u - g.a)) + om * cos (om * (u - g.a))) -
      exp (ag * (l - u)) * (-ag * sin (om * (l - g.a)) + om * cos (om * (l - g.a))))

/-- `compute_I_uz` (rgpcm.py:507-562) for one data point: a row for every inducing point. -/
noncomputable def computeIuz (perm : List ℕ) (t : ℝ) : Except PyErr (List (List ℝ)) :=
  bind1 (Util.invertPerm perm) fun inv =>
  bind1 (takeE g.ms (perm.map Int.ofNat)) fun ms =>
  mapE (fun tu =>
    let uz0 := (zeros ms).map fun k : ℕ => g.integralLu0 (t - tu) t + (k : ℝ)
    let uzLeM := (g.mid ms).map fun k : ℕ => g.integralLukLeqM (t - tu) t k
    let uzGtM := (g.high ms).map fun k : ℕ => g.integralLukGM (t - tu) t k
    bind1 (takeE (uz0 ++ uzLeM ++ uzGtM) inv) fun row =>
    .ok (row.map fun x => g.alphaT * g.gammaT * exp (-g.gamma * tu) * x)) g.tU

/-- `kernel_approx` (model.py:203-226) for the RGPCM. -/
noncomputable def kernelApprox (C : CholOracle (Fin g.tU.length)) (t1 t2 : List ℝ) (u : Fin g.tU.length → ℝ) :
    Except PyErr (List (List ℝ)) :=
  mapE (fun a => mapE (fun b =>
    bind1 (matE fun i j => g.iuxEntry a b (g.tU.get i) (g.tU.get j)) fun I =>
    .ok (kernelEntry C g.computeKu (g.ihx a b) I u)) t2) t1

end RgpcmModel

/-- What `np.argsort` guarantees: a permutation of the indices that sorts the list. -/
structure IsArgsort (perm ms : List ℕ) : Prop where
  isPerm : perm.Perm (List.range ms.length)
  sorted : (perm.map fun i => ms.getD i 0).Pairwise (· ≤ ·)

end Gpcm
