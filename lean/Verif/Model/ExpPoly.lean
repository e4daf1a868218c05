import Verif.Model.Py
import Mathlib.Algebra.Ring.Basic
import Mathlib.Algebra.BigOperators.Group.List.Basic

/-!
# Model of `gpcm/exppoly.py`: `Factor`, `Term`, `Poly`

Coefficients live in an arbitrary commutative ring `K`: the reals for numbers, functions with
pointwise operations for tensors.
-/

namespace Gpcm

/-! ## Factor (exppoly.py:65-125) -/

/-- `Factor` (exppoly.py:65-125): a variable name and its power. -/
structure Factor where
  name : String
  power : ℕ
  deriving DecidableEq, Repr

/-- `Factor.__init__` (exppoly.py:77-84): raises `ValueError` for a power below one. -/
def Factor.new (name : String) (power : ℤ) : Except PyErr Factor :=
  if power < 1 then .error .valueError else .ok ⟨name, power.toNat⟩

/-- `Factor.__mul__` (exppoly.py:107-112). The power of a product of two valid factors is at least
one, so the constructor does not raise. -/
def Factor.mul (f g : Factor) : Except PyErr Factor :=
  if g.name = f.name then .ok ⟨f.name, f.power + g.power⟩ else .error .runtimeError

/-- `reduce(operator.mul, associated_factors, 1)` (exppoly.py:132). The accumulator `none` is the
integer `1`; `1 * f` is `Factor.__rmul__`, which returns `f` (exppoly.py:114-122). -/
def reduceFactors : Option Factor → List Factor → Except PyErr (Option Factor) :=
  foldE fun acc f =>
    match acc with
    | none => .ok (some f)
    | some g =>
      match g.mul f with
      | .error e => .error e
      | .ok h => .ok (some h)

/-- `_merge_common_factors` (exppoly.py:128-133). `associated_factors` is never empty; were it
empty, the integer `1` would end up in the list of factors, which is reported as a type error
here (and shown to be unreachable). -/
def mergeCommonFactors (S : SetOrder) (fs : List Factor) : Except PyErr (List Factor) :=
  mapE
    (fun n =>
      match reduceFactors none (fs.filter fun f => f.name = n) with
      | .error e => .error e
      | .ok none => .error .typeError
      | .ok (some f) => .ok f)
    (S.ord (fs.map Factor.name))

/-! ## Term (exppoly.py:136-299) -/

/-- `Term` (exppoly.py:136-158): constant and *set* of factors, the latter stored as the list in
which the set iterates. -/
structure Term (K : Type) where
  const : K
  factors : List Factor

/-- `Poly` (exppoly.py:310-322): a list of terms. -/
structure Poly (K : Type) where
  terms : List (Term K)

section
variable {K : Type} [CommRing K] (R : Runtime K)

/-- `Term.__init__` (exppoly.py:148-158): factors are discarded if the constant is (recognised to
be) zero; common factors are merged and stored as a set. -/
def Term.new (c : K) (fs : List Factor) : Except PyErr (Term K) :=
  let fs := if R.numZero c then [] else fs
  match mergeCommonFactors R.toSetOrder fs with
  | .error e => .error e
  | .ok ms => .ok ⟨c, R.ord ms⟩

/-- Equality of the `factors` sets of two terms (Python `set.__eq__`). -/
def Term.sameFactors (t s : Term K) : Bool :=
  decide (t.factors.toFinset = s.factors.toFinset)

/-- `Term.is_function_of` (exppoly.py:160-170). -/
def Term.isFunctionOf (t : Term K) (x : String) : Bool :=
  t.factors.any fun f => f.name = x

/-- `Term.collect_for` (exppoly.py:172-185). -/
def Term.collectFor (t : Term K) (f : Factor) : Except PyErr (Term K) :=
  if f ∉ t.factors then .error .runtimeError
  else Term.new R t.const (R.ord (t.factors.filter fun g => g ≠ f))

/-- `Term.is_constant` (exppoly.py:200-206). -/
def Term.isConstant (t : Term K) : Bool := t.factors.length = 0

/-- `Term.highest_power` (exppoly.py:208-223). -/
def Term.highestPower (t : Term K) (x : String) : ℕ :=
  t.factors.foldl (fun h f => if f.name = x then max h f.power else h) 0

/-- `Term.__add__` (exppoly.py:262-267). -/
def Term.add (t s : Term K) : Except PyErr (Term K) :=
  if t.sameFactors s then Term.new R (t.const + s.const) t.factors else .error .runtimeError

/-- `Term.__mul__` (exppoly.py:279-283). -/
def Term.mul (t s : Term K) : Except PyErr (Term K) :=
  Term.new R (t.const * s.const) (t.factors ++ s.factors)

/-- `Term.__neg__` (exppoly.py:295-296). -/
def Term.neg (t : Term K) : Except PyErr (Term K) :=
  Term.new R (-t.const) t.factors

/-! ## Poly (exppoly.py:310-468) -/

/-- `reduce(operator.add, associated_terms, 0)` (exppoly.py:306). The accumulator `none` is the
integer `0`; `0 + t` is `Term.__radd__`, which returns `t` (exppoly.py:269-277). -/
def reduceTerms : Option (Term K) → List (Term K) → Except PyErr (Option (Term K)) :=
  foldE fun acc t =>
    match acc with
    | none => .ok (some t)
    | some s =>
      match s.add R t with
      | .error e => .error e
      | .ok r => .ok (some r)

/-- Body of the loop of `_merge_common_terms` (exppoly.py:305-306). `associated_terms` is never
empty; were it empty, the integer `0` would end up in the list of terms, which is reported as a
type error here (and shown to be unreachable). -/
def mergeGroup (ts : List (Term K)) (F : Finset Factor) : Except PyErr (Term K) :=
  match reduceTerms R none (ts.filter fun t => t.factors.toFinset = F) with
  | .error e => .error e
  | .ok none => .error .typeError
  | .ok (some t) => .ok t

/-- `_merge_common_terms` (exppoly.py:302-307) as used by `Poly.__init__` (exppoly.py:317-322).
The groups are a set of frozensets of factors, iterated in an arbitrary order. -/
def Poly.new (ts : List (Term K)) : Except PyErr (Poly K) :=
  match mapE (mergeGroup R ts) (R.ord (ts.map fun t => t.factors.toFinset)) with
  | .error e => .error e
  | .ok ms => .ok ⟨ms⟩

/-- `const` (exppoly.py:37-46). -/
def Poly.const (c : K) : Except PyErr (Poly K) :=
  match Term.new R c [] with
  | .error e => .error e
  | .ok t => Poly.new R [t]

/-- `var` (exppoly.py:49-59). -/
def Poly.var (x : String) (power : ℤ := 1) : Except PyErr (Poly K) :=
  match Factor.new x power with
  | .error e => .error e
  | .ok f =>
    match Term.new R 1 [f] with
    | .error e => .error e
    | .ok t => Poly.new R [t]

/-- `Poly.is_function_of` (exppoly.py:324-334). -/
def Poly.isFunctionOf (p : Poly K) (x : String) : Bool :=
  p.terms.any fun t => t.isFunctionOf x

/-- `Poly.collect_for` (exppoly.py:336-348). -/
def Poly.collectFor (p : Poly K) (f : Factor) : Except PyErr (Poly K) :=
  match mapE (fun t => Term.collectFor R t f) (p.terms.filter fun t => f ∈ t.factors) with
  | .error e => .error e
  | .ok ts => Poly.new R ts

/-- `Poly.reject` (exppoly.py:350-360). -/
def Poly.reject (p : Poly K) (x : String) : Except PyErr (Poly K) :=
  Poly.new R (p.terms.filter fun t => !t.isFunctionOf x)

/-- `Poly.is_constant` (exppoly.py:376-382). -/
def Poly.isConstant (p : Poly K) : Bool := p.terms.all Term.isConstant

/-- `Poly.highest_power` (exppoly.py:384-395): `max` of an empty list raises `ValueError`. -/
def Poly.highestPower (p : Poly K) (x : String) : Except PyErr ℕ :=
  match p.terms with
  | [] => .error .valueError
  | t :: ts => .ok (ts.foldl (fun h s => max h (s.highestPower x)) (t.highestPower x))

/-- `Poly.__add__` (exppoly.py:426-428). -/
def Poly.add (p q : Poly K) : Except PyErr (Poly K) := Poly.new R (p.terms ++ q.terms)

/-- `Poly.__neg__` (exppoly.py:440-441). -/
def Poly.neg (p : Poly K) : Except PyErr (Poly K) :=
  match mapE (Term.neg R) p.terms with
  | .error e => .error e
  | .ok ts => Poly.new R ts

/-- `Poly.__mul__` (exppoly.py:449-451). -/
def Poly.mul (p q : Poly K) : Except PyErr (Poly K) :=
  match
    mapE (fun ts : Term K × Term K => ts.1.mul R ts.2)
      (p.terms.flatMap fun t => q.terms.map fun s => (t, s)) with
  | .error e => .error e
  | .ok ts => Poly.new R ts

/-! ## Python values: polynomials and numbers

`Poly.__pow__` and `Poly.substitute` may return a Python integer rather than a `Poly`, and the
arithmetic operators accept numbers on either side. -/

/-- A Python value in polynomial arithmetic: a `Poly`, an `int`, or another number or tensor. The
distinction between `int` and the rest matters for the tests `other is 0` and `other is 1`. -/
inductive PyVal (K : Type)
  | poly (p : Poly K)
  | int (n : ℤ)
  | num (c : K)

namespace PyVal

/-- `Poly.__add__(Numeric)` (exppoly.py:430-435) with an integer. -/
def addInt (p : Poly K) (n : ℤ) : Except PyErr (Poly K) :=
  if n = 0 then .ok p
  else
    match Poly.const R (n : K) with
    | .error e => .error e
    | .ok q => p.add R q

/-- `Poly.__add__(Numeric)` (exppoly.py:430-435) with a number that is not the integer `0`. -/
def addNum (p : Poly K) (c : K) : Except PyErr (Poly K) :=
  match Poly.const R c with
  | .error e => .error e
  | .ok q => p.add R q

/-- `Poly.__mul__(Numeric)` (exppoly.py:453-458) with an integer. -/
def mulInt (p : Poly K) (n : ℤ) : Except PyErr (Poly K) :=
  if n = 1 then .ok p
  else
    match Poly.const R (n : K) with
    | .error e => .error e
    | .ok q => p.mul R q

/-- `Poly.__mul__(Numeric)` (exppoly.py:453-458) with a number that is not the integer `1`. -/
def mulNum (p : Poly K) (c : K) : Except PyErr (Poly K) :=
  match Poly.const R c with
  | .error e => .error e
  | .ok q => p.mul R q

/-- Wrap the result of a polynomial operation. -/
def lift : Except PyErr (Poly K) → Except PyErr (PyVal K)
  | .error e => .error e
  | .ok p => .ok (.poly p)

/-- Python `x + y`; number on the left goes through `Poly.__radd__` (exppoly.py:437-438). -/
def add : PyVal K → PyVal K → Except PyErr (PyVal K)
  | .poly p, .poly q => lift (p.add R q)
  | .poly p, .int n => lift (addInt R p n)
  | .poly p, .num c => lift (addNum R p c)
  | .int n, .poly p => lift (addInt R p n)
  | .num c, .poly p => lift (addNum R p c)
  | .int m, .int n => .ok (.int (m + n))
  | .int m, .num c => .ok (.num ((m : K) + c))
  | .num c, .int n => .ok (.num (c + (n : K)))
  | .num c, .num d => .ok (.num (c + d))

/-- Python `-x` (exppoly.py:440-441). -/
def neg : PyVal K → Except PyErr (PyVal K)
  | .poly p => lift (p.neg R)
  | .int n => .ok (.int (-n))
  | .num c => .ok (.num (-c))

/-- Python `x - y`: `Poly.__sub__` is `self + (-other)`, `Poly.__rsub__` is `(-self) + other`
(exppoly.py:443-447). -/
def sub : PyVal K → PyVal K → Except PyErr (PyVal K)
  | .int m, .int n => .ok (.int (m - n))
  | .int m, .num c => .ok (.num ((m : K) - c))
  | .num c, .int n => .ok (.num (c - (n : K)))
  | .num c, .num d => .ok (.num (c - d))
  | .int m, .poly p =>
    match neg R (.poly p) with
    | .error e => .error e
    | .ok q => add R q (.int m)
  | .num c, .poly p =>
    match neg R (.poly p) with
    | .error e => .error e
    | .ok q => add R q (.num c)
  | .poly p, y =>
    match neg R y with
    | .error e => .error e
    | .ok z => add R (.poly p) z

/-- Python `x * y`; number on the left goes through `Poly.__rmul__` (exppoly.py:460-461). -/
def mul : PyVal K → PyVal K → Except PyErr (PyVal K)
  | .poly p, .poly q => lift (p.mul R q)
  | .poly p, .int n => lift (mulInt R p n)
  | .poly p, .num c => lift (mulNum R p c)
  | .int n, .poly p => lift (mulInt R p n)
  | .num c, .poly p => lift (mulNum R p c)
  | .int m, .int n => .ok (.int (m * n))
  | .int m, .num c => .ok (.num ((m : K) * c))
  | .num c, .int n => .ok (.num (c * (n : K)))
  | .num c, .num d => .ok (.num (c * d))

/-- `Poly.__pow__` (exppoly.py:463-468): `reduce(operator.mul, [self] * power, 1)` starting from
the *integer* one, so `p ** 0` is the integer `1` and not a polynomial. -/
def powPoly (p : Poly K) (n : ℤ) : Except PyErr (PyVal K) :=
  if n < 0 then .error .runtimeError
  else foldE (fun acc q => mul R acc (.poly q)) (.int 1) (List.replicate n.toNat p)

/-- Python `x ** n` for a natural number `n`. -/
def pow : PyVal K → ℕ → Except PyErr (PyVal K)
  | .poly p, n => powPoly R p n
  | .int m, n => .ok (.int (m ^ n))
  | .num c, n => .ok (.num (c ^ n))

end PyVal

/-- The loop of `Term.substitute` (exppoly.py:236-245): the retained factors and the power of the
substituted variable. -/
def Term.splitFactors (t : Term K) (x : String) : List Factor × ℕ :=
  t.factors.foldl
    (fun acc f => if f.name = x then (acc.1, f.power) else (acc.1 ++ [f], acc.2)) ([], 0)

/-- `Term.substitute` (exppoly.py:225-246). -/
def Term.substitute (t : Term K) (x : String) (q : Poly K) : Except PyErr (PyVal K) :=
  let s := t.splitFactors x
  match Term.new R t.const s.1 with
  | .error e => .error e
  | .ok t' =>
    match Poly.new R [t'] with
    | .error e => .error e
    | .ok p' =>
      match PyVal.powPoly R q s.2 with
      | .error e => .error e
      | .ok r => PyVal.mul R (.poly p') r

/-- `Poly.substitute` (exppoly.py:397-411): accumulates from the *integer* zero, which is returned
if there are no terms. -/
def Poly.substitute (p : Poly K) (x : String) (q : Poly K) : Except PyErr (PyVal K) :=
  foldE
    (fun acc t =>
      match t.substitute R x q with
      | .error e => .error e
      | .ok r => PyVal.add R acc r)
    (.int 0) p.terms

/-! ## Evaluation with a partial assignment (`var_map`) -/

/-- `Factor.eval` (exppoly.py:86-95): `KeyError` for a missing variable. -/
def Factor.eval (f : Factor) (v : String → Option K) : Except PyErr K :=
  match v f.name with
  | none => .error .keyError
  | some a => .ok (a ^ f.power)

/-- `Term.eval` (exppoly.py:187-198). -/
def Term.eval (t : Term K) (v : String → Option K) : Except PyErr K :=
  match mapE (fun f => Factor.eval f v) t.factors with
  | .error e => .error e
  | .ok as => .ok (as.foldl (· * ·) t.const)

/-- `Poly.eval` (exppoly.py:362-374). -/
def Poly.eval (p : Poly K) (v : String → Option K) : Except PyErr K :=
  foldE
    (fun acc t =>
      match Term.eval t v with
      | .error e => .error e
      | .ok a => .ok (acc + a))
    0 p.terms

/-! ## Equality -/

section
variable [DecidableEq K]

/-- `Term.__eq__` (exppoly.py:258-260). -/
def Term.eqPy (t s : Term K) : Bool := decide (t.const = s.const) && t.sameFactors s

/-- `Poly.__eq__` (exppoly.py:422-424): equality of the sets of terms. Two Python sets are equal
iff each is contained in the other, membership being `__eq__` (the hash is compatible). -/
def Poly.eqPy (p q : Poly K) : Bool :=
  p.terms.all (fun t => q.terms.any fun s => t.eqPy s) &&
    q.terms.all (fun s => p.terms.any fun t => s.eqPy t)
end

end

end Gpcm
