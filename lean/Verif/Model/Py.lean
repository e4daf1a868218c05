import Mathlib.Data.List.Dedup
import Mathlib.Data.List.Perm.Basic
import Mathlib.Data.Finset.Card

/-!
# The fragment of Python the model needs

Exceptions are values, and Python `set`s are lists without repetitions in an *arbitrary*
iteration order. Nothing in this file models a line of `/repo`; it is the common vocabulary of
the modules that do.
-/

namespace Gpcm

/-- Python exceptions raised (directly or by a library call) in the modelled code. -/
inductive PyErr
  | runtimeError
  | valueError
  | keyError
  | indexError
  | typeError
  | attributeError
  | notFoundLookup
  | notImplemented
  | zeroDivision
  | assertionError
  | sampleFailed
  | osError
  deriving DecidableEq, Repr

/-- `[f(x) for x in l]` where `f` may raise: the first exception aborts the comprehension. -/
def mapE {ε α β : Type} (f : α → Except ε β) : List α → Except ε (List β)
  | [] => .ok []
  | a :: as =>
    match f a with
    | .error e => .error e
    | .ok b =>
      match mapE f as with
      | .error e => .error e
      | .ok bs => .ok (b :: bs)

/-- A loop `for x in l: s = f(s, x)` where the body may raise. -/
def foldE {ε α σ : Type} (f : σ → α → Except ε σ) : σ → List α → Except ε σ
  | s, [] => .ok s
  | s, a :: as =>
    match f s a with
    | .error e => .error e
    | .ok s' => foldE f s' as

/-- The iteration order of a Python `set` built by inserting the elements of a list in order.
It is some enumeration of the distinct elements. Nothing else is assumed, so the oracle may depend
on the hash seed of the process and on the insertion history. -/
structure SetOrder where
  /-- Iteration order of the set built from the list. -/
  ord : {α : Type} → [DecidableEq α] → List α → List α
  /-- It enumerates the distinct elements. -/
  perm : ∀ {α : Type} [DecidableEq α] (l : List α), (ord l).Perm l.dedup

/-- The runtime facts `exppoly.py` depends on: set iteration order, and the test
`isinstance(const, B.Number) and const == 0` (exppoly.py:153). The test may fail to recognise a
zero (the constant may be a tensor), but it never answers `True` for a non-zero constant. -/
structure Runtime (K : Type) [Zero K] extends SetOrder where
  /-- `isinstance(const, B.Number) and const == 0`. -/
  numZero : K → Bool
  /-- A constant passing the test is zero. -/
  numZero_sound : ∀ c, numZero c = true → c = 0

end Gpcm
