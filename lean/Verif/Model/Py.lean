import Mathlib.Algebra.Order.Field.Basic
import Mathlib.Algebra.BigOperators.Group.List.Basic

/-!
# Python / numpy values used by the model

Exceptions are values (`PyErr`), a function that may raise returns `Except PyErr α`.
-/

namespace PyGSP

/-- The exception classes raised by the modelled parts of `/repo/pygsp`. -/
inductive PyErr
  | valueError
  | typeError
  | attributeError
  | assertionError
  | indexError
  | keyError
  | notImplementedError
  | zeroDivisionError
  | importError
  | arpackNoConvergence
  | nameError
  /-- not a Python exception: the computation goes on with NaN or infinite values, which the model does not follow -/
  | unmodelled
  deriving DecidableEq, Repr

/-- Result of a Python call. -/
abbrev Py (α : Type*) := Except PyErr α

/-- An IEEE-like number: a finite value of `K`, NaN, or an infinity.
Models the float entries looked at by `np.isnan` / `np.isinf` in
`graphs/graph.py:112-115`.  Simplification: finite values are exact, the sum of
two finite values never overflows. -/
inductive PyNum (K : Type*)
  | fin (x : K)
  | nan
  | pinf
  | ninf
  deriving DecidableEq, Repr

namespace PyNum

variable {K : Type*}

/-- IEEE addition, class-wise (NaN absorbs, `inf + (-inf)` is NaN). -/
def add [Add K] : PyNum K → PyNum K → PyNum K
  | .fin x, .fin y => .fin (x + y)
  | .nan, _ => .nan
  | _, .nan => .nan
  | .pinf, .ninf => .nan
  | .ninf, .pinf => .nan
  | .pinf, _ => .pinf
  | _, .pinf => .pinf
  | .ninf, _ => .ninf
  | _, .ninf => .ninf

instance [AddCommMonoid K] : AddCommMonoid (PyNum K) where
  add := add
  zero := .fin 0
  nsmul := @nsmulRec _ ⟨.fin 0⟩ ⟨add⟩
  add_assoc a b c := by
    cases a <;> cases b <;> cases c <;> simp [HAdd.hAdd, Add.add, add]
    exact add_assoc _ _ _
  zero_add a := by
    cases a <;> simp [HAdd.hAdd, Add.add, add, OfNat.ofNat]
    exact zero_add _
  add_zero a := by
    cases a <;> simp [HAdd.hAdd, Add.add, add, OfNat.ofNat]
    exact add_zero _
  add_comm a b := by
    cases a <;> cases b <;> simp [HAdd.hAdd, Add.add, add]
    exact add_comm _ _

/-- `np.isnan`. -/
def isNaN : PyNum K → Bool
  | .nan => true
  | _ => false

/-- `np.isinf`. -/
def isInf : PyNum K → Bool
  | .pinf => true
  | .ninf => true
  | _ => false

/-- The finite value; the junk value `0` is never reached by the model after the
NaN/inf checks (see `C01_constructor_accepts_iff`). -/
def toFin [Zero K] : PyNum K → K
  | .fin x => x
  | _ => 0

/-- `x != 0` as numpy evaluates it (NaN and infinities are non-zero). -/
def neZero [Zero K] [DecidableEq K] : PyNum K → Bool
  | .fin x => x ≠ 0
  | _ => true

/-- Sum of a list of numbers, as `ndarray.sum` / `spmatrix.sum` do. -/
def sum [AddCommMonoid K] (l : List (PyNum K)) : PyNum K := l.foldl (· + ·) 0

end PyNum

/-- Python's `a < b` on floats: False as soon as one side is NaN. -/
def PyNum.lt {K : Type*} [LT K] [DecidableLT K] : PyNum K → PyNum K → Bool
  | .fin x, .fin y => x < y
  | .nan, _ => false
  | _, .nan => false
  | .ninf, .ninf => false
  | .ninf, _ => true
  | _, .ninf => false
  | .pinf, _ => false
  | .fin _, .pinf => true

/-- Python's `a <= b` on floats: False as soon as one side is NaN. -/
def PyNum.le {K : Type*} [LE K] [DecidableLE K] : PyNum K → PyNum K → Bool
  | .fin x, .fin y => x ≤ y
  | .nan, _ => false
  | _, .nan => false
  | .ninf, _ => true
  | _, .pinf => true
  | .pinf, _ => false
  | .fin _, .ninf => false

/-- One step of the builtin `min`: replace the accumulator only by a strictly smaller element. -/
def pyMinStep {K : Type*} [LT K] [DecidableLT K] (acc x : PyNum K) : PyNum K :=
  if PyNum.lt x acc then x else acc

/-- Python's builtin `min(list)`: keep the first element, replace it by a later
element only when the later one is strictly smaller (so a NaN that is not first is
ignored, and a NaN that is first is kept).  `min([])` raises ValueError. -/
def pyMin {K : Type*} [LT K] [DecidableLT K] : List (PyNum K) → Py (PyNum K)
  | [] => .error .valueError
  | b :: bs => .ok (bs.foldl pyMinStep b)

/-- One step of `np.max`: NaN propagates. -/
def npMaxStep {K : Type*} [LT K] [DecidableLT K] (acc x : PyNum K) : PyNum K :=
  if acc.isNaN || x.isNaN then .nan else if PyNum.lt acc x then x else acc

/-- `np.max` of a vector: NaN propagates; empty raises ValueError. -/
def npMax {K : Type*} [LT K] [DecidableLT K] : List (PyNum K) → Py (PyNum K)
  | [] => .error .valueError
  | b :: bs => .ok (bs.foldl npMaxStep b)

end PyGSP
