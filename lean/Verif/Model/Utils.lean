import Verif.Model.Py
import Mathlib.LinearAlgebra.Matrix.Defs

/-!
# `pygsp/utils.py` : `symmetrize`
-/

namespace PyGSP

variable {n m : ℕ} {K : Type*}

/-- The argument `method` of `symmetrize`; `other` is any unknown string. -/
inductive SymMethod
  | average | maximum | fill | tril | triu
  | other (name : String)
  deriving DecidableEq, Repr

/-- `(W + W.T) / 2` (`utils.py:248`). -/
def symAverage [Field K] (W : Matrix (Fin n) (Fin n) K) : Matrix (Fin n) (Fin n) K :=
  Matrix.of fun i j => (W i j + W j i) / 2

/-- `method == 'maximum'` (`utils.py:250-255`); the sparse and the dense branch. -/
def symMaximum [Field K] [LinearOrder K] (issparse : Bool) (W : Matrix (Fin n) (Fin n) K) :
    Matrix (Fin n) (Fin n) K :=
  if issparse then
    -- bigger = W.T > W;  W - W.multiply(bigger) + W.T.multiply(bigger)
    Matrix.of fun i j =>
      let bigger : K := if W j i > W i j then 1 else 0
      W i j - W i j * bigger + W j i * bigger
  else Matrix.of fun i j => max (W i j) (W j i)

/-- `method == 'fill'` (`utils.py:257-266`).  Sparse: `mask = (A + A.T) - A` on booleans (`+` is "or";
subtracting `A`, which is below `A + A.T`, removes it); dense: `logical_xor(logical_or(A, A.T), A)`. -/
def symFill [Field K] [LinearOrder K] (issparse : Bool) (W : Matrix (Fin n) (Fin n) K) :
    Matrix (Fin n) (Fin n) K :=
  let A : Fin n → Fin n → Bool := fun i j => W i j > 0
  let mask : Fin n → Fin n → Bool := fun i j =>
    if issparse then (A i j || A j i) && !(A i j) else xor (A i j || A j i) (A i j)
  symAverage (Matrix.of fun i j => W i j + (if mask i j then 1 else 0) * W j i)

/-- `tri(W)` for `tri` one of `tril`, `triu` (`utils.py:268-273`). -/
def keepTril [Zero K] (W : Matrix (Fin n) (Fin n) K) : Matrix (Fin n) (Fin n) K :=
  Matrix.of fun i j => if j ≤ i then W i j else 0

/-- see `keepTril` -/
def keepTriu [Zero K] (W : Matrix (Fin n) (Fin n) K) : Matrix (Fin n) (Fin n) K :=
  Matrix.of fun i j => if i ≤ j then W i j else 0

/-- `utils.symmetrize` (`utils.py:184-277`). -/
def symmetrize [Field K] [LinearOrder K] (issparse : Bool) (W : Matrix (Fin n) (Fin m) K)
    (method : SymMethod) : Py (Matrix (Fin n) (Fin n) K) :=
  if h : n = m then
    let W : Matrix (Fin n) (Fin n) K := h ▸ W
    match method with
    | .average => .ok (symAverage W)
    | .maximum => .ok (symMaximum issparse W)
    | .fill => .ok (symFill issparse W)
    | .tril => .ok (symMaximum issparse (keepTril W))
    | .triu => .ok (symMaximum issparse (keepTriu W))
    | .other _ => .error .valueError
  else .error .valueError

end PyGSP
