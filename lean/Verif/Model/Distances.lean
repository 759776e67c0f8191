import Verif.Model.Array
import Verif.Model.GraphState
import Mathlib.LinearAlgebra.Matrix.NonsingularInverse
import Mathlib.Analysis.SpecialFunctions.Pow.Real

/-!
# `pygsp/utils.py` : `distanz`, `resistance_distance`, `rescale_center`
-/

namespace PyGSP

open Matrix

/-- `try: x.shape[1] except IndexError: x = x.reshape(1, x.shape[0])` (`utils.py:110-113`): a vector becomes one row.
An array without dimension raises IndexError in the handler. -/
def asRow (x : Arr) : Py Arr :=
  match x.shape with
  | [] => .error .indexError
  | [k] => .ok ⟨[1, k], fun
    | [0, j] => x.val [j]
    | _ => 0⟩
  | _ => .ok x

/-- `utils.distanz` (`utils.py:84-137`).  The unpacking `rx, cx = x.shape` raises ValueError for more than two dimensions. -/
noncomputable def distanz (x : Arr) (y : Option Arr) : Py Arr := do
  let x ← asRow x
  let y ← match y with
    | none => .ok x
    | some y => asRow y
  match x.shape, y.shape with
  | [rx, cx], [ry, cy] =>
    if rx ≠ ry then .error .valueError
    else
      let xx : ℕ → ℝ := fun i => ∑ k ∈ Finset.range rx, x.val [k, i] * x.val [k, i]
      let yy : ℕ → ℝ := fun j => ∑ k ∈ Finset.range ry, y.val [k, j] * y.val [k, j]
      let xy : ℕ → ℕ → ℝ := fun i j => ∑ k ∈ Finset.range rx, x.val [k, i] * y.val [k, j]
      .ok (Arr.of2 fun (i : Fin cx) (j : Fin cy) => √|xx i + yy j - 2 * xy i j|)
  | _, _ => .error .valueError

variable {n : ℕ}

/-- The inverse used by `resistance_distance` (`utils.py:167-170`): `scipy.sparse.linalg.inv(L)`, and
`np.linalg.pinv(L)` when the former raises RuntimeError.
Simplification: exact arithmetic, `inv` raises exactly for a singular matrix; `pinv` is a parameter. -/
noncomputable def invOrPinv (pinv : Matrix (Fin n) (Fin n) ℝ → Matrix (Fin n) (Fin n) ℝ) (L : Matrix (Fin n) (Fin n) ℝ) :
    Matrix (Fin n) (Fin n) ℝ :=
  open Classical in if L.det = 0 then pinv L else L⁻¹

/-- `utils.resistance_distance` of a sparse matrix (`utils.py:159-181`); the matrix `kron(d, ones((N, 1)))` has `d_j` in
column `j`. -/
noncomputable def resistanceOfMatrix (pinv : Matrix (Fin n) (Fin n) ℝ → Matrix (Fin n) (Fin n) ℝ)
    (L : Matrix (Fin n) (Fin n) ℝ) : Matrix (Fin n) (Fin n) ℝ :=
  let pseudo := invOrPinv pinv L
  let kron : Matrix (Fin n) (Fin n) ℝ := Matrix.of fun _ j => pseudo j j
  kronᵀ + kron - pseudo - pseudoᵀ

/-- `utils.resistance_distance` of a graph (`utils.py:162-165`). -/
noncomputable def resistanceDistance (pinv : Matrix (Fin n) (Fin n) ℝ → Matrix (Fin n) (Fin n) ℝ) (s : GState n) :
    Py (Matrix (Fin n) (Fin n) ℝ) :=
  if s.lapType ≠ .combinatorial then .error .valueError else .ok (resistanceOfMatrix pinv s.L)

/-- `utils.rescale_center` (`utils.py:280-309`) on an array of shape `(r, N)`: `np.mean` over the columns, `np.amax` over
all the entries (ValueError when there is none).  Simplification: when the maximum is 0 the result is NaN everywhere
(`unmodelled`). -/
noncomputable def rescaleCenter {r N : ℕ} (x : Matrix (Fin r) (Fin N) ℝ) : Py (Matrix (Fin r) (Fin N) ℝ) :=
  let y : Matrix (Fin r) (Fin N) ℝ := Matrix.of fun i j => x i j - (∑ j, x i j) / N
  if h : 0 < r ∧ 0 < N then
    let c := Finset.univ.sup' ⟨(⟨0, h.1⟩, ⟨0, h.2⟩), Finset.mem_univ _⟩ fun p : Fin r × Fin N => y p.1 p.2
    open Classical in if c = 0 then .error .unmodelled else .ok (Matrix.of fun i j => y i j / c)
  else .error .valueError

end PyGSP
