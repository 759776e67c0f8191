import Verif.Model.Py
import Mathlib.Data.Matrix.Mul
import Mathlib.Analysis.SpecialFunctions.Sqrt

/-!
# The Lanczos iteration (`lanczos`, `pygsp/filters/approximations.py:281-341`)
-/

namespace PyGSP

open Matrix

variable {n : ℕ}

/-- The Euclidean norm of a vector (`np.linalg.norm`). -/
noncomputable def norm2 (x : Fin n → ℝ) : ℝ := Real.sqrt (x ⬝ᵥ x)

/-- The variables of `lanczos` for one vector (`M = 1`, `hiv = [0]`): the array `V` (`V k` is the column `k`; zero where it has
not been assigned), the array `H`, `q` and `r`.  The array `orth` is not modelled: it is a diagnostic that nothing reads. -/
structure LanczosState (n : ℕ) where
  V : ℕ → Fin n → ℝ
  H : ℕ → ℕ → ℝ
  q : Fin n → ℝ
  r : Fin n → ℝ

/-- What `lanczos` returns, with the shapes of the two arrays. -/
structure LanczosOut (n : ℕ) where
  rows : ℕ
  cols : ℕ
  V : Matrix (Fin n) (Fin cols) ℝ
  H : Matrix (Fin rows) (Fin cols) ℝ

/-- The assignment `H[i, j] = v`. -/
def setEntry (H : ℕ → ℕ → ℝ) (i j : ℕ) (v : ℝ) : ℕ → ℕ → ℝ := fun a b => if a = i ∧ b = j then v else H a b

/-- `np.spacing(1)`. -/
noncomputable def spacing1 : ℝ := 1 / 2 ^ 52

/-- The initialization (`approximations.py:299-311`). -/
noncomputable def lanczosInit (A : Matrix (Fin n) (Fin n) ℝ) (x : Fin n → ℝ) : LanczosState n :=
  let q := (1 / norm2 x) • x
  let V : ℕ → Fin n → ℝ := fun k => if k = 0 then q else 0
  let r := A *ᵥ q
  let H := setEntry (fun _ _ => 0) 0 0 (q ⬝ᵥ r)
  let r := r - H 0 0 • q
  { V := V, H := setEntry H 1 0 (norm2 r), q := q, r := r }

/-- The body of the loop after the test (`approximations.py:324-336`). -/
noncomputable def lanczosStep (A : Matrix (Fin n) (Fin n) ℝ) (order k : ℕ) (st : LanczosState n) : LanczosState n :=
  let H := setEntry st.H (k - 1) k (st.H k (k - 1))
  let v := st.q
  let q := (1 / H (k - 1) k) • st.r
  let V : ℕ → Fin n → ℝ := fun j => if j = k then q else st.V j
  let r := A *ᵥ q
  let r := r - H (k - 1) k • v
  let H := setEntry H k k (q ⬝ᵥ r)
  let r := r - H k k • q
  let r := r - ∑ j ∈ Finset.range order, (V j ⬝ᵥ r) • V j
  { V := V, H := setEntry H (k + 1) k (norm2 r), q := q, r := r }

/-- The loop (`approximations.py:316-341`) from iteration `k`, `t` iterations before the end.  When the residual vanishes the
function returns the first `k` columns, and the first `k - 1` rows of `H`. -/
noncomputable def lanczosLoop (A : Matrix (Fin n) (Fin n) ℝ) (order : ℕ) : ℕ → ℕ → LanczosState n → LanczosOut n
  | 0, _, st => ⟨order, order, fun i j => st.V j i, fun i j => st.H i j⟩
  | t + 1, k, st =>
    if |st.H k (k - 1)| ≤ spacing1 then ⟨k - 1, k, fun i j => st.V j i, fun i j => st.H i j⟩
    else lanczosLoop A order t (k + 1) (lanczosStep A order k st)

/-- `lanczos(A, order, x)` (`approximations.py:281-341`) for a vector `x` (1-D, or 2-D with one column) and `order >= 1`.  For
`x = 0` the normalization gives NaN: `unmodelled`. -/
noncomputable def lanczos (A : Matrix (Fin n) (Fin n) ℝ) (order : ℕ) (x : Fin n → ℝ) : Py (LanczosOut n) :=
  if x = 0 ∨ order = 0 then .error .unmodelled
  else .ok (lanczosLoop A order (order - 1) 1 (lanczosInit A x))

end PyGSP
