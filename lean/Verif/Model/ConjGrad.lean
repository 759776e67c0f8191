import Verif.Model.Learning
import Mathlib.Analysis.Real.Sqrt

/-!
# The conjugate gradient of `scipy.sparse.linalg.cg`, as `regression_tikhonov` calls it

`pygsp/learning.py:335` and `:337` call `sparse.linalg.cg(LinearOp, y)` and use the first output only ("TODO: do something with the
residual").  The defaults of scipy apply: start at zero, no preconditioner, `rtol = 1e-5`, `atol = 0`, `maxiter = 10 n`.
Exact arithmetic; `rtol` is a parameter.
-/

namespace PyGSP.Learning

open Matrix

variable {n : ℕ}

/-- the variables of the loop of `cg` (called at `learning.py:335,337`): the iterate, its residual, the search direction and the squared
norm of the previous residual -/
structure CGState (n : ℕ) where
  x : Fin n → ℝ
  r : Fin n → ℝ
  p : Fin n → ℝ
  rho : ℝ

/-- the body of the loop of `cg` at iteration `k` (called at `learning.py:335,337`):
`rho = r·r; p = r` (first iteration) or `p = (rho / rho_prev) p + r`, `q = A p; alpha = rho / (p·q); x += alpha p; r -= alpha q`.
The operator `A` is `Op` (`learning.py:326-329`). -/
noncomputable def cgStep (A : Matrix (Fin n) (Fin n) ℝ) (k : ℕ) (st : CGState n) : CGState n :=
  let rho := st.r ⬝ᵥ st.r
  let p := if k = 0 then st.r else (rho / st.rho) • st.p + st.r
  let q := A *ᵥ p
  let alpha := rho / (p ⬝ᵥ q)
  ⟨st.x + alpha • p, st.r - alpha • q, p, rho⟩

/-- `for iteration in range(maxiter): if norm(r) < tol: return x, 0 …; return x, maxiter` (called at `learning.py:335,337`);
`todo` is the number of iterations left, `k` the index of the next one -/
noncomputable def cgLoop (A : Matrix (Fin n) (Fin n) ℝ) (tol : ℝ) (maxiter : ℕ) : ℕ → ℕ → CGState n → (Fin n → ℝ) × ℕ
  | 0, _, st => (st.x, maxiter)
  | todo + 1, k, st =>
    open Classical in
    if √(∑ v, st.r v ^ 2) < tol then (st.x, 0) else cgLoop A tol maxiter todo (k + 1) (cgStep A k st)

/-- `scipy.sparse.linalg.cg(A, b, rtol=rtol)` (called at `learning.py:335,337`): the iterate and the exit code (zero: converged).
Simplification: the division by zero of a direction with `p·Ap = 0` is `0` here and NaN in numpy; the theorems show that it does not
occur for the systems of `learning.py`. -/
noncomputable def cgRun (rtol : ℝ) (A : Matrix (Fin n) (Fin n) ℝ) (b : Fin n → ℝ) : (Fin n → ℝ) × ℕ :=
  open Classical in
  let bnrm2 := √(∑ v, b v ^ 2)
  if bnrm2 = 0 then (b, 0) else cgLoop A (rtol * bnrm2) (n * 10) (n * 10) 0 ⟨0, b, 0, 0⟩

/-- the solver as `regression_tikhonov` uses it (`learning.py:335,337`): the exit code is ignored -/
noncomputable def scipyCG (rtol : ℝ) (A : Matrix (Fin n) (Fin n) ℝ) (b : Fin n → ℝ) : Fin n → ℝ := (cgRun rtol A b).1

end PyGSP.Learning
