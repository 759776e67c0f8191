import Verif.Model.Learning
import Mathlib.Analysis.Real.Sqrt

/-!
# The solver behind `classification_tikhonov_simplex`

`pygsp/learning.py:169-178` passes the two functions, the starting point and the step to
`pyunlocbox.solvers.solve([f1, f2], Y.copy(), forward_backward(step=step), **kwargs)`.  The defaults of pyunlocbox apply: the acceleration
FISTA, `rtol = 1e-3`, `maxit = 200`; here `rtol` and `maxit` are parameters.  Exact arithmetic.
-/

namespace PyGSP.Learning

open Matrix

variable {n d : ℕ}

/-- the state of the solver (`learning.py:176-178`): the current solution, the previous one (kept by the acceleration) and the number `t`
of the acceleration -/
structure FistaState (n d : ℕ) where
  sol : Matrix (Fin n) (Fin d) ℝ
  prev : Matrix (Fin n) (Fin d) ℝ
  t : ℝ

/-- one iteration of the accelerated solver (`learning.py:176-178`), `niter` starts at 1: `t' = (1 + sqrt(1 + 4 t²)) / 2` (`t = 1` at the
first iteration), extrapolation `sol + (t - 1) / t' * (sol - prev)`, then a forward-backward step from there -/
noncomputable def accelStep (idx : (Fin d → ℝ) → Fin d → Fin d) (L : Matrix (Fin n) (Fin n) ℝ) (m : Fin n → Bool)
    (Y : Matrix (Fin n) (Fin d) ℝ) (tau lmax : ℝ) (niter : ℕ) (st : FistaState n d) : Py (FistaState n d) :=
  let t := if niter = 1 then 1 else st.t
  let t' := (1 + √(1 + 4 * t ^ 2)) / 2
  match fbStep idx L m Y tau lmax (st.sol + ((t - 1) / t') • (st.sol - st.prev)) with
  | .error e => .error e
  | .ok X => .ok ⟨X, st.sol, t'⟩

/-- the relative change of the objective (`learning.py:178`, criterion RTOL of pyunlocbox) -/
noncomputable def relChange (current last : ℝ) : ℝ :=
  open Classical in |(current - last) / (if current = 0 then (if last = 0 then 1 else last) else current)|

/-- the loop of the solver (`learning.py:178`): iterate until the relative change of the objective is below `rtol` or `maxit` iterations are
done.  `todo` is the number of iterations left, `done` those already done, `last` the previous value of the objective. -/
noncomputable def solveLoop (idx : (Fin d → ℝ) → Fin d → Fin d) (L : Matrix (Fin n) (Fin n) ℝ) (m : Fin n → Bool)
    (Y : Matrix (Fin n) (Fin d) ℝ) (tau lmax rtol : ℝ) : ℕ → ℕ → ℝ → FistaState n d → Py (Matrix (Fin n) (Fin d) ℝ × ℕ)
  | 0, done, _, st => .ok (st.sol, done)
  | todo + 1, done, last, st =>
    match accelStep idx L m Y tau lmax (done + 1) st with
    | .error e => .error e
    | .ok st' =>
      let current := smoothEval L m Y tau st'.sol
      open Classical in
      if relChange current last < rtol then .ok (st'.sol, done + 1)
      else solveLoop idx L m Y tau lmax rtol todo (done + 1) current st'

/-- `solvers.solve([f1, f2], Y.copy(), solver, rtol=rtol, maxit=maxit)` (`learning.py:177-178`): the solution and the number of
iterations.  There is always one iteration. -/
noncomputable def solveSimplex (idx : (Fin d → ℝ) → Fin d → Fin d) (L : Matrix (Fin n) (Fin n) ℝ) (m : Fin n → Bool)
    (Y : Matrix (Fin n) (Fin d) ℝ) (tau lmax rtol : ℝ) (maxit : ℕ) : Py (Matrix (Fin n) (Fin d) ℝ × ℕ) :=
  solveLoop idx L m Y tau lmax rtol (max maxit 1) 0 (smoothEval L m Y tau Y) ⟨Y, Y, 1⟩

/-- `classification_tikhonov_simplex(G, y, M, tau, rtol=rtol, maxit=maxit)` (`learning.py:42-179`) for integer labels; `lmax` is `G.lmax`,
`idx` is `np.argsort` on rows.  Also returns the number of iterations. -/
noncomputable def classificationSimplex (idx : ∀ d, (Fin d → ℝ) → Fin d → Fin d) (L : Matrix (Fin n) (Fin n) ℝ) (y : Fin n → ℤ)
    (m : Fin n → Bool) (tau lmax rtol : ℝ) (maxit : ℕ) : Py ((k : ℕ) × Matrix (Fin n) (Fin k) ℝ × ℕ) :=
  match simplexSetup y m tau with
  | .error e => .error e
  | .ok ⟨k, Y⟩ =>
    match solveSimplex (idx k) L m (Matrix.of Y) tau lmax rtol maxit with
    | .error e => .error e
    | .ok (X, K) => .ok ⟨k, X, K⟩

end PyGSP.Learning
