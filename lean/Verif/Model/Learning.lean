import Verif.Model.GraphState
import Verif.Model.Array
import Mathlib.LinearAlgebra.Matrix.NonsingularInverse
import Mathlib.Algebra.Order.Floor.Ring
import Mathlib.Data.Real.Archimedean

/-!
# `pygsp/learning.py`

Exact arithmetic.  Not modelled: the branch for a dense `G.L` (`learning.py:342-347`, `361-362`: `G.L` is always sparse),
and `pyunlocbox` itself: here only the functions passed to it are modelled, its accelerated loop is in Model/Fista.lean.
-/

namespace PyGSP.Learning

open Matrix

variable {n : ℕ}

/-- `scipy.sparse.linalg.spsolve(A, b)`, exact.  Simplification: for a singular matrix scipy warns and returns NaN
(`unmodelled`). -/
noncomputable def spsolve {ι : Type} [Fintype ι] [DecidableEq ι] (A : Matrix ι ι ℝ) (b : ι → ℝ) : Py (ι → ℝ) :=
  open Classical in if A.det = 0 then .error .unmodelled else .ok (A⁻¹ *ᵥ b)

/-- the vertices where `M == False` (`learning.py:354`) -/
abbrev Unlabelled (m : Fin n → Bool) := { v : Fin n // m v = false }

/-- `spsolve(Luu, Wul.dot(y[indl]))` (`learning.py:356-362`), `Luu = G.L[indu, :][:, indu]`, `Wul = -G.L[indu, :][:, indl]`.
Simplification: when there is no unlabelled vertex the matrices are empty, the behaviour of scipy is not modelled. -/
noncomputable def solveUnlabelled (L : Matrix (Fin n) (Fin n) ℝ) (m : Fin n → Bool) (y : Fin n → ℝ) :
    Py (Unlabelled m → ℝ) :=
  if ∀ v, m v = true then .error .unmodelled
  else
    let Luu : Matrix (Unlabelled m) (Unlabelled m) ℝ := Matrix.of fun a b => L a.1 b.1
    let Wul : Matrix (Unlabelled m) { v : Fin n // m v = true } ℝ := Matrix.of fun a b => - L a.1 b.1
    spsolve Luu (Wul *ᵥ fun v => y v.1)

/-- Storing a float in an array of integers truncates towards zero; in an array of floats it keeps the value. -/
noncomputable def store (isInt : Bool) (x : ℝ) : ℝ :=
  if isInt then (if 0 ≤ x then (⌊x⌋ : ℝ) else (⌈x⌉ : ℝ)) else x

/-- `sol = y.copy(); sol[indu] = sol_part` (`learning.py:364-365`) -/
noncomputable def fill (isInt : Bool) (m : Fin n → Bool) (y : Fin n → ℝ) (part : Unlabelled m → ℝ) (v : Fin n) : ℝ :=
  if h : m v = false then store isInt (part ⟨v, h⟩) else y v

/-- the operator `(M * x.T).T + tau * (G.L.dot(x))` (`learning.py:326-327`) -/
noncomputable def penalised (L : Matrix (Fin n) (Fin n) ℝ) (m : Fin n → Bool) (tau : ℝ) : Matrix (Fin n) (Fin n) ℝ :=
  Matrix.diagonal (fun v => if m v then 1 else 0) + tau • L

/-- `y = y.copy(); y[M == False] = 0` (`learning.py:321-322`) -/
def mask (m : Fin n → Bool) (y : Fin n → ℝ) (v : Fin n) : ℝ := if m v then y v else 0

/-- `regression_tikhonov(G, y, M, tau)` (`learning.py:256-367`) for a 1-D array of measurements; `isInt` tells whether the
dtype of `y` is an integer type, `p` is the size of the mask, `cg` is `scipy.sparse.linalg.cg`. -/
noncomputable def regression1 (cg : Matrix (Fin n) (Fin n) ℝ → (Fin n → ℝ) → Fin n → ℝ) (isInt : Bool)
    (L : Matrix (Fin n) (Fin n) ℝ) (y : Fin n → ℝ) {p : ℕ} (M : Fin p → Bool) (tau : ℝ) : Py (Fin n → ℝ) :=
  if tau > 0 then
    if h : p = n then
      let m : Fin n → Bool := fun v => M (v.cast h.symm)
      .ok (cg (penalised L m tau) (mask m y))
    else .error .indexError
  else if h : p = n then
    let m : Fin n → Bool := fun v => M (v.cast h.symm)
    match solveUnlabelled L m y with
    | .error e => .error e
    | .ok part => .ok (fill isInt m y part)
  else .error .valueError

/-- `regression_tikhonov(G, y, M, tau)` for a 2-D array of floats with `k` columns.  `spsolve` with a right hand side of one
column returns a 1-D array, which cannot be stored in `sol[indu]` of shape `(u, 1)` unless `u = 1` (ValueError).
Simplification: `k = 0` is not modelled. -/
noncomputable def regression2 (cg : Matrix (Fin n) (Fin n) ℝ → (Fin n → ℝ) → Fin n → ℝ)
    (L : Matrix (Fin n) (Fin n) ℝ) {k : ℕ} (y : Fin n → Fin k → ℝ) {p : ℕ} (M : Fin p → Bool) (tau : ℝ) :
    Py (Fin n → Fin k → ℝ) :=
  if tau > 0 then
    if h : p = n then
      let m : Fin n → Bool := fun v => M (v.cast h.symm)
      -- for i in range(y.shape[1]): sol[:, i] = cg(LinearOp, y[:, i])
      .ok fun v j => cg (penalised L m tau) (mask m fun v => y v j) v
    else .error .indexError
  else if h : p = n then
    let m : Fin n → Bool := fun v => M (v.cast h.symm)
    if k = 0 then .error .unmodelled
    else
      match seqFin k fun j => solveUnlabelled L m fun v => y v j with
      | .error e => .error e
      | .ok part =>
        if k = 1 ∧ Fintype.card (Unlabelled m) ≠ 1 then .error .valueError
        else .ok fun v j => fill false m (fun v => y v j) (part j) v
  else .error .valueError

/-- Python indexing of a dimension of size `k` with an integer: negative indices count from the end. -/
def pyIndex (k : ℕ) (i : ℤ) : Option (Fin k) :=
  if h : 0 ≤ i ∧ i < k then some ⟨i.toNat, by omega⟩
  else if h : i < 0 ∧ 0 ≤ i + k then some ⟨(i + k).toNat, by omega⟩
  else none

/-- The maximum of an integer array; ValueError if it is empty. -/
def intMax (x : Fin n → ℤ) : Py ℤ :=
  if h : 0 < n then .ok (Finset.univ.sup' ⟨⟨0, h⟩, Finset.mem_univ _⟩ x) else .error .valueError

/-- `_to_logits` (`learning.py:36-39`): `np.zeros([len(x), np.max(x) + 1])` raises ValueError for a negative dimension, the
assignment `logits[range(len(x)), x] = 1` raises IndexError when a label is out of bounds. -/
noncomputable def toLogits (x : Fin n → ℤ) : Py (Σ k : ℕ, Fin n → Fin k → ℝ) :=
  match intMax x with
  | .error e => .error e
  | .ok mx =>
    if mx + 1 < 0 then .error .valueError
    else
      let k := (mx + 1).toNat
      if ∃ v, pyIndex k (x v) = none then .error .indexError
      else .ok ⟨k, fun v j => if pyIndex k (x v) = some j then 1 else 0⟩

/-- `y = y.copy(); y[M == False] = 0; Y = _to_logits(y.astype(int)); return regression_tikhonov(G, Y, M, tau)`
(`learning.py:250-253`), for integer labels. -/
noncomputable def classification (cg : Matrix (Fin n) (Fin n) ℝ → (Fin n → ℝ) → Fin n → ℝ)
    (L : Matrix (Fin n) (Fin n) ℝ) (y : Fin n → ℤ) {p : ℕ} (M : Fin p → Bool) (tau : ℝ) :
    Py (Σ k : ℕ, Fin n → Fin k → ℝ) :=
  if h : p = n then
    match toLogits fun v => if M (v.cast h.symm) then y v else 0 with
    | .error e => .error e
    | .ok ⟨k, Y⟩ =>
      match regression2 cg L Y M tau with
      | .error e => .error e
      | .ok X => .ok ⟨k, X⟩
  else .error .indexError

/-! ### `classification_tikhonov_simplex` -/

/-- `evalpL(y, k, idx) = np.sum(y[idx[k:]] - y[idx[k]]) - 1` (`learning.py:126-127`), `y` already sorted by `idx`. -/
noncomputable def evalpL {d : ℕ} (z : Fin d → ℝ) (k : Fin d) : ℝ := (∑ j, if k ≤ j then z j - z k else 0) - 1

/-- the loop of `bisectsearch` (`learning.py:137-144`): `while (idxH - idxL) > 1` -/
noncomputable def bisectLoop {d : ℕ} (z : Fin d → ℝ) (lo hi : Fin d) : Fin d :=
  if h : hi.1 - lo.1 > 1 then
    let mid : Fin d := ⟨(lo.1 + hi.1) / 2, by have := hi.2; have := lo.2; omega⟩
    open Classical in if evalpL z mid > 0 then bisectLoop z mid hi else bisectLoop z lo mid
  else hi
  termination_by hi.1 - lo.1
  decreasing_by all_goals omega

/-- `bisectsearch` (`learning.py:129-146`) -/
noncomputable def bisectsearch {d : ℕ} (z : Fin d → ℝ) (hd : 0 < d) : Fin d :=
  let lo : Fin d := ⟨0, hd⟩
  let hi : Fin d := ⟨d - 1, by omega⟩
  open Classical in if evalpL z lo < 0 then lo else bisectLoop z lo hi

/-- one row of `proj_simplex` (`learning.py:121-158`); `idx` is `np.argsort(y)`.  An empty row raises IndexError. -/
noncomputable def projSimplex {d : ℕ} (idx : (Fin d → ℝ) → Fin d → Fin d) (y : Fin d → ℝ) : Py (Fin d → ℝ) :=
  if hd : 0 < d then
    let z : Fin d → ℝ := fun j => y (idx y j)
    let k := bisectsearch z hd
    let lam := ((∑ j, if k ≤ j then z j else 0) - 1) / (d - (k.1 : ℝ))
    .ok fun j => max 0 (y j - lam)
  else .error .indexError

/-- `smooth_eval` (`learning.py:160-164`) -/
noncomputable def smoothEval {d : ℕ} (L : Matrix (Fin n) (Fin n) ℝ) (m : Fin n → Bool) (Y : Matrix (Fin n) (Fin d) ℝ) (tau : ℝ)
    (X : Matrix (Fin n) (Fin d) ℝ) : ℝ :=
  tau * (∑ v, ∑ j, X v j * (L * X) v j) +
    ∑ v, ∑ j, ((if m v then 1 else 0) * ((if m v then 1 else 0) * X v j - Y v j)) ^ 2

/-- `smooth_grad` (`learning.py:166-167`) -/
noncomputable def smoothGrad {d : ℕ} (L : Matrix (Fin n) (Fin n) ℝ) (m : Fin n → Bool) (Y : Matrix (Fin n) (Fin d) ℝ) (tau : ℝ)
    (X : Matrix (Fin n) (Fin d) ℝ) : Matrix (Fin n) (Fin d) ℝ :=
  Matrix.of fun v j => 2 * ((if m v then 1 else 0) * ((if m v then 1 else 0) * X v j - Y v j) + tau * (L * X) v j)

/-- `Y = _to_logits(y); Y[M == False, :] = 0`, and the check of `tau` (`learning.py:113-119`). -/
noncomputable def simplexSetup (y : Fin n → ℤ) (m : Fin n → Bool) (tau : ℝ) : Py (Σ k : ℕ, Fin n → Fin k → ℝ) :=
  if tau ≤ 0 then .error .valueError
  else
    match toLogits fun v => if m v then y v else 0 with
    | .error e => .error e
    | .ok ⟨k, Y⟩ => .ok ⟨k, fun v j => if m v then Y v j else 0⟩

/-- One step of forward-backward splitting with the functions and the step passed to the solver (`learning.py:169-178`):
`step = 0.5 / (1 + tau * G.lmax)`, `X ← f2.prox(X - step * f1.grad(X), step)`, the proximal operator being the projection of
every row.  `pyunlocbox` evaluates the step at an extrapolated point (acceleration, see Model/Fista.lean), hence the theorems
are about a step from any point. -/
noncomputable def fbStep {d : ℕ} (idx : (Fin d → ℝ) → Fin d → Fin d) (L : Matrix (Fin n) (Fin n) ℝ) (m : Fin n → Bool)
    (Y : Matrix (Fin n) (Fin d) ℝ) (tau lmax : ℝ) (X : Matrix (Fin n) (Fin d) ℝ) : Py (Matrix (Fin n) (Fin d) ℝ) :=
  let step := 0.5 / (1 + tau * lmax)
  match seqFin n fun v => projSimplex idx fun j => X v j - step * smoothGrad L m Y tau X v j with
  | .error e => .error e
  | .ok X' => .ok (Matrix.of X')

/-- The iteration of the solver without acceleration, from `X` (the code starts at `Y.copy()`). -/
noncomputable def fbIter {d : ℕ} (idx : (Fin d → ℝ) → Fin d → Fin d) (L : Matrix (Fin n) (Fin n) ℝ) (m : Fin n → Bool)
    (Y : Matrix (Fin n) (Fin d) ℝ) (tau lmax : ℝ) (X : Matrix (Fin n) (Fin d) ℝ) : ℕ → Py (Matrix (Fin n) (Fin d) ℝ)
  | 0 => .ok X
  | k + 1 =>
    match fbIter idx L m Y tau lmax X k with
    | .error e => .error e
    | .ok X => fbStep idx L m Y tau lmax X

end PyGSP.Learning
