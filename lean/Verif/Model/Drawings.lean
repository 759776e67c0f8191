import Verif.Model.Generators
import Verif.Model.Layout
import Verif.Model.NNGraph

/-!
# The coordinates of the generated graphs, and the graphs made from data files

The attributes `plotting` and the data files themselves are not modelled: the arrays read by `utils.loadmat` are parameters.
-/

namespace PyGSP.Gen

open Matrix Layout

/-- `set_coordinates(name)` called by a constructor on its new graph. -/
noncomputable def drawn {N : ℕ} (S : Solvers N) (name : String) (g : Graph N ℝ) : Py (LState N) :=
  match setCoordinates S (fun _ _ _ => 0) (.name name) {} ⟨GState.ofGraph g, .unset, none⟩ with
  | (.error e, _) => .error e
  | (.ok (), s) => .ok s

/-- `Path(N, directed)` with its coordinates (`path.py:59-77`). -/
noncomputable def pathDrawn {N : ℕ} (S : Solvers N) (directed : Bool) (lt : LapType) : Py (LState N) :=
  match path N directed lt with
  | .error e => .error e
  | .ok g => drawn S "line2D" g

/-- `Ring(N, k)` with its coordinates (`ring.py:55-92`). -/
noncomputable def ringDrawn {N : ℕ} (S : Solvers N) (k : ℕ) (lt : LapType) : Py (LState N) :=
  match ring N k lt with
  | .error e => .error e
  | .ok g => drawn S "ring2D" g

/-- The column `x` of the coordinates of `Grid2d` (`grid2d.py:80`): `np.kron(np.ones((N1, 1)), column)` stacks `N1` copies of the column. -/
noncomputable def gridX (N1 N2 : ℕ) : List ℝ := (List.replicate N1 ((List.range N2).map fun j : ℕ => (j : ℝ) / N2)).flatten

open Classical in
/-- The column `y` (`grid2d.py:81-82`): `N2` copies of the row `0, 1/N1, ...` one after the other, sorted, and reversed. -/
noncomputable def gridY (N1 N2 : ℕ) : List ℝ :=
  ((List.replicate N2 ((List.range N1).map fun i : ℕ => (i : ℝ) / N1)).flatten.mergeSort fun a b => decide (a ≤ b)).reverse

/-- `coords = np.concatenate((x, y), axis=1)` (`grid2d.py:83`). -/
noncomputable def gridPoints (N1 N2 : ℕ) : List (ℝ × ℝ) := (gridX N1 N2).zip (gridY N1 N2)

/-- `np.reshape(a, (Mv * Nv, 1), order='F')` of an array of shape `(Nv, Mv)`. -/
def flattenF {Nv Mv : ℕ} (a : ℕ → ℕ → ℝ) (v : Fin (Mv * Nv)) : ℝ := a (v % Nv) (v / Nv)

/-- The coordinates of `Torus` (`torus.py:88-101`). -/
noncomputable def torusCoords (Nv Mv : ℕ) (v : Fin (Mv * Nv)) : Fin 3 → ℝ :=
  let T : ℕ → ℝ := fun j => 1.5 + Real.sin (j * 2 * Real.pi / Mv)
  let U : ℕ → ℝ := fun j => Real.cos (j * 2 * Real.pi / Mv)
  ![flattenF (fun i j => Real.cos (i * 2 * Real.pi / Nv) * T j) v, flattenF (fun i j => Real.sin (i * 2 * Real.pi / Nv) * T j) v, flattenF (fun _ j => U j) v]

/-! ### Graphs made from data files -/

/-- `Minnesota(connected)` (`minnesota.py:27-46`); `A` is the matrix of the file.  `A[348, 354] = 1` raises IndexError on a smaller matrix. -/
noncomputable def minnesota {n : ℕ} (A : Matrix (Fin n) (Fin n) ℝ) (connected : Bool) (lt : LapType) : Py (Graph n ℝ) :=
  if connected then
    if n ≤ 354 then .error .indexError
    else
      let A1 : Matrix (Fin n) (Fin n) ℝ := Matrix.of fun i j => if i.1 = 348 ∧ j.1 = 354 then 1 else A i j
      let A2 : Matrix (Fin n) (Fin n) ℝ := Matrix.of fun i j => if i.1 = 354 ∧ j.1 = 348 then 1 else A1 i j
      open Classical in
      Graph.ofCsr (Sp.ofDense (Matrix.of fun i j => if 0 < A2 i j then (1 : ℝ) else 0)) lt
  else Graph.ofCsr (Sp.ofDense A) lt

/-- `Airfoil()` (`airfoil.py:25-37`); `inds` are the pairs `(i_inds, j_inds)` of the file, counted from 1.  `n` is 4253.  A zero gives a negative index: ValueError. -/
noncomputable def airfoil (n : ℕ) (inds : List (ℕ × ℕ)) (lt : LapType) : Py (Graph n ℝ) :=
  if ∃ e ∈ inds, e.1 = 0 ∨ e.2 = 0 then .error .valueError
  else
    match coo n (ones (inds.map fun e => e.1 - 1) (inds.map fun e => e.2 - 1)) with
    | .error e => .error e
    | .ok A => Graph.ofCsr (Sp.ofDense (Matrix.of fun i j => (A.dense i j + A.dense j i) / 2)) lt

/-- `Bunny()` (`bunny.py:26-46`): `X` is the point cloud of the file; the other arguments of `NNGraph` have their default values (`nngraph.py:92-107`). -/
noncomputable def bunny {N : ℕ} (X : Fin N → Fin 3 → ℝ) (nn : Fin N → List (Fin N)) (lt : LapType) : Py (Graph N ℝ × (Fin N → Fin 3 → ℝ)) :=
  nnGraph X .radius false false 10 none 0.02 .average .euclidean nn lt

end PyGSP.Gen
