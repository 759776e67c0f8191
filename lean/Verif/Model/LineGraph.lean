import Verif.Model.Laplacian

/-!
# `pygsp/graphs/linegraph.py`
-/

namespace PyGSP

open Matrix

variable {n : ℕ}

/-- The adjacency matrix of `LineGraph` (`linegraph.py:43-46`): `incidence = D != 0` is a boolean matrix, the product of boolean
sparse matrices is the boolean product ("or" of "and"s), it is converted to integers and the identity is subtracted. -/
noncomputable def lineAdjacency {m : ℕ} (D : Sp n m ℝ) : Matrix (Fin m) (Fin m) ℝ :=
  open Classical in
  Matrix.of fun k l => (if ∃ a, D.dense a k ≠ 0 ∧ D.dense a l ≠ 0 then 1 else 0) - if k = l then 1 else 0

/-- The coordinates of `LineGraph` (`linegraph.py:48-51`), for one coordinate axis: `incidence.T.dot(coords) / 2`. -/
noncomputable def lineCoords {m : ℕ} (D : Sp n m ℝ) (coords : Fin n → ℝ) : Fin m → ℝ :=
  open Classical in
  fun k => (∑ a, (if D.dense a k ≠ 0 then 1 else 0) * coords a) / 2

/-- `LineGraph(graph, lap_type)` (`linegraph.py:34-53`); the warning and the plotting attributes are not modelled.  The result
contains the coordinates along one axis. -/
noncomputable def lineGraph (g : Graph n ℝ) (coords : Fin n → ℝ) (lt : LapType) : Py (Σ m, Graph m ℝ × (Fin m → ℝ)) :=
  match g.diffOp with
  | .error e => .error e
  | .ok ⟨m, D⟩ =>
    match Graph.ofCsr (Sp.ofDense (lineAdjacency D)) lt with
    | .error e => .error e
    | .ok h => .ok ⟨m, h, lineCoords D coords⟩

end PyGSP
