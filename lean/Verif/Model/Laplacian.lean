import Verif.Model.Graph
import Verif.Model.Utils
import Verif.Model.Subgraph
import Mathlib.Analysis.SpecialFunctions.Pow.Real

/-!
# `compute_laplacian`, `_get_upper_bound`, `dirichlet_energy` (`pygsp/graphs/graph.py`) and the
differential operator (`pygsp/graphs/difference.py`)

Weights are real numbers.
-/

namespace PyGSP

open Matrix

variable {n : ℕ}

/-- The undirected weights used by the Laplacian (`graph.py:613-616`): `W` if undirected, else
`utils.symmetrize(W, method='average')`. -/
noncomputable def lapWeights (W : Sp n n ℝ) : Matrix (Fin n) (Fin n) ℝ :=
  if isDirected W then symAverage W.dense else W.dense

/-- `graph.py:620-622`: `d = zeros; np.power(dw, -0.5, where=~disconnected, out=d)`.
For a negative degree numpy yields NaN where `Real.rpow` yields a junk number: all statements about the
normalized Laplacian are for non-negative weights. -/
noncomputable def invSqrtDegree (W : Sp n n ℝ) (i : Fin n) : ℝ :=
  if dw W i = 0 then 0 else (dw W i) ^ (-(1 / 2) : ℝ)

/-- The matrix assigned to `self.L` by `Graph.compute_laplacian` (`graph.py:616-630`).
`self.L[disconnected, disconnected] = 0` writes the diagonal entries of the disconnected vertices. -/
noncomputable def laplacian (W : Sp n n ℝ) : LapType → Py (Matrix (Fin n) (Fin n) ℝ)
  | .combinatorial => .ok (Matrix.diagonal (dw W) - lapWeights W)
  | .normalized =>
    let D := Matrix.diagonal (invSqrtDegree W)
    let L := 1 - D * lapWeights W * D
    .ok (Matrix.of fun i j => if i = j ∧ dw W i = 0 then 0 else L i j)
  | .other _ => .error .valueError

/-- Float division, with numpy's conventions at 0 (`0/0` is NaN, `x/0` is infinite). -/
noncomputable def npDiv (x y : ℝ) : PyNum ℝ :=
  if y = 0 then (if x = 0 then .nan else if 0 < x then .pinf else .ninf) else .fin (x / y)

/-- The bound added only when there are edges (`graph.py:947-949`): the largest `dw[s] + dw[t]` over the
edge list. -/
noncomputable def Graph.edgeBounds (g : Graph n ℝ) : Py (List (PyNum ℝ)) :=
  if g.nEdges > 0 then do
    let es ← g.getEdgeList
    let b ← npMax (es.map fun e => PyNum.fin (dw g.W e.1 + dw g.W e.2.1))
    pure [b]
  else pure []

/-- `Graph._get_upper_bound` (`graph.py:933-960`).  `np.max(self.W)` takes the maximum over all entries,
implicit zeros included, and raises ValueError on an empty matrix; `np.max` of an empty vector raises
ValueError; `min` is Python's builtin. -/
noncomputable def Graph.upperBound (g : Graph n ℝ) : Py (PyNum ℝ) :=
  match g.lapType with
  | .normalized => .ok (.fin 2)
  | .combinatorial => do
    let V := List.finRange n
    let wmax ← npMax (V.flatMap fun i => V.map fun j => PyNum.fin (g.W.dense i j))
    let b1 : PyNum ℝ := match wmax with
      | .fin w => .fin (n * w)
      | x => x
    let dmax ← npMax (V.map fun i => PyNum.fin (dw g.W i))
    let b2 : PyNum ℝ := match dmax with
      | .fin w => .fin (2 * w)
      | x => x
    let b3 ← g.edgeBounds
    let m := fun i => npDiv (∑ j, lapWeights g.W i j * dw g.W j) (dw g.W i)
    let b4 ← npMax (V.map fun i => PyNum.fin (dw g.W i) + m i)
    pyMin ([b1] ++ [b2] ++ b3 ++ [b4])
  | .other _ => .error .valueError

/-- `Graph.dirichlet_energy` (`graph.py:701-702`) on a signal of the right length. -/
noncomputable def dirichletEnergy (L : Matrix (Fin n) (Fin n) ℝ) (x : Fin n → ℝ) : ℝ :=
  x ⬝ᵥ (L *ᵥ x)

/-- The two values stored for edge `(s, t, w)` by `compute_differential_operator`
(`difference.py:151-161`): at the source and at the target.  ValueError on an unknown type is raised by
the caller `Graph.diffOp` (so the third branch is not reached). -/
noncomputable def diffValues (W : Sp n n ℝ) (lt : LapType) (e : Fin n × Fin n × ℝ) : ℝ × ℝ :=
  let v : ℝ × ℝ := match lt with
    | .combinatorial => (-Real.sqrt e.2.2, -(-Real.sqrt e.2.2))
    | .normalized => (-Real.sqrt (e.2.2 / dw W e.1), Real.sqrt (e.2.2 / dw W e.2.1))
    | .other _ => (0, 0)
  if isDirected W then (v.1 / Real.sqrt 2, v.2 / Real.sqrt 2) else v

/-- The COO triplets `(values, (rows, columns))` of `difference.py:147-165` for an edge list, converted to
CSC (positions stored twice - self-loops - add up), then `eliminate_zeros()`. -/
noncomputable def diffMatrix (W : Sp n n ℝ) (lt : LapType) (es : List (Fin n × Fin n × ℝ)) :
    Sp n es.length ℝ :=
  Sp.eliminateZeros (Sp.sumDuplicates
    ⟨((List.finRange es.length).map fun k => ((es.get k).1, k, (diffValues W lt (es.get k)).1)) ++
     ((List.finRange es.length).map fun k => ((es.get k).2.1, k, (diffValues W lt (es.get k)).2))⟩)

/-- `DifferenceMixIn.compute_differential_operator` (`difference.py:144-166`): the matrix `D` with one
column per edge of `get_edge_list()`. -/
noncomputable def Graph.diffOp (g : Graph n ℝ) : Py (Σ m, Sp n m ℝ) :=
  match g.getEdgeList with
  | .error e => .error e
  | .ok es =>
    match g.lapType with
    | .other _ => .error .valueError
    | lt => .ok ⟨es.length, diffMatrix g.W lt es⟩

/-- `DifferenceMixIn.grad` (`difference.py:244`): `D.T.dot(x)`. -/
noncomputable def grad {m : ℕ} (D : Sp n m ℝ) (x : Fin n → ℝ) : Fin m → ℝ := D.denseᵀ *ᵥ x

/-- `DifferenceMixIn.div` (`difference.py:331`): `D.dot(y)`. -/
noncomputable def div {m : ℕ} (D : Sp n m ℝ) (y : Fin m → ℝ) : Fin n → ℝ := D.dense *ᵥ y

/-- `dirichlet_energy`, `grad`, `div` with their length checks (`graph.py:701-702`, `difference.py:243-244`,
`difference.py:325-331`).  The arrays are one-dimensional; `D` has `Ne` columns. -/
noncomputable def dirichletEnergyPy (L : Matrix (Fin n) (Fin n) ℝ) (x : Rows ℝ) : Py ℝ := do
  let x ← checkSignal n x
  return dirichletEnergy L x

/-- see `dirichletEnergyPy` -/
noncomputable def gradPy {ne : ℕ} (D : Sp n ne ℝ) (x : Rows ℝ) : Py (Fin ne → ℝ) := do
  let x ← checkSignal n x
  return grad D x

/-- see `dirichletEnergyPy` -/
noncomputable def divPy {ne : ℕ} (D : Sp n ne ℝ) (y : Rows ℝ) : Py (Fin n → ℝ) :=
  if h : y.len = ne then .ok (div D fun k => y.row (k.cast h.symm)) else .error .valueError

end PyGSP
