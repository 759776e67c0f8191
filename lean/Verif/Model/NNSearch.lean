import Verif.Model.NNGraph

/-!
# The searches behind `NNGraph(..., use_flann=True)` (`pygsp/graphs/nngraphs/nngraph.py:147-226`)

The optional packages `pyflann` and `scikit-learn` are parameters: what the calls of lines 155-164 and 171-199 do, an ImportError included.  The attributes that only record an
argument (`sigma` excepted, through its effect on the weights) are not modelled.
-/

namespace PyGSP.Gen

open Matrix

variable {N d : ℕ}

/-- The arrays `NN` and `D`: `flat` when they have one dimension only, otherwise their rows. -/
structure Found (N : ℕ) where
  flat : Bool
  NN : Fin N → List (Fin N)
  D : Fin N → List ℝ

/-- What `_import_pfl`, `pfl.set_distance_type(dist_type, order)` and `flann.nn(Xout, Xout, num_neighbors)` do (`nngraph.py:155-164`). -/
abbrev PyflannSearch (N d : ℕ) := DistType → (Fin N → Fin d → ℝ) → ℕ → Py (Found N)

/-- What `_import_sklearn_neighbors`, `NearestNeighbors(n_neighbors, metric, metric_params).fit(Xout)` and `kneighbors(Xout)` do (`nngraph.py:171`, `nngraph.py:193-199`); the metric
`chebyshev` is the order infinity. -/
abbrev SklearnSearch (N d : ℕ) := MinkP → (Fin N → Fin d → ℝ) → ℕ → Py (Found N)

open Classical in
/-- `metric` and `metric_params` (`nngraph.py:174-191`): an unknown `dist_type`, and an order at most zero, give the Euclidean metric. -/
noncomputable def skMetric : DistType → MinkP
  | .euclidean => .fin 2
  | .manhattan => .fin 1
  | .maxDist => .inf
  | .minkowski p => if p ≤ 0 then .fin 2 else .fin p
  | .other _ => .fin 2

/-- `kdt.query(Xout, k=(k + 1), p=dist_translation[dist_type])` (`nngraph.py:207-210`, `nngraph.py:214-215`); `nn` are the indices it returns.  The arrays have one dimension when
`k + 1 = 1`. -/
noncomputable def scipySearch (nn : Fin N → List (Fin N)) (dist : DistType) (Y : Fin N → Fin d → ℝ) (k : ℕ) : Py (Found N) := do
  let p ← dist.order
  .ok { flat := k + 1 == 1, NN := nn, D := fun i => (nn i).map fun l => minkowski p (Y i) (Y l) }

/-- The choice of the search (`nngraph.py:152-216`): an ImportError, wherever it comes from, leads to the next package. -/
noncomputable def nnSearch (flann : Bool) (pf : PyflannSearch N d) (sk : SklearnSearch N d) (nn : Fin N → List (Fin N)) (dist : DistType)
    (Y : Fin N → Fin d → ℝ) (k : ℕ) : Py (Found N) :=
  if flann then
    match pf dist Y (k + 1) with
    | .error .importError =>
      match sk (skMetric dist) Y (k + 1) with
      | .error .importError => scipySearch nn dist Y k
      | r => r
    | r => r
  else scipySearch nn dist Y k

/-- `np.mean(D[:, 1:])` (`nngraph.py:219`). -/
noncomputable def foundMean (F : Found N) : ℝ := (∑ i, (F.D i).tail.sum) / (∑ i, (F.D i).tail.length : ℕ)

/-- The weights `np.exp(-np.power(D[i, 1:], 2) / sigma)` at `(i, NN[i, 1:])` (`nngraph.py:221-226`, `nngraph.py:289`); values at the same position are summed. -/
noncomputable def foundWeights (σ : ℝ) (F : Found N) : Matrix (Fin N) (Fin N) ℝ :=
  Matrix.of fun i j => (((F.NN i).tail.zip (F.D i).tail).map fun e => if e.1 = j then Real.exp (-e.2 ^ 2 / σ) else 0).sum

open Classical in
/-- From the answer of the search to the matrix (`nngraph.py:218-226`): `D[:, 1:]` and `NN[i, 1:]` raise IndexError for arrays with one dimension; without any neighbour the mean
distance is NaN and no weight is stored. -/
noncomputable def foundKnn (sigma : Option ℝ) (F : Found N) : Py (Matrix (Fin N) (Fin N) ℝ) :=
  if F.flat then .error .indexError
  else if ∀ i, (F.D i).tail = [] then .ok 0
  else
    let σ := sigma.getD (foundMean F)
    if σ = 0 then .error .unmodelled else .ok (foundWeights σ F)

/-- `NNGraph(Xin, NNtype, use_flann, ...)` (`nngraph.py:92-299`): the graph and its coordinates. -/
noncomputable def nnGraphAny (flann : Bool) (pf : PyflannSearch N d) (sk : SklearnSearch N d) (X : Fin N → Fin d → ℝ) (type : NNType) (center rescale : Bool) (k : ℕ)
    (sigma : Option ℝ) (epsilon : ℝ) (method : SymMethod) (dist : DistType) (nn : Fin N → List (Fin N)) (lt : LapType) :
    Py (Graph N ℝ × (Fin N → Fin d → ℝ)) := do
  if N ≤ k then .error .valueError
  else
    let Y ← nnPoints center rescale X
    let W ← match type with
      | .knn => do let F ← nnSearch flann pf sk nn dist Y k; foundKnn sigma F
      | .radius => do let p ← dist.order; nnRadius epsilon sigma (fun i j => minkowski p (Y i) (Y j))
      | .other _ => .error .valueError
    let W ← symmetrize true W method
    let g ← Graph.ofCsr (Sp.ofDense W) lt
    .ok (g, Y)

end PyGSP.Gen
