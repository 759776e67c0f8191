import Verif.Model.Generators
import Verif.Model.Utils
import Mathlib.Analysis.SpecialFunctions.Exp
import Mathlib.Analysis.SpecialFunctions.Pow.Real

/-!
# `pygsp/graphs/nngraphs/nngraph.py`

`NNGraph` with `use_flann=False` (`Model/NNSearch.lean` has the optional packages).  The points are an array of floats.  `KDTree.query` is a parameter
(`nn i` is the list `NN[i]`), since it does not specify the order of points at the same distance.
-/

namespace PyGSP.Gen

open Matrix

variable {N d : ℕ}

/-- The argument `dist_type`. -/
inductive DistType
  | euclidean | manhattan | maxDist
  | minkowski (order : ℝ)
  | other (name : String)

/-- A Minkowski order: a number, or `np.inf`. -/
inductive MinkP
  | fin (p : ℝ)
  | inf

/-- `dist_translation[dist_type]` (`nngraph.py:140-145`): KeyError for an unknown name; the searches and `distance.minkowski` reject an order
smaller than one with ValueError (`scipy.spatial`; simplification: some versions accept an order between zero and one in the search by radius). -/
noncomputable def DistType.order : DistType → Py MinkP
  | .euclidean => .ok (.fin 2)
  | .manhattan => .ok (.fin 1)
  | .maxDist => .ok .inf
  | .minkowski p => open Classical in if p < 1 then .error .valueError else .ok (.fin p)
  | .other _ => .error .keyError

/-- The Minkowski distance (`scipy.spatial`). -/
noncomputable def minkowski : MinkP → (Fin d → ℝ) → (Fin d → ℝ) → ℝ
  | .fin p, x, y => (∑ a, |x a - y a| ^ p) ^ (1 / p)
  | .inf, x, y => ⨆ a, |x a - y a|

/-- The argument `NNtype`. -/
inductive NNType
  | knn | radius
  | other (name : String)

/-- `Xin - mean` (`nngraph.py:130`). -/
noncomputable def nnCenter (X : Fin N → Fin d → ℝ) : Fin N → Fin d → ℝ := fun i a => X i a - (∑ l, X l a) / N

/-- `bounding_radius` (`nngraph.py:133-135`). -/
noncomputable def boundingRadius (X : Fin N → Fin d → ℝ) : ℝ := 0.5 * √(∑ a, ((⨆ i, X i a) - ⨅ i, X i a) ^ 2)

/-- `scale` (`nngraph.py:136`). -/
noncomputable def nnScale (N d : ℕ) : ℝ := (N : ℝ) ^ (1 / (min d 3 : ℕ) : ℝ) / 10

/-- `Xout *= scale / bounding_radius` (`nngraph.py:132-137`): ZeroDivisionError when the points have no coordinate; a bounding
radius zero produces NaN. -/
noncomputable def nnRescale (X : Fin N → Fin d → ℝ) : Py (Fin N → Fin d → ℝ) :=
  open Classical in
  if d = 0 then .error .zeroDivisionError
  else if boundingRadius X = 0 then .error .unmodelled
  else .ok fun i a => X i a * (nnScale N d / boundingRadius X)

/-- `Xout` (`nngraph.py:121-137`). -/
noncomputable def nnPoints (center rescale : Bool) (X : Fin N → Fin d → ℝ) : Py (Fin N → Fin d → ℝ) :=
  let X := if center then nnCenter X else X
  if rescale then nnRescale X else .ok X

/-- The array of the caller after the call: `Xout` is the same object as `Xin` when it has not been centered, and `*=` works in place
(`nngraph.py:121`, `nngraph.py:137`). -/
noncomputable def nnXinAfter (center rescale : Bool) (X : Fin N → Fin d → ℝ) : Fin N → Fin d → ℝ :=
  if center then X
  else if rescale then
    match nnRescale X with
    | .ok Y => Y
    | .error _ => X
  else X

/-- The weights `np.exp(-d**2 / sigma)` at the listed neighbours (`nngraph.py:221-226`, `nngraph.py:274-284`); values at the same position are summed. -/
noncomputable def nnWeights (δ : Fin N → Fin N → ℝ) (σ : ℝ) (nb : Fin N → List (Fin N)) : Matrix (Fin N) (Fin N) ℝ :=
  Matrix.of fun i j => ((nb i).map fun l => if l = j then Real.exp (-(δ i l) ^ 2 / σ) else 0).sum

/-- The mean of the distances to the listed neighbours. -/
noncomputable def nnMean (δ : Fin N → Fin N → ℝ) (nb : Fin N → List (Fin N)) : ℝ :=
  (∑ i, ((nb i).map (δ i)).sum) / (∑ i, (nb i).length : ℕ)

/-- `NNtype == 'knn'` (`nngraph.py:147-226`); `nn i` has `k + 1` elements of which the first is discarded.  With `k = 0`, `query` returns
arrays of one dimension and `D[:, 1:]` raises IndexError. -/
noncomputable def nnKnn (k : ℕ) (sigma : Option ℝ) (δ : Fin N → Fin N → ℝ) (nn : Fin N → List (Fin N)) : Py (Matrix (Fin N) (Fin N) ℝ) :=
  open Classical in
  if k = 0 then .error .indexError
  else
    let nb := fun i => (nn i).tail
    let σ := sigma.getD (nnMean δ nb)
    if σ = 0 then .error .unmodelled else .ok (nnWeights δ σ nb)

/-- `NNtype == 'radius'` (`nngraph.py:228-284`).  The order of the points returned by `query_ball_point` has no effect. -/
noncomputable def nnRadius (epsilon : ℝ) (sigma : Option ℝ) (δ : Fin N → Fin N → ℝ) : Py (Matrix (Fin N) (Fin N) ℝ) :=
  open Classical in
  let NN : Fin N → List (Fin N) := fun i => (List.finRange N).filter fun j => δ i j ≤ epsilon
  let nb : Fin N → List (Fin N) := fun i => (NN i).filter fun j => j ≠ i
  if sigma = none ∧ ∀ i, nb i = [] then .error .valueError
  else
    let σ := sigma.getD (nnMean δ nb)
    if σ = 0 then .error .unmodelled else .ok (nnWeights δ σ nb)

/-- `NNGraph(Xin, ...)` (`nngraph.py:92-299`): the graph and its coordinates.  When `sigma` is zero, or the mean distance is, NaN or infinite values
appear. -/
noncomputable def nnGraph (X : Fin N → Fin d → ℝ) (type : NNType) (center rescale : Bool) (k : ℕ) (sigma : Option ℝ) (epsilon : ℝ)
    (method : SymMethod) (dist : DistType) (nn : Fin N → List (Fin N)) (lt : LapType) : Py (Graph N ℝ × (Fin N → Fin d → ℝ)) := do
  if N ≤ k then .error .valueError
  else
    let Y ← nnPoints center rescale X
    let W ← match type with
      | .knn => do let p ← dist.order; nnKnn k sigma (fun i j => minkowski p (Y i) (Y j)) nn
      | .radius => do let p ← dist.order; nnRadius epsilon sigma (fun i j => minkowski p (Y i) (Y j))
      | .other _ => .error .valueError
    let W ← symmetrize true W method
    let g ← Graph.ofCsr (Sp.ofDense W) lt
    .ok (g, Y)

/-- What `KDTree.query(X, k = k + 1)` guarantees: `k + 1` different points by increasing distance, no other point being closer. -/
def KnnSpec (k : ℕ) (δ : Fin N → Fin N → ℝ) (nn : Fin N → List (Fin N)) : Prop :=
  ∀ i, (nn i).Nodup ∧ (nn i).length = k + 1 ∧ (nn i).Pairwise (fun a b => δ i a ≤ δ i b) ∧ ∀ l ∈ nn i, ∀ j ∉ nn i, δ i l ≤ δ i j

end PyGSP.Gen
