import Verif.Model.Distances
import Verif.Model.Reduction
import Mathlib.Analysis.SpecialFunctions.Log.Basic

/-!
# `pygsp/reduction.py`: `graph_sparsify`

Exact arithmetic.  The random generator is a parameter: `draws i q` are the `q` indices returned by `dist.rvs(size=q)` in
iteration `i`.  (`stats.itemfreq` does not exist any more in recent versions of SciPy, where the function always raises
AttributeError; the model follows the older versions.)
-/

namespace PyGSP

open Matrix

variable {n : ℕ}

namespace Reduction

/-- Python's `round`: to the nearest integer, ties to the even one. -/
noncomputable def roundHalfEven (x : ℝ) : ℤ :=
  open Classical in
  if Int.fract x < 1 / 2 then ⌊x⌋
  else if 1 / 2 < Int.fract x then ⌊x⌋ + 1
  else if ⌊x⌋ % 2 = 0 then ⌊x⌋ else ⌊x⌋ + 1

/-- The number of draws `q = round(N log(N) 9 C**2 / epsilon**2)`, `C = 4 / 30` (`reduction.py:109-112`). -/
noncomputable def numDraws (n : ℕ) (eps : ℝ) : ℕ := (roundHalfEven (n * Real.log n * 9 * (4 / 30) ^ 2 / eps ^ 2)).toNat

/-- `sparse.find(sparse.tril(W))` after the values below `1e-10` have been removed (`reduction.py:92-97`). -/
noncomputable def sparsifyEdges (W : Matrix (Fin n) (Fin n) ℝ) : List (Fin n × Fin n × ℝ) :=
  (Sp.ofDense (Matrix.of fun i j => if W i j < 1 / 10 ^ 10 then 0 else W i j)).tril.entries

/-- `weights * Re` (`reduction.py:100-102`). -/
noncomputable def edgeScore (R : Matrix (Fin n) (Fin n) ℝ) (e : Fin n × Fin n × ℝ) : ℝ :=
  max 0 e.2.2 * max 0 (R e.1 e.2.1)

/-- `Pe` (`reduction.py:102-103`). -/
noncomputable def edgeProb (R : Matrix (Fin n) (Fin n) ℝ) (E : List (Fin n × Fin n × ℝ)) (k : Fin E.length) : ℝ :=
  edgeScore R (E.get k) / ∑ l : Fin E.length, edgeScore R (E.get l)

/-- One iteration (`reduction.py:114-125`): how often every edge was drawn, the new weights `counts * weights / (q * Pe)`,
`sparserW + sparserW.T`.  When `q * Pe = 0` for some edge, NaN is stored and the constructor of `Graph` raises ValueError. -/
noncomputable def sparsifyOnce (R : Matrix (Fin n) (Fin n) ℝ) (E : List (Fin n × Fin n × ℝ)) (q : ℕ) (results : List ℕ) :
    Py (Matrix (Fin n) (Fin n) ℝ) :=
  open Classical in
  if ∃ k : Fin E.length, (q : ℝ) * edgeProb R E k = 0 then .error .valueError
  else
    let low : Sp n n ℝ := ⟨(List.finRange E.length).map fun k =>
      ((E.get k).1, (E.get k).2.1, (results.count k.1 : ℝ) * (max 0 (E.get k).2.2 / (q * edgeProb R E k)))⟩
    .ok (low.dense + low.denseᵀ)

/-- The loop (`reduction.py:106-135`): stops when the sparsified graph is connected, otherwise `epsilon` is decreased and
the edges are drawn again; the last attempt is kept even if it is not connected.  `fuel + 1` iterations are left. -/
noncomputable def sparsifyLoop (pop : Pop n) (draws : ℕ → ℕ → List ℕ) (R : Matrix (Fin n) (Fin n) ℝ)
    (E : List (Fin n × Fin n × ℝ)) : ℕ → ℕ → ℝ → Py (Matrix (Fin n) (Fin n) ℝ)
  | fuel, i, eps =>
    match sparsifyOnce R E (numDraws n eps) (draws i (numDraws n eps)) with
    | .error e => .error e
    | .ok W =>
      match Graph.ofCsr (Sp.ofDense W) .combinatorial with
      | .error e => .error e
      | .ok g =>
        match ((GState.ofGraph g).isConnected pop).1 with
        | .error e => .error e
        | .ok true => .ok W
        | .ok false =>
          match fuel with
          | 0 => .ok W
          | fuel + 1 => sparsifyLoop pop draws R E fuel (i + 1) (eps - (eps - 1 / Real.sqrt n) / 2)

/-- `graph_sparsify` after the Laplacian and the weights are known (`reduction.py:78-135`): `sparserW`.
`maxiter = 0` leaves `sparserL` unassigned (UnboundLocalError, a NameError).  Simplification: a graph without edges (or only
with self-loops) makes `Pe` empty or NaN, not modelled. -/
noncomputable def sparsifyWeights (pop : Pop n) (pinv : Matrix (Fin n) (Fin n) ℝ → Matrix (Fin n) (Fin n) ℝ)
    (draws : ℕ → ℕ → List ℕ) (eps : ℝ) (maxiter : ℕ) (L W : Matrix (Fin n) (Fin n) ℝ) : Py (Matrix (Fin n) (Fin n) ℝ) :=
  open Classical in
  if n = 0 ∨ ¬ (1 / Real.sqrt n ≤ eps ∧ eps < 1) then .error .valueError
  else
    let R := resistanceOfMatrix pinv L
    let E := sparsifyEdges W
    if ∑ l : Fin E.length, edgeScore R (E.get l) = 0 then .error .unmodelled
    else match maxiter with
      | 0 => .error .nameError
      | fuel + 1 => sparsifyLoop pop draws R E fuel 0 eps

/-- `sparserL = sparse.diags(sparserW.diagonal(), 0) - sparserW` (`reduction.py:126`). -/
def sparserL (W : Matrix (Fin n) (Fin n) ℝ) : Matrix (Fin n) (Fin n) ℝ := Matrix.diagonal (fun i => W i i) - W

/-- `graph_sparsify(G, epsilon, maxiter)` of a graph (`reduction.py:71-147`).  The new graph has no coordinates. -/
noncomputable def graphSparsify (pop : Pop n) (pinv : Matrix (Fin n) (Fin n) ℝ → Matrix (Fin n) (Fin n) ℝ)
    (draws : ℕ → ℕ → List ℕ) (eps : ℝ) (maxiter : ℕ) (s : GState n) : Py (Graph n ℝ) :=
  if s.lapType ≠ .combinatorial then .error .notImplementedError
  else
    match sparsifyWeights pop pinv draws eps maxiter s.L s.W.dense with
    | .error e => .error e
    | .ok W =>
      let L := sparserL W
      let W1 : Matrix (Fin n) (Fin n) ℝ := Matrix.diagonal (fun i => L i i) - L
      let W2 := if s.isDirected.1 then W1 else (1 / 2 : ℝ) • (W1 + W1ᵀ)
      Graph.ofCsr (Sp.ofDense W2) .combinatorial

/-- `graph_sparsify(L, epsilon, maxiter)` of a Laplacian matrix (`reduction.py:71-147`). -/
noncomputable def matrixSparsify (pop : Pop n) (pinv : Matrix (Fin n) (Fin n) ℝ → Matrix (Fin n) (Fin n) ℝ)
    (draws : ℕ → ℕ → List ℕ) (eps : ℝ) (maxiter : ℕ) (L : Matrix (Fin n) (Fin n) ℝ) : Py (Matrix (Fin n) (Fin n) ℝ) :=
  match sparsifyWeights pop pinv draws eps maxiter L (Matrix.diagonal (fun i => L i i) - L) with
  | .error e => .error e
  | .ok W => .ok (sparserL W)

end Reduction

end PyGSP
