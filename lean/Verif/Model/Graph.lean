import Verif.Model.Sparse
import Mathlib.Data.Fintype.BigOperators
import Mathlib.Algebra.BigOperators.Fin
import Mathlib.Data.Finset.Max
import Mathlib.Data.Finset.Sort

/-!
# `pygsp/graphs/graph.py` : construction, predicates, degrees, edge list, traversals

`K` is the field of weights (exact arithmetic).
-/

namespace PyGSP

variable {n : ℕ} {K : Type*}

/-! ## Laplacian types -/

/-- The argument `lap_type`; `other` is any string that is not one of the two known names
(`graph.py:616-630`). -/
inductive LapType
  | combinatorial
  | normalized
  | other (name : String)
  deriving DecidableEq, Repr

/-! ## Predicates and degrees on the stored weight matrix -/

/-- `Graph.is_directed` without its cache (`graph.py:403-405`):
`(self.W != self.W.T).nnz != 0`. -/
def isDirected [AddMonoid K] [DecidableEq K] (W : Sp n n K) : Bool :=
  W.neNnz W.transpose ≠ 0

/-- `Graph.has_loops` (`graph.py:442`): `np.any(self.W.diagonal() != 0)`. -/
def hasLoops [AddMonoid K] [DecidableEq K] (W : Sp n n K) : Bool :=
  W.diagonal.any (fun x => x ≠ 0)

/-- `Graph.is_weighted` (`graph.py:292`): `not np.all(self.W.data == 1)`. -/
def isWeighted [One K] [DecidableEq K] (W : Sp n n K) : Bool :=
  !(W.data.all (fun x => x = 1))

/-- The edge count set by the constructor (`graph.py:133-140`). -/
def countEdges [AddMonoid K] [DecidableEq K] (W : Sp n n K) : ℕ :=
  if isDirected W then W.nnz
  else
    let diagonal := (W.diagonal.filter (fun x => x ≠ 0)).length
    let offDiagonal := W.nnz - diagonal
    offDiagonal / 2 + diagonal

/-- `Graph.A` (`graph.py:725`): `self.W > 0` (positions only). -/
def posAdj [AddMonoid K] [LT K] [DecidableLT K] (W : Sp n n K) (i j : Fin n) : Bool :=
  0 < W.dense i j

/-- `Graph.d` (`graph.py:772-781`). Degrees are counts, halved when directed. -/
def degree [Field K] [DecidableEq K] (W : Sp n n K) (i : Fin n) : K :=
  if isDirected W then
    ((W.colNnz i : K) + (W.rowNnz i : K)) / 2
  else (W.rowNnz i : K)

/-- `Graph.dw` (`graph.py:830-838`). -/
def dw [Field K] [DecidableEq K] (W : Sp n n K) (i : Fin n) : K :=
  if isDirected W then
    ((∑ j, W.dense j i) + (∑ j, W.dense i j)) / 2
  else ∑ j, W.dense j i

/-! ## The constructor -/

/-- What can be passed as `adjacency`: an array of any number of dimensions, a CSR matrix (shared as it is
stored), or another sparse format (converted, duplicates summed). -/
inductive AdjInput (K : Type*)
  | ndarray (shape : List ℕ) (val : List ℕ → PyNum K)
  | csr (r c : ℕ) (A : Sp r c (PyNum K))
  | coo (r c : ℕ) (A : Sp r c (PyNum K))

namespace AdjInput

/-- `adjacency.shape` (`ndim` is its length). -/
def shape : AdjInput K → List ℕ
  | .ndarray s _ => s
  | .csr r c _ => [r, c]
  | .coo r c _ => [r, c]

/-- `sparse.csr_matrix(dense)` for an array with possibly non-finite entries. -/
def csrOfArray [Zero K] [DecidableEq K] (n m : ℕ) (val : List ℕ → PyNum K) : Sp n m (PyNum K) :=
  ⟨(List.finRange n).flatMap fun (i : Fin n) => (List.finRange m).filterMap fun (j : Fin m) =>
    if (val [i.val, j.val]).neZero then some (i, j, val [i.val, j.val]) else none⟩

/-- `sparse.csr_matrix(adjacency, copy=False)` for an input of shape `(n, n)` (`graph.py:109`);
`none` when the shape is not `(n, n)`. -/
def toCsr [AddCommMonoid K] [DecidableEq K] : AdjInput K → Option (Σ n, Sp n n (PyNum K))
  | .ndarray [r, c] val => if r = c then some ⟨r, csrOfArray r r val⟩ else none
  | .ndarray _ _ => none
  | .csr r c A => if h : c = r then some ⟨r, h ▸ A⟩ else none
  | .coo r c A => if h : c = r then some ⟨r, (h ▸ A : Sp r r (PyNum K)).sumDuplicates⟩ else none

end AdjInput

/-- The warnings logged by the constructor (`graph.py:115-122`). -/
inductive Warning
  | selfLoops
  | negativeWeights
  deriving DecidableEq, Repr

/-- The immutable part of a constructed graph: `n_vertices`, `W`, `n_edges`, the Laplacian type, and
the warnings logged while constructing it. -/
structure Graph (n : ℕ) (K : Type*) where
  W : Sp n n K
  nEdges : ℕ
  lapType : LapType
  warnings : List Warning

/-- Second half of `Graph.__init__` (`graph.py:115-140, 171-172`): the checks on a finite CSR matrix,
where the comparison `self._adjacency < 0` (`graph.py:121`) sorts the stored entries and sums the ones at the same position in place
(scipy's `_scalar_binopt` begins with `self.sum_duplicates()`),
`eliminate_zeros`, the edge count, and `compute_laplacian(lap_type)` raising ValueError on an unknown
type.  Coordinates, plotting and the Laplacian itself are modelled elsewhere
(`Verif.Model.GraphState`). -/
def Graph.ofCsr [Field K] [LinearOrder K] (W : Sp n n K) (lapType : LapType) : Py (Graph n K) :=
  let w1 := if hasLoops W then [Warning.selfLoops] else []
  let w2 := if (List.finRange n).any (fun i => (List.finRange n).any fun j => W.dense i j < 0)
    then [Warning.negativeWeights] else []
  let W' := W.sumDuplicates.eliminateZeros
  match lapType with
  | .other _ => .error .valueError
  | lt => .ok { W := W', nEdges := countEdges W', lapType := lt, warnings := w1 ++ w2 }

/-- `Graph.__init__` (`graph.py:98-176`). -/
def Graph.init [Field K] [LinearOrder K] (adjacency : AdjInput K)
    (lapType : LapType := .combinatorial) : Py (Σ n, Graph n K) :=
  match adjacency.toCsr with
  | none => .error .valueError                     -- graph.py:104-105
  | some ⟨n, A⟩ =>
    let s := PyNum.sum A.data
    if s.isNaN then .error .valueError             -- graph.py:111-112
    else if s.isInf then .error .valueError        -- graph.py:113-114
    else do
      let g ← Graph.ofCsr (n := n) ⟨A.entries.map fun e => (e.1, e.2.1, e.2.2.toFin)⟩ lapType
      return ⟨n, g⟩

/-! ## Edge list -/

/-- `Graph.get_edge_list` (`graph.py:1019-1029`), as a list of `(source, target, weight)`.
The three arrays have the same length by construction, the assertion compares it with `n_edges`. -/
def Graph.getEdgeList [AddMonoid K] [DecidableEq K] (g : Graph n K) :
    Py (List (Fin n × Fin n × K)) :=
  let W := if isDirected g.W then g.W else g.W.triu
  if g.nEdges = W.entries.length then .ok W.entries else .error .assertionError

/-! ## Traversals -/

/-- `set.pop()`: removes and returns an arbitrary element. The choice may depend on anything; it is
modelled by an arbitrary function of the step number and of the set. -/
structure Pop (n : ℕ) where
  choose : ℕ → (s : Finset (Fin n)) → s.Nonempty → Fin n
  mem : ∀ t s h, choose t s h ∈ s

/-- termination measure of the traversals -/
theorem card_insert_measure (visited : Finset (Fin n)) (v : Fin n) (hv : v ∉ visited) :
    n - (insert v visited).card < n - visited.card := by
  have h1 : (insert v visited).card = visited.card + 1 := Finset.card_insert_of_notMem hv
  have h2 : (insert v visited).card ≤ n := by simpa using Finset.card_le_univ (insert v visited)
  omega

/-- The `while stack:` loop of `Graph.is_connected` (`graph.py:348-359`).
`nb v` is `adjacency[v].nonzero()[1]`. Returns the visited set. -/
def visitLoop (nb : Fin n → Finset (Fin n)) (pop : Pop n) (t : ℕ)
    (visited stack : Finset (Fin n)) : Finset (Fin n) :=
  if h : stack.Nonempty then
    let v := pop.choose t stack h
    if v ∈ visited then
      visitLoop nb pop (t + 1) visited (stack.erase v)
    else
      visitLoop nb pop (t + 1) (insert v visited) (stack.erase v ∪ nb v)
  else visited
termination_by (n - visited.card, stack.card)
decreasing_by
  · apply Prod.Lex.right
    exact Finset.card_erase_lt_of_mem (pop.mem t stack h)
  · apply Prod.Lex.left
    have hv : v ∉ visited := by assumption
    exact card_insert_measure visited v hv

/-- `adjacency[vertex].nonzero()[1]` as a set. -/
def nbSet [Zero K] [DecidableEq K] (W : Sp n n K) (v : Fin n) : Finset (Fin n) :=
  (W.rowNonzero v).toFinset

/-- `Graph.is_connected` without its cache (`graph.py:343-366`). With no vertex, `visited[0]` raises
IndexError. -/
def isConnected [AddMonoid K] [DecidableEq K] (pop : Pop n) (W : Sp n n K) : Py Bool :=
  let adjacencies := if isDirected W then [W, W.transpose] else [W]
  if h : 0 < n then
    .ok (adjacencies.all fun adj =>
      visitLoop (nbSet adj) pop 0 ∅ {⟨0, h⟩} = Finset.univ)
  else .error .indexError

/-- The inner `while len(stack)` loop of `Graph.extract_components` (`graph.py:485-498`):
returns the visited set and the component (in visiting order). -/
def compLoop (A : Fin n → Fin n → Bool) (pop : Pop n) (t : ℕ)
    (visited stack : Finset (Fin n)) (comp : List (Fin n)) : Finset (Fin n) × List (Fin n) :=
  if h : stack.Nonempty then
    let v := pop.choose t stack h
    if v ∈ visited then
      compLoop A pop (t + 1) visited (stack.erase v) comp
    else
      let visited' := insert v visited
      compLoop A pop (t + 1) visited'
        (stack.erase v ∪ Finset.univ.filter (fun idx => A v idx = true ∧ idx ∉ visited'))
        (comp ++ [v])
  else (visited, comp)
termination_by (n - visited.card, stack.card)
decreasing_by
  · apply Prod.Lex.right
    exact Finset.card_erase_lt_of_mem (pop.mem t stack h)
  · apply Prod.Lex.left
    have hv : v ∉ visited := by assumption
    exact card_insert_measure visited v hv

/-- The outer `while not visited.all()` loop of `Graph.extract_components` (`graph.py:478-506`):
`np.nonzero(~visited)[0][[0]]` is the smallest unvisited vertex; `comp = sorted(comp)`.
`fuel` bounds the number of components, `none` when it runs out
(`C09_components_terminate` shows `n` suffices). -/
def componentsLoop (A : Fin n → Fin n → Bool) (pop : Pop n) :
    ℕ → Finset (Fin n) → Option (List (List (Fin n)))
  | fuel, visited =>
    if h : (Finset.univ \ visited).Nonempty then
      match fuel with
      | 0 => none
      | fuel + 1 =>
        let v0 := (Finset.univ \ visited).min' h
        let r := compLoop A pop 0 visited {v0} []
        (componentsLoop A pop fuel r.1).map (fun cs => r.2.mergeSort (fun a b => a ≤ b) :: cs)
    else some []

/-! ## Subgraph -/

/-- The argument `vertices` of `Graph.subgraph` / `Graph.coords[...]`: indices or a boolean mask of
length `n_vertices`. -/
inductive VSel (n : ℕ)
  | idx (l : List (Fin n))
  | mask (m : Fin n → Bool)

/-- numpy resolves a boolean mask to the increasing list of the selected positions. -/
def VSel.toList : VSel n → List (Fin n)
  | .idx l => l
  | .mask m => (List.finRange n).filter (fun i => m i)

end PyGSP
