import Verif.Model.Graph
import Verif.Model.Utils
import Mathlib.Analysis.SpecialFunctions.Trigonometric.Basic

/-!
# The deterministic generators of `pygsp/graphs/`

Every generator builds an adjacency matrix and calls the constructor of `Graph`.  The weights are finite by construction, so the
constructor is `Graph.ofCsr`.  The keyword arguments other than `lap_type`, the attributes `plotting` and the strings of `repr` are
not modelled.  The sizes are natural numbers.
-/

namespace PyGSP.Gen

open Matrix

/-- `sparse.csr_matrix((data, (rows, cols)), shape=(N, N))` (or `csc_matrix`, which the constructor of the graph converts): an
index that is not smaller than `N` raises ValueError; the values given at the same position are summed. -/
def coo (N : ℕ) (l : List (ℕ × ℕ × ℝ)) : Py (Sp N N ℝ) :=
  if h : ∀ e ∈ l, e.1 < N ∧ e.2.1 < N then
    .ok (Sp.sumDuplicates ⟨l.attach.map fun e => (⟨e.1.1, (h e.1 e.2).1⟩, ⟨e.1.2.1, (h e.1 e.2).2⟩, e.1.2.2)⟩)
  else .error .valueError

/-- The graph of a list of weighted edges: `super().__init__(W, ...)`. -/
noncomputable def ofEdges (N : ℕ) (l : List (ℕ × ℕ × ℝ)) (lt : LapType) : Py (Graph N ℝ) :=
  match coo N l with
  | .error e => .error e
  | .ok W => Graph.ofCsr W lt

/-- Unit weights at the positions `(sources[p], targets[p])`. -/
def ones (sources targets : List ℕ) : List (ℕ × ℕ × ℝ) := (sources.zip targets).map fun p => (p.1, p.2, 1)

/-- `Path(N, directed)` (`path.py:59-75`).  `np.ones(-1)` and `np.ones(-2)` raise ValueError. -/
noncomputable def path (N : ℕ) (directed : Bool) (lt : LapType) : Py (Graph N ℝ) :=
  if N = 0 then .error .valueError
  else if directed then ofEdges N (ones (List.range (N - 1)) (List.range' 1 (N - 1))) lt
  else ofEdges N (ones (List.range (N - 1) ++ List.range' 1 (N - 1)) (List.range' 1 (N - 1) ++ List.range (N - 1))) lt

/-- `Ring(N, k)` (`ring.py:55-90`).  The arrays `i_inds` and `j_inds` are completely filled by the loop; when `2 * k == N` the
second assignment to `i_inds` overwrites the first one and the last `N` entries of `j_inds` stay zero. -/
noncomputable def ring (N k : ℕ) (lt : LapType) : Py (Graph N ℝ) :=
  if N < 3 then .error .valueError
  else if N < 2 * k then .error .valueError
  else
    let tmpN := List.range N
    let body := (List.range (min k ((N - 1) / 2))).flatMap fun i : ℕ =>
      ones tmpN (tmpN.map fun v => (v + i + 1) % N) ++ ones (tmpN.map fun v => (v + i + 1) % N) tmpN
    let last := if 2 * k = N then ones (tmpN.map fun v => (v + k + 1) % N) (tmpN.map fun _ => 0) else []
    ofEdges N (body ++ last) lt

/-- `Torus(Nv, Mv)` (`torus.py:38-85`), for `Nv, Mv ≥ 1`. -/
noncomputable def torus (Nv Mv : ℕ) (lt : LapType) : Py (Graph (Mv * Nv) ℝ) :=
  let tmpNv := List.range Nv
  let tmpNv1 := List.range (Nv - 1)
  let rings := (List.range Mv).flatMap fun i : ℕ =>
    ones (([Nv - 1] ++ tmpNv1 ++ tmpNv).map (i * Nv + ·)) ((tmpNv ++ [Nv - 1] ++ tmpNv1).map (i * Nv + ·))
  let between := (List.range (Mv - 1)).flatMap fun i : ℕ =>
    ones (tmpNv.map (i * Nv + ·) ++ tmpNv.map ((i + 1) * Nv + ·)) (tmpNv.map ((i + 1) * Nv + ·) ++ tmpNv.map (i * Nv + ·))
  let closing := ones (tmpNv ++ tmpNv.map ((Mv - 1) * Nv + ·)) (tmpNv.map ((Mv - 1) * Nv + ·) ++ tmpNv)
  ofEdges (Mv * Nv) (rings ++ between ++ closing) lt

/-- A lower diagonal of `sparse.diags`: the value `d[j]` at the position `(j + offset, j)` (zeros included, which does not
matter since the constructor removes them). -/
def lowerDiag (offset : ℕ) (N : ℕ) (d : ℕ → ℝ) : Matrix (Fin N) (Fin N) ℝ :=
  Matrix.of fun r c => if r.1 = c.1 + offset then d c.1 else 0

/-- `Grid2d(N1, N2, diagonal)` (`grid2d.py:40-89`).  `np.ones(-1)` raises ValueError for an empty grid; with `N2 = 1` the two
offsets are equal and `sparse.diags` raises ValueError. -/
noncomputable def grid2d (N1 N2 : ℕ) (diagonal : ℝ) (lt : LapType) : Py (Graph (N1 * N2) ℝ) :=
  let N := N1 * N2
  if N = 0 then .error .valueError
  else if N2 = 1 then .error .valueError
  else
    let W : Matrix (Fin N) (Fin N) ℝ := lowerDiag 1 N (fun j => if j % N2 = N2 - 1 then 0 else 1) + lowerDiag N2 N fun _ => 1
    open Classical in
    let W := if 1 < min N1 N2 ∧ diagonal ≠ 0 then
        W + (lowerDiag (N2 + 1) N (fun j => if j % N2 = N2 - 1 then 0 else diagonal) +
          lowerDiag (N2 - 1) N fun j => if j % N2 = 0 then 0 else diagonal)
      else W
    match symmetrize true W .tril with
    | .error e => .error e
    | .ok W => Graph.ofCsr (Sp.ofDense W) lt

/-- `Comet(N, k)` (`comet.py:37-73`). -/
noncomputable def comet (N k : ℕ) (lt : LapType) : Py (Graph N ℝ) :=
  if N < k + 1 then .error .valueError
  else
    let sources := List.replicate k 0 ++ List.range' 1 k ++ List.range' k (N - 1 - k) ++ List.range' (k + 1) (N - 1 - k)
    let targets := List.range' 1 k ++ List.replicate k 0 ++ List.range' (k + 1) (N - 1 - k) ++ List.range' k (N - 1 - k)
    ofEdges N (ones sources targets) lt

/-- The coordinates of `Comet` (`comet.py:67-71`). -/
noncomputable def cometCoords (k : ℕ) (v : ℕ) : ℝ × ℝ :=
  if v = 0 then (0, 0)
  else if v ≤ k then (Real.cos (v * 2 * Real.pi / k), Real.sin (v * 2 * Real.pi / k))
  else ((v - k + 1 : ℝ), 0)

/-- `Star(N)` (`star.py:31-34`); `Star(0)` has `k = -1 > N - 1` false and goes on with negative sizes: `np.zeros(-1)` raises
ValueError. -/
noncomputable def star (N : ℕ) (lt : LapType) : Py (Graph N ℝ) :=
  if N = 0 then .error .valueError else comet N (N - 1) lt

/-- `FullConnected(N)` (`fullconnected.py:27-31`). -/
noncomputable def fullConnected (N : ℕ) (lt : LapType) : Py (Graph N ℝ) :=
  Graph.ofCsr (Sp.ofDense ((Matrix.of fun _ _ => 1) - (1 : Matrix (Fin N) (Fin N) ℝ))) lt

end PyGSP.Gen
