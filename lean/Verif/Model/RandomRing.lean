import Verif.Model.Generators
import Mathlib.Data.List.Sort

/-!
# `pygsp/graphs/randomring.py`

The angles are real numbers.  The random number generator is the function `draw`, `draw N` being the array that
`rng.uniform(0, 2 * np.pi, size=N)` returns.  The attribute `plotting` and the strings of `repr` are not modelled.
-/

namespace PyGSP.Gen

open Matrix Classical

/-- What the constructor leaves in the object: the number of vertices, the attribute `angles`, the graph, the coordinates. -/
structure RandomRing where
  N : ℕ
  angles : List ℝ
  graph : Graph N ℝ
  coords : List (ℝ × ℝ)

/-- `np.sort(angles)` / `angles.sort()` (`randomring.py:38,41`). -/
noncomputable def sortAngles (l : List ℝ) : List ℝ := l.mergeSort (fun x y => decide (x ≤ y))

/-- The array of the caller after `angles.sort()` (`randomring.py:40-41`): `np.asanyarray` does not copy an array. -/
noncomputable def callerAngles (l : List ℝ) : List ℝ := sortAngles l

/-- `rows`, `cols` and `weights` (`randomring.py:51-58`); `np.diff(angles)[i]` is `angles[i+1] - angles[i]`. -/
noncomputable def ringGaps (N : ℕ) (angles : List ℝ) : List (ℕ × ℕ × ℝ) :=
  let rows := List.range (N - 1) ++ [0]
  let cols := List.range' 1 (N - 1) ++ [N - 1]
  let weights := (List.range (N - 1)).map (fun i : ℕ => angles.getD (i + 1) 0 - angles.getD i 0) ++
    [2 * Real.pi + angles.getD 0 0 - angles.getD (N - 1) 0]
  rows.zip (cols.zip weights)

/-- `W.data = f(W.data)` on the stored entries (`randomring.py:69`). -/
def mapData {n m : ℕ} {K : Type*} (f : K → K) (A : Sp n m K) : Sp n m K := ⟨A.entries.map fun e => (e.1, e.2.1, f e.2.2)⟩

/-- `RandomRing.__init__` (`randomring.py:33-75`), from the sorted angles on.  The sparse additions of `utils.symmetrize` do not
store zeros, so that the matrix it returns stores the non-zero values only. -/
noncomputable def ringOfSorted (N : ℕ) (angles : List ℝ) (lt : LapType) : Py RandomRing :=
  if N < 3 then .error .valueError
  else
    match coo N (ringGaps N angles) with
    | .error e => .error e
    | .ok W =>
      match symmetrize true W.dense .triu with
      | .error e => .error e
      | .ok S =>
        let A := Sp.ofDense S
        let width := 2 * Real.pi / N
        if A.data.sum / A.nnz - width < 1 / 10 ^ 10 then
          match Graph.ofCsr (mapData (width / ·) A) lt with
          | .error e => .error e
          | .ok g => .ok { N := N, angles := angles, graph := g, coords := angles.map fun a => (Real.cos a, Real.sin a) }
        else .error .assertionError

/-- `RandomRing(N, angles, seed, lap_type)` (`randomring.py:33-75`). -/
noncomputable def randomRing (N : ℕ) (angles : Option (List ℝ)) (draw : ℕ → List ℝ) (lt : LapType) : Py RandomRing :=
  match angles with
  | none => ringOfSorted N (sortAngles (draw N)) lt
  | some l =>
    if (∃ x ∈ sortAngles l, x < 0) ∨ ∃ x ∈ sortAngles l, 2 * Real.pi ≤ x then .error .valueError
    else ringOfSorted (sortAngles l).length (sortAngles l) lt

end PyGSP.Gen
