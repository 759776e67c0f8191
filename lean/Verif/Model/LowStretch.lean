import Verif.Model.Generators

/-!
# `pygsp/graphs/lowstretchtree.py`

`lsII m` and `lsJJ m` are the arrays `ii` and `jj` after `m` turns of the loop `for p in range(1, k)`: the turn `p = m + 1` computes
`lsII (m + 1)` from `lsII m`.
-/

namespace PyGSP.Gen

open Matrix

/-- `ii` (`lowstretchtree.py:35`, `lowstretchtree.py:39-52`). -/
def lsII : ℕ → List ℕ
  | 0 => [0, 0, 1, 2, 2, 3]
  | m + 1 =>
    let p := m + 1
    let ii := lsII m
    ii ++ ii.map (· + 4 ^ p) ++ ii.map (· + 2 * 4 ^ p) ++ ii.map (· + 3 * 4 ^ p) ++
      [4 ^ p - 1, 4 ^ p - 1, 4 ^ p + (4 ^ (p + 1) + 2) / 3 - 1, (5 * 4 ^ p + 1) / 3 - 1, 4 ^ p + (4 ^ (p + 1) + 2) / 3 - 1, 3 * 4 ^ p]

/-- `jj` (`lowstretchtree.py:36`, `lowstretchtree.py:53-66`). -/
def lsJJ : ℕ → List ℕ
  | 0 => [1, 2, 1, 3, 0, 2]
  | m + 1 =>
    let p := m + 1
    let jj := lsJJ m
    jj ++ jj.map (· + 4 ^ p) ++ jj.map (· + 2 * 4 ^ p) ++ jj.map (· + 3 * 4 ^ p) ++
      [(5 * 4 ^ p + 1) / 3 - 1, 4 ^ p + (4 ^ (p + 1) + 2) / 3 - 1, 3 * 4 ^ p, 4 ^ p - 1, 4 ^ p - 1, 4 ^ p + (4 ^ (p + 1) + 2) / 3 - 1]

/-- `XCoords` (`lowstretchtree.py:32`, `lowstretchtree.py:71-72`); `np.kron(np.ones(2), v)` is `v` twice. -/
def lsX : ℕ → List ℕ
  | 0 => [1, 2, 1, 2]
  | m + 1 =>
    let l := lsX m ++ (lsX m).map (· + 2 ^ (m + 1))
    l ++ l

/-- `YCoords` (`lowstretchtree.py:33`, `lowstretchtree.py:68-69`). -/
def lsY : ℕ → List ℕ
  | 0 => [1, 1, 2, 2]
  | m + 1 =>
    let l := lsY m ++ lsY m
    l ++ l.map (· + 2 ^ (m + 1))

/-- the largest element plus one: the size `csc_matrix((data, (ii, jj)))` deduces from the indices -/
def lsSize (l : List ℕ) : ℕ := l.foldr max 0 + 1

/-- `LowStretchTree(k)` (`lowstretchtree.py:29-87`).  The matrix has no given shape; a shape that is not the one of the coordinates is not
modelled (`C77_structure` shows it does not occur). -/
noncomputable def lowStretchTree (k : ℕ) (lt : LapType) : Py (Graph (4 ^ (k - 1 + 1)) ℝ) :=
  if lsSize (lsII (k - 1)) = 4 ^ (k - 1 + 1) ∧ lsSize (lsJJ (k - 1)) = 4 ^ (k - 1 + 1) then
    ofEdges (4 ^ (k - 1 + 1)) (ones (lsII (k - 1)) (lsJJ (k - 1))) lt
  else .error .unmodelled

/-- The coordinates of the vertex `v` (`lowstretchtree.py:75-77`). -/
def lsCoords (k : ℕ) (v : ℕ) : ℕ × ℕ := ((lsX (k - 1)).getD v 0, (lsY (k - 1)).getD v 0)

end PyGSP.Gen
