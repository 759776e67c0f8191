import Verif.Model.Generators

/-!
# `pygsp/graphs/randomregular.py`

The random numbers are an arbitrary function `draw` of the number of the draw and of the bound: `rng.integers(0, n)` is `draw t n`
for the `t`-th draw.  The sparse matrix `A` has entries zero and one only; it is modelled by booleans.
-/

namespace PyGSP.Gen

open Matrix

variable {N : ℕ}

/-- The variables of the loop (`randomregular.py:62-69`).  `inexact` says that `U` is an array of floats. -/
structure RRState (N : ℕ) where
  /-- the open half-edges -/
  U : List (Fin N)
  /-- whether `U` holds floating-point numbers -/
  inexact : Bool
  /-- the adjacency matrix -/
  A : Fin N → Fin N → Bool
  /-- `edgesTested` -/
  tested : ℕ
  /-- `repetition` -/
  rep : ℕ

/-- `np.kron(np.ones(k), np.arange(N))` (`randomregular.py:63`, `randomregular.py:92`): `k` half-edges at every vertex. -/
def halfEdges (N k : ℕ) : List (Fin N) := (List.replicate k (List.finRange N)).flatten

/-- The state before the loop (`randomregular.py:62-69`). -/
def rrInit (N k : ℕ) : RRState N := ⟨halfEdges N k, false, fun _ _ => false, 0, 1⟩

/-- One turn of the loop (`randomregular.py:72-101`) with the half-edges numbered `i1` and `i2`.  After a restart (`randomregular.py:92`) `U` is not
converted to integers, so that `A[v1, v2]` (`randomregular.py:87`) has floating-point indices: `floatIndex` says whether the installed SciPy accepts
them (older versions do with a warning, recent ones raise ValueError).  The logging of the progress is not modelled. -/
def rrStep (k : ℕ) (floatIndex : Bool) (i1 i2 : ℕ) (s : RRState N) : Py (RRState N) :=
  match s.U[i1]?, s.U[i2]? with
  | some v1, some v2 =>
    let tested := s.tested + 1
    let restart : RRState N :=
      if tested = N * k then ⟨halfEdges N k, true, fun _ _ => false, 0, s.rep + 1⟩ else { s with tested := tested }
    -- v1 == v2 or A[v1, v2] == 1
    if v1 = v2 then .ok restart
    else if s.inexact && !floatIndex then .error .valueError
    else if s.A v1 v2 then .ok restart
    else
      let a := min i1 i2
      let b := max i1 i2
      .ok { s with
        tested := tested
        A := fun x y => if (x = v1 ∧ y = v2) ∨ (x = v2 ∧ y = v1) then true else s.A x y
        U := s.U.take a ++ (s.U.take b).drop (a + 1) ++ s.U.drop (b + 1) }
  | _, _ => .error .indexError

/-- The loop `while np.size(U) and repetition < max_iter` (`randomregular.py:71`), stopped after `fuel` turns (`none`); `t` counts the turns
done, each of which draws two random numbers. -/
def rrLoop (k maxIter : ℕ) (floatIndex : Bool) (draw : ℕ → ℕ → ℕ) : ℕ → ℕ → RRState N → Py (Option (RRState N))
  | fuel, t, s =>
    if s.U = [] ∨ maxIter ≤ s.rep then .ok (some s)
    else match fuel with
      | 0 => .ok none
      | fuel + 1 => match rrStep k floatIndex (draw (2 * t) s.U.length) (draw (2 * t + 1) s.U.length) s with
        | .error e => .error e
        | .ok s => rrLoop k maxIter floatIndex draw fuel (t + 1) s

/-- What follows the loop (`randomregular.py:103`).  `is_regular` (`randomregular.py:105`) only logs. -/
noncomputable def rrFinish (lt : LapType) : Py (Option (RRState N)) → Py (Graph N ℝ)
  | .error e => .error e
  | .ok none => .error .unmodelled
  | .ok (some s) => Graph.ofCsr (Sp.ofDense (Matrix.of fun i j => if s.A i j then 1 else 0)) lt

/-- `RandomRegular(N, k, max_iter)` (`randomregular.py:49-105`); `none` when the loop does not terminate. -/
noncomputable def randomRegular (N k maxIter : ℕ) (floatIndex : Bool) (draw : ℕ → ℕ → ℕ) (lt : LapType) : Option (Py (Graph N ℝ)) :=
  if N * k % 2 = 1 then some (.error .valueError)
  else
    open Classical in
    if h : ∃ fuel, rrLoop k maxIter floatIndex draw fuel 0 (rrInit N k) ≠ .ok none then
      some (rrFinish lt (rrLoop k maxIter floatIndex draw (Nat.find h) 0 (rrInit N k)))
    else none

/-- Whether `is_regular` (`randomregular.py:107-136`) logs a warning. -/
noncomputable def isRegularWarns (g : Graph N ℝ) : Bool :=
  open Classical in
  let A : Fin N → Fin N → Bool := posAdj g.W
  let d : Fin N → ℝ := degree g.W
  decide ((∃ i j, A i j ≠ A j i) ∨ (∃ i j, d i ≠ d j) ∨ ∃ i, A i i = true)

/-- `rng.integers(0, n)` is smaller than `n`. -/
def DrawSpec (draw : ℕ → ℕ → ℕ) : Prop := ∀ t n, 0 < n → draw t n < n

end PyGSP.Gen
