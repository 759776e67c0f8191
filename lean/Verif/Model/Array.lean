import Mathlib.Data.Real.Basic
import Mathlib.Data.Fintype.BigOperators
import Mathlib.Logic.Equiv.Fin.Basic
import Verif.Model.Py

/-!
# numpy arrays of real numbers, of any number of dimensions

Only what `pygsp/filters/filter.py` uses.  The value at an index that is out of bounds is `0` and is never read.
-/

namespace PyGSP

/-- An `ndarray` of floats: its shape and its entries. -/
@[ext] structure Arr where
  shape : List ℕ
  val : List ℕ → ℝ

namespace Arr

/-- A 1-D array of shape `(n,)`. -/
def of1 {n : ℕ} (x : Fin n → ℝ) : Arr where
  shape := [n]
  val
    | [i] => if h : i < n then x ⟨i, h⟩ else 0
    | _ => 0

/-- A 2-D array of shape `(n, m)`. -/
def of2 {n m : ℕ} (x : Fin n → Fin m → ℝ) : Arr where
  shape := [n, m]
  val
    | [i, j] => if h : i < n ∧ j < m then x ⟨i, h.1⟩ ⟨j, h.2⟩ else 0
    | _ => 0

/-- A 3-D array of shape `(n, m, p)`. -/
def of3 {n m p : ℕ} (x : Fin n → Fin m → Fin p → ℝ) : Arr where
  shape := [n, m, p]
  val
    | [i, j, k] => if h : i < n ∧ j < m ∧ k < p then x ⟨i, h.1⟩ ⟨j, h.2.1⟩ ⟨k, h.2.2⟩ else 0
    | _ => 0

/-- `a.ndim`. -/
def ndim (a : Arr) : ℕ := a.shape.length

/-- `a.shape[-1]` (of an array that has at least one dimension). -/
def last (a : Arr) : ℕ := a.shape.getLastD 0

/-- `np.expand_dims(a, k)`. -/
def expandDims (a : Arr) (k : ℕ) : Arr := ⟨a.shape.insertIdx k 1, fun idx => a.val (idx.eraseIdx k)⟩

/-- Put back the index `0` at the dimensions of size 1. -/
def unsqueeze : List ℕ → List ℕ → List ℕ
  | [], idx => idx
  | 1 :: s, idx => 0 :: unsqueeze s idx
  | _ :: _, [] => []
  | _ :: s, i :: idx => i :: unsqueeze s idx

/-- `a.squeeze()`: all the dimensions of size 1 are removed. -/
def squeeze (a : Arr) : Arr := ⟨a.shape.filter (· ≠ 1), fun idx => a.val (unsqueeze a.shape idx)⟩

/-- `a.T`: the dimensions in reverse order. -/
def transpose (a : Arr) : Arr := ⟨a.shape.reverse, fun idx => a.val idx.reverse⟩

/-- The multi-index of the `k`-th entry in C order (last index fastest). -/
def unravel : List ℕ → ℕ → List ℕ
  | [], _ => []
  | _ :: s, k => (k / s.prod) :: unravel s (k % s.prod)

/-- `a.reshape(-1, m)` (C order), for `m > 0` dividing the number of entries; otherwise ValueError. -/
def reshapeRows (a : Arr) (m : ℕ) : Py Arr :=
  if 0 < m ∧ m ∣ a.shape.prod then
    .ok ⟨[a.shape.prod / m, m], fun
      | [i, j] => if i < a.shape.prod / m ∧ j < m then a.val (unravel a.shape (i * m + j)) else 0
      | _ => 0⟩
  else .error .valueError

/-- `c * a`. -/
def smul (c : ℝ) (a : Arr) : Arr := ⟨a.shape, fun idx => c * a.val idx⟩

end Arr

/-- Run `m` Python calls in order, stop at the first exception (a `for` loop that fills an array). -/
def seqFin {α : Type} : (m : ℕ) → (Fin m → Py α) → Py (Fin m → α)
  | 0, _ => .ok fun i => i.elim0
  | m + 1, f =>
    match f 0 with
    | .error e => .error e
    | .ok a =>
      match seqFin m fun i => f i.succ with
      | .error e => .error e
      | .ok g => .ok (Fin.cons a g)

/-- `a.max()` of a 1-D array; ValueError if it is empty. -/
noncomputable def arrMax {k : ℕ} (y : Fin k → ℝ) : Py ℝ :=
  if h : 0 < k then .ok (Finset.univ.sup' ⟨⟨0, h⟩, Finset.mem_univ _⟩ y) else .error .valueError

/-- `a.min()` of a 1-D array; ValueError if it is empty. -/
noncomputable def arrMin {k : ℕ} (y : Fin k → ℝ) : Py ℝ :=
  if h : 0 < k then .ok (Finset.univ.inf' ⟨⟨0, h⟩, Finset.mem_univ _⟩ y) else .error .valueError

end PyGSP
