import Verif.Model.Py
import Mathlib.LinearAlgebra.Matrix.Defs
import Mathlib.Data.Fintype.Basic
import Mathlib.Data.List.FinRange

/-!
# scipy.sparse matrices

A sparse matrix is the list of its *stored* entries `(row, col, value)`.  Explicit zeros may
be stored and (in non-canonical matrices) a position may be stored several times; the value at
a position is then the sum of the stored values, as in scipy.
Index arrays (`indptr`, `indices`) are not modelled.
-/

namespace PyGSP

/-- `scipy.sparse.{csr,coo,csc,lil}_matrix` of shape `(n, m)`: its stored entries. -/
@[ext] structure Sp (n m : ℕ) (K : Type*) where
  /-- stored entries, row-major in a CSR matrix with sorted indices -/
  entries : List (Fin n × Fin m × K)

namespace Sp

variable {n m : ℕ} {K : Type*}

/-- `A.toarray()`: stored values at the same position are summed. -/
def dense [AddMonoid K] (A : Sp n m K) : Matrix (Fin n) (Fin m) K :=
  fun i j => ((A.entries.filter (fun e => e.1 = i ∧ e.2.1 = j)).map (fun e => e.2.2)).sum

/-- `A.nnz`: the number of stored entries (explicit zeros included). -/
def nnz (A : Sp n m K) : ℕ := A.entries.length

/-- `A.data`. -/
def data (A : Sp n m K) : List K := A.entries.map (fun e => e.2.2)

/-- positions of the stored entries -/
def keys (A : Sp n m K) : List (Fin n × Fin m) := A.entries.map (fun e => (e.1, e.2.1))

/-- `A.has_canonical_format` (up to ordering): no position stored twice. -/
def Canonical (A : Sp n m K) : Prop := A.keys.Nodup

instance (A : Sp n m K) : Decidable A.Canonical := by unfold Canonical; infer_instance

/-- `A.eliminate_zeros()`: drop the entries whose stored value is zero. -/
def eliminateZeros [Zero K] [DecidableEq K] (A : Sp n m K) : Sp n m K :=
  ⟨A.entries.filter (fun e => e.2.2 ≠ 0)⟩

/-- `A.T` / `A.transpose()`. -/
def transpose (A : Sp n m K) : Sp m n K := ⟨A.entries.map (fun e => (e.2.1, e.1, e.2.2))⟩

/-- `sparse.csr_matrix(dense)`: stores exactly the non-zero values, row-major. -/
def ofDense [Zero K] [DecidableEq K] (M : Matrix (Fin n) (Fin m) K) : Sp n m K :=
  ⟨(List.finRange n).flatMap fun i => (List.finRange m).filterMap fun j =>
    if M i j ≠ 0 then some (i, j, M i j) else none⟩

/-- `A.diagonal()`. -/
def diagonal [AddMonoid K] (A : Sp n n K) : List K := (List.finRange n).map fun i => A.dense i i

/-- `sparse.triu(A, format='coo')`: keeps the stored entries with `row <= col`. -/
def triu (A : Sp n n K) : Sp n n K := ⟨A.entries.filter (fun e => e.1 ≤ e.2.1)⟩

/-- `sparse.tril(A)`: keeps the stored entries with `col <= row`. -/
def tril (A : Sp n n K) : Sp n n K := ⟨A.entries.filter (fun e => e.2.1 ≤ e.1)⟩

/-- `(A != B).nnz`: scipy's element-wise comparison returns the boolean matrix of the positions
where the (duplicate-summed) values differ; only `True` entries are stored. -/
def neNnz [AddMonoid K] [DecidableEq K] (A B : Sp n m K) : ℕ :=
  ((List.finRange n).flatMap fun i => (List.finRange m).filterMap fun j =>
    if A.dense i j ≠ B.dense i j then some (i, j) else none).length

/-- `A.getnnz(axis=1)[i]`: stored entries in row `i`. -/
def rowNnz (A : Sp n m K) (i : Fin n) : ℕ := (A.entries.filter (fun e => e.1 = i)).length

/-- `A.getnnz(axis=0)[j]`: stored entries in column `j`. -/
def colNnz (A : Sp n m K) (j : Fin m) : ℕ := (A.entries.filter (fun e => e.2.1 = j)).length

/-- `A[v, :].nonzero()[1]` / `A[v].nonzero()[1]`: columns of the stored non-zero entries of row `v`. -/
def rowNonzero [Zero K] [DecidableEq K] (A : Sp n m K) (v : Fin n) : List (Fin m) :=
  (A.entries.filter (fun e => e.1 = v ∧ e.2.2 ≠ 0)).map (fun e => e.2.1)

/-- `A[rows, :][:, cols]` (fancy indexing by index lists): the entry stored at `(i, j)` is copied to
every `(a, b)` with `rows[a] = i` and `cols[b] = j`. -/
def fancyIndex (A : Sp n m K) (rows : List (Fin n)) (cols : List (Fin m)) :
    Sp rows.length cols.length K :=
  ⟨(List.finRange rows.length).flatMap fun a => (List.finRange cols.length).flatMap fun b =>
    (A.entries.filter (fun e => e.1 = rows.get a ∧ e.2.1 = cols.get b)).map
      (fun e => (a, b, e.2.2))⟩

/-- Conversion of a COO/LIL/CSC matrix to CSR: entries stored at the same position are summed
(a zero sum stays stored), positions row-major. -/
def sumDuplicates [AddMonoid K] (A : Sp n m K) : Sp n m K :=
  ⟨(List.finRange n).flatMap fun i => (List.finRange m).filterMap fun j =>
    if (i, j) ∈ A.keys then some (i, j, A.dense i j) else none⟩

end Sp

end PyGSP
