import Verif.Model.Graph

/-!
# Memory shared between the caller's CSR matrix and the graph

`Graph.__init__` wraps the adjacency with `sparse.csr_matrix(adjacency, copy=False)` (`graph.py:109`), so for a CSR matrix
the arrays `indptr`, `indices` and `data` are those of the caller, and the in-place operations of the constructor
(`self._adjacency < 0`, `graph.py:121`, and `self._adjacency.eliminate_zeros()`, `graph.py:128`) write into them.
For a dense array or another sparse format scipy allocates new arrays, and nothing is shared.

Simplifications: the arrays `indices` and `data` have the same length and are always shared, cut and copied together, so they are one
array of pairs; an array is seen from its beginning; the values left beyond the end of a sorted and merged matrix are those that were
there before sorting.
-/

namespace PyGSP.Sharing

variable {n : ℕ} {K : Type}

/-- The arrays: `indptr` has `n + 1` entries, `body` pairs a column of `indices` with a value of `data`. -/
structure Mem (n : ℕ) (K : Type) where
  indptr : ℕ → Fin (n + 1) → ℕ
  body : ℕ → List (Fin n × K)
  /-- addresses from here on are free -/
  next : ℕ

/-- A `csr_matrix` object: where its `indptr` is, where the array that owns `indices` and `data` is, and how much of it the object sees. -/
structure Obj where
  indptr : ℕ
  body : ℕ
  len : ℕ
  deriving DecidableEq

/-- `A.nnz`, that is `A.indptr[-1]`. -/
def Mem.nnz (m : Mem n K) (o : Obj) : ℕ := m.indptr o.indptr (Fin.last n)

/-- The stored entries: row `i` is `indices[indptr[i]:indptr[i+1]]`, `data[indptr[i]:indptr[i+1]]`. -/
def Mem.read (m : Mem n K) (o : Obj) : Sp n n K :=
  ⟨(List.finRange n).flatMap fun i =>
    ((((m.body o.body).take o.len).drop (m.indptr o.indptr i.castSucc)).take
      (m.indptr o.indptr i.succ - m.indptr o.indptr i.castSucc)).map fun e => (i, e.1, e.2)⟩

/-- scipy's `prune()` with `_prune_array`: the object sees the first `nnz` positions only, and gets its own copy when this is
less than half (rounded down) of the array. -/
def Mem.prune (m : Mem n K) (o : Obj) : Obj × Mem n K :=
  if m.nnz o < (m.body o.body).length / 2 then
    (⟨o.indptr, m.next, m.nnz o⟩, { m with body := Function.update m.body m.next ((m.body o.body).take (m.nnz o)), next := m.next + 1 })
  else (⟨o.indptr, o.body, m.nnz o⟩, m)

/-- Overwriting the arrays of an object with the entries `E` (row by row): the first positions of `indices` and `data`
are replaced, the others are left, `indptr` counts. -/
def Mem.write (m : Mem n K) (o : Obj) (E : List (Fin n × Fin n × K)) : Mem n K :=
  { m with
    indptr := Function.update m.indptr o.indptr fun i => E.countP fun e => e.1.val < i.val
    body := Function.update m.body o.body (E.map (fun e => (e.2.1, e.2.2)) ++ (m.body o.body).drop E.length) }

/-- `A.has_canonical_format`: within each row the columns increase. -/
def CanonicalFormat (A : Sp n n K) : Prop := A.entries.Pairwise fun e e' => e.1 < e'.1 ∨ (e.1 = e'.1 ∧ e.2.1 < e'.2.1)

instance (A : Sp n n K) : Decidable (CanonicalFormat A) := by unfold CanonicalFormat; infer_instance

/-- `A.sum_duplicates()`, in place. -/
def Mem.sumDuplicates [AddMonoid K] (m : Mem n K) (o : Obj) : Obj × Mem n K :=
  if CanonicalFormat (m.read o) then (o, m) else (m.write o (m.read o).sumDuplicates.entries).prune o

/-- `A.eliminate_zeros()`, in place. -/
def Mem.eliminateZeros [Zero K] [DecidableEq K] (m : Mem n K) (o : Obj) : Obj × Mem n K :=
  (m.write o (m.read o).eliminateZeros.entries).prune o

/-- `sparse.csr_matrix(A, copy=False)` for a CSR matrix `A` (`graph.py:109`): a new object on the same arrays, pruned by `check_format`. -/
def Mem.share (m : Mem n K) (o : Obj) : Obj × Mem n K := m.prune o

/-- What `Graph(A)` does to the arrays (`graph.py:109-128`): the object `G.W` and the memory afterwards. -/
def Mem.graph [AddMonoid K] [DecidableEq K] (m : Mem n K) (o : Obj) : Obj × Mem n K :=
  let a := m.share o
  let b := a.2.sumDuplicates a.1
  b.2.eliminateZeros b.1

/-- `A.data[k] = v`. -/
def Mem.setData (m : Mem n K) (o : Obj) (k : ℕ) (v : K) : Mem n K :=
  { m with body := Function.update m.body o.body ((m.body o.body).modify k fun e => (e.1, v)) }

/-- A CSR matrix as scipy makes it. -/
structure WF (m : Mem n K) (o : Obj) : Prop where
  zero : m.indptr o.indptr 0 = 0
  mono : Monotone (m.indptr o.indptr)
  nnz : m.nnz o ≤ o.len
  len : o.len ≤ (m.body o.body).length
  fresh : o.body < m.next

end PyGSP.Sharing
