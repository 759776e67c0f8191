import Mathlib.Data.Fintype.Basic
import Mathlib.Data.Sym.Sym2
import Mathlib.Data.Fintype.Prod
import Mathlib.Logic.Relation
import Mathlib.LinearAlgebra.Matrix.Defs
import Mathlib.Data.Matrix.Mul

/-!
# Vocabulary for the graph properties (independent of the model)

A weighted graph on `n` vertices is just a matrix of weights.
-/

namespace PyGSP.Spec

variable {n : ℕ} {K : Type*}

/-- There is an arc from `i` to `j`. -/
def Arc [Zero K] (M : Matrix (Fin n) (Fin n) K) (i j : Fin n) : Prop := M i j ≠ 0

/-- The set of arcs (ordered pairs). -/
def arcs [Zero K] [DecidableEq K] (M : Matrix (Fin n) (Fin n) K) : Finset (Fin n × Fin n) :=
  Finset.univ.filter fun p => M p.1 p.2 ≠ 0

/-- The set of edges as unordered pairs; a self-loop at `i` is the pair `{i, i}`. -/
def edges [Zero K] [DecidableEq K] (M : Matrix (Fin n) (Fin n) K) : Finset (Sym2 (Fin n)) :=
  (arcs M).image fun p => s(p.1, p.2)

/-- `j` can be reached from `i` by following arcs. -/
def Reach [Zero K] (M : Matrix (Fin n) (Fin n) K) : Fin n → Fin n → Prop :=
  Relation.ReflTransGen (Arc M)

/-- Every vertex can be reached from every vertex. -/
def StronglyConnected [Zero K] (M : Matrix (Fin n) (Fin n) K) : Prop :=
  ∀ i j, Reach M i j

/-- Undirected graph: symmetric weights. -/
def Undirected (M : Matrix (Fin n) (Fin n) K) : Prop := ∀ i j, M i j = M j i

/-- Non-negative weights. -/
def NonnegW [Zero K] [LE K] (M : Matrix (Fin n) (Fin n) K) : Prop := ∀ i j, 0 ≤ M i j

end PyGSP.Spec
