import Verif.Spec.Spectral
import Verif.Spec.Graph
import Mathlib.LinearAlgebra.Matrix.NonsingularInverse

/-!
# Specification: connectivity ignoring directions, Moore-Penrose inverses, effective resistance
-/

namespace PyGSP.Spec

open Matrix

variable {n : ℕ}

/-- `i` and `j` are joined by a chain of edges, whatever their directions. -/
def Linked (M : Matrix (Fin n) (Fin n) ℝ) : Fin n → Fin n → Prop :=
  Relation.ReflTransGen fun i j => M i j ≠ 0 ∨ M j i ≠ 0

/-- Every two vertices are linked. -/
def Connected (M : Matrix (Fin n) (Fin n) ℝ) : Prop := ∀ i j, Linked M i j

/-- The four equations of Moore and Penrose: `P` is the pseudo-inverse of `A`. -/
structure IsPinv (A P : Matrix (Fin n) (Fin n) ℝ) : Prop where
  apa : A * P * A = A
  pap : P * A * P = P
  ap : (A * P)ᵀ = A * P
  pa : (P * A)ᵀ = P * A

/-- Effective resistance between `i` and `j` in the electrical network whose conductances are the (symmetrized) weights
`M`: whenever a unit current enters at `i` and leaves at `j` (Kirchhoff's current law with Ohm's law on every edge), the
potential difference between `i` and `j` is `r`; and such a potential exists. -/
def IsResistance (M : Matrix (Fin n) (Fin n) ℝ) (i j : Fin n) (r : ℝ) : Prop :=
  (∃ v : Fin n → ℝ, ∀ x, ∑ y, wsym M x y * (v x - v y) = (if x = i then 1 else 0) - if x = j then 1 else 0) ∧
  ∀ v : Fin n → ℝ, (∀ x, ∑ y, wsym M x y * (v x - v y) = (if x = i then 1 else 0) - if x = j then 1 else 0) →
    v i - v j = r

end PyGSP.Spec
