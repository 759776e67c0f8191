import Mathlib.Data.Real.Basic
import Mathlib.LinearAlgebra.Matrix.Defs

/-!
# Two-colourings
-/

namespace PyGSP.Spec

variable {n : ℕ}

/-- The edges at the vertices of `S` stay in `S` and join vertices of different colours (so there is no self-loop in `S`). -/
def TwoColored (M : Matrix (Fin n) (Fin n) ℝ) (S : Set (Fin n)) (c : Fin n → Bool) : Prop :=
  ∀ i ∈ S, ∀ j, M i j ≠ 0 ∨ M j i ≠ 0 → j ∈ S ∧ c i ≠ c j

/-- The vertices can be given two colours such that every edge joins different colours. -/
def Bipartite (M : Matrix (Fin n) (Fin n) ℝ) : Prop := ∃ c : Fin n → Bool, ∀ i j, M i j ≠ 0 → c i ≠ c j

end PyGSP.Spec
