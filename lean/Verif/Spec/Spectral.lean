import Mathlib.Data.Real.Basic
import Mathlib.Data.Matrix.Mul
import Mathlib.LinearAlgebra.Matrix.Symmetric
import Verif.Spec.Graph

/-!
# Vocabulary for the spectral properties (independent of the model)
-/

namespace PyGSP.Spec

open Matrix

variable {n : ℕ}

/-- `l` is an eigenvalue of the real matrix `L`. -/
def IsEigenvalue (L : Matrix (Fin n) (Fin n) ℝ) (l : ℝ) : Prop :=
  ∃ x : Fin n → ℝ, x ≠ 0 ∧ L *ᵥ x = l • x

/-- The symmetrized weight between `i` and `j`. -/
noncomputable def wsym (M : Matrix (Fin n) (Fin n) ℝ) (i j : Fin n) : ℝ := (M i j + M j i) / 2

/-- The weighted degree: mean of the in- and out-weights. -/
noncomputable def wdeg (M : Matrix (Fin n) (Fin n) ℝ) (i : Fin n) : ℝ :=
  ((∑ j, M j i) + ∑ j, M i j) / 2

/-- The Dirichlet form `1/2 sum_ij W[i,j] (x_i - x_j)^2`. -/
noncomputable def dirichlet (M : Matrix (Fin n) (Fin n) ℝ) (x : Fin n → ℝ) : ℝ :=
  1 / 2 * ∑ i, ∑ j, M i j * (x i - x j) ^ 2

/-- Positive semi-definite (as a quadratic form). -/
def PSD (L : Matrix (Fin n) (Fin n) ℝ) : Prop := ∀ x, 0 ≤ x ⬝ᵥ (L *ᵥ x)

end PyGSP.Spec
