import Verif.Spec.Spectral
import Mathlib.Algebra.Polynomial.AlgebraMap
import Mathlib.Data.Matrix.Mul

/-!
# Specification of spectral filters
-/

namespace PyGSP.Spec

open Matrix

variable {n k : ℕ}

/-- `U diag(h) Uᵀ`: multiply the `j`-th Fourier coefficient by `h j`. -/
def spectralOp (U : Matrix (Fin n) (Fin k) ℝ) (h : Fin k → ℝ) : Matrix (Fin n) (Fin n) ℝ :=
  U * Matrix.diagonal h * Uᵀ

/-- `M` is the operator `g(L)` of the functional calculus: it equals `p(L)` for every polynomial `p` that takes the
values of `g` on the eigenvalues of `L` (this determines `M`, since such a polynomial exists). -/
def IsFunctionOf (L : Matrix (Fin n) (Fin n) ℝ) (g : ℝ → ℝ) (M : Matrix (Fin n) (Fin n) ℝ) : Prop :=
  ∀ p : Polynomial ℝ, (∀ l, IsEigenvalue L l → p.eval l = g l) → M = Polynomial.aeval L p

/-- vertices `i`, `j` are at most `k` hops away: `k` steps, each along an edge (in either direction) or staying -/
def WithinHops (W : Matrix (Fin n) (Fin n) ℝ) : ℕ → Fin n → Fin n → Prop
  | 0, i, j => i = j
  | k + 1, i, j => ∃ l, (i = l ∨ W i l ≠ 0 ∨ W l i ≠ 0) ∧ WithinHops W k l j

end PyGSP.Spec
