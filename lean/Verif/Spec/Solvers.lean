import Verif.Model.GraphState
import Verif.Spec.Spectral

/-!
# What the eigensolvers are assumed to return (exact arithmetic)
-/

namespace PyGSP.Spec

open Matrix

variable {n : ℕ}

/-- The columns of `U` are orthonormal eigenvectors of `L`, with eigenvalues `e`. -/
structure IsEigenPairs {k : ℕ} (L : Matrix (Fin n) (Fin n) ℝ) (e : Fin k → ℝ) (U : Matrix (Fin n) (Fin k) ℝ) :
    Prop where
  orthonormal : Uᵀ * U = 1
  eig : L * U = U * Matrix.diagonal e

/-- The documented result of the symmetric eigensolvers on symmetric matrices:
* `eigh`: `n` orthonormal eigenvectors, eigenvalues in ascending order;
* `eigsh(L, k, which='SM')`: if it converges, `k` orthonormal eigenvectors in ascending order, among which one whose
  eigenvalue has the smallest magnitude;
* `eigsh(L, k=1)`: if it converges, a Rayleigh quotient of `L` (ARPACK returns Ritz values). -/
structure Sound (S : Solvers n) : Prop where
  eigh : ∀ t (L : Matrix (Fin n) (Fin n) ℝ), (∀ i j, L i j = L j i) →
    IsEigenPairs L (S.eigh t L).1 (S.eigh t L).2 ∧ Monotone (S.eigh t L).1
  eigshSM : ∀ k t (L : Matrix (Fin n) (Fin n) ℝ), (∀ i j, L i j = L j i) → 0 < k → k < n →
    ∀ r, S.eigshSM k t L = some r → IsEigenPairs L r.1 r.2 ∧ Monotone r.1 ∧
      ∃ j, ∀ l, IsEigenvalue L l → |r.1 j| ≤ |l|
  eigshLM : 0 < n → ∀ t (L : Matrix (Fin n) (Fin n) ℝ), (∀ i j, L i j = L j i) →
    ∀ r, S.eigshLM t L = some r → ∃ x : Fin n → ℝ, x ≠ 0 ∧ x ⬝ᵥ (L *ᵥ x) = r * (x ⬝ᵥ x)

/-- The iterative solvers always converge. -/
def Converges (S : Solvers n) : Prop :=
  (∀ t L, (S.eigshLM t L).isSome) ∧ ∀ k t L, (S.eigshSM k t L).isSome

end PyGSP.Spec
