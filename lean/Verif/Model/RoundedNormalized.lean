import Verif.Model.Rounding

/-!
# The floating-point version of the normalized Laplacian
-/

namespace PyGSP

variable {n : ℕ}

/-- `d` of `compute_laplacian("normalized")` (`graph.py:622-624`): zero where the computed degree is zero, else `np.power(dw, -0.5)`.  The power is a function of the mathematical library,
whose error is not that of a single operation: it is a parameter. -/
noncomputable def invSqrtFl (fl pow : ℝ → ℝ) (W : Sp n n ℝ) (i : Fin n) : ℝ :=
  if dwFl fl W i = 0 then 0 else pow (dwFl fl W i)

/-- `compute_laplacian("normalized")` (`graph.py:621-628`): `sparse.identity(N) - D * W * D`, evaluated from left to right; the sparse product adds each product to zero.  Then the diagonal
entries of the disconnected vertices are set to zero. -/
noncomputable def normLapFl (fl pow : ℝ → ℝ) (W : Sp n n ℝ) : Matrix (Fin n) (Fin n) ℝ :=
  Matrix.of fun i j => if i = j ∧ dwFl fl W i = 0 then 0
    else fl ((if i = j then 1 else 0) - fl (0 + fl (fl (0 + fl (invSqrtFl fl pow W i * symFl fl W i j)) * invSqrtFl fl pow W j)))

/-- The symmetric matrix that `np.linalg.eigh` (`fourier.py:172`) decomposes: it reads the lower triangle only. -/
def lowerTriangle (A : Matrix (Fin n) (Fin n) ℝ) : Matrix (Fin n) (Fin n) ℝ := Matrix.of fun i j => A (max i j) (min i j)

end PyGSP
