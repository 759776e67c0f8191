import Verif.Lemmas.Spectrum
import Verif.Props.DesignConv

/-!
# Moving filters from one graph to another along a linear map that intertwines the Laplacians
-/

namespace PyGSP

open Matrix Spec GState Polynomial Real Spectrum

variable {n m : ℕ}

/-- Where `Q` links the frequencies `e j` and `e' j'`, they correspond, so the responses may be exchanged. -/
theorem spectral_intertwine {L : Matrix (Fin n) (Fin n) ℝ} {L' : Matrix (Fin m) (Fin m) ℝ} {e : Fin n → ℝ} {U : Matrix (Fin n) (Fin n) ℝ}
    {e' : Fin m → ℝ} {U' : Matrix (Fin m) (Fin m) ℝ} (h : IsEigenPairs L e U) (h' : IsEigenPairs L' e' U') {Q : Matrix (Fin m) (Fin n) ℝ} {c : ℝ}
    (hQ : L' * Q = c • (Q * L)) {y : Fin n → ℝ} {y' : Fin m → ℝ} (hy : ∀ j j', e' j' = c * e j → y' j' = y j) :
    Q * spectralOp U y = spectralOp U' y' * Q := by
  have hU : U * Uᵀ = 1 := mul_eq_one_comm.1 h.orthonormal
  have hU' : U' * U'ᵀ = 1 := mul_eq_one_comm.1 h'.orthonormal
  have hL' : U'ᵀ * L' = diagonal e' * U'ᵀ := by
    have : L' = U' * diagonal e' * U'ᵀ := by rw [← h'.eig, Matrix.mul_assoc, hU', Matrix.mul_one]
    conv_lhs => rw [this, ← Matrix.mul_assoc, ← Matrix.mul_assoc, h'.orthonormal, Matrix.one_mul]
  have hT : diagonal e' * (U'ᵀ * Q * U) = c • (U'ᵀ * Q * U * diagonal e) := by
    rw [Matrix.mul_assoc U'ᵀ Q U, ← Matrix.mul_assoc (diagonal e'), ← hL', Matrix.mul_assoc U'ᵀ L', ← Matrix.mul_assoc L', hQ, Matrix.smul_mul, Matrix.mul_smul,
      Matrix.mul_assoc Q, h.eig]
    simp only [Matrix.mul_assoc]
  have hT2 : diagonal y' * (U'ᵀ * Q * U) = U'ᵀ * Q * U * diagonal y := by
    ext j' j
    have := congrFun (congrFun hT j') j
    simp only [Matrix.diagonal_mul, Matrix.smul_apply, Matrix.mul_diagonal, smul_eq_mul] at this ⊢
    by_cases h0 : (U'ᵀ * Q * U) j' j = 0
    · rw [h0]; ring
    · have : e' j' = c * e j := mul_right_cancel₀ h0 (by linarith)
      rw [hy j j' this]; ring
  unfold spectralOp
  calc Q * (U * diagonal y * Uᵀ) = (U' * U'ᵀ) * Q * (U * diagonal y * Uᵀ) := by rw [hU', Matrix.one_mul]
    _ = U' * (U'ᵀ * Q * U * diagonal y) * Uᵀ := by simp only [Matrix.mul_assoc]
    _ = U' * diagonal y' * U'ᵀ * Q * (U * Uᵀ) := by rw [← hT2]; simp only [Matrix.mul_assoc]
    _ = _ := by rw [hU, Matrix.mul_one]

/-- The same for polynomials of the Laplacian. -/
theorem aeval_intertwine {A : Matrix (Fin n) (Fin n) ℝ} {A' : Matrix (Fin m) (Fin m) ℝ} {Q : Matrix (Fin m) (Fin n) ℝ} (h : A' * Q = Q * A) (p : ℝ[X]) :
    Q * aeval A p = aeval A' p * Q := by
  induction p using Polynomial.induction_on with
  | C a => simp [Algebra.algebraMap_eq_smul_one]
  | add p q hp hq => rw [map_add, map_add, Matrix.mul_add, Matrix.add_mul, hp, hq]
  | monomial k a ih =>
    rw [pow_succ, ← mul_assoc, map_mul, map_mul (aeval A'), aeval_X, aeval_X, ← Matrix.mul_assoc, ih, Matrix.mul_assoc, ← h, Matrix.mul_assoc]

/-- Sorted frequencies of intertwined Laplacians, for an invertible `Q`. -/
theorem sorted_intertwine {L L' : Matrix (Fin n) (Fin n) ℝ} {e : Fin n → ℝ} {U : Matrix (Fin n) (Fin n) ℝ}
    {e' : Fin n → ℝ} {U' : Matrix (Fin n) (Fin n) ℝ} (h : IsEigenPairs L e U) (h' : IsEigenPairs L' e' U') {Q : Matrix (Fin n) (Fin n) ℝ} (hQ0 : Q.det ≠ 0) {c : ℝ}
    (hc : 0 ≤ c) (hQ : L' * Q = c • (Q * L)) (he : Monotone e) (he' : Monotone e') (j : Fin n) : e' j = c * e j := by
  obtain ⟨σ, hσ⟩ := same_spectrum (L := L') (U := U') (V := Q * U) (e := e') (f := fun j => c * e j) (det_of_orthonormal h'.orthonormal) h'.eig
    (by rw [Matrix.det_mul]; exact mul_ne_zero hQ0 (det_of_orthonormal h.orthonormal))
    (by
      rw [← Matrix.mul_assoc, hQ, Matrix.smul_mul, Matrix.mul_assoc, h.eig, Matrix.mul_assoc, ← Matrix.mul_smul, ← Matrix.mul_smul]
      congr 2
      ext a b
      simp [Matrix.diagonal_apply])
  exact congrFun (eq_of_sorted he' (fun a b hab => mul_le_mul_of_nonneg_left (he hab) hc) hσ) j

end PyGSP
