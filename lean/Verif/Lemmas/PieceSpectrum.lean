import Verif.Lemmas.Spectrum
import Mathlib.Data.Matrix.Block

/-!
# The spectrum of a matrix made of independent blocks
-/

namespace PyGSP

open Matrix Spec Spectrum

variable {n : ℕ}

theorem pieces_spectrum {K : ℕ} {m : Fin K → ℕ} {ι : ∀ k, Fin (m k) → Fin n} (hb : Function.Bijective fun p : Σ k, Fin (m k) => ι p.1 p.2)
    {L : Matrix (Fin n) (Fin n) ℝ} {L' : ∀ k, Matrix (Fin (m k)) (Fin (m k)) ℝ} (hin : ∀ k a b, L' k a b = L (ι k a) (ι k b))
    (hoff : ∀ k a j, (∀ b, ι k b ≠ j) → L (ι k a) j = 0) {e : Fin n → ℝ} {U : Matrix (Fin n) (Fin n) ℝ} (h : IsEigenPairs L e U)
    {e' : ∀ k, Fin (m k) → ℝ} {U' : ∀ k, Matrix (Fin (m k)) (Fin (m k)) ℝ} (h' : ∀ k, IsEigenPairs (L' k) (e' k) (U' k)) (l : ℝ) :
    (Finset.univ.filter fun j => e j = l).card = ∑ k, (Finset.univ.filter fun j => e' k j = l).card := by
  classical
  set φ := Equiv.ofBijective _ hb with hφ
  have hφa : ∀ k a, φ ⟨k, a⟩ = ι k a := fun k a => rfl
  have hinj : ∀ {k k' a a'}, ι k a = ι k' a' → (⟨k, a⟩ : Σ k, Fin (m k)) = ⟨k', a'⟩ := fun {k k' a a'} h => hb.1 h
  have hbd : L = (blockDiagonal' L').submatrix φ.symm φ.symm := by
    have : L.submatrix φ φ = blockDiagonal' L' := by
      ext ⟨k, a⟩ ⟨k', a'⟩
      rw [Matrix.submatrix_apply, blockDiagonal'_apply, hφa, hφa]
      split
      · rename_i hk
        dsimp only at hk
        subst hk
        exact (hin _ _ _).symm
      · rename_i hk
        exact hoff _ _ _ fun b hb' => hk (show k = k' from congrArg Sigma.fst (hinj hb'))
    rw [← this]
    ext i j
    simp
  set V : Matrix (Fin n) (Fin n) ℝ := (blockDiagonal' U').submatrix φ.symm φ.symm with hV
  have hVo : Vᵀ * V = 1 := by
    rw [hV, Matrix.transpose_submatrix, Matrix.submatrix_mul_equiv, blockDiagonal'_transpose, ← blockDiagonal'_mul]
    have : (fun k => (U' k)ᵀ * U' k) = 1 := funext fun k => (h' k).orthonormal
    rw [this, blockDiagonal'_one]
    simp
  have hVe : L * V = V * diagonal fun j => e' (φ.symm j).1 (φ.symm j).2 := by
    have hd : (diagonal fun j => e' (φ.symm j).1 (φ.symm j).2 : Matrix (Fin n) (Fin n) ℝ) = (blockDiagonal' fun k => diagonal (e' k)).submatrix φ.symm φ.symm := by
      rw [blockDiagonal'_diagonal, Matrix.submatrix_diagonal_equiv]
      rfl
    rw [hd, hbd, hV, Matrix.submatrix_mul_equiv, Matrix.submatrix_mul_equiv, ← blockDiagonal'_mul, ← blockDiagonal'_mul]
    congr 2
    funext k
    exact (h' k).eig
  obtain ⟨σ, hσ⟩ := same_spectrum (det_of_orthonormal h.orthonormal) h.eig (det_of_orthonormal hVo) hVe
  simp only [Finset.card_filter]
  rw [← Equiv.sum_comp σ]
  simp only [hσ]
  rw [Equiv.sum_comp φ.symm (fun p : Σ k, Fin (m k) => if e' p.1 p.2 = l then 1 else 0), Fintype.sum_sigma]

end PyGSP
