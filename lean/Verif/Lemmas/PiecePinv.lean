import Verif.Lemmas.Piece
import Verif.Lemmas.Potential

/-!
# The pseudo-inverse of the Laplacian of a piece
-/

namespace PyGSP

open Matrix Spec

variable {n m : ℕ}

/-- The pseudo-inverse of a symmetric matrix commutes with the symmetric involutions that commute with the matrix. -/
theorem pinv_involution {L P S : Matrix (Fin n) (Fin n) ℝ} (hP : IsPinv L P) (hS : S * S = 1) (hSt : Sᵀ = S) (hL : S * L * S = L) : S * P * S = P := by
  refine IsPinv.unique (A := L) ?_ hP
  have h1 : L * S = S * L := by
    calc L * S = S * L * S * S := by rw [hL]
      _ = S * L * (S * S) := by rw [Matrix.mul_assoc (S * L)]
      _ = _ := by rw [hS, Matrix.mul_one]
  have h2 : L * (S * P * S) = S * (L * P) * S := by rw [← Matrix.mul_assoc, ← Matrix.mul_assoc, h1, Matrix.mul_assoc S L P]
  have h3 : S * P * S * L = S * (P * L) * S := by rw [Matrix.mul_assoc (S * P), ← h1, Matrix.mul_assoc, Matrix.mul_assoc, ← Matrix.mul_assoc P, ← Matrix.mul_assoc]
  constructor
  · rw [h2, Matrix.mul_assoc (S * (L * P)), ← h1, ← Matrix.mul_assoc (S * (L * P)), Matrix.mul_assoc S (L * P), hP.apa, hL]
  · rw [h3]
    calc S * (P * L) * S * (S * P * S) = S * (P * L) * (S * S) * P * S := by simp only [Matrix.mul_assoc]
      _ = S * (P * L * P) * S := by rw [hS]; simp only [Matrix.mul_assoc, Matrix.one_mul]
      _ = _ := by rw [hP.pap]
  · rw [h2, Matrix.transpose_mul, Matrix.transpose_mul, hP.ap, hSt]; simp only [Matrix.mul_assoc]
  · rw [h3, Matrix.transpose_mul, Matrix.transpose_mul, hP.pa, hSt]; simp only [Matrix.mul_assoc]

theorem pinv_pick {ι : Fin m → Fin n} (hι : Function.Injective ι) {L P : Matrix (Fin n) (Fin n) ℝ} {L' P' : Matrix (Fin m) (Fin m) ℝ} (hL : Lᵀ = L) (hL' : L'ᵀ = L')
    (hQ : L' * pickQ ι = pickQ ι * L) (hP : IsPinv L P) (hP' : IsPinv L' P') (a b : Fin m) : P' a b = P (ι a) (ι b) := by
  set Q := pickQ ι with hq
  have q1 : Q * Qᵀ = 1 := by
    ext a b
    rw [hq, pickQ_mul]
    simp only [Matrix.transpose_apply, pickQ, Matrix.submatrix_apply, id_eq, Matrix.one_apply, hι.eq_iff, eq_comm]
  have q2 : L * Qᵀ = Qᵀ * L' := by
    have := congrArg Matrix.transpose hQ
    rw [Matrix.transpose_mul, Matrix.transpose_mul, hL, hL'] at this
    exact this.symm
  set E := Qᵀ * Q with hE
  have e1 : E * E = E := by rw [hE, Matrix.mul_assoc, ← Matrix.mul_assoc Q, q1, Matrix.one_mul]
  have e2 : Eᵀ = E := by rw [hE, Matrix.transpose_mul, Matrix.transpose_transpose]
  have e3 : L * E = E * L := by rw [hE, ← Matrix.mul_assoc, q2, Matrix.mul_assoc, hQ, Matrix.mul_assoc]
  have e4 : E * Qᵀ = Qᵀ := by rw [hE, Matrix.mul_assoc, q1, Matrix.mul_one]
  have e5 : E * P = P * E := by
    have hS : ((2 : ℝ) • E - 1) * ((2 : ℝ) • E - 1) = 1 := by
      rw [Matrix.sub_mul, Matrix.mul_sub, Matrix.mul_one, Matrix.one_mul, Matrix.smul_mul, Matrix.mul_smul, e1]
      module
    have := pinv_involution (S := (2 : ℝ) • E - 1) hP hS (by rw [Matrix.transpose_sub, Matrix.transpose_smul, e2, Matrix.transpose_one]) (by
      have : ((2 : ℝ) • E - 1) * L = L * ((2 : ℝ) • E - 1) := by
        rw [Matrix.sub_mul, Matrix.mul_sub, Matrix.smul_mul, Matrix.mul_smul, e3, Matrix.one_mul, Matrix.mul_one]
      rw [this, Matrix.mul_assoc, hS, Matrix.mul_one])
    have h2 : ((2 : ℝ) • E - 1) * P = P * ((2 : ℝ) • E - 1) := by
      calc ((2 : ℝ) • E - 1) * P = ((2 : ℝ) • E - 1) * P * (((2 : ℝ) • E - 1) * ((2 : ℝ) • E - 1)) := by rw [hS, Matrix.mul_one]
        _ = _ := by rw [← Matrix.mul_assoc, this]
    rw [Matrix.sub_mul, Matrix.mul_sub, Matrix.smul_mul, Matrix.mul_smul, Matrix.one_mul, Matrix.mul_one, sub_left_inj] at h2
    have := congrArg (fun M => (2 : ℝ)⁻¹ • M) h2
    simpa [smul_smul] using this
  have key : P' = Q * P * Qᵀ := by
    refine hP'.unique ?_
    have k1 : L' * (Q * P * Qᵀ) = Q * (L * P) * Qᵀ := by rw [← Matrix.mul_assoc, ← Matrix.mul_assoc, hQ, Matrix.mul_assoc Q L P]
    have k2 : Q * P * Qᵀ * L' = Q * (P * L) * Qᵀ := by rw [Matrix.mul_assoc (Q * P), ← q2]; simp only [Matrix.mul_assoc]
    constructor
    · rw [k1, Matrix.mul_assoc (Q * (L * P)), ← q2, ← Matrix.mul_assoc, Matrix.mul_assoc Q, hP.apa, ← hQ, Matrix.mul_assoc, q1, Matrix.mul_one]
    · rw [k2]
      calc Q * (P * L) * Qᵀ * (Q * P * Qᵀ) = Q * (P * L) * (E * P) * Qᵀ := by rw [hE]; simp only [Matrix.mul_assoc]
        _ = Q * (P * L * P) * (E * Qᵀ) := by rw [e5]; simp only [Matrix.mul_assoc]
        _ = _ := by rw [e4, hP.pap]
    · rw [k1, Matrix.transpose_mul, Matrix.transpose_mul, hP.ap, Matrix.transpose_transpose]; simp only [Matrix.mul_assoc]
    · rw [k2, Matrix.transpose_mul, Matrix.transpose_mul, hP.pa, Matrix.transpose_transpose]; simp only [Matrix.mul_assoc]
  rw [key, Matrix.mul_assoc, hq, pickQ_mul]
  simp only [Matrix.mul_apply, Matrix.transpose_apply, pickQ, Matrix.submatrix_apply, id_eq, Matrix.one_apply, mul_ite, mul_one, mul_zero, Finset.sum_ite_eq, Finset.mem_univ, if_true]

end PyGSP
