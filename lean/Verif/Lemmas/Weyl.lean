import Verif.Spec.Solvers
import Verif.Spec.Spectral
import Mathlib.LinearAlgebra.Dimension.Constructions
import Mathlib.LinearAlgebra.FiniteDimensional.Lemmas

/-!
# Weyl: a larger quadratic form has larger eigenvalues, one by one
-/

namespace PyGSP.Weyl

open Matrix Spec

variable {n : ℕ}

theorem quad_basis {L : Matrix (Fin n) (Fin n) ℝ} {e : Fin n → ℝ} {U : Matrix (Fin n) (Fin n) ℝ} (h : IsEigenPairs L e U) (y : Fin n → ℝ) :
    (U *ᵥ y) ⬝ᵥ (L *ᵥ (U *ᵥ y)) = ∑ i, e i * y i ^ 2 := by
  rw [Matrix.mulVec_mulVec, h.eig, ← Matrix.mulVec_mulVec, Matrix.dotProduct_mulVec, Matrix.vecMul_mulVec, h.orthonormal, Matrix.vecMul_one]
  simp only [dotProduct, Matrix.mulVec_diagonal]
  exact Finset.sum_congr rfl fun i _ => by ring

theorem norm_basis {e : Fin n → ℝ} {L U : Matrix (Fin n) (Fin n) ℝ} (h : IsEigenPairs L e U) (y : Fin n → ℝ) :
    (U *ᵥ y) ⬝ᵥ (U *ᵥ y) = ∑ i, y i ^ 2 := by
  rw [Matrix.dotProduct_mulVec, Matrix.vecMul_mulVec, h.orthonormal, Matrix.vecMul_one]
  simp only [dotProduct]
  exact Finset.sum_congr rfl fun i _ => by ring

/-- `k` linear equations in `k + 1` unknowns. -/
theorem exists_kernel (k : ℕ) (A : Matrix (Fin k) (Fin (k + 1)) ℝ) : ∃ c : Fin (k + 1) → ℝ, c ≠ 0 ∧ A *ᵥ c = 0 := by
  have := LinearMap.ker_ne_bot_of_finrank_lt (f := A.mulVecLin) (by simp)
  obtain ⟨c, hc, h0⟩ := (Submodule.ne_bot_iff _).1 this
  exact ⟨c, h0, by simpa using hc⟩

theorem le_of_quad_le {L L' : Matrix (Fin n) (Fin n) ℝ} {e e' : Fin n → ℝ} {U U' : Matrix (Fin n) (Fin n) ℝ} (h : IsEigenPairs L e U) (h' : IsEigenPairs L' e' U')
    (he : Monotone e) (he' : Monotone e') (hq : ∀ x : Fin n → ℝ, x ⬝ᵥ (L *ᵥ x) ≤ x ⬝ᵥ (L' *ᵥ x)) (k : Fin n) : e k ≤ e' k := by
  have hU : U * Uᵀ = 1 := mul_eq_one_comm.1 h.orthonormal
  obtain ⟨k, hk⟩ := k
  obtain ⟨c, hc, h0⟩ := exists_kernel k (Matrix.of fun (a : Fin k) (b : Fin (k + 1)) => (Uᵀ * U') ⟨a, by omega⟩ ⟨b, by omega⟩)
  set y : Fin n → ℝ := fun i => if h : i.1 < k + 1 then c ⟨i, h⟩ else 0 with hy
  have y1 : ∀ b : Fin (k + 1), y ⟨b, by omega⟩ = c b := fun b => dif_pos b.2
  have y0 : ∀ i : Fin n, ¬ i.1 < k + 1 → y i = 0 := fun i hi => dif_neg hi
  have hsum : ∀ φ : Fin n → ℝ, ∑ i, φ i * y i = ∑ b : Fin (k + 1), φ ⟨b, by omega⟩ * c b := by
    intro φ
    have hinj : Function.Injective fun b : Fin (k + 1) => (⟨b, by omega⟩ : Fin n) := fun a b hab => Fin.ext (by simpa using hab)
    have : ∑ i ∈ Finset.univ.image (fun b : Fin (k + 1) => (⟨b, by omega⟩ : Fin n)), φ i * y i = ∑ b : Fin (k + 1), φ ⟨b, by omega⟩ * c b := by
      rw [Finset.sum_image (fun a _ b _ hab => hinj hab)]
      exact Finset.sum_congr rfl fun b _ => by rw [y1]
    rw [← this]
    symm
    refine Finset.sum_subset (Finset.subset_univ _) fun i _ hi => ?_
    have : ¬ i.1 < k + 1 := fun hlt => hi (Finset.mem_image.2 ⟨⟨i, hlt⟩, Finset.mem_univ _, rfl⟩)
    rw [y0 i this, mul_zero]
  set x := U' *ᵥ y
  set z := Uᵀ *ᵥ x
  have hx : x = U *ᵥ z := by rw [Matrix.mulVec_mulVec, hU, Matrix.one_mulVec]
  have hz : ∀ i : Fin n, i.1 < k → z i = 0 := by
    intro i hi
    have h1 := congrFun h0 ⟨i, hi⟩
    have h2 : z i = ∑ j, (Uᵀ * U') i j * y j := by
      change (Uᵀ *ᵥ (U' *ᵥ y)) i = _
      rw [Matrix.mulVec_mulVec]; rfl
    rw [h2, hsum]
    exact h1
  have hN : ∑ i, z i ^ 2 = ∑ i, y i ^ 2 := by rw [← norm_basis h, ← hx, norm_basis h']
  have hpos : 0 < ∑ i, y i ^ 2 := by
    obtain ⟨b, hb⟩ := Function.ne_iff.1 hc
    refine lt_of_lt_of_le ?_ (Finset.single_le_sum (f := fun i => y i ^ 2) (fun i _ => sq_nonneg _) (Finset.mem_univ (⟨b, by omega⟩ : Fin n)))
    simp only [y1]
    exact sq_pos_of_ne_zero hb
  have h1 : e ⟨k, hk⟩ * ∑ i, y i ^ 2 ≤ ∑ i, e i * z i ^ 2 := by
    rw [← hN, Finset.mul_sum]
    refine Finset.sum_le_sum fun i _ => ?_
    by_cases hi : i.1 < k
    · rw [hz i hi]; simp
    · exact mul_le_mul_of_nonneg_right (he (by simp only [Fin.le_def]; omega)) (sq_nonneg _)
  have h2 : ∑ i, e' i * y i ^ 2 ≤ e' ⟨k, hk⟩ * ∑ i, y i ^ 2 := by
    rw [Finset.mul_sum]
    refine Finset.sum_le_sum fun i _ => ?_
    by_cases hi : i.1 < k + 1
    · exact mul_le_mul_of_nonneg_right (he' (by simp only [Fin.le_def]; omega)) (sq_nonneg _)
    · rw [y0 i hi]; simp
  have h3 := hq x
  rw [quad_basis h', hx, quad_basis h] at h3
  exact le_of_mul_le_mul_right (h1.trans (h3.trans h2)) hpos

end PyGSP.Weyl
