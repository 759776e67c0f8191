import Verif.Lemmas.Weyl

/-!
# Interlacing: comparing eigenvalues of two quadratic forms on a subspace
-/

namespace PyGSP.Weyl

open Matrix Spec

variable {n m r : ℕ}

/-- If `T` maps the vectors that satisfy `r` linear equations, without shrinking them, so that the quadratic form of `L` is at most that of `L'`, the `k`-th eigenvalue of `L` is at most the
`k + r`-th of `L'`. -/
theorem interlace {L U : Matrix (Fin n) (Fin n) ℝ} {e : Fin n → ℝ} {L' U' : Matrix (Fin m) (Fin m) ℝ} {e' : Fin m → ℝ} (h : IsEigenPairs L e U) (h' : IsEigenPairs L' e' U')
    (he : Monotone e) (he' : Monotone e') (h0 : ∀ i, 0 ≤ e i) (T : Matrix (Fin n) (Fin m) ℝ) (C : Matrix (Fin r) (Fin m) ℝ)
    (hq : ∀ x : Fin m → ℝ, C *ᵥ x = 0 → (T *ᵥ x) ⬝ᵥ (L *ᵥ (T *ᵥ x)) ≤ x ⬝ᵥ (L' *ᵥ x))
    (hN : ∀ x : Fin m → ℝ, C *ᵥ x = 0 → x ⬝ᵥ x ≤ (T *ᵥ x) ⬝ᵥ (T *ᵥ x)) {k : ℕ} (hk : k < n) (hkr : k + r < m) : e ⟨k, hk⟩ ≤ e' ⟨k + r, hkr⟩ := by
  have hU : U * Uᵀ = 1 := mul_eq_one_comm.1 h.orthonormal
  obtain ⟨c, hc, hz⟩ := exists_kernel (k + r) (Matrix.of fun (a : Fin (k + r)) (b : Fin (k + r + 1)) =>
    if ha : a.1 < k then (Uᵀ * T * U') ⟨a, by omega⟩ ⟨b, by omega⟩ else (C * U') ⟨a - k, by omega⟩ ⟨b, by omega⟩)
  set y : Fin m → ℝ := fun i => if h : i.1 < k + r + 1 then c ⟨i, h⟩ else 0 with hy
  have y1 : ∀ b : Fin (k + r + 1), y ⟨b, by omega⟩ = c b := fun b => dif_pos b.2
  have y0 : ∀ i : Fin m, ¬ i.1 < k + r + 1 → y i = 0 := fun i hi => dif_neg hi
  have hsum : ∀ φ : Fin m → ℝ, ∑ i, φ i * y i = ∑ b : Fin (k + r + 1), φ ⟨b, by omega⟩ * c b := by
    intro φ
    have hinj : Function.Injective fun b : Fin (k + r + 1) => (⟨b, by omega⟩ : Fin m) := fun a b hab => Fin.ext (by simpa using hab)
    have : ∑ i ∈ Finset.univ.image (fun b : Fin (k + r + 1) => (⟨b, by omega⟩ : Fin m)), φ i * y i = ∑ b : Fin (k + r + 1), φ ⟨b, by omega⟩ * c b := by
      rw [Finset.sum_image (fun a _ b _ hab => hinj hab)]
      exact Finset.sum_congr rfl fun b _ => by rw [y1]
    rw [← this]
    symm
    refine Finset.sum_subset (Finset.subset_univ _) fun i _ hi => ?_
    have : ¬ i.1 < k + r + 1 := fun hlt => hi (Finset.mem_image.2 ⟨⟨i, hlt⟩, Finset.mem_univ _, rfl⟩)
    rw [y0 i this, mul_zero]
  set x := U' *ᵥ y
  set z := Uᵀ *ᵥ (T *ᵥ x)
  have hx : T *ᵥ x = U *ᵥ z := by
    change T *ᵥ x = U *ᵥ (Uᵀ *ᵥ (T *ᵥ x))
    rw [Matrix.mulVec_mulVec _ U Uᵀ, hU, Matrix.one_mulVec]
  have hCx : C *ᵥ x = 0 := by
    funext a
    have h1 := congrFun hz ⟨k + a, by omega⟩
    have h2 : (C *ᵥ x) a = ∑ j, (C * U') a j * y j := by
      change (C *ᵥ (U' *ᵥ y)) a = _
      rw [Matrix.mulVec_mulVec]; rfl
    rw [h2, hsum]
    refine Eq.trans ?_ h1
    refine Finset.sum_congr rfl fun b _ => ?_
    dsimp only
    rw [Matrix.of_apply, dif_neg (by simp)]
    have : (⟨k + a.1 - k, by omega⟩ : Fin r) = a := Fin.ext (by simp)
    rw [this]
  have hzk : ∀ i : Fin n, i.1 < k → z i = 0 := by
    intro i hi
    have h1 := congrFun hz ⟨i, by omega⟩
    have h2 : z i = ∑ j, (Uᵀ * T * U') i j * y j := by
      change (Uᵀ *ᵥ (T *ᵥ (U' *ᵥ y))) i = _
      rw [Matrix.mulVec_mulVec, Matrix.mulVec_mulVec]; rfl
    rw [h2, hsum]
    refine Eq.trans ?_ h1
    refine Finset.sum_congr rfl fun b _ => ?_
    dsimp only
    rw [Matrix.of_apply, dif_pos hi]
  have hNz : ∑ i, y i ^ 2 ≤ ∑ i, z i ^ 2 := by
    rw [← norm_basis h, ← hx, ← norm_basis h']
    exact hN x hCx
  have hpos : 0 < ∑ i, y i ^ 2 := by
    obtain ⟨b, hb⟩ := Function.ne_iff.1 hc
    refine lt_of_lt_of_le ?_ (Finset.single_le_sum (f := fun i => y i ^ 2) (fun i _ => sq_nonneg _) (Finset.mem_univ (⟨b, by omega⟩ : Fin m)))
    simp only [y1]
    exact sq_pos_of_ne_zero hb
  have h1 : e ⟨k, hk⟩ * ∑ i, y i ^ 2 ≤ ∑ i, e i * z i ^ 2 := by
    refine (mul_le_mul_of_nonneg_left hNz (h0 _)).trans ?_
    rw [Finset.mul_sum]
    refine Finset.sum_le_sum fun i _ => ?_
    by_cases hi : i.1 < k
    · rw [hzk i hi]; simp
    · exact mul_le_mul_of_nonneg_right (he (by simp only [Fin.le_def]; omega)) (sq_nonneg _)
  have h2 : ∑ i, e' i * y i ^ 2 ≤ e' ⟨k + r, hkr⟩ * ∑ i, y i ^ 2 := by
    rw [Finset.mul_sum]
    refine Finset.sum_le_sum fun i _ => ?_
    by_cases hi : i.1 < k + r + 1
    · exact mul_le_mul_of_nonneg_right (he' (by simp only [Fin.le_def]; omega)) (sq_nonneg _)
    · rw [y0 i hi]; simp
  have h3 := hq x hCx
  rw [quad_basis h', hx, quad_basis h] at h3
  exact le_of_mul_le_mul_right (h1.trans (h3.trans h2)) hpos

end PyGSP.Weyl
