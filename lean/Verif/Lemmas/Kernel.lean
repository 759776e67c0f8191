import Verif.Lemmas.StateExtra
import Mathlib.LinearAlgebra.Dimension.Constructions
import Mathlib.LinearAlgebra.FiniteDimensional.Lemmas

namespace PyGSP

open Matrix Spec

variable {n : ℕ}

/-- zero Dirichlet energy means constant along arcs -/
theorem dirichlet_eq_zero {M : Matrix (Fin n) (Fin n) ℝ} (hM : NonnegW M) (x : Fin n → ℝ) :
    dirichlet M x = 0 ↔ ∀ i j, Arc M i j → x i = x j := by
  unfold dirichlet
  constructor
  · intro h i j hij
    have h1 : ∑ i, ∑ j, M i j * (x i - x j) ^ 2 = 0 := by linarith
    rw [Finset.sum_eq_zero_iff_of_nonneg fun i _ => Finset.sum_nonneg fun j _ => mul_nonneg (hM i j) (sq_nonneg _)] at h1
    have h2 := h1 i (Finset.mem_univ _)
    rw [Finset.sum_eq_zero_iff_of_nonneg fun j _ => mul_nonneg (hM i j) (sq_nonneg _)] at h2
    have h3 := h2 j (Finset.mem_univ _)
    rcases mul_eq_zero.1 h3 with h | h
    · exact absurd h hij
    · exact sub_eq_zero.1 (pow_eq_zero_iff (two_ne_zero) |>.1 h)
  · intro h
    have : ∀ i j, M i j * (x i - x j) ^ 2 = 0 := by
      intro i j
      by_cases hij : M i j = 0
      · rw [hij, zero_mul]
      · rw [h i j hij]; simp
    simp [this]

theorem combLap_of_const {M : Matrix (Fin n) (Fin n) ℝ} {x : Fin n → ℝ}
    (h : ∀ i j, Arc M i j → x i = x j) : combLap M *ᵥ x = 0 := by
  ext i
  rw [combLap_mulVec]
  refine Finset.sum_eq_zero fun j _ => ?_
  by_cases h1 : M i j = 0
  · by_cases h2 : M j i = 0
    · simp [wsym, h1, h2]
    · rw [h j i h2]; simp
  · rw [h i j h1]; simp

/-- the scaling under which the kernel consists of the signals constant on the components -/
noncomputable def kscale (M : Matrix (Fin n) (Fin n) ℝ) (lt : LapType) (i : Fin n) : ℝ :=
  if lt = .normalized ∧ wdeg M i ≠ 0 then 1 / Real.sqrt (wdeg M i) else 1

theorem kscale_ne_zero {M : Matrix (Fin n) (Fin n) ℝ} (hM : NonnegW M) (lt : LapType) (i : Fin n) :
    kscale M lt i ≠ 0 := by
  unfold kscale
  split
  · rename_i h
    have := (Real.sqrt_ne_zero (wdeg_nonneg hM i)).2 h.2
    exact one_div_ne_zero this
  · exact one_ne_zero

theorem laplacian_ker {W : Sp n n ℝ} (hW : NonnegW W.dense) {lt : LapType} {L} (h : laplacian W lt = .ok L)
    (x : Fin n → ℝ) :
    L *ᵥ x = 0 ↔ ∀ i j, Arc W.dense i j → kscale W.dense lt i * x i = kscale W.dense lt j * x j := by
  cases lt
  · rw [laplacian_comb] at h
    cases h
    simp only [kscale, reduceCtorEq, false_and, if_false, one_mul]
    refine ⟨fun h => (dirichlet_eq_zero hW x).1 ?_, combLap_of_const⟩
    rw [← combLap_quad, h, dotProduct_zero]
  · rw [laplacian_norm W hW] at h
    cases h
    have hpos : ∀ i j, Arc W.dense i j → wdeg W.dense i ≠ 0 ∧ wdeg W.dense j ≠ 0 := fun i j hij =>
      ⟨fun h => hij (entry_eq_zero_of_wdeg hW h j).1, fun h => hij (entry_eq_zero_of_wdeg hW h i).2⟩
    have hks : ∀ i, wdeg W.dense i ≠ 0 → kscale W.dense .normalized i = nscale W.dense i := fun i hi => by
      simp [kscale, nscale, hi]
    have hiff : (∀ i j, Arc W.dense i j → kscale W.dense .normalized i * x i = kscale W.dense .normalized j * x j) ↔
        ∀ i j, Arc W.dense i j → nscale W.dense i * x i = nscale W.dense j * x j := by
      refine forall_congr' fun i => forall_congr' fun j => ?_
      constructor
      · intro h hij
        rw [← hks i (hpos i j hij).1, ← hks j (hpos i j hij).2]; exact h hij
      · intro h hij
        rw [hks i (hpos i j hij).1, hks j (hpos i j hij).2]; exact h hij
    rw [hiff]
    constructor
    · intro h
      apply (dirichlet_eq_zero hW (fun i => nscale W.dense i * x i)).1
      rw [← combLap_quad]
      have h1 : ∀ i, (Matrix.of (fun i j => nscale W.dense i * combLap W.dense i j * nscale W.dense j) *ᵥ x) i = 0 :=
        fun i => by rw [h]; rfl
      simp only [scaled_mulVec] at h1
      simp only [dotProduct]
      refine Finset.sum_eq_zero fun i _ => ?_
      have := h1 i
      calc _ = x i * (nscale W.dense i * (combLap W.dense *ᵥ fun j => nscale W.dense j * x j) i) := by ring
        _ = 0 := by rw [this, mul_zero]
    · intro h
      ext i
      rw [scaled_mulVec, combLap_of_const h]
      simp
  · simp [laplacian] at h

/-- The kernel and the functions on the components. -/
noncomputable def kerEquivQuot {W : Sp n n ℝ} (hW : NonnegW W.dense) {lt : LapType} {L} (h : laplacian W lt = .ok L) :
    LinearMap.ker (Matrix.mulVecLin L) ≃ₗ[ℝ] (Quot (Arc W.dense) → ℝ) where
  toFun x := Quot.lift (fun i => kscale W.dense lt i * x.1 i) (fun i j hij =>
    (laplacian_ker hW h x.1).1 (by have := x.2; rwa [LinearMap.mem_ker, Matrix.mulVecLin_apply] at this) i j hij)
  invFun q := ⟨fun i => q (Quot.mk _ i) / kscale W.dense lt i, by
    rw [LinearMap.mem_ker, Matrix.mulVecLin_apply, laplacian_ker hW h]
    intro i j hij
    rw [mul_div_cancel₀ _ (kscale_ne_zero hW lt i), mul_div_cancel₀ _ (kscale_ne_zero hW lt j)]
    rw [Quot.sound hij]⟩
  map_add' x y := by
    funext q
    induction q using Quot.ind
    simp [mul_add]
  map_smul' c x := by
    funext q
    induction q using Quot.ind
    simp; ring
  left_inv x := by
    ext i
    simp only
    rw [mul_div_cancel_left₀ _ (kscale_ne_zero hW lt i)]
  right_inv q := by
    funext a
    induction a using Quot.ind
    simp only
    rw [mul_div_cancel₀ _ (kscale_ne_zero hW lt _)]

/-- The kernel and the eigenvectors with eigenvalue 0. -/
noncomputable def kerEquivEig {L : Matrix (Fin n) (Fin n) ℝ} {e : Fin n → ℝ} {U : Matrix (Fin n) (Fin n) ℝ}
    (hE : IsEigenPairs L e U) :
    LinearMap.ker (Matrix.mulVecLin L) ≃ₗ[ℝ] ({j : Fin n // e j = 0} → ℝ) := by
  classical
  have hUU : U * Uᵀ = 1 := mul_eq_one_comm.1 hE.orthonormal
  have hLe : ∀ c : Fin n → ℝ, L *ᵥ (U *ᵥ c) = U *ᵥ (fun j => e j * c j) := fun c => by
    rw [Matrix.mulVec_mulVec, hE.eig, ← Matrix.mulVec_mulVec]
    congr 1
    funext j
    rw [Matrix.mulVec_diagonal]
  have hcoef : ∀ x : Fin n → ℝ, L *ᵥ x = 0 → ∀ j, e j ≠ 0 → (Uᵀ *ᵥ x) j = 0 := fun x hx j hj => by
    have h1 : L *ᵥ (U *ᵥ (Uᵀ *ᵥ x)) = 0 := by
      rw [Matrix.mulVec_mulVec _ U, hUU, Matrix.one_mulVec, hx]
    rw [hLe] at h1
    have h2 : Uᵀ *ᵥ (U *ᵥ fun j => e j * (Uᵀ *ᵥ x) j) = 0 := by rw [h1, Matrix.mulVec_zero]
    rw [Matrix.mulVec_mulVec, hE.orthonormal, Matrix.one_mulVec] at h2
    rcases mul_eq_zero.1 (congrFun h2 j) with h | h
    · exact absurd h hj
    · exact h
  exact
  { toFun := fun x j => (Uᵀ *ᵥ x.1) j.1
    invFun := fun c => ⟨U *ᵥ (fun j => if h : e j = 0 then c ⟨j, h⟩ else 0), by
      rw [LinearMap.mem_ker, Matrix.mulVecLin_apply, hLe]
      have : (fun j => e j * (if h : e j = 0 then c ⟨j, h⟩ else 0)) = 0 := by
        funext j
        split
        · rename_i h; rw [h, zero_mul]; rfl
        · rw [mul_zero]; rfl
      rw [this, Matrix.mulVec_zero]⟩
    map_add' := fun x y => by
      funext j
      simp [Matrix.mulVec_add]
    map_smul' := fun c x => by
      funext j
      simp [Matrix.mulVec_smul]
    left_inv := fun x => by
      apply Subtype.ext
      simp only
      have hx : L *ᵥ x.1 = 0 := by have := x.2; rwa [LinearMap.mem_ker, Matrix.mulVecLin_apply] at this
      have : (fun j => if h : e j = 0 then (Uᵀ *ᵥ x.1) j else 0) = Uᵀ *ᵥ x.1 := by
        funext j
        split
        · rfl
        · rename_i h; exact (hcoef x.1 hx j h).symm
      rw [this, Matrix.mulVec_mulVec, hUU, Matrix.one_mulVec]
    right_inv := fun c => by
      funext j
      simp only
      rw [Matrix.mulVec_mulVec, hE.orthonormal, Matrix.one_mulVec, dif_pos j.2] }

theorem card_zero_eig {W : Sp n n ℝ} (hW : NonnegW W.dense) {lt : LapType} {L} (h : laplacian W lt = .ok L)
    {e : Fin n → ℝ} {U : Matrix (Fin n) (Fin n) ℝ} (hE : IsEigenPairs L e U) :
    (Finset.univ.filter fun j => e j = 0).card = Nat.card (Quot (Arc W.dense)) := by
  classical
  haveI : Fintype (Quot (Arc W.dense)) := Fintype.ofFinite _
  have h1 := LinearEquiv.finrank_eq ((kerEquivEig hE).symm.trans (kerEquivQuot hW h))
  rw [Module.finrank_fintype_fun_eq_card, Module.finrank_fintype_fun_eq_card, Fintype.card_subtype] at h1
  rw [Nat.card_eq_fintype_card, ← h1]

end PyGSP
