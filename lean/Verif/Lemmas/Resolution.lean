import Verif.Props.SpectraStar

/-!
# Resolutions of the identity

Matrices which sum to the identity and whose columns are eigenvectors determine all the functions of a symmetric matrix.
-/

namespace PyGSP

open Matrix Spec

variable {n : ℕ} {ι : Type} [Fintype ι]

structure Resolution (L : Matrix (Fin n) (Fin n) ℝ) (P : ι → Matrix (Fin n) (Fin n) ℝ) (l : ι → ℝ) : Prop where
  symm : ∀ m, (P m)ᵀ = P m
  sum : ∑ m, P m = 1
  eig : ∀ m, L * P m = l m • P m

variable {L : Matrix (Fin n) (Fin n) ℝ} {P : ι → Matrix (Fin n) (Fin n) ℝ} {l : ι → ℝ}

theorem Resolution.isEigenvalue (h : Resolution L P l) (hL : Lᵀ = L) {v : ℝ} (hv : IsEigenvalue L v) : ∃ m, l m = v := by
  obtain ⟨x, hx, hx2⟩ := hv
  have hs : ∑ m, P m *ᵥ x = x := by rw [← Matrix.sum_mulVec, h.sum, Matrix.one_mulVec]
  obtain ⟨m, hm⟩ : ∃ m, P m *ᵥ x ≠ 0 := by
    by_contra hc
    push Not at hc
    exact hx (by rw [← hs]; exact Finset.sum_eq_zero fun m _ => hc m)
  refine ⟨m, ?_⟩
  have h1 : P m * L = l m • P m := by
    have := congrArg Matrix.transpose (h.eig m)
    rwa [Matrix.transpose_mul, Matrix.transpose_smul, h.symm, hL] at this
  have h2 : l m • (P m *ᵥ x) = v • (P m *ᵥ x) := by
    rw [← Matrix.smul_mulVec, ← h1, ← Matrix.mulVec_mulVec, hx2, Matrix.mulVec_smul]
  rw [← sub_eq_zero, ← sub_smul] at h2
  exact sub_eq_zero.1 ((smul_eq_zero.1 h2).resolve_right hm)

theorem Resolution.spectral (h : Resolution L P l) {e : Fin n → ℝ} {U : Matrix (Fin n) (Fin n) ℝ} (hU : IsEigenPairs L e U) (hL : Lᵀ = L) (φ : ℝ → ℝ) :
    spectralOp U (fun j => φ (e j)) = ∑ m, φ (l m) • P m := by
  have hUU : U * Uᵀ = 1 := mul_eq_one_comm.1 hU.orthonormal
  have hT : Uᵀ * L = Matrix.diagonal e * Uᵀ := by
    have := congrArg Matrix.transpose hU.eig
    rwa [Matrix.transpose_mul, Matrix.transpose_mul, hL, Matrix.diagonal_transpose] at this
  have key : ∀ m, spectralOp U (fun j => φ (e j)) * P m = φ (l m) • P m := by
    intro m
    have h1 : Matrix.diagonal e * (Uᵀ * P m) = l m • (Uᵀ * P m) := by
      rw [← Matrix.mul_assoc, ← hT, Matrix.mul_assoc, h.eig, Matrix.mul_smul]
    have h2 : Matrix.diagonal (fun j => φ (e j)) * (Uᵀ * P m) = φ (l m) • (Uᵀ * P m) := by
      ext j k
      have h3 := congrFun (congrFun h1 j) k
      rw [Matrix.diagonal_mul, Matrix.smul_apply, smul_eq_mul] at h3 ⊢
      by_cases h0 : (Uᵀ * P m) j k = 0
      · rw [h0, mul_zero, mul_zero]
      · rw [mul_right_cancel₀ h0 h3]
    unfold spectralOp
    rw [Matrix.mul_assoc, Matrix.mul_assoc, h2, Matrix.mul_smul, ← Matrix.mul_assoc, hUU, Matrix.one_mul]
  calc spectralOp U (fun j => φ (e j)) = spectralOp U (fun j => φ (e j)) * ∑ m, P m := by rw [h.sum, Matrix.mul_one]
    _ = _ := by rw [Matrix.mul_sum]; exact Finset.sum_congr rfl fun m _ => key m

/-- A vector is an eigenvector of the Laplacian of the graph of weights `w`. -/
def IsMode {ν : Type} [Fintype ν] (w : ν → ν → ℝ) (f : ℝ) (x : ν → ℝ) : Prop := ∀ i, ∑ j, w i j * (x i - x j) = f * x i

theorem Resolution.ofModes {W : Matrix (Fin n) (Fin n) ℝ} (hu : Undirected W) (hs : ∀ m, (P m)ᵀ = P m) (h1 : ∑ m, P m = 1)
    (he : ∀ m k, IsMode W (l m) fun i => P m i k) : Resolution (combLap W) P l := by
  refine ⟨hs, h1, fun m => ?_⟩
  ext i k
  rw [Spectrum.combLap_real hu, Matrix.smul_apply, smul_eq_mul]
  exact he m k i

/-- Modes of a Cartesian product. -/
theorem isMode_prod {a b : ℕ} {W : Fin (a * b) → Fin (a * b) → ℝ} {w1 : Fin a → Fin a → ℝ} {w2 : Fin b → Fin b → ℝ}
    (hW : ∀ i j, W i j = (if i.divNat = j.divNat then w2 i.modNat j.modNat else 0) + if i.modNat = j.modNat then w1 i.divNat j.divNat else 0)
    {x : Fin a → ℝ} {y : Fin b → ℝ} {f1 f2 : ℝ} (h1 : IsMode w1 f1 x) (h2 : IsMode w2 f2 y) :
    IsMode W (f1 + f2) fun i => x i.divNat * y i.modNat := by
  intro i
  have := Spectrum.product_eig (W := Matrix.of W) hW (A := Matrix.of fun i _ => (x i : ℂ)) (B := Matrix.of fun i _ => (y i : ℂ)) (f1 := fun _ => f1) (f2 := fun _ => f2)
    (fun i k => by have := h1 i; simp only [Matrix.of_apply]; exact_mod_cast this) (fun i k => by have := h2 i; simp only [Matrix.of_apply]; exact_mod_cast this) i i
  simp only [Matrix.of_apply] at this
  exact_mod_cast this

/-! ### circles -/

open Spectrum

theorem re_root (N m : ℕ) (i j : ℕ) : ((root N m ^ i) * (root N m ^ j)⁻¹).re = Real.cos (2 * Real.pi * m * ((i : ℝ) - j) / N) := by
  have h : ∀ d : ℕ, root N m ^ d = Complex.exp ((2 * Real.pi * d * m / N : ℝ) * Complex.I) := by
    intro d
    unfold root
    rw [← pow_mul, ← Complex.exp_nat_mul]
    congr 1
    push_cast
    ring
  rw [h, h, ← Complex.exp_neg, ← Complex.exp_add, ← neg_mul, ← add_mul]
  rw [show ((2 * Real.pi * i * m / N : ℝ) : ℂ) + -((2 * Real.pi * j * m / N : ℝ) : ℂ) = ((2 * Real.pi * m * ((i : ℝ) - j) / N : ℝ) : ℂ) by push_cast; ring]
  rw [Complex.exp_ofReal_mul_I_re]

theorem sum_cos {N : ℕ} (i j : Fin N) : ∑ m : Fin N, Real.cos (2 * Real.pi * m.val * ((i.val : ℝ) - j.val) / N) = if i = j then (N : ℝ) else 0 := by
  have hN : 0 < N := i.pos
  split
  · rename_i h
    subst h
    simp
  · rename_i h
    simp only [← re_root]
    rw [← Complex.re_sum]
    have hq : ∀ m : Fin N, root N m ^ i.val * (root N m ^ j.val)⁻¹ = (root N i * (root N j)⁻¹) ^ m.val := by
      intro m
      unfold root
      rw [mul_pow, inv_pow, ← pow_mul, ← pow_mul, ← pow_mul, ← pow_mul, Nat.mul_comm m.val, Nat.mul_comm m.val]
    simp only [hq]
    rw [Fin.sum_univ_eq_sum_range (fun m => (root N i * (root N j)⁻¹) ^ m) N]
    have h1 : root N i * (root N j)⁻¹ ≠ 1 := by
      intro e
      have := mul_inv_eq_one₀ (root_ne_zero N j.val) |>.1 e
      exact h (Fin.ext (root_inj hN i.2 j.2 this))
    have h2 : (root N i * (root N j)⁻¹) ^ N = 1 := by rw [mul_pow, inv_pow, root_pow hN, root_pow hN]; norm_num
    rw [geom_sum_eq h1, h2, sub_self, zero_div, Complex.zero_re]

/-- A wave on the circle, seen from `k`. -/
theorem isMode_circle {N : ℕ} (m d : ℕ) (k : ℕ) :
    IsMode (fun i j : Fin N => (if (i.1 + d) % N = j.1 then (1 : ℝ) else 0) + if (j.1 + d) % N = i.1 then 1 else 0) (2 - 2 * Real.cos (2 * Real.pi * d * m / N))
      fun i => Real.cos (2 * Real.pi * m * ((i.val : ℝ) - k) / N) := by
  intro i
  have h := congrArg (fun z => (z * (root N m ^ k)⁻¹).re) (circ_sum m d i)
  rw [Finset.sum_mul, Complex.re_sum, mul_assoc, Complex.re_ofReal_mul, re_root] at h
  rw [← h]
  refine Finset.sum_congr rfl fun j _ => ?_
  dsimp only
  rw [← re_root, ← re_root, mul_assoc, sub_mul, ← Complex.sub_re]
  have : ((if (i.1 + d) % N = j.1 then (1 : ℂ) else 0) + if (j.1 + d) % N = i.1 then 1 else 0) =
      (((if (i.1 + d) % N = j.1 then (1 : ℝ) else 0) + if (j.1 + d) % N = i.1 then 1 else 0 : ℝ) : ℂ) := by
    push_cast
    rw [cast_ite, cast_ite]
  rw [this, Complex.re_ofReal_mul]

theorem IsMode.sum {ν κ : Type} [Fintype ν] {w : κ → ν → ν → ℝ} {f : κ → ℝ} {x : ν → ℝ} (T : Finset κ) (h : ∀ d ∈ T, IsMode (w d) (f d) x) :
    IsMode (fun i j => ∑ d ∈ T, w d i j) (∑ d ∈ T, f d) x := by
  intro i
  simp only [Finset.sum_mul]
  rw [Finset.sum_comm]
  exact Finset.sum_congr rfl fun d hd => h d hd i

theorem IsMode.smul {ν : Type} [Fintype ν] {w : ν → ν → ℝ} {f : ℝ} {x : ν → ℝ} (h : IsMode w f x) (c : ℝ) : IsMode w f fun i => c * x i := by
  intro i
  have := h i
  simp only [← mul_sub]
  rw [show f * (c * x i) = c * (f * x i) by ring, ← this, Finset.mul_sum]
  exact Finset.sum_congr rfl fun j _ => by ring

/-! ### paths -/

theorem isMode_path {N : ℕ} (k : Fin N) : IsMode (fun i j : Fin N => if i.1 + 1 = j.1 ∨ j.1 + 1 = i.1 then (1 : ℝ) else 0) (2 - 2 * Real.cos (Real.pi * k.1 / N))
    fun i => dctMatrix N i k := by
  intro i
  have hN : 0 < N := i.pos
  let W : Matrix (Fin N) (Fin N) ℝ := Matrix.of fun i j => if i.1 + 1 = j.1 ∨ j.1 + 1 = i.1 then 1 else 0
  have hu : Undirected W := fun i j => if_congr or_comm rfl rfl
  have := congrFun (congrFun (dctMatrix_eig hN (W := W) fun _ _ => rfl) i) k
  rw [combLap_real hu, mul_diagonal, mul_comm] at this
  exact this

theorem dct_sum {N : ℕ} (i j : Fin N) : ∑ k, dctMatrix N i k * dctMatrix N j k = if i = j then 1 else 0 := by
  have h : dctMatrix N * (dctMatrix N)ᵀ = 1 := mul_eq_one_comm.1 (dctMatrix_orthonormal i.pos)
  have := congrFun (congrFun h i) j
  rw [Matrix.mul_apply, Matrix.one_apply] at this
  exact this

end PyGSP
