import Verif.Lemmas.Weyl
import Verif.Lemmas.Laplacian
import Verif.Props.Filter
import Mathlib.Analysis.Matrix.Normed

/-!
# The Frobenius norm and functions of symmetric matrices
-/

namespace PyGSP

open Matrix Spec Real

variable {n : ℕ}

/-- Sum of the squares of the entries. -/
def frob (A : Matrix (Fin n) (Fin n) ℝ) : ℝ := ∑ i, ∑ j, A i j ^ 2

theorem frob_trace (A : Matrix (Fin n) (Fin n) ℝ) : frob A = trace (Aᵀ * A) := by
  unfold frob trace
  rw [Finset.sum_comm]
  refine Finset.sum_congr rfl fun j _ => ?_
  rw [Matrix.diag_apply, Matrix.mul_apply]
  exact Finset.sum_congr rfl fun i _ => by rw [Matrix.transpose_apply, sq]

theorem frob_nonneg (A : Matrix (Fin n) (Fin n) ℝ) : 0 ≤ frob A := Finset.sum_nonneg fun _ _ => Finset.sum_nonneg fun _ _ => sq_nonneg _

theorem frob_rotate {U V : Matrix (Fin n) (Fin n) ℝ} (hU : Uᵀ * U = 1) (hV : Vᵀ * V = 1) (A : Matrix (Fin n) (Fin n) ℝ) : frob (Uᵀ * A * V) = frob A := by
  have hU' : U * Uᵀ = 1 := mul_eq_one_comm.1 hU
  have hV' : V * Vᵀ = 1 := mul_eq_one_comm.1 hV
  rw [frob_trace, frob_trace]
  have : (Uᵀ * A * V)ᵀ * (Uᵀ * A * V) = Vᵀ * (Aᵀ * A * V) := by
    rw [Matrix.transpose_mul, Matrix.transpose_mul, Matrix.transpose_transpose]
    calc Vᵀ * (Aᵀ * U) * (Uᵀ * A * V) = Vᵀ * (Aᵀ * (U * Uᵀ) * A * V) := by simp only [Matrix.mul_assoc]
      _ = _ := by rw [hU', Matrix.mul_one]
  rw [this, Matrix.trace_mul_comm, Matrix.mul_assoc, hV', Matrix.mul_one]

/-- A function that is Lipschitz between two spectra is Lipschitz between the matrices. -/
theorem frob_function {L L' U U' : Matrix (Fin n) (Fin n) ℝ} {e e' : Fin n → ℝ} (h : IsEigenPairs L e U) (h' : IsEigenPairs L' e' U') {φ : ℝ → ℝ} {K : ℝ}
    (hφ : ∀ i j, |φ (e i) - φ (e' j)| ≤ K * |e i - e' j|) :
    frob (spectralOp U (fun j => φ (e j)) - spectralOp U' fun j => φ (e' j)) ≤ K ^ 2 * frob (L - L') := by
  have hL : ∀ {L U : Matrix (Fin n) (Fin n) ℝ} {e : Fin n → ℝ}, IsEigenPairs L e U → L = spectralOp U e := by
    intro L U e h
    unfold spectralOp
    rw [← h.eig, Matrix.mul_assoc, mul_eq_one_comm.1 h.orthonormal, Matrix.mul_one]
  have key : ∀ (a b : Fin n → ℝ) (i j), (Uᵀ * (spectralOp U a - spectralOp U' b) * U') i j = (a i - b j) * (Uᵀ * U') i j := by
    intro a b i j
    have : Uᵀ * (spectralOp U a - spectralOp U' b) * U' = Matrix.diagonal a * (Uᵀ * U') - (Uᵀ * U') * Matrix.diagonal b := by
      unfold spectralOp
      rw [Matrix.mul_sub, Matrix.sub_mul]
      congr 1
      · calc Uᵀ * (U * Matrix.diagonal a * Uᵀ) * U' = (Uᵀ * U) * (Matrix.diagonal a * (Uᵀ * U')) := by simp only [Matrix.mul_assoc]
          _ = _ := by rw [h.orthonormal, Matrix.one_mul]
      · calc Uᵀ * (U' * Matrix.diagonal b * U'ᵀ) * U' = Uᵀ * U' * Matrix.diagonal b * (U'ᵀ * U') := by simp only [Matrix.mul_assoc]
          _ = _ := by rw [h'.orthonormal, Matrix.mul_one]
    rw [this, Matrix.sub_apply, Matrix.diagonal_mul, Matrix.mul_diagonal]
    ring
  conv_rhs => rw [hL h, hL h']
  rw [← frob_rotate h.orthonormal h'.orthonormal, ← frob_rotate h.orthonormal h'.orthonormal (spectralOp U e - _)]
  unfold frob
  simp only [key, Finset.mul_sum]
  refine Finset.sum_le_sum fun i _ => Finset.sum_le_sum fun j _ => ?_
  rw [mul_pow, mul_pow, ← mul_assoc]
  refine mul_le_mul_of_nonneg_right ?_ (sq_nonneg _)
  rw [← sq_abs, ← sq_abs (e i - e' j), ← mul_pow]
  exact pow_le_pow_left₀ (abs_nonneg _) (hφ i j) 2

theorem frob_mulVec (A : Matrix (Fin n) (Fin n) ℝ) (x : Fin n → ℝ) : ∑ v, (A *ᵥ x) v ^ 2 ≤ frob A * ∑ v, x v ^ 2 := by
  unfold frob
  rw [Finset.sum_mul]
  refine Finset.sum_le_sum fun i _ => ?_
  exact Finset.sum_mul_sq_le_sq_mul_sq Finset.univ (A i) x

/-- Minkowski. -/
theorem sqrt_sum_sq_add_le {m : ℕ} (a b : Fin m → ℝ) : √(∑ v, (a v + b v) ^ 2) ≤ √(∑ v, a v ^ 2) + √(∑ v, b v ^ 2) := by
  have := norm_add_le (WithLp.toLp 2 a : EuclideanSpace ℝ (Fin m)) (WithLp.toLp 2 b)
  simpa [EuclideanSpace.norm_eq] using this

section

open scoped Matrix.Norms.Frobenius

theorem frob_norm (A : Matrix (Fin n) (Fin n) ℝ) : √(frob A) = ‖A‖ := by
  rw [Matrix.frobenius_norm_def, Real.sqrt_eq_rpow]
  unfold frob
  simp [Real.norm_eq_abs]

theorem sqrt_frob_sum_le {ι : Type} (s : Finset ι) (A : ι → Matrix (Fin n) (Fin n) ℝ) : √(frob (∑ i ∈ s, A i)) ≤ ∑ i ∈ s, √(frob (A i)) := by
  simp only [frob_norm]
  exact norm_sum_le _ _

end

/-- The Laplacian of a single pair. -/
def pairLap (i j : Fin n) : Matrix (Fin n) (Fin n) ℝ :=
  Matrix.of fun a b => ((if a = i then (1 : ℝ) else 0) - if a = j then 1 else 0) * ((if b = i then (1 : ℝ) else 0) - if b = j then 1 else 0)

theorem combLap_pairs (M : Matrix (Fin n) (Fin n) ℝ) : combLap M = ∑ p : Fin n × Fin n, (M p.1 p.2 / 2) • pairLap p.1 p.2 := by
  ext a b
  rw [Matrix.sum_apply, Fintype.sum_prod_type]
  simp only [Matrix.smul_apply, pairLap, Matrix.of_apply, smul_eq_mul]
  have e : ∀ i j, M i j / 2 * (((if a = i then (1 : ℝ) else 0) - if a = j then 1 else 0) * ((if b = i then (1 : ℝ) else 0) - if b = j then 1 else 0)) =
      (if a = i then (if b = i then M i j / 2 else 0) else 0) - (if a = i then (if b = j then M i j / 2 else 0) else 0) -
      (if a = j then (if b = i then M i j / 2 else 0) else 0) + (if a = j then (if b = j then M i j / 2 else 0) else 0) := by
    intro i j
    split_ifs <;> ring
  simp only [e, Finset.sum_add_distrib, Finset.sum_sub_distrib]
  have s1 : ∑ i, ∑ j, (if a = i then (if b = i then M i j / 2 else 0) else 0) = if a = b then (∑ j, M a j) / 2 else 0 := by
    rw [Finset.sum_eq_single a (fun i _ hi => by simp [Ne.symm hi]) (by simp)]
    by_cases hab : b = a
    · subst hab; simp [Finset.sum_div]
    · simp [hab, Ne.symm hab]
  have s2 : ∑ i, ∑ j, (if a = i then (if b = j then M i j / 2 else 0) else 0) = M a b / 2 := by
    rw [Finset.sum_eq_single a (fun i _ hi => by simp [Ne.symm hi]) (by simp)]
    simp
  have s3 : ∑ i, ∑ j, (if a = j then (if b = i then M i j / 2 else 0) else 0) = M b a / 2 := by
    rw [Finset.sum_eq_single b (fun i _ hi => by simp [Ne.symm hi]) (by simp)]
    simp
  have s4 : ∑ i, ∑ j, (if a = j then (if b = j then M i j / 2 else 0) else 0) = if a = b then (∑ i, M i a) / 2 else 0 := by
    rw [Finset.sum_comm, Finset.sum_eq_single a (fun i _ hi => by simp [Ne.symm hi]) (by simp)]
    by_cases hab : b = a
    · subst hab; simp [Finset.sum_div]
    · simp [hab, Ne.symm hab]
  rw [s1, s2, s3, s4]
  unfold combLap wdeg wsym
  rw [Matrix.of_apply]
  split_ifs <;> ring

theorem frob_pairLap (i j : Fin n) : √(frob (pairLap i j)) ≤ 2 := by
  have h : frob (pairLap i j) = (∑ a, ((if a = i then (1 : ℝ) else 0) - if a = j then 1 else 0) ^ 2) ^ 2 := by
    unfold frob pairLap
    rw [sq (∑ a, _), Finset.sum_mul_sum]
    refine Finset.sum_congr rfl fun a _ => Finset.sum_congr rfl fun b _ => ?_
    rw [Matrix.of_apply, mul_pow]
  rw [h, Real.sqrt_sq (Finset.sum_nonneg fun _ _ => sq_nonneg _)]
  have e : ∀ a, ((if a = i then (1 : ℝ) else 0) - if a = j then 1 else 0) ^ 2 ≤ (if a = i then 1 else 0) + if a = j then 1 else 0 := by
    intro a
    split_ifs <;> norm_num
  refine (Finset.sum_le_sum fun a _ => e a).trans ?_
  rw [Finset.sum_add_distrib]
  simp
  norm_num

theorem frob_combLap (M : Matrix (Fin n) (Fin n) ℝ) : √(frob (combLap M)) ≤ ∑ i, ∑ j, |M i j| := by
  rw [combLap_pairs, ← Fintype.sum_prod_type' (fun i j => |M i j|)]
  refine (sqrt_frob_sum_le _ _).trans (Finset.sum_le_sum fun p _ => ?_)
  have : frob ((M p.1 p.2 / 2) • pairLap p.1 p.2) = (M p.1 p.2 / 2) ^ 2 * frob (pairLap p.1 p.2) := by
    unfold frob
    simp only [Matrix.smul_apply, smul_eq_mul, mul_pow, Finset.mul_sum]
  rw [this, Real.sqrt_mul (sq_nonneg _), Real.sqrt_sq_eq_abs, abs_div, abs_two]
  have := mul_le_mul_of_nonneg_left (frob_pairLap p.1 p.2) (by positivity : 0 ≤ |M p.1 p.2| / 2)
  linarith

theorem combLap_sub (M M' : Matrix (Fin n) (Fin n) ℝ) : combLap M - combLap M' = combLap (M - M') := by
  ext i j
  rw [Matrix.sub_apply]
  unfold combLap wdeg wsym
  simp only [Matrix.of_apply, Matrix.sub_apply, Finset.sum_sub_distrib]
  split_ifs <;> ring

end PyGSP
