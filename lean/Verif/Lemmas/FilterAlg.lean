import Verif.Lemmas.FilterOps

/-! # Algebra of the operators of a filter bank -/

namespace PyGSP

open Matrix Spec Polynomial GState

variable {n : ℕ}

theorem spectralOp_symm {k : ℕ} (U : Matrix (Fin n) (Fin k) ℝ) (h : Fin k → ℝ) : (spectralOp U h)ᵀ = spectralOp U h := by
  unfold spectralOp
  rw [transpose_mul, transpose_mul, transpose_transpose, diagonal_transpose, Matrix.mul_assoc]

theorem spectralOp_mul {k : ℕ} {U : Matrix (Fin n) (Fin k) ℝ} (ho : Uᵀ * U = 1) (h h' : Fin k → ℝ) :
    spectralOp U h * spectralOp U h' = spectralOp U fun j => h j * h' j := by
  unfold spectralOp
  calc U * diagonal h * Uᵀ * (U * diagonal h' * Uᵀ) = U * diagonal h * ((Uᵀ * U) * (diagonal h' * Uᵀ)) := by
        simp only [Matrix.mul_assoc]
    _ = _ := by rw [ho, Matrix.one_mul, Matrix.mul_assoc, ← Matrix.mul_assoc (diagonal h), diagonal_mul_diagonal,
        Matrix.mul_assoc]

theorem spectralOp_one {U : Matrix (Fin n) (Fin n) ℝ} (ho : Uᵀ * U = 1) : spectralOp U (fun _ => 1) = 1 := by
  unfold spectralOp
  rw [show (diagonal fun _ : Fin n => (1 : ℝ)) = 1 from diagonal_one, Matrix.mul_one]
  exact mul_eq_one_comm.1 ho

theorem spectralOp_add {k : ℕ} (U : Matrix (Fin n) (Fin k) ℝ) (h h' : Fin k → ℝ) :
    spectralOp U (fun j => h j + h' j) = spectralOp U h + spectralOp U h' := by
  unfold spectralOp
  rw [← diagonal_add, Matrix.mul_add, Matrix.add_mul]

theorem spectralOp_smul {k : ℕ} (U : Matrix (Fin n) (Fin k) ℝ) (c : ℝ) (h : Fin k → ℝ) :
    spectralOp U (fun j => c * h j) = c • spectralOp U h := by
  unfold spectralOp
  rw [show (diagonal fun j => c * h j) = c • diagonal h from by
    ext i j; simp [diagonal_apply, Matrix.smul_apply], Matrix.mul_smul, Matrix.smul_mul]

theorem spectralOp_sum {k q : ℕ} (U : Matrix (Fin n) (Fin k) ℝ) (h : Fin q → Fin k → ℝ) :
    spectralOp U (fun j => ∑ i, h i j) = ∑ i, spectralOp U (h i) := by
  unfold spectralOp
  rw [← Matrix.sum_mul, ← Matrix.mul_sum]
  congr 2
  ext i j
  simp only [diagonal_apply, Matrix.sum_apply]
  by_cases hij : i = j <;> simp [hij]

/-- a complete set of orthonormal eigenvectors diagonalises every polynomial of `L` -/
theorem aeval_spectral {L U : Matrix (Fin n) (Fin n) ℝ} {e : Fin n → ℝ} (h : IsEigenPairs L e U) (p : ℝ[X]) :
    aeval L p = spectralOp U fun j => p.eval (e j) := by
  have hUU : U * Uᵀ = 1 := mul_eq_one_comm.1 h.orthonormal
  have hL : L = spectralOp U e := by
    unfold spectralOp
    rw [← h.eig, Matrix.mul_assoc, hUU, Matrix.mul_one]
  induction p using Polynomial.induction_on' with
  | add p q hp hq =>
    rw [map_add, hp, hq, ← spectralOp_add]
    simp only [eval_add]
  | monomial m a =>
    rw [aeval_monomial, Algebra.algebraMap_eq_smul_one, Matrix.smul_mul, Matrix.one_mul]
    simp only [eval_monomial]
    rw [spectralOp_smul]
    congr 1
    induction m with
    | zero => simp only [pow_zero]; exact (spectralOp_one h.orthonormal).symm
    | succ m ih =>
      rw [pow_succ, ih]
      conv_lhs => rw [hL]
      rw [spectralOp_mul h.orthonormal]
      simp only [pow_succ]

theorem aeval_symm {L : Matrix (Fin n) (Fin n) ℝ} (h : Lᵀ = L) (p : ℝ[X]) : (aeval L p)ᵀ = aeval L p := by
  induction p using Polynomial.induction_on' with
  | add p q hp hq => rw [map_add, transpose_add, hp, hq]
  | monomial m a =>
    rw [aeval_monomial, Algebra.algebraMap_eq_smul_one, Matrix.smul_mul, Matrix.one_mul, transpose_smul, transpose_pow, h]

variable {S : Solvers n}

theorem Inv.L_transpose {s : GState n} (hi : Inv S s) : s.Lᵀ = s.L := by
  ext i j
  exact hi.L_symm j i

theorem rescaled_symm {L : Matrix (Fin n) (Fin n) ℝ} (h : Lᵀ = L) (l : ℝ) : (rescaled L l)ᵀ = rescaled L l := by
  unfold rescaled
  rw [transpose_sub, transpose_smul, h, transpose_one]

namespace Bank

/-- the cases in which `ops` succeeds -/
theorem ops_exact {f : Bank} {order : ℕ} {s s' : GState n} {M} (h : f.ops S .exact order s = (.ok M, s')) :
    ∃ b y, s.getBasis S = (.ok (some b), s') ∧ b.k = n ∧ f.evaluate b.e = .ok y ∧ M = fun i => spectralOp b.U (y i) := by
  rcases hb : s.getBasis S with ⟨_ | _ | b, s1⟩
  · simp [ops, hb] at h
  · simp [ops, hb] at h
  · cases hy : f.evaluate b.e with
    | error e => simp [ops, hb, hy] at h
    | ok y =>
      simp only [ops, hb, hy] at h
      split at h
      · simp at h
      · rename_i hk
        simp only [Prod.mk.injEq, Except.ok.injEq] at h
        exact ⟨b, y, by rw [← h.2], not_not.1 hk, hy, h.1.symm⟩

theorem ops_cheb {f : Bank} {order : ℕ} {s s' : GState n} {M} (h : f.ops S .chebyshev order s = (.ok M, s')) :
    ∃ l y, lmaxNum S s = (.ok l, s') ∧ f.Nf ≠ 0 ∧ order ≠ 0 ∧ l ≠ 0 ∧ f.evaluate (chebNode l (order + 1)) = .ok y ∧
      M = fun i => aeval (rescaled s.L l) (chebSeries (chebC (y i)) (order + 1)) := by
  rcases hl : lmaxNum S s with ⟨_ | l, s1⟩
  · simp [ops, hl] at h
  · have hst := lmaxNum_stored hl
    simp only [ops, hl] at h
    split at h
    · simp at h
    · rename_i hf
      cases hy : f.evaluate (chebNode l (order + 1)) with
      | error e => simp [hy] at h
      | ok y =>
        simp only [hy] at h
        split at h
        · simp at h
        · split at h
          · simp at h
          · rename_i h1 h2
            simp only [Prod.mk.injEq, Except.ok.injEq] at h
            rw [hst.2.1] at h
            exact ⟨l, y, by rw [← h.2], hf, h1, h2, hy, h.1.symm⟩

theorem ops_exact_intro {f : Bank} (order : ℕ) {s s' : GState n} {b y} (h : s.getBasis S = (.ok (some b), s')) (hk : b.k = n)
    (hy : f.evaluate b.e = .ok y) : f.ops S .exact order s = (.ok fun i => spectralOp b.U (y i), s') := by
  simp only [ops, h, hy]
  rw [if_neg (not_not.2 hk)]

theorem ops_cheb_intro {f : Bank} {order : ℕ} {s s' : GState n} {l y} (h : lmaxNum S s = (.ok l, s')) (hf : f.Nf ≠ 0)
    (ho : order ≠ 0) (hl : l ≠ 0) (hy : f.evaluate (chebNode l (order + 1)) = .ok y) :
    f.ops S .chebyshev order s =
      (.ok fun i => aeval (rescaled s.L l) (chebSeries (chebC (y i)) (order + 1)), s') := by
  simp only [ops, h, hy]
  rw [if_neg hf, if_neg ho, if_neg hl, (lmaxNum_stored h).2.1]

/-- filtering twice uses the same operators -/
theorem ops_again {f : Bank} {method : FMethod} {order : ℕ} {s s' : GState n} {M}
    (h : f.ops S method order s = (.ok M, s')) : f.ops S method order s' = (.ok M, s') := by
  cases method with
  | exact =>
    obtain ⟨b, y, h1, h2, h3, rfl⟩ := ops_exact h
    exact ops_exact_intro order (getBasis_stored h1).2 h2 h3
  | chebyshev =>
    obtain ⟨l, y, h1, h2, h3, h4, h5, rfl⟩ := ops_cheb h
    have := lmaxNum_stored h1
    rw [ops_cheb_intro this.2.2 h2 h3 h4 h5, this.2.1]
  | other nm => simp [ops] at h

theorem ops_symm {f : Bank} {method : FMethod} {order : ℕ} {s s' : GState n} (hi : Inv S s) {M}
    (h : f.ops S method order s = (.ok M, s')) (i : Fin f.Nf) : (M i)ᵀ = M i := by
  cases method with
  | exact =>
    obtain ⟨b, y, h1, h2, h3, rfl⟩ := ops_exact h
    exact spectralOp_symm _ _
  | chebyshev =>
    obtain ⟨l, y, h1, h2, h3, h4, h5, rfl⟩ := ops_cheb h
    exact aeval_symm (rescaled_symm (Inv.L_transpose hi) l) _
  | other nm => simp [ops] at h

end Bank

end PyGSP
