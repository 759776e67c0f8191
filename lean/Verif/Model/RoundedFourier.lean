import Verif.Model.Rounding

/-!
# Floating-point versions of `gft`, `igft` and of the exact filtering

`np.tensordot` and `np.matmul` call a BLAS, which may add the terms of a dot product in any order, in blocks, in vector registers that start from zero, and with fused
multiply-adds.  Hence the results are relations: `DotAny fl a y s r` says that `r` is one of the values that the sum of the products `a i * y i` over `s` may take.
-/

namespace PyGSP

open Matrix

variable {n : ℕ}

/-- The values that a dot product may take: a product, a product added to a register that holds zero, a fused multiply-add, the sum of two partial sums. -/
inductive DotAny (fl : ℝ → ℝ) {ι : Type} [DecidableEq ι] (a y : ι → ℝ) : Finset ι → ℝ → Prop
  | product (i : ι) : DotAny fl a y {i} (fl (a i * y i))
  | register (i : ι) : DotAny fl a y {i} (fl (0 + fl (a i * y i)))
  | fma {s : Finset ι} {r : ℝ} (i : ι) (h : i ∉ s) : DotAny fl a y s r → DotAny fl a y (insert i s) (fl (r + a i * y i))
  | add {s t : Finset ι} {r q : ℝ} (h : Disjoint s t) : DotAny fl a y s r → DotAny fl a y t q → DotAny fl a y (s ∪ t) (fl (r + q))

/-- `gft` of the columns of `x` (`fourier.py:228-230`): `np.tensordot(U, s, ([0], [0]))`, for a full basis. -/
def GftFl (fl : ℝ → ℝ) (U : Matrix (Fin n) (Fin n) ℝ) {ns : ℕ} (x y : Fin n → Fin ns → ℝ) : Prop :=
  ∀ l j, DotAny fl (fun v => U v l) (fun v => x v j) Finset.univ (y l j)

/-- `igft` (`fourier.py:263-264`): `np.tensordot(self.U, s_hat, ([1], [0]))`, for a full basis. -/
def IgftFl (fl : ℝ → ℝ) (U : Matrix (Fin n) (Fin n) ℝ) {ns : ℕ} (y x : Fin n → Fin ns → ℝ) : Prop :=
  ∀ v j, DotAny fl (fun l => U v l) (fun l => y l j) Finset.univ (x v j)

/-- `filter(..., method="exact")`, analysis (`filter.py:299-301`), `r` being the responses at the eigenvalues: `s = gft(s)`, `s = np.matmul(s, f)` (an `ns x 1` matrix times a
`1 x q` matrix for each frequency), `s = igft(s)`. -/
def ExactFl (fl : ℝ → ℝ) (U : Matrix (Fin n) (Fin n) ℝ) {ns q : ℕ} (r : Fin q → Fin n → ℝ) (x : Fin n → Fin ns → ℝ) (z : Fin n → Fin ns → Fin q → ℝ) : Prop :=
  ∃ (xh : Fin n → Fin ns → ℝ) (w : Fin n → Fin ns → Fin q → ℝ), GftFl fl U x xh ∧
    (∀ l j i, DotAny fl (fun _ : Fin 1 => xh l j) (fun _ => r i l) Finset.univ (w l j i)) ∧ ∀ i, IgftFl fl U (fun l j => w l j i) fun v j => z v j i

namespace Spec

/-- A computed eigendecomposition is backward stable: the computed values `e` are the exact eigenvalues of a matrix within `ε` of `L`, and the computed vectors are within `δ` of
orthonormal eigenvectors of it (Frobenius norms).  LAPACK's symmetric eigensolvers are documented to satisfy this; the rounding of `L` itself and setting `e[0]` to zero
(`fourier.py`) add to `ε`. -/
def Stable (ε δ : ℝ) (L : Matrix (Fin n) (Fin n) ℝ) (e : Fin n → ℝ) (U : Matrix (Fin n) (Fin n) ℝ) : Prop :=
  0 ≤ ε ∧ 0 ≤ δ ∧ ∃ U0 : Matrix (Fin n) (Fin n) ℝ, U0ᵀ * U0 = 1 ∧ √(∑ i, ∑ j, (U0 * Matrix.diagonal e * U0ᵀ - L) i j ^ 2) ≤ ε ∧ √(∑ i, ∑ j, (U - U0) i j ^ 2) ≤ δ

end Spec

end PyGSP
