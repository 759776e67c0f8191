import Verif.Spec.Potential

/-!
# Specification of the Tikhonov problems
-/

namespace PyGSP.Spec

open Matrix

variable {n : ℕ}

/-- Smoothness `xᵀ L x`. -/
def smoothness (L : Matrix (Fin n) (Fin n) ℝ) (x : Fin n → ℝ) : ℝ := x ⬝ᵥ (L *ᵥ x)

/-- The objective `‖M x - y‖² + tau xᵀ L x`, the norm being over the labelled vertices. -/
noncomputable def objective (L : Matrix (Fin n) (Fin n) ℝ) (m : Fin n → Bool) (y : Fin n → ℝ) (tau : ℝ) (x : Fin n → ℝ) : ℝ :=
  (∑ v, if m v then (x v - y v) ^ 2 else 0) + tau * smoothness L x

/-- Every vertex is linked to a labelled one. -/
def Anchored (M : Matrix (Fin n) (Fin n) ℝ) (m : Fin n → Bool) : Prop := ∀ v, ∃ b, m b = true ∧ Linked M v b

/-- `scipy.sparse.linalg.cg` on a symmetric positive semi-definite consistent system returns a solution (exact). -/
def ExactCG (cg : Matrix (Fin n) (Fin n) ℝ → (Fin n → ℝ) → Fin n → ℝ) : Prop :=
  ∀ A b, Aᵀ = A → PSD A → (∃ x, A *ᵥ x = b) → A *ᵥ cg A b = b

/-- A probability vector. -/
def InSimplex {d : ℕ} (x : Fin d → ℝ) : Prop := (∀ j, 0 ≤ x j) ∧ ∑ j, x j = 1

/-- The objective `‖M X - Y‖² + tau tr(Xᵀ L X)` of the classification, one column per class. -/
noncomputable def classObjective {d : ℕ} (L : Matrix (Fin n) (Fin n) ℝ) (m : Fin n → Bool) (Y : Matrix (Fin n) (Fin d) ℝ)
    (tau : ℝ) (X : Matrix (Fin n) (Fin d) ℝ) : ℝ :=
  ∑ j, objective L m (fun v => Y v j) tau fun v => X v j

/-- Every row is a probability vector. -/
def RowsInSimplex {d : ℕ} (X : Matrix (Fin n) (Fin d) ℝ) : Prop := ∀ v, InSimplex (X v)

/-- The squared Frobenius distance. -/
def sqDist {d : ℕ} (X Z : Matrix (Fin n) (Fin d) ℝ) : ℝ := ∑ v, ∑ j, (X v j - Z v j) ^ 2

/-- `np.argsort`: a permutation of the positions that sorts the values. -/
def IsArgsort {d : ℕ} (idx : (Fin d → ℝ) → Fin d → Fin d) : Prop :=
  ∀ y, Function.Bijective (idx y) ∧ Monotone fun j => y (idx y j)

end PyGSP.Spec
