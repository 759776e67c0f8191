import Verif.Spec.Learning

/-! # Specification of the interpolation -/

namespace PyGSP.Spec

variable {n k : ℕ}

/-- The energy `vᵀ (L + eps I) v`. -/
noncomputable def regEnergy (L : Matrix (Fin n) (Fin n) ℝ) (eps : ℝ) (v : Fin n → ℝ) : ℝ :=
  smoothness L v + eps * ∑ u, v u ^ 2

/-- `v` has the samples `x` at the vertices `ind` and the smallest energy among the signals that have these samples. -/
def IsInterpolation (L : Matrix (Fin n) (Fin n) ℝ) (eps : ℝ) (ind : Fin k → Fin n) (x : Fin k → ℝ) (v : Fin n → ℝ) : Prop :=
  (∀ a, v (ind a) = x a) ∧ ∀ w : Fin n → ℝ, (∀ a, w (ind a) = x a) → regEnergy L eps v ≤ regEnergy L eps w

end PyGSP.Spec
