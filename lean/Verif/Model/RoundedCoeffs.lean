import Verif.Model.RoundedFourier

/-!
# Floating-point version of `compute_cheby_coeff`

Every operation is followed by a rounding `fl`; the cosine of numpy and the kernel are functions `cosFl` and `ker` of floating-point numbers whose errors are hypotheses of the theorems;
`np.dot` adds in any order (`DotAny`).
-/

namespace PyGSP

open Matrix

/-- `np.pi * o * (tmpN + 0.5) / N` (`approximations.py:52`), from left to right; `np.pi` is the rounding of π. -/
noncomputable def angleFl (fl : ℝ → ℝ) (N o : ℕ) (j : Fin N) : ℝ := fl (fl (fl (fl Real.pi * o) * fl (j + 1 / 2)) / N)

/-- `a1 * num + a2` with `num = np.cos(np.pi * (tmpN + 0.5) / N)` (`approximations.py:40-47, 52`). -/
noncomputable def nodeFl (fl cosFl : ℝ → ℝ) (l : ℝ) (N : ℕ) (j : Fin N) : ℝ :=
  let a1 := fl (fl (l - 0) / 2)
  let a2 := fl (fl (l + 0) / 2)
  fl (fl (a1 * cosFl (fl (fl (fl Real.pi * fl (j + 1 / 2)) / N))) + a2)

/-- `c[o] = 2.0 / N * np.dot(f._kernels[i](a1 * num + a2), np.cos(...))` (`approximations.py:48-53`): the values that the coefficients of a kernel may take. -/
def CoeffFl (fl cosFl ker : ℝ → ℝ) (l : ℝ) (m N : ℕ) (c : Fin (m + 1) → ℝ) : Prop :=
  ∀ o : Fin (m + 1), ∃ r, DotAny fl (fun j => ker (nodeFl fl cosFl l N j)) (fun j => cosFl (angleFl fl N o j)) Finset.univ r ∧ c o = fl (fl (2 / N) * r)

namespace Spec

/-- The error of a computed kernel and its sensitivity: on the interval `[-η, l + η]` the computed kernel `ker` is within `ε` of `k`, which varies by at most `Λ` per unit of
frequency and is bounded by `B` on `[0, l]`. -/
structure KernelError (ker k : ℝ → ℝ) (l η ε Λ B : ℝ) : Prop where
  eps : 0 ≤ ε
  lip : 0 ≤ Λ
  err : ∀ x, -η ≤ x → x ≤ l + η → |ker x - k x| ≤ ε
  vary : ∀ x y, -η ≤ x → x ≤ l + η → 0 ≤ y → y ≤ l → |k x - k y| ≤ Λ * |x - y|
  bound : ∀ x, 0 ≤ x → x ≤ l → |k x| ≤ B

end Spec

end PyGSP
