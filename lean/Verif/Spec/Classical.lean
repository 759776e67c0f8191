import Mathlib.Data.Real.Basic
import Mathlib.Analysis.SpecialFunctions.Trigonometric.Basic
import Mathlib.Logic.Equiv.Fin.Basic
import Mathlib.Algebra.BigOperators.Ring.Finset

/-!
# Classical signal processing

The convolutions on a circle and on a torus, and the discrete cosine transform, with which filters on `Ring`, `Torus`, `Path` and `Grid2d` are compared.
-/

namespace PyGSP.Spec

variable {N M : ℕ}

/-- The circular convolution; the difference of indices is modulo `N`. -/
def circConv (h x : Fin N → ℝ) (v : Fin N) : ℝ := ∑ w, h (v - w) * x w

/-- The circular convolution in two dimensions. -/
def circConv2 (h x : Fin M → Fin N → ℝ) (v : Fin M) (w : Fin N) : ℝ := ∑ a, ∑ b, h (v - a) (w - b) * x a b

/-- The `m`-th frequency of `Ring(N, k)`. -/
noncomputable def ringFreq (N k m : ℕ) : ℝ := ∑ d ∈ Finset.range k, (2 - 2 * Real.cos (2 * Real.pi * (d + 1 : ℕ) * m / N))

/-- The `k`-th frequency of `Path(N)`. -/
noncomputable def pathFreq (N k : ℕ) : ℝ := 2 - 2 * Real.cos (Real.pi * k / N)

/-- The `k`-th function of the orthonormal discrete cosine transform (DCT-II). -/
noncomputable def dctVec (N : ℕ) (k i : Fin N) : ℝ := Real.sqrt ((if k.val = 0 then 1 else 2) / N) * Real.cos (Real.pi * k.val * (2 * i.val + 1) / (2 * N))

/-- The discrete cosine transform. -/
noncomputable def dctOf (x : Fin N → ℝ) (k : Fin N) : ℝ := ∑ i, dctVec N k i * x i

/-- Its inverse. -/
noncomputable def idctOf (X : Fin N → ℝ) (i : Fin N) : ℝ := ∑ k, X k * dctVec N k i

end PyGSP.Spec
