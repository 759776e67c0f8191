import Mathlib.Data.Real.Basic

/-!
# Vocabulary for the classical graphs
-/

namespace PyGSP.Spec

/-- The cycle on the numbers `0, ..., N-1`: the number of ways to go from `a` to `b` in one step, forwards or backwards (one or
zero for `N ≥ 3`). -/
def cycle (N a b : ℕ) : ℝ := (if (a + 1) % N = b then 1 else 0) + if (b + 1) % N = a then 1 else 0

/-- The distance of two numbers. -/
def ndist (a b : ℕ) : ℕ := (a - b) + (b - a)

end PyGSP.Spec
