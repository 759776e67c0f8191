import Verif.Model.Filter

/-!
# Two filters give close results
-/

namespace PyGSP.Spec

open Real

variable {n : ℕ}

/-- Filtering the signal `x` with two banks of `N` filters on two graph objects with the same vertices succeeds, and the outputs of every filter differ by at most `ε ‖x‖` in Euclidean
norm. -/
def OutputsWithin (N : ℕ) (S : Solvers n) (f : Bank) (s : GState n) (S' : Solvers n) (f' : Bank) (s' : GState n) (order : ℕ) (x : Fin n → ℝ) (ε : ℝ) : Prop :=
  ∃ y z : Fin n → Fin 1 → Fin N → ℝ, (f.filter S (Arr.of1 x) .exact order s).1 = .ok (Arr.of3 y).squeeze ∧
    (f'.filter S' (Arr.of1 x) .exact order s').1 = .ok (Arr.of3 z).squeeze ∧
    ∀ i, √(∑ v, (y v 0 i - z v 0 i) ^ 2) ≤ ε * √(∑ v, x v ^ 2)

/-- Total change of the weights. -/
noncomputable def weightChange (M M' : Matrix (Fin n) (Fin n) ℝ) : ℝ := ∑ i, ∑ j, |M i j - M' i j|

end PyGSP.Spec
