import Verif.Model.RoundedFourier
import Verif.Model.Distances

/-!
# Floating-point version of `utils.distanz`
-/

namespace PyGSP

/-- `utils.distanz` of two arrays with `r` rows (`utils.py:131-137`).  `(x * x).sum(axis=0)` is a pairwise summation of numpy and `np.dot(x.T, y)` a product of the BLAS, whose orders of
summation are unspecified (`DotAny`); the sums of squares are computed once for each column.  The products with ones in `np.kron` and `abs` are exact; the addition, the doubling, the
subtraction and the square root round.  Simplification: no overflow and no underflow. -/
def DistanzFl (fl : ℝ → ℝ) {r c c' : ℕ} (x : Matrix (Fin r) (Fin c) ℝ) (y : Matrix (Fin r) (Fin c') ℝ) (D : Fin c → Fin c' → ℝ) : Prop :=
  ∃ (xx : Fin c → ℝ) (yy : Fin c' → ℝ) (xy : Fin c → Fin c' → ℝ), (∀ i, DotAny fl (fun k => x k i) (fun k => x k i) Finset.univ (xx i)) ∧
    (∀ j, DotAny fl (fun k => y k j) (fun k => y k j) Finset.univ (yy j)) ∧ (∀ i j, DotAny fl (fun k => x k i) (fun k => y k j) Finset.univ (xy i j)) ∧
    ∀ i j, D i j = fl (√|fl (fl (xx i + yy j) - fl (2 * xy i j))|)

end PyGSP
